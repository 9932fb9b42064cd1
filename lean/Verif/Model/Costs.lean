import Verif.Model.Py
import Mathlib.Analysis.InnerProductSpace.PiL2
import Mathlib.Analysis.Matrix.Spectrum
import Mathlib.Analysis.SpecialFunctions.Log.Basic
import Mathlib.Data.Real.Sign
import Mathlib.LinearAlgebra.Matrix.NonsingularInverse
import Mathlib.Tactic.Ring
/-!
# Cost functions (decent_bench/costs)

Values, gradients, Hessians, proximals and constants of the concrete costs, over real numbers instead of floats.
Vectors are elements of `ℝ^d` with the Euclidean norm; arrays of other shapes are flattened.
-/
namespace Verif
namespace Costs

/-- a 1-D array of length `d` -/
abbrev Vec (d : Nat) : Type := EuclideanSpace ℝ (Fin d)

/-- a `d × d` array -/
abbrev Mat (d : Nat) : Type := Matrix (Fin d) (Fin d) ℝ

/-- a float as used for `m_smooth` and `m_cvx`: NaN, `np.inf`, or a number -/
inductive Fl where
  | nan
  | inf
  | fin (r : ℝ)

variable {d : Nat}

/-- the vector with the given entries -/
def vec (f : Fin d → ℝ) : Vec d := WithLp.toLp 2 f

/-- NumPy `x.dot(y)` of two 1-D arrays -/
def dot (x y : Vec d) : ℝ := ∑ i, x i * y i

/-- NumPy `A @ x`, `A.dot(x)` -/
noncomputable def app (A : Mat d) (x : Vec d) : Vec d := vec (fun i => ∑ j, A i j * x j)

/-- `np.linalg.solve(M, r)`: the solution of `M x = r`; `none` stands for LinAlgError (singular matrix) -/
noncomputable def solveLin (M : Mat d) (r : Vec d) : Option (Vec d) :=
  open Classical in if M.det = 0 then none else some (app M⁻¹ r)

/-- `0.5 * (A + A.T)` (_quadratic_cost.py 40) -/
noncomputable def symPart (A : Mat d) : Mat d := (1 / 2 : ℝ) • (A + A.transpose)

theorem symPart_herm (A : Mat d) : (symPart A).IsHermitian := by
  ext i j
  simp [symPart]
  ring

/-- `np.max(np.abs(np.linalg.eigvalsh(M)))` for a symmetric `M` -/
noncomputable def maxAbsEig (M : Mat d) (h : M.IsHermitian) : ℝ := ⨆ i, |h.eigenvalues i|

/-- `np.min(np.linalg.eigvalsh(M))` for a symmetric `M` -/
noncomputable def minEig (M : Mat d) (h : M.IsHermitian) : ℝ := ⨅ i, h.eigenvalues i

/-- the tolerance rule shared by `QuadraticCost.m_cvx` (_quadratic_cost.py 88-95) and `LinearRegressionCost.m_cvx`
(_linear_regression_cost.py 145-152) -/
noncomputable def cvxOf (lMin : ℝ) : Fl :=
  open Classical in
  if lMin > 1e-12 then .fin lMin else if |lMin| ≤ 1e-12 then .fin 0 else .nan

/-! ### QuadraticCost (costs/_base/_quadratic_cost.py) -/

/-- 97-104 `function` -/
noncomputable def quadFn (A : Mat d) (b : Vec d) (c : ℝ) (x : Vec d) : ℝ := 0.5 * dot x (app A x) + dot b x + c

/-- 106-113 `gradient` -/
noncomputable def quadGrad (A : Mat d) (b : Vec d) (x : Vec d) : Vec d := app (symPart A) x + b

/-- 115-123 `hessian` -/
noncomputable def quadHess (A : Mat d) : Mat d := symPart A

/-- 125-142 `proximal` (the penalty is not checked) -/
noncomputable def quadProx (A : Mat d) (b : Vec d) (x : Vec d) (penalty : ℝ) : Option (Vec d) :=
  solveLin (penalty • symPart A + 1) (x - penalty • b)

/-- 55-69 `m_smooth` -/
noncomputable def quadSmooth (A : Mat d) : ℝ := maxAbsEig (symPart A) (symPart_herm A)

/-- 71-95 `m_cvx` -/
noncomputable def quadCvx (A : Mat d) : Fl := cvxOf (minEig (symPart A) (symPart_herm A))

/-! ### Regularizers (costs/_base/_regularizer_costs.py) -/

/-- L1 `function` (215-216) -/
def l1Fn (x : Vec d) : ℝ := ∑ i, |x i|

/-- L1 `gradient` (218-219): `iop.sign(x)` -/
noncomputable def l1Grad (x : Vec d) : Vec d := vec (fun i => Real.sign (x i))

/-- L1 `proximal` (226-230) -/
noncomputable def l1Prox (x : Vec d) (penalty : ℝ) : Py (Vec d) :=
  open Classical in
  if penalty ≤ 0 then .error .valueError
  else .ok (vec (fun i => Real.sign (x i) * max (|x i| - penalty) 0))

/-- L2 `function` (249-250) -/
noncomputable def l2Fn (x : Vec d) : ℝ := 0.5 * ∑ i, x i * x i

/-- L2 `gradient` (252-253) -/
def l2Grad (x : Vec d) : Vec d := x

/-- L2 `proximal` (260-263) -/
noncomputable def l2Prox (x : Vec d) (penalty : ℝ) : Py (Vec d) :=
  open Classical in
  if penalty ≤ 0 then .error .valueError
  else .ok (vec (fun i => x i / (1 + penalty)))

/-- fractional quadratic `function` (297-299) -/
noncomputable def fracFn (x : Vec d) : ℝ := ∑ i, (x i * x i) / (1 + x i * x i)

/-- fractional quadratic `gradient` (301-304) -/
noncomputable def fracGrad (x : Vec d) : Vec d := vec (fun i => 2 * x i / (1 + x i * x i) ^ 2)

/-- fractional quadratic `hessian` (306-310) -/
noncomputable def fracHess (x : Vec d) : Mat d := Matrix.diagonal (fun i => 2 * (1 - 3 * (x i * x i)) / (1 + x i * x i) ^ 3)

/-- one pass of the loop of the fractional `proximal` (318-321): the next point -/
noncomputable def fracProxStep (penalty : ℝ) (x current : Vec d) : Vec d :=
  current - (1 / (2 + 1 / penalty)) •
    (vec (fun i => 2 * current i / (1 + current i * current i) ^ 2) + vec (fun i => (current i - x i) / penalty))

/-- the loop of the fractional `proximal` (317-325) -/
noncomputable def fracProxLoop (tol : Option ℝ) (penalty : ℝ) (x : Vec d) : Nat → Vec d → Vec d
  | 0, current => current
  | m + 1, current =>
    let next := fracProxStep penalty x current
    open Classical in
    if (∃ t, tol = some t ∧ ‖next - current‖ ≤ t) then next else fracProxLoop tol penalty x m next

/-- fractional quadratic `proximal` (312-325) -/
noncomputable def fracProx (maxIter : Nat) (tol : Option ℝ) (x : Vec d) (penalty : ℝ) : Py (Vec d) :=
  open Classical in
  if penalty ≤ 0 then .error .valueError else .ok (fracProxLoop tol penalty x maxIter x)

/-! ### LinearRegressionCost (costs/_empirical_risk/_linear_regression_cost.py) on the selected samples `(a, b)`; the number of
selected samples is `len(batch_used)` -/

/-- 173-198 `function` -/
noncomputable def linFn (S : List (Vec d × ℝ)) (x : Vec d) : ℝ :=
  0.5 * (S.map (fun s => (dot s.1 x - s.2) * (dot s.1 x - s.2))).sum / S.length

/-- `A.T @ A` (313, 321) -/
def gram (S : List (Vec d × ℝ)) : Mat d := Matrix.of fun j k => (S.map (fun s => s.1 j * s.1 k)).sum

theorem gram_herm (S : List (Vec d × ℝ)) : (gram S).IsHermitian := by
  ext i j
  simp [gram, mul_comm]

/-- `A.T.dot(b)` -/
def atb (S : List (Vec d × ℝ)) : Vec d := vec (fun j => (S.map (fun s => s.1 j * s.2)).sum)

/-- 200-244 `gradient` with `reduction="mean"` -/
noncomputable def linGrad (S : List (Vec d × ℝ)) (x : Vec d) : Vec d := (1 / (S.length : ℝ)) • (app (gram S) x - atb S)

/-- 246-254 `_per_sample_gradients` -/
def linPerSample (S : List (Vec d × ℝ)) (x : Vec d) : List (Vec d) := S.map (fun s => (dot s.1 x - s.2) • s.1)

/-- 256-281 `hessian` -/
noncomputable def linHess (S : List (Vec d × ℝ)) : Mat d := (1 / (S.length : ℝ)) • gram S

/-- 283-300 `proximal`, on the full data set -/
noncomputable def linProx (S : List (Vec d × ℝ)) (x : Vec d) (penalty : ℝ) : Option (Vec d) :=
  let scale : ℝ := 1 / S.length
  solveLin ((penalty * scale) • gram S + 1) (x + (penalty * scale) • atb S)

/-- 111-126 `m_smooth` -/
noncomputable def linSmooth (S : List (Vec d × ℝ)) : ℝ := maxAbsEig (gram S) (gram_herm S) / S.length

/-- 128-152 `m_cvx` -/
noncomputable def linCvx (S : List (Vec d × ℝ)) : Fl := cvxOf (minEig (gram S) (gram_herm S) / S.length)

/-! ### LogisticRegressionCost (costs/_empirical_risk/_logistic_regression_cost.py); labels already encoded (C56) -/

/-- `special.expit` -/
noncomputable def expit (t : ℝ) : ℝ := 1 / (1 + Real.exp (-t))

/-- `np.logaddexp(0.0, -t)` -/
noncomputable def negLogSig (t : ℝ) : ℝ := Real.log (1 + Real.exp (-t))

/-- 174-207 `function` -/
noncomputable def logFn (S : List (Vec d × ℝ)) (x : Vec d) : ℝ :=
  ((S.map (fun s => s.2 * negLogSig (dot s.1 x))).sum +
    (S.map (fun s => (1 - s.2) * (dot s.1 x + negLogSig (dot s.1 x)))).sum) / S.length

/-- 209-255 `gradient` with `reduction="mean"` -/
noncomputable def logGrad (S : List (Vec d × ℝ)) (x : Vec d) : Vec d :=
  vec (fun j => (S.map (fun s => s.1 j * (expit (dot s.1 x) - s.2))).sum / S.length)

/-- 257-265 `_per_sample_gradients` -/
noncomputable def logPerSample (S : List (Vec d × ℝ)) (x : Vec d) : List (Vec d) :=
  S.map (fun s => (expit (dot s.1 x) - s.2) • s.1)

/-- 267-297 `hessian` -/
noncomputable def logHess (S : List (Vec d × ℝ)) (x : Vec d) : Mat d := Matrix.of fun j k =>
  (S.map (fun s => s.1 j * (expit (dot s.1 x) * (1 - expit (dot s.1 x))) * s.1 k)).sum / S.length

/-- 127-141 `m_smooth`: `max(pow(norm(row), 2) for row in A) / 4` (the data set is not empty) -/
noncomputable def logSmooth (S : List (Vec d × ℝ)) : ℝ := (S.map (fun s => dot s.1 s.1)).foldr max 0 / 4

/-! ### centralized_algorithms.py `solve` (17-95), the direct branches -/

/-- 59-60: quadratic costs -/
noncomputable def solveQuadratic (A : Mat d) (b : Vec d) : Option (Vec d) := solveLin A (-b)

/-- `np.linalg.lstsq(Q, v)[0]` contract: some minimiser of `‖Q x - v‖` (NumPy returns the one of least norm) -/
def IsLstsq (Q : Mat d) (v x : Vec d) : Prop := ∀ y : Vec d, ‖app Q x - v‖ ≤ ‖app Q y - v‖

/-- 62-70: sums of linear regressions, each given by its data set.  `lstsq` is the library call. -/
noncomputable def solveLinearRegressions (lstsq : Mat d → Vec d → Vec d) (costs : List (List (Vec d × ℝ))) : Vec d :=
  let Q := (costs.map linHess).sum
  let r := (costs.map (fun S => linGrad S 0)).sum
  match solveLin Q (-r) with
  | some x => x
  | none => lstsq Q (-r)

end Costs
end Verif
