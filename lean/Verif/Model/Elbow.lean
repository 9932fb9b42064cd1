import Verif.Model.Metrics
import Mathlib.Analysis.SpecialFunctions.Log.Base
import Mathlib.Algebra.BigOperators.Intervals
/-!
# Convergence rate by fitting an elbow curve  (decent_bench/metrics/utils.py 340-510)

Exact arithmetic.  `np.linspace(..., dtype=int)` rounds down; its floating-point error (a value just below an integer) is not modelled.
-/
namespace Verif
namespace Elbow
open Metrics

/-- entry `i` of the first column of the regression matrix `R` (484-494): `i` up to the breakpoint, then `b` -/
def ramp (b i : Nat) : ℝ := if i < b + 1 then i else b

/-- a fit: slope `x_hat[0]`, intercept `x_hat[1]`, residual -/
structure Fit where
  slope : ℝ
  intercept : ℝ
  res : ℝ

/-- `S_00` (497) -/
noncomputable def s00 (m b : Nat) : ℝ := (b : ℝ) * (b + 1) * (2 * b + 1) / 6 + ((m : ℝ) - b - 1) * (b : ℝ) ^ 2
/-- `S_01` (498) -/
noncomputable def s01 (m b : Nat) : ℝ := (b : ℝ) * (b + 1) / 2 + ((m : ℝ) - b - 1) * b

/-- `S_00 * S_11 - S_01**2` (501) -/
noncomputable def det (m b : Nat) : ℝ := s00 m b * m - s01 m b ^ 2

/-- `_fit_elbow_curve_given_breakpoint` (462-510); `np.ones((m - b - 1, 1))` raises `ValueError` for `b ≥ m`.  For `b = 0` the code divides
by zero; the callers only pass `b ≥ 1`. -/
noncomputable def fitAt (y : List ℝ) (b : Nat) : Py Fit :=
  let m := y.length
  if m < b + 1 then .error .valueError
  else
    let ry := ∑ i ∈ Finset.range m, ramp b i * y.getD i 0
    let sy := ∑ i ∈ Finset.range m, y.getD i 0
    let slope := (m * ry + -s01 m b * sy) / det m b
    let intercept := (-s01 m b * ry + s00 m b * sy) / det m b
    .ok ⟨slope, intercept, Real.sqrt (∑ i ∈ Finset.range m, (ramp b i * slope + intercept - y.getD i 0) ^ 2)⟩

/-- `np.linspace(b_1, b_2, num=num, dtype=int)[i]` (440), for `num ≥ 2` -/
def gridAt (num : Nat) (b1 b2 : Int) (i : Nat) : Int := b1 + (i * (b2 - b1)) / ((num : Int) - 1)

/-- index of the first smallest value among `r 0, ..., r n` (`np.argmin`) -/
noncomputable def argmin (r : Nat → ℝ) : Nat → Nat
  | 0 => 0
  | n + 1 => open Classical in if r (n + 1) < r (argmin r n) then n + 1 else argmin r n

/-- the fits of one grid (442-447); negative grid values do not occur (the first one is 1) -/
noncomputable def fits (y : List ℝ) (num : Nat) (b1 b2 : Int) : Py (List Fit) :=
  (List.range num).mapM fun i => fitAt y (gridAt num b1 b2 i).toNat

/-- `best_res - res[best_idx] < tol` (454); `best_res` is infinite in the first trial (`none`) -/
def stops (best : Option ℝ) (r tol : ℝ) : Prop :=
  match best with
  | none => False
  | some q => q - r < tol

/-- the loop (438-457) and the return statement (459): parameters of the best fit *of the last grid*.  `trials` is the number of passes left. -/
noncomputable def search (y : List ℝ) (tol : ℝ) (num : Nat) : Nat → Int → Int → Option ℝ → Py (ℝ × ℝ × Int)
  | 0, _, _, _ => .error .runtimeError
  | trials + 1, b1, b2, best =>
    match fits y num b1 b2 with
    | .error e => .error e
    | .ok fs =>
      let r := fun i => (fs.getD i ⟨0, 0, 0⟩).res
      let k := argmin r (num - 1)
      let f := fs.getD k ⟨0, 0, 0⟩
      open Classical in
      if trials = 0 ∨ stops best f.res tol then .ok (f.intercept, f.slope, gridAt num b1 b2 k - 1)
      else search y tol num trials (gridAt num b1 b2 (k - 1)) (gridAt num b1 b2 (min (num - 1) (k + 1))) (some f.res)

/-- finite entries (424-427) -/
def finite (y : List Val) : List ℝ := y.filterMap fun v => match v with | .fin r => some r | _ => none

/-- `fit_elbow_curve` (372-459): intercept, slope, breakpoint -/
noncomputable def fitElbow (y : List Val) (maxTrials : Int) (tol : ℝ) (num : Int) : Py (ℝ × ℝ × Int) :=
  if y.length < 2 then .error .valueError
  else if maxTrials < 1 then .error .valueError
  else open Classical in if tol < 0 then .error .valueError
  else if num < 2 then .error .valueError
  else
    let fy := finite y
    search fy tol num.toNat maxTrials.toNat 1 ((fy.length : Int) - 1) none

/-- `np.log10` of one value -/
noncomputable def log10 : Val → Val
  | .fin r => open Classical in if 0 < r then .fin (Real.logb 10 r) else if r = 0 then .negInf else .nan
  | .posInf => .posInf
  | _ => .nan

/-- `linear_convergence_rate` (340-369), with the default arguments of the fit -/
noncomputable def convergenceRate (y : List Val) : Py ℝ :=
  match fitElbow (y.map log10) 10 (1 / 100000) 10 with
  | .error e => .error e
  | .ok r => .ok ((10 : ℝ) ^ r.2.1)

end Elbow
end Verif
