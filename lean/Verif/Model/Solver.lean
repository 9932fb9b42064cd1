import Verif.Model.CostAlgebra
import Mathlib.Analysis.SpecialFunctions.Pow.Real
/-!
# Centralised solvers (decent_bench/centralized_algorithms.py)

Iterates are vectors of `ℝ^d`, numbers are reals; costs are the objects of Model/CostAlgebra, evaluated without keyword arguments (on
the whole data set).  Shapes agree by typing, so the shape checks (110-111, 298-299) are not modelled.  Logging and the progress bar
are not modelled.
-/
namespace Verif
namespace Solver
open Costs CostAlg

/-- the attributes of a solver object: `self.x`, `self.x_old`, further attributes `ext`, and the caller's `x0` array: its contents and
whether `self.x` still shares its buffer (line 112 keeps the caller's object) -/
structure St (T : Type) (d : Nat) where
  x : Vec d
  xOld : Vec d
  ext : T
  caller : Vec d
  shared : Bool

variable {T σ ι : Type} {d : Nat}

/-- `Solver.__init__` (107-115) -/
def init (x0 : Option (Vec d)) (ext : Vec d → T) : St T d :=
  match x0 with
  | none => ⟨0, 0, ext 0, 0, false⟩
  | some v => ⟨v, v, ext v, v, true⟩

/-- `self.x_old = iop.copy(self.x)` (181) -/
def remember (s : St T d) : St T d := { s with xOld := s.x }

/-- `float(iop.transpose(d) @ d)` with `d = self.x - self.x_old` (184-185, 191-192) -/
noncomputable def delta (s : St T d) : ℝ := dot (s.x - s.xOld) (s.x - s.xOld)

/-- the loop of `Solver.run` (175-187): `left` iterations remain and the next one is `k`.  Returns the state, the final value of `k`
and the last `delta` computed. -/
noncomputable def loop (step : Nat → St T d → Py (St T d)) (stopTol : Option ℝ) (checkEvery : Nat) :
    Nat → Nat → St T d → Option ℝ → Py (St T d × Nat × Option ℝ)
  | 0, k, s, last => .ok (s, k - 1, last)
  | left + 1, k, s, last =>
    match step k (remember s) with
    | .error e => .error e
    | .ok s' =>
      match stopTol with
      | none => loop step stopTol checkEvery left (k + 1) s' last
      | some t =>
        if k % checkEvery = 0 then
          open Classical in
          if delta s' ≤ t then .ok (s', k, some (delta s'))
          else loop step stopTol checkEvery left (k + 1) s' (some (delta s'))
        else loop step stopTol checkEvery left (k + 1) s' last

/-- the final check (189-196).  `last` is the variable `delta`; reading it unset would be an UnboundLocalError. -/
noncomputable def finalCheck (stopTol maxTol : Option ℝ) (checkEvery k : Nat) (s : St T d) (last : Option ℝ) : Py (St T d) :=
  match maxTol with
  | none => .ok s
  | some t =>
    match (if stopTol.isNone ∨ k % checkEvery ≠ 0 then some (delta s) else last) with
    | none => .error .attributeError
    | some δ => open Classical in if δ > t then .error .runtimeError else .ok s

/-- `check_every = max(1, int(check_frequency * max_iter))` (173) -/
noncomputable def checkEveryOf (freq : ℝ) (maxIter : Nat) : Nat := max 1 ⌊freq * maxIter⌋₊

/-- `Solver.run` (131-200); the returned array is `.x` of the final state -/
noncomputable def run (step : Nat → St T d → Py (St T d)) (maxIter : Int) (stopTol maxTol : Option ℝ) (freq : ℝ)
    (s : St T d) : Py (St T d) :=
  open Classical in
  if maxIter < 1 then .error .valueError
  else if (∃ t, stopTol = some t ∧ t ≤ 0) then .error .valueError
  else if (∃ t, maxTol = some t ∧ t ≤ 0) then .error .valueError
  else if freq ≤ 0 ∨ freq > 1 then .error .valueError
  else
    let ce := checkEveryOf freq maxIter.toNat
    match loop step stopTol ce maxIter.toNat 0 s none with
    | .error e => .error e
    | .ok (s', k, last) => finalCheck stopTol maxTol ce k s' last

/-! ### gradient descent -/

/-- a `step_size` or `momentum` argument: `None`, a callable, a `float`, or anything else (for instance an `int`) -/
inductive Arg where
  | none
  | callable (f : Nat → ℝ)
  | float (r : ℝ)
  | other

/-- step sizes of GradientDescent (214-223).  `none`: the step is NaN or infinite (division by a zero constant, infinite `m_cvx`). -/
noncomputable def gdStepSize (arg : Arg) (L μ : Fl) : Option (Nat → ℝ) :=
  match arg with
  | .callable f => some f
  | .float r => some (fun _ => r)
  | _ =>
    match L, μ with
    | .nan, _ => some (fun k => 1 / Real.sqrt (k + 1))
    | .inf, _ => some (fun k => 1 / Real.sqrt (k + 1))
    | _, .nan => some (fun k => 1 / Real.sqrt (k + 1))
    | .fin _, .inf => none
    | .fin l, .fin m =>
      open Classical in
      if m > 0 then (if l + m = 0 then none else some (fun _ => 2 / (l + m)))
      else (if l = 0 then none else some (fun _ => 1 / l))

/-- `GradientDescent.step` (228-230).  `inPlace`: whether `-=` writes into the buffer of `self.x` (NumPy arrays and PyTorch tensors)
or rebinds it (TensorFlow, JAX). -/
noncomputable def gdStep (inPlace : Bool) (η : Nat → ℝ) (c : Cost σ ι d) (k : Nat) (s : St Unit d) : Py (St Unit d) :=
  match c.grad none s.x with
  | .error e => .error e
  | .ok g =>
    let x' := s.x - η k • g
    .ok { s with x := x', caller := if inPlace && s.shared then x' else s.caller, shared := inPlace && s.shared }

/-- `GradientDescent(cost, step_size, x0).run(...)` (214-226) -/
noncomputable def gradientDescent (inPlace : Bool) (c : Cost σ ι d) (η : Nat → ℝ) (x0 : Option (Vec d)) (maxIter : Int)
    (stopTol maxTol : Option ℝ) (freq : ℝ) : Py (St Unit d) :=
  run (gdStep inPlace η c) maxIter stopTol maxTol freq (init x0 (fun _ => ()))

/-! ### accelerated gradient descent -/

/-- the step size of AcceleratedGradientDescent (251): `1 / m_smooth` unless a float is given; `none`: NaN or division by zero -/
noncomputable def agdStepSize (arg : Arg) (L : Fl) : Option ℝ :=
  match arg with
  | .float r => some r
  | _ =>
    match L with
    | .nan => none
    | .inf => some 0
    | .fin l => open Classical in if l = 0 then none else some (1 / l)

/-- the momentum of AcceleratedGradientDescent (253-263); `none`: NaN -/
noncomputable def agdMomentum (arg : Arg) (L μ : Fl) : Option (Nat → ℝ) :=
  match arg with
  | .callable f => some f
  | .float r => some (fun _ => r)
  | _ =>
    match μ with
    | .nan => some (fun k => k / (k + 3))
    | .inf => none
    | .fin m =>
      open Classical in
      if m > 0 then
        match L with
        | .fin l => some (fun _ => (Real.sqrt l - Real.sqrt m) / (Real.sqrt l + Real.sqrt m))
        | _ => none
      else some (fun k => k / (k + 3))

/-- `AcceleratedGradientDescent.step` (269-272); the attribute `y` is `ext` -/
noncomputable def agdStep (η : ℝ) (β : Nat → ℝ) (c : Cost σ ι d) (k : Nat) (s : St (Vec d) d) : Py (St (Vec d) d) :=
  match c.grad none s.ext with
  | .error e => .error e
  | .ok g =>
    let x' := s.ext - η • g
    .ok { s with x := x', ext := x' + β k • (x' - s.xOld), shared := false }

/-- `AcceleratedGradientDescent(cost, step_size, momentum, x0).run(...)` (244-267) -/
noncomputable def acceleratedGradientDescent (c : Cost σ ι d) (η : ℝ) (β : Nat → ℝ) (x0 : Option (Vec d)) (maxIter : Int)
    (stopTol maxTol : Option ℝ) (freq : ℝ) : Py (St (Vec d) d) :=
  run (agdStep η β c) maxIter stopTol maxTol freq (init x0 id)

/-! ### entry points -/

/-- `np.isfinite` -/
def isFinite : Fl → Bool
  | .fin _ => true
  | _ => false

/-- the value of a finite float -/
noncomputable def finVal : Fl → ℝ
  | .fin r => r
  | _ => 0

/-- the outcome of a solve whose parameters are not finite numbers is not modelled -/
inductive Out (α : Type) where
  | result (r : Py α)
  | nonFinite

/-- the iterative branches of `solve` (71-91); the check frequency is the default 0.01 of `run` -/
noncomputable def solveIter (c : Cost σ ι d) (maxIter : Int) (stopTol maxTol : Option ℝ) : Out (Vec d) :=
  open Classical in
  if (isFinite c.mSmooth && isFinite c.mCvx) = true ∧ finVal c.mSmooth = 0 then .result (.error .valueError)
  else if (isFinite c.mSmooth && isFinite c.mCvx) = true ∧ finVal c.mSmooth > 0 then
    match agdStepSize .none c.mSmooth, agdMomentum .none c.mSmooth c.mCvx with
    | some η, some β =>
      match acceleratedGradientDescent c η β none maxIter stopTol maxTol 0.01 with
      | .ok s => .result (.ok s.x)
      | .error e => .result (.error e)
    | _, _ => .nonFinite
  else
    match gdStepSize .none c.mSmooth c.mCvx with
    | some η =>
      match gradientDescent false c η none maxIter stopTol maxTol 0.01 with
      | .ok s => .result (.ok s.x)
      | .error e => .result (.error e)
    | none => .nonFinite

/-- `solve` (17-95).  `linReg` recognises LinearRegressionCost objects and gives their data set; `lstsq` is `np.linalg.lstsq`. -/
noncomputable def solve (linReg : Cost σ ι d → Option (List (Vec d × ℝ))) (lstsq : Mat d → Vec d → Vec d) (c : Cost σ ι d)
    (maxIter : Int) (stopTol maxTol : Option ℝ) : Out (Vec d) :=
  match c with
  | .quad _ A b _ =>
    match solveQuadratic A b with
    | some x => .result (.ok x)
    | none => .result (.error .linAlgError)
  | .sum c0 cs =>
    if ((c0 :: cs).all (fun c => (linReg c).isSome)) = true then
      .result (.ok (solveLinearRegressions lstsq ((c0 :: cs).filterMap linReg)))
    else solveIter (.sum c0 cs) maxIter stopTol maxTol
  | c => solveIter c maxIter stopTol maxTol

/-- `proximal_solver` (275-311).  `np` is the signature of a QuadraticCost of this dimension (NumPy, CPU). -/
noncomputable def proximalSolver [DecidableEq σ] (np : σ) (c : Cost σ ι d) (y : Vec d) (penalty : ℝ) (maxIter : Int) : Out (Vec d) :=
  open Classical in
  if penalty ≤ 0 then .result (.error .valueError)
  else
    match Cost.add (.quad np ((1 / penalty) • (1 : Mat d)) (-((1 / penalty) • y)) 0) c with
    | .error e => .result (.error e)
    | .ok p =>
      match p.mSmooth, p.mCvx with
      | .inf, _ => .result (.error .notImplemented)
      | .nan, _ => .result (.error .notImplemented)
      | _, .nan => .result (.error .notImplemented)
      | L, μ =>
        match agdStepSize .none L, agdMomentum .none L μ with
        | some η, some β =>
          match acceleratedGradientDescent p η β (some y) maxIter (some 1e-10) none 0.01 with
          | .ok s => .result (.ok s.x)
          | .error e => .result (.error e)
        | _, _ => .nonFinite

end Solver
end Verif
