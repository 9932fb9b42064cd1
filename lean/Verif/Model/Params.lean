import Mathlib.Data.Rat.Floor
import Mathlib.Tactic.Linarith
import Verif.Model.Py
import Verif.Model.Run
/-!
# Hyper-parameters of the algorithms

Constructor checks (`__post_init__` of every algorithm in decent_bench/algorithms), the `iterations` check injected by
`Algorithm.__init_subclass__` (_algorithm.py 15-31), local step counts per client (_fed_algorithm.py 21-64) and the solver
arguments of Fed-LT (_fed_lt.py 165-198).
-/
namespace Verif.Params

/-- values a user can pass: Python ints (booleans are 0 and 1), floats, and anything that cannot be compared with a number
(strings, None, dictionaries ...) -/
inductive Val
  | int (n : Int)
  | flt (q : Rat)
  | nan
  | inf
  | ninf
  | other
  deriving DecidableEq

/-- `isinstance(v, float)` -/
def Val.isFloat : Val → Bool
  | .flt _ | .nan | .inf | .ninf => true
  | _ => false

/-- `v <= c` -/
def Val.le (v : Val) (c : Int) : Py Bool :=
  match v with
  | .int n => .ok (decide (n ≤ c))
  | .flt q => .ok (decide (q ≤ c))
  | .nan => .ok false
  | .inf => .ok false
  | .ninf => .ok true
  | .other => .error .typeError

/-- `v < c` -/
def Val.lt (v : Val) (c : Int) : Py Bool :=
  match v with
  | .int n => .ok (decide (n < c))
  | .flt q => .ok (decide (q < c))
  | .nan => .ok false
  | .inf => .ok false
  | .ninf => .ok true
  | .other => .error .typeError

/-- `c <= v` -/
def Val.ge (v : Val) (c : Int) : Py Bool :=
  match v with
  | .int n => .ok (decide (c ≤ n))
  | .flt q => .ok (decide (c ≤ q))
  | .nan => .ok false
  | .inf => .ok true
  | .ninf => .ok false
  | .other => .error .typeError

/-- `c < v` -/
def Val.gt (v : Val) (c : Int) : Py Bool :=
  match v with
  | .int n => .ok (decide (c < n))
  | .flt q => .ok (decide (c < q))
  | .nan => .ok false
  | .inf => .ok true
  | .ninf => .ok false
  | .other => .error .typeError

/-- `if cond: raise ValueError` -/
def raiseIf (c : Py Bool) : Py Unit := do if (← c) then .error .valueError else .ok ()

/-- `if not (a and b): raise ValueError`, where `b` is evaluated only if `a` holds (chained comparison) -/
def raiseUnless (a b : Py Bool) : Py Unit := do
  if (← a) then (if (← b) then .ok () else .error .valueError) else .error .valueError

/-- names of the parameters -/
inductive P
  | iterations | stepSize | numLocalSteps | penalty | relaxation | gamma | delta | auxStepSize | alpha | snapshotProb
  | commProbability | chi | serverStepSize | beta1 | beta2 | epsilon | momentum | serverMomentum | skipProbability
  deriving DecidableEq

/-- the algorithms whose parameters are plain numbers (the local step counts of FedNova and FedPD and the solver of Fed-LT are
checked separately below) -/
inductive Algo
  | fedAvg | fedProx | fedDyn | fedLt | fedNova | fedAdagrad | fedAdam | fedYogi | fedPd | scaffold
  | admm | atc | atcTracking | atg | augDgm | dgd | dinno | dlm | ed | extra | gtSaga | gtSarah | gtVr | kgt | led | ltAdmm | ltAdmmVr
  | nids | proxSkip | simpleGt | wangElia
  deriving DecidableEq

/-- `if p <= 0: raise ValueError` -/
def positive (v : P → Val) (p : P) : Py Unit := raiseIf ((v p).le 0)
/-- `if isinstance(p, float) and p <= 0: raise ValueError` -/
def positiveFloat (v : P → Val) (p : P) : Py Unit := if (v p).isFloat then raiseIf ((v p).le 0) else .ok ()
/-- `if p < 0: raise ValueError` -/
def nonNegative (v : P → Val) (p : P) : Py Unit := raiseIf ((v p).lt 0)

/-- `FedOpt.__post_init__` (_fed_opt.py 78-95) -/
def fedOptChecks (v : P → Val) : Py Unit := do
  positive v .stepSize
  positive v .numLocalSteps
  positive v .serverStepSize
  raiseUnless ((v .beta1).ge 0) ((v .beta1).lt 1)
  positive v .epsilon

/-- `LT_ADMM.__post_init__` (_lt_admm.py 42-60), inherited by LT_ADMM_VR -/
def ltAdmmChecks (v : P → Val) : Py Unit := do
  positive v .numLocalSteps
  positiveFloat v .stepSize
  positiveFloat v .auxStepSize
  positive v .penalty
  positive v .alpha

/-- the class's own `__post_init__` -/
def checks (v : P → Val) : Algo → Py Unit
  -- _fed_avg.py 55-66
  | .fedAvg => do positive v .stepSize; positive v .numLocalSteps
  -- _fed_prox.py 62-75
  | .fedProx => do positive v .stepSize; positive v .numLocalSteps; nonNegative v .penalty
  -- _fed_dyn.py 74-87
  | .fedDyn => do positive v .stepSize; positive v .penalty; positive v .numLocalSteps
  -- _fed_lt.py 147-160 (the solver follows in `ltSolver`)
  | .fedLt => do positive v .stepSize; positive v .numLocalSteps; positive v .penalty
  -- _fed_nova.py 132-147 (the local steps follow in `localSteps`)
  | .fedNova => do
    positive v .stepSize
    raiseUnless ((v .momentum).ge 0) ((v .momentum).lt 1)
    nonNegative v .penalty
    raiseUnless ((v .serverMomentum).ge 0) ((v .serverMomentum).lt 1)
  -- _fed_adagrad.py has no checks of its own
  | .fedAdagrad => fedOptChecks v
  -- _fed_adam.py 63-73
  | .fedAdam => do fedOptChecks v; raiseUnless ((v .beta2).ge 0) ((v .beta2).lt 1)
  -- _fed_yogi.py 65-75
  | .fedYogi => do fedOptChecks v; raiseUnless ((v .beta2).ge 0) ((v .beta2).lt 1)
  -- _fed_pd.py 75-88 (the local steps follow in `localSteps`)
  | .fedPd => do positive v .stepSize; positive v .penalty; raiseUnless ((v .skipProbability).ge 0) ((v .skipProbability).le 1)
  -- _scaffold.py 88-101
  | .scaffold => do positive v .stepSize; positive v .numLocalSteps; positive v .serverStepSize
  -- _admm.py 56-67
  | .admm => do positive v .penalty; raiseUnless ((v .relaxation).gt 0) ((v .relaxation).lt 1)
  -- _atc.py 38-47
  | .atc => positive v .stepSize
  -- _atc_tracking.py 47-56
  | .atcTracking => positive v .stepSize
  -- _atg.py 64-79
  | .atg => do
    positive v .penalty
    raiseUnless ((v .relaxation).gt 0) ((v .relaxation).lt 1)
    positive v .gamma
    positive v .delta
  -- _aug_dgm.py 47-56
  | .augDgm => positive v .stepSize
  -- _dgd.py 34-43
  | .dgd => positive v .stepSize
  -- _dinno.py 46-60
  | .dinno => do positive v .numLocalSteps; positiveFloat v .stepSize; positive v .penalty
  -- _dlm.py 45-56
  | .dlm => do positive v .stepSize; positive v .penalty
  -- _ed.py 40-49
  | .ed => positive v .stepSize
  -- _extra.py 41-50
  | .extra => positive v .stepSize
  -- _gt_saga.py 42-52
  | .gtSaga => positiveFloat v .stepSize
  -- _gt_sarah.py 44-56
  | .gtSarah => do positive v .numLocalSteps; positiveFloat v .stepSize
  -- _gt_vr.py 44-56
  | .gtVr => do positiveFloat v .stepSize; raiseUnless ((v .snapshotProb).gt 0) ((v .snapshotProb).le 1)
  -- _kgt.py 41-55
  | .kgt => do positive v .numLocalSteps; positiveFloat v .stepSize; positiveFloat v .auxStepSize
  -- _led.py 38-52
  | .led => do positive v .numLocalSteps; positiveFloat v .stepSize; positiveFloat v .auxStepSize
  | .ltAdmm => ltAdmmChecks v
  | .ltAdmmVr => ltAdmmChecks v
  -- _nids.py 42-51
  | .nids => positive v .stepSize
  -- _prox_skip.py 41-57
  | .proxSkip => do
    positiveFloat v .stepSize
    positiveFloat v .auxStepSize
    raiseUnless ((v .commProbability).gt 0) ((v .commProbability).le 1)
    raiseIf ((v .chi).lt 1)
  -- _simple_gt.py 38-47
  | .simpleGt => positive v .stepSize
  -- _wang_elia.py 45-54
  | .wangElia => positive v .stepSize

/-- constructing an algorithm: the injected check of `iterations` runs first (_algorithm.py 22-29) -/
def construct (alg : Algo) (v : P → Val) : Py Unit := do
  positive v .iterations
  checks v alg

/-- `range(v)`: the number of passes; TypeError unless `v` is an int -/
def rangeOf : Val → Py Nat
  | .int n => .ok n.toNat
  | _ => .error .typeError

/-- what `Algorithm.run` does before its first iteration (_algorithm.py 112-120): whether `initialize` was called, and the number
of iterations of the loop `for k in range(start_iteration, self.iterations)` -/
def runHead (iterations : Val) (start : Int) : Bool × Py Nat :=
  if start < 0 then (false, .error .valueError)
  else match iterations.lt start with
    | .error e => (false, .error e)
    | .ok true => (false, .error .valueError)
    | .ok false =>
      (decide (start = 0), match iterations with
        | .int n => .ok (n - start).toNat
        | _ => .error .typeError)

/-! ## local step counts per client (FedNova, FedPD) -/

variable {A : Type} [DecidableEq A]

/-- the argument `num_local_steps` -/
inductive Steps (A : Type)
  | one (v : Val)
  | map (d : PyDict A Val)

/-- the values loop of `_validate_num_local_steps` (_fed_algorithm.py 34-38) -/
def checkSteps : List Val → Py Unit
  | [] => .ok ()
  | .int n :: t => if n ≤ 0 then .error .valueError else checkSteps t
  | _ :: _ => .error .typeError

/-- `_validate_num_local_steps` (_fed_algorithm.py 21-41) -/
def localSteps : Steps A → Py Unit
  | .one (.int n) => if n ≤ 0 then .error .valueError else .ok ()
  | .one _ => .error .typeError
  | .map d => checkSteps (d.entries.map Prod.snd)

/-- the dictionary comprehension of `_settle_num_local_steps` (_fed_algorithm.py 60) -/
def pickSteps (d : PyDict A Val) : List A → PyDict A Val → Py (PyDict A Val)
  | [], acc => .ok acc
  | c :: t, acc => do
    let v ← d.getItem c
    pickSteps d t (acc.set c v)

/-- `_settle_num_local_steps` (_fed_algorithm.py 43-60) -/
def settle (clients : List A) : Steps A → Py (PyDict A Val)
  | .one v => .ok (clients.foldl (fun d c => d.set c v) PyDict.empty)
  | .map d =>
    if clients.any (fun c => !(d.contains c)) then .error .valueError
    else pickSteps d clients PyDict.empty

/-! ## solver arguments of Fed-LT -/

/-- the dictionary `{k: user_args.get(k, default) ...}` -/
def filled (defaults : List (String × Val)) (user : PyDict String Val) : PyDict String Val :=
  defaults.foldl (fun d e => d.set e.1 ((user.get? e.1).getD e.2)) PyDict.empty

/-- default arguments (_fed_lt.py 168, 185) -/
def solverDefaults : String → List (String × Val)
  | "adam" => [("beta1", .flt (9 / 10)), ("beta2", .flt (999 / 1000)), ("epsilon", .flt (1 / 100000000))]
  | "nesterov" => [("momentum", .flt (9 / 10))]
  | _ => []

/-- `self.solver_args[key]` -/
def arg (d : PyDict String Val) (k : String) : Val := (d.get? k).getD .other

/-- `_validate_solver_args` (_fed_lt.py 165-198) and the check of the solver's name (_fed_lt.py 161-162); returns the new `solver_args` -/
def ltSolver (solver : String) (user : PyDict String Val) : Py (PyDict String Val) :=
  if solver ≠ "gd" ∧ solver ≠ "nesterov" ∧ solver ≠ "adam" then .error .valueError
  else
    let args := filled (solverDefaults solver) user
    if user.keys.any (fun k => decide (k ∉ (solverDefaults solver).map Prod.fst)) then .error .valueError
    else if solver = "adam" then do
      raiseUnless ((arg args "beta1").ge 0) ((arg args "beta1").lt 1)
      raiseUnless ((arg args "beta2").ge 0) ((arg args "beta2").lt 1)
      raiseIf ((arg args "epsilon").le 0)
      .ok args
    else if solver = "nesterov" then do
      raiseUnless ((arg args "momentum").ge 0) ((arg args "momentum").lt 1)
      .ok args
    else .ok args

/-! ## using an algorithm object for several runs -/

/-- whether `initialize` stores the resolved states in `self.x0` (`self.x0 = initial_states(self.x0, network)`); DGD, KGT, LED, LT-ADMM and
ProxSkip keep them in a local variable (_dgd.py 46, _kgt.py 63, _led.py 56, _lt_admm.py 63, _prox_skip.py 65) -/
def keepsStates : Algo → Bool
  | .dgd | .kgt | .led | .ltAdmm | .proxSkip => false
  | _ => true

/-- the part of `initialize` that resolves the initial states: the states used and the new value of `self.x0` -/
def resolveX0 {V S : Type} [DecidableEq S] (alg : Algo) (e : X0Env A V S) (x0 : X0 A V) : Py (List (A × V) × X0 A V) := do
  let r ← X0Env.initialStates e x0
  .ok (r, if keepsStates alg then .dict r else x0)

end Verif.Params
