import Verif.Model.Partition
import Verif.Model.Run
import Verif.Model.Counting
/-!
# Mini-batch sampling, batch data, runtime metrics

`costs/_empirical_risk/_empirical_risk_cost.py` 218-287, `_get_batch_data` of the linear and logistic regression costs, and
the evaluation of runtime metrics in `benchmark/_benchmark.py` 585-604.  The NumPy generator is `Part.Rng` (see
`Model/Partition.lean`).
-/
namespace Verif
namespace Batch
open Part

variable {Ω : Type}

/-- the `indices` argument: an `int`, a `list[int]`, `"all"`, `"batch"`, or any other string -/
inductive Indices where
  | int (i : Int)
  | list (l : List Int)
  | all
  | batch
  | str
  deriving DecidableEq, Repr

/-- The mutable sampling attributes of an empirical-risk cost.  `remaining` is `_remaining_batch_indices` (default `[]`),
`last` is `_last_batch_used` (absent before the first use).  Simplification: `last` and a user's list are not aliased. -/
structure Sampler where
  n : Nat
  batchSize : Nat
  remaining : List Nat
  last : Option (List Int)
  deriving DecidableEq, Repr

/-- _empirical_risk_cost.py 255-276: a draw with `batch_size < n_samples`.  Returns the batch and the indices remaining.
`list(set(range(n)) - used_now)` is taken in increasing order; the generator permutes it, so the order is immaterial. -/
def draw (r : Rng Ω) (n b : Nat) (remaining : List Nat) (ω : Ω) : (List Nat × List Nat) × Ω :=
  let s : List Nat × Ω := if remaining.length = 0 then r.perm n ω else (remaining, ω)
  if b ≤ s.1.length then ((s.1.take b, s.1.drop b), s.2)
  else
    let needed := b - s.1.length
    let e : List Nat × Ω :=
      if 0 < s.1.length then shuffledSequence r ((List.range n).filter (fun i => decide (i ∉ s.1))) s.2
      else r.perm n s.2
    ((s.1 ++ e.1.take needed, e.1.drop needed), e.2)

/-- _empirical_risk_cost.py 218-287 `_sample_batch_indices` -/
def sampleBatch (r : Rng Ω) (s : Sampler) (ix : Indices) (ω : Ω) : Py (List Int) × Sampler × Ω :=
  match ix with
  | .int i => (.ok [i], { s with last := some [i] }, ω)
  | .list l => (.ok l, { s with last := some l }, ω)
  | .all =>
    let full := (List.range s.n).map (fun i : Nat => (i : Int))
    (.ok full, { s with last := some full }, ω)
  | .batch =>
    if s.batchSize < s.n then
      let d := draw r s.n s.batchSize s.remaining ω
      let l := d.1.1.map (fun i : Nat => (i : Int))
      (.ok l, { s with remaining := d.1.2, last := some l }, d.2)
    else
      let full := (List.range s.n).map (fun i : Nat => (i : Int))
      (.ok full, { s with last := some full }, ω)
  | .str => (.error .valueError, s, ω)

/-- _empirical_risk_cost.py 58-69 `batch_used` -/
def Sampler.batchUsed (s : Sampler) : Py (List Int) :=
  match s.last with
  | none => .error .valueError
  | some l => .ok l

/-- Python list indexing `l[i]` (negative indices count from the end) -/
def pyIndex {X : Type} (l : List X) (i : Int) : Py X :=
  let j := if i < 0 then i + l.length else i
  if j < 0 then .error .indexError
  else match l[j.toNat]? with
    | none => .error .indexError
    | some x => .ok x

/-- the loop reading `self._dataset[idx]` (_linear_regression_cost.py 316-320, _logistic_regression_cost.py 331-335) -/
def readRows {X : Type} (data : List X) : List Int → Py (List X)
  | [] => .ok []
  | i :: is =>
    match pyIndex data i with
    | .error e => .error e
    | .ok x => match readRows data is with
      | .error e => .error e
      | .ok xs => .ok (x :: xs)

/-- `_get_batch_data` (_linear_regression_cost.py 302-321, _logistic_regression_cost.py 318-338) as the list of samples whose
rows make up `A` and `b`; the caches `A`, `b`, `ATA` only avoid recomputation (the dataset is never modified). -/
def getBatchData {X : Type} (r : Rng Ω) (data : List X) (s : Sampler) (ix : Indices) (ω : Ω) :
    Py (List X) × Sampler × Ω :=
  match sampleBatch r s ix ω with
  | (.error e, s', ω') => (.error e, s', ω')
  | (.ok is, s', ω') =>
    if is.length = data.length then (.ok data, s', ω')
    else (readRows data is, s', ω')

/-- _logistic_regression_cost.py 327-328, 336-337: `b[np.where(b == mapping[k])] = k` for `k = 0, 1` in turn;
`l0`, `l1` are the two labels in the enumeration order of the set `class_labels` (92-97). -/
def relabelOne (l0 l1 : ℚ) (y : ℚ) : ℚ :=
  let y1 := if y = l0 then 0 else y
  if y1 = l1 then 1 else y1

/-- _logistic_regression_cost.py 92-97: two classes are required; `order` is the iteration order of the set -/
def labelMapping (order : List ℚ) : Py (ℚ × ℚ) :=
  match order with
  | [l0, l1] => .ok (l0, l1)
  | _ => .error .valueError

/-- _logistic_regression_cost.py 167-168: `predict` maps `sigmoid >= 0.5` to class 1, else class 0, back to labels -/
def predictLabel (l0 l1 : ℚ) (positive : Bool) : ℚ := if positive then l1 else l0

/-- _logistic_regression_cost.py 312-316 `proximal`: the batch size is saved, replaced and restored around the solver.
`solver` is `ca.proximal_solver(self, x, penalty)` running on the cost with its current batch size; on an exception the
restoring line is not reached. -/
def logisticProximal {V : Type} (solver : Sampler → Ω → Py V × Sampler × Ω) (s : Sampler) (ω : Ω) : Py V × Sampler × Ω :=
  let prev := s.batchSize
  match solver { s with batchSize := s.n } ω with
  | (.error e, s', ω') => (.error e, s', ω')
  | (.ok v, s', ω') => (.ok v, { s' with batchSize := prev }, ω')

/-- evaluating the gradient `m` times with the default `indices="batch"` (only the sampling effects) -/
def evalTimes (r : Rng Ω) : Nat → Sampler × Ω → Sampler × Ω
  | 0, p => p
  | m + 1, p => evalTimes r m (sampleBatch r p.1 .batch p.2).2

/-- centralized_algorithms.py 275-311 `proximal_solver` on an empirical-risk cost, as far as sampling is concerned: a
non-positive penalty is refused (303-304), otherwise accelerated gradient descent evaluates the gradient `evals` times
(as often as its stopping rule says) with the default indices.  The point returned is abstract. -/
def proximalSolver {V : Type} (r : Rng Ω) (penalty : ℚ) (evals : Nat) (value : V) (s : Sampler) (ω : Ω) : Py V × Sampler × Ω :=
  if penalty ≤ 0 then (.error .valueError, s, ω)
  else let p := evalTimes r evals (s, ω); (.ok value, p.1, p.2)

/-! ### runtime metrics -/

/-- What matters of a running trial for mini-batch costs: the algorithm's state, one cost per agent, the shared generator. -/
structure Trial (A X Ω : Type) where
  x : X
  costs : A → Sampler
  rng : Ω

variable {A X : Type} [DecidableEq A]

/-- `agent.cost.function(agent.x)` or `.gradient(agent.x)` with the default `indices="batch"`: of the cost object and the
generator, only sampling changes -/
def evalDefault (r : Rng Ω) (a : A) (t : Trial A X Ω) : Trial A X Ω :=
  let s := sampleBatch r (t.costs a) .batch t.rng
  { t with costs := fun b => if b = a then s.2.1 else t.costs b, rng := s.2.2 }

/-- runtime_library.py 35-37 (`RuntimeLoss`), 95-97 (`RuntimeGradientNorm`): one evaluation per agent.  (`RuntimeRegret`
60-72 does the same, twice the first time.) -/
def metricCompute (r : Rng Ω) (agents : List A) (t : Trial A X Ω) : Trial A X Ω :=
  agents.foldl (fun t a => evalDefault r a t) t

/-- _runtime_metric.py 143-154 `should_update` -/
def shouldUpdate (interval k : Int) : Bool := k % interval == 0 || k == 0

/-- benchmark/_benchmark.py 585-604 `progress_callback` with runtime metrics of the given update intervals (exceptions of
a metric are swallowed); progress bar and checkpoint writes do not touch the trial state. -/
def metricsCallback (r : Rng Ω) (agents : List A) (iterations : Int) (intervals : List Int) (k : Int)
    (t : Trial A X Ω) : Trial A X Ω :=
  intervals.foldl (fun t i => if shouldUpdate i k || k + 1 == iterations then metricCompute r agents t else t) t

/-- A trial as the calls of `Algorithm.run`: the algorithm's `step`, and a callback evaluating the runtime metrics. -/
def trialOps (r : Rng Ω) (agents : List A) (iterations : Int) (intervals : List Int)
    (setup : Trial A X Ω → Py (Trial A X Ω)) (step : Int → Trial A X Ω → Py (Trial A X Ω)) : RunOps (Trial A X Ω) where
  setup := setup
  netStep _ t := t
  step := step
  snapshot _ _ t := .ok t
  callback k t := .ok (metricsCallback r agents iterations intervals k t)

/-- the same with `progress_callback`'s checkpoint (588-596), taken at iteration `at` *before* the metrics are evaluated:
the second component is the saved network, algorithm and random state -/
def checkpointedOps (r : Rng Ω) (agents : List A) (iterations : Int) (intervals : List Int) (ckptAt : Int)
    (setup : Trial A X Ω → Py (Trial A X Ω)) (step : Int → Trial A X Ω → Py (Trial A X Ω)) :
    RunOps (Trial A X Ω × Option (Trial A X Ω)) where
  setup t := match setup t.1 with
    | .error e => .error e
    | .ok t' => .ok (t', t.2)
  netStep _ t := t
  step k t := match step k t.1 with
    | .error e => .error e
    | .ok t' => .ok (t', t.2)
  snapshot _ _ t := .ok t
  callback k t := .ok (metricsCallback r agents iterations intervals k t.1, if k = ckptAt then some t.1 else t.2)

end Batch
end Verif
