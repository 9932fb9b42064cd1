import Verif.Model.BenchDir
/-!
# Metric results in the checkpoint directory
(decent_bench/benchmark/_compute/_compute_metrics.py `compute_metrics`, decent_bench/utils/checkpoint_manager.py `load_benchmark_result`,
`save_metrics_result`, `load_metrics_result`)

The directory is `BenchDir.Root` with stored metric results `Saved V β`: `V` network views, `β` the values in the frames. `N` is the network stored in a trial's
state, `nameOf` the name of the algorithm stored there, `view` is `NetworkMetricsView.from_network`; the values themselves (`Raw`) come from a parameter, the computation
of C56-C64. A directory without `metadata.json` is not described for `compute_metrics`.
-/
namespace Verif.MetricsFile
open Verif BenchDir

/-- raw and aggregated frames of a metric result, as in `Display.Result` -/
structure Raw (β : Type) where
  rawTable : Option (List (String × List (String × β)))
  rawPlot : Option (List (String × List (String × β)))
  table : Option (List (String × String × β))
  plot : Option (List (String × String × β))

/-- `MetricResult` (_metric_result.py 13-50) with the network views themselves -/
structure Saved (V β : Type) where
  views : Option (List (String × List V))
  raw : Raw β

/-- as seen by the properties and by `display_metrics` -/
def Saved.toResult {V β : Type} (s : Saved V β) : Display.Result β :=
  ⟨s.views.map fun l => l.map Prod.fst, s.raw.rawTable, s.raw.rawPlot, s.raw.table, s.raw.plot⟩

/-- where the networks, names and views come from -/
structure Reader (S N V : Type) where
  nameOf : S → String
  netOf : S → N
  view : N → V

variable {S N V P G β J : Type}

/-- `load_trial_result` (checkpoint_manager.py 555-584): algorithm name and network -/
def loadTrial (R : Reader S N V) (r : Root S P G (Saved V β) J) (i t : Nat) : Py (String × N) :=
  match (r.trial i t).result with
  | .error e => .error e
  | .ok s => .ok (R.nameOf s, R.netOf s)

/-- `metadata["n_trials"]` of the loaded metadata -/
def Root.nTrials (r : Root S P G (Saved V β) J) : Py Nat :=
  match r.loadInfo with
  | .error e => .error e
  | .ok none => .error .keyError
  | .ok (some m) => .ok m.nTrials

/-- `load_benchmark_result` (checkpoint_manager.py 619-668) -/
def loadBench (R : Reader S N V) (r : Root S P G (Saved V β) J) : Py (P × List (String × List N)) := do
  let p ← readFile .runtimeError r.problem
  let algs ← readFile .runtimeError r.algs
  let n ← Root.nTrials r
  let states ← Bench.loadAll n r.done (loadTrial R r) (algs.zipIdx.map fun a => (a.2, a.1.name))
  .ok (p, states)

/-- `{alg: [NetworkMetricsView.from_network(nw) for nw in networks]}` (_compute_metrics.py 119-121) -/
def viewsOf (R : Reader S N V) (states : List (String × List N)) : List (String × List V) := states.map fun a => (a.1, a.2.map R.view)

/-- `save_metrics_result` (checkpoint_manager.py 670-697) -/
def saveOps (r : Root S P G (Saved V β) J) (res : Saved V β) : Py (List (Op S P G (Saved V β) J)) :=
  match r.completed with
  | .error e => .error e
  | .ok true => .ok [.openMetrics, .writeMetrics { res with views := none }, .openMarker, .writeMarker]
  | .ok false => .ok [.openMetrics, .writeMetrics res, .openMarker, .writeMarker]

/-- what `compute_metrics` asks for: a benchmark result or nothing, the computation of the frames, and the entries for the metadata -/
structure Request (P N V β J : Type) where
  given : Option (P × List (String × List N))
  compute : P → List (String × List V) → Py (Raw β)
  notes : List (String × J)

/-- the benchmark result used (_compute_metrics.py 88-106) -/
def Request.source (q : Request P N V β J) (R : Reader S N V) (r : Root S P G (Saved V β) J) : Py (P × List (String × List N)) :=
  match q.given with
  | some b => .ok b
  | none =>
    match asInvalid (loadBench R r) with
    | .error e => .error e
    | .ok b => if b.2 = [] then .error .valueError else .ok b

/-- `compute_metrics` with a checkpoint manager (_compute_metrics.py 85-152): the result and the file operations -/
def computeMetrics (R : Reader S N V) (q : Request P N V β J) (r : Root S P G (Saved V β) J) : Py (Saved V β × List (Op S P G (Saved V β) J)) := do
  let b ← q.source R r
  let raw ← q.compute b.1 (viewsOf R b.2)
  let res := ⟨some (viewsOf R b.2), raw⟩
  let save ← saveOps r res
  let note ← r.appendNotes q.notes
  .ok (res, save ++ note)

/-- the reconstruction of network views (checkpoint_manager.py 716-737): any exception gives `None` -/
def rebuild (R : Reader S N V) (r : Root S P G (Saved V β) J) (s : Saved V β) : Option (List (String × List V)) :=
  match loadBench R r with
  | .error _ => none
  | .ok b => some (viewsOf R (b.2.filter fun a => decide (a.1 ∈ s.toResult.algorithms)))

/-- `load_metrics_result` (checkpoint_manager.py 699-740) -/
def loadMetrics (R : Reader S N V) (skip : Bool) (r : Root S P G (Saved V β) J) : Py (Saved V β) :=
  match readFile .runtimeError r.metrics with
  | .error e => .error e
  | .ok s => if s.views.isNone && !skip then .ok { s with views := rebuild R r s } else .ok s

/-- `are_metrics_computed` (checkpoint_manager.py 543-553) -/
def metricsComputed (r : Root S P G (Saved V β) J) : Bool := r.marker

end Verif.MetricsFile
