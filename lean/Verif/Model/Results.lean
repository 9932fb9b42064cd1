import Verif.Model.Tables
/-!
# Metric results and their accessors
(decent_bench/benchmark/_compute/_compute_metrics.py `compute_metrics`, decent_bench/benchmark/_metric_result.py)

The frames of `plot_results` and the checkpoint directory are left out (Model/MetricsFile describes the directory).
-/
namespace Verif
namespace Results
open Metrics Tables

/-- `MetricResult` (_metric_result.py 13-50) without `plot_results`; the dictionaries keyed by metrics are lists of descriptions and frames
in insertion order -/
structure MetricResult (V : Type) where
  views : Option (List (String × List V))
  rawTable : Option (List (String × List TRow))
  rawPlot : Option (List (String × List Metrics.Row))
  table : Option (List ARow)

variable {V : Type}

/-- `_which_attribute()` then `next(iter(data.values()))["algorithm"]` (_metric_result.py 65-67, 92-99): the algorithm column of the first
frame of the first dictionary that is not `None`; `none` if that dictionary is empty or there is none -/
def MetricResult.sample (r : MetricResult V) : Option (List String) :=
  match r.rawTable with
  | some [] => none
  | some ((_, f) :: _) => some (f.map TRow.alg)
  | none =>
    match r.rawPlot with
    | some ((_, f) :: _) => some (f.map Metrics.Row.alg)
    | _ => none

/-- `algorithms` (_metric_result.py 59-67) -/
def MetricResult.algorithms (r : MetricResult V) : List String :=
  match r.views with
  | some l => sortedKeys (l.map Prod.fst)
  | none =>
    match r.sample with
    | some l => sortedKeys l
    | none => []

/-- `table_metrics` (69-75) -/
def MetricResult.tableMetrics (r : MetricResult V) : List String :=
  match r.rawTable with
  | some d => sortedKeys (d.map Prod.fst)
  | none => []

/-- `plot_metrics` (77-83) -/
def MetricResult.plotMetrics (r : MetricResult V) : List String :=
  match r.rawPlot with
  | some d => sortedKeys (d.map Prod.fst)
  | none => []

/-- `iterations` (85-90): those of the first plot frame -/
def MetricResult.iterations (r : MetricResult V) : List Nat :=
  match r.rawPlot with
  | some ((_, f) :: _) => sortedSet (f.map Metrics.Row.iteration)
  | _ => []

/-- `update_table_results` (52-57): the value returned, and the object afterwards -/
noncomputable def MetricResult.update (cast : Val → Val) (ddof : Nat) (r : MetricResult V) (statistics : Option (List String)) :
    Option (List ARow) × MetricResult V :=
  match r.rawTable with
  | none => (none, r)
  | some [] => (none, r)
  | some d =>
    let t := aggregateTable cast ddof statistics d
    (t, { r with table := t })

/-- a dictionary keyed by metric objects, filled in the order of `ms`, with descriptions for the keys -/
def named {F : Type} (ms : List (Metric V)) (d : PyDict Nat F) : List (String × F) :=
  ms.filterMap fun m => (d.get? m.id).map fun f => (m.description, f)

/-- what `compute_metrics` uses of its environment: rounding to float32, the limit 1e30, pandas' `ddof`, availability of metrics for the
problem, `NetworkMetricsView.iterations`, the default metrics -/
structure Env (V : Type) where
  cast : Val → Val
  lim : ℝ
  ddof : Nat
  available : Metric V → Bool
  iterationsOf : V → List Nat
  defaultTable : List (Metric V)
  defaultPlot : List (Metric V)

/-- `compute_metrics` with a benchmark result, whose states have become `views` (_compute_metrics.py 108-141) -/
noncomputable def computeMetrics (env : Env V) (views : List (String × List V)) (tableMetrics plotMetrics : Option (List (Metric V)))
    (statistics : Option (List String)) : Py (MetricResult V) := do
  let tms := tableMetrics.getD env.defaultTable
  let pms := plotMetrics.getD env.defaultPlot
  validateDescriptions tms
  validateDescriptions pms
  let tms := removeUnavailable env.available tms
  let pms := removeUnavailable env.available pms
  let its := allIterations env.iterationsOf views
  let plots ← computePlots env.cast env.lim views pms its
  let tables ← computeTables env.cast env.lim views tms its plots
  .ok { views := some views
        rawTable := some (named tms tables)
        rawPlot := some (named pms plots)
        table := aggregateTable env.cast env.ddof statistics (named tms tables) }

end Results
end Verif
