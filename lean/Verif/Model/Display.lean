import Verif.Model.Metrics
/-!
# Displaying metrics
(decent_bench/benchmark/_display/display_plots.py, _display_metrics.py; benchmark/_metric_result.py)

Rendering (matplotlib, string formatting of tables) is not modelled: the model ends with the data handed to the plotting calls.  Frames
are lists of rows.
-/
namespace Verif
namespace Display
open Metrics

/-! ### styles -/

/-- `MARKERS` (41) -/
def markers : List String := ["o", "s", "v", "^", "*", "D", "H", "<", ">", "p", "P", "X"]

/-- `STYLES` (42); dash tuples as text -/
def styles : List String := ["-", ":", "--", "-.", "(5, (10, 3))", "(0, (5, 10))", "(0, (3, 1, 1, 1))"]

/-- `COLORS` (26-40) -/
def colors : List String :=
  ["#1f77b4", "#ff7f0e", "#2ca02c", "#d62728", "#9467bd", "#8c564b", "#e377c2", "#7f7f7f", "#bcbd22", "#17becf", "#34495e", "#16a085", "#686901"]

/-- `_get_marker_style_color` (455-474) -/
def look (index : Nat) : String × String × String :=
  let idx := index % (markers.length * styles.length)
  (markers.getD (idx % markers.length) "", styles.getD (idx / markers.length % styles.length) "", colors.getD (index % colors.length) "")

/-! ### preprocessing of plots -/

/-- a row of the aggregated plot frame, without the metric column -/
structure PRow where
  alg : String
  iteration : Nat
  mean : Val
  min : Val
  max : Val

/-- `isin([inf, -inf])` -/
def isInf : Val → Bool
  | .posInf => true
  | .negInf => true
  | _ => false

/-- `has_inf` of a row (105) -/
def PRow.hasInf (r : PRow) : Bool := isInf r.mean || isInf r.min || isInf r.max

/-- first iteration with an infinite value of an algorithm (107-108) -/
def cutoff (f : List PRow) (alg : String) : Option Nat := ((f.filter fun r => r.alg == alg && r.hasInf).map PRow.iteration).min?

/-- whether a row survives (113-115) -/
def keeps (f : List PRow) (r : PRow) : Bool :=
  match cutoff f r.alg with
  | none => true
  | some c => decide (r.iteration < c)

/-- step 2 (105-115) -/
def truncate (f : List PRow) : List PRow := f.filter (keeps f)

/-- `value <= 0` (false for NaN) -/
def nonPos : Val → Prop
  | .fin r => r ≤ 0
  | .negInf => True
  | _ => False

/-- `value > 0` (false for NaN) -/
def isPos : Val → Prop
  | .fin r => 0 < r
  | .posInf => True
  | _ => False

/-- Python truth of a float: NaN is true -/
def truthy : Val → Prop
  | .fin r => r ≠ 0
  | _ => True

/-- all plotted values of a frame -/
def values (f : List PRow) : List Val := f.flatMap fun r => [r.mean, r.min, r.max]

/-- `positive_values.min() if not positive_values else MIN_Y_VALUE` (121-122) -/
noncomputable def replacement (tiny : ℝ) (f : List PRow) : Val := open Classical in
  let p := Val.minimum ((values f).filter fun v => decide (isPos v))
  if ¬ truthy p then p else .fin tiny

/-- `mask(subset <= 0, replacement)` on one value (123) -/
noncomputable def lift (rep v : Val) : Val := open Classical in if nonPos v then rep else v

/-- step 3 (118-123) -/
noncomputable def positive (tiny : ℝ) (yLog : Bool) (f : List PRow) : List PRow := open Classical in
  if yLog = true ∧ ∃ v ∈ values f, nonPos v then
    f.map fun r => { r with mean := lift (replacement tiny f) r.mean, min := lift (replacement tiny f) r.min, max := lift (replacement tiny f) r.max }
  else f

/-- step 4 (135-136) -/
def shift (xLog : Bool) (f : List PRow) : List PRow :=
  if xLog && f.any (fun r => r.iteration == 0) then f.map fun r => { r with iteration := r.iteration + 1 } else f

/-- steps 2-4 for one metric -/
noncomputable def prepare (tiny : ℝ) (xLog yLog : Bool) (f : List PRow) : List PRow := shift xLog (positive tiny yLog (truncate f))

/-- a metric to plot -/
structure PMetric where
  description : String
  xLog : Bool
  yLog : Bool

/-- step 1 (97-100): rows of one metric, column dropped -/
def framesOf (results : List (String × PRow)) (m : PMetric) : List PRow := (results.filter fun r => r.1 == m.description).map Prod.snd

/-- call counters of an agent (AgentMetricsView) -/
structure Counts where
  function : ℝ
  gradient : ℝ
  hessian : ℝ
  proximal : ℝ
  sent : ℝ

/-- `np.mean` of a non-empty list -/
noncomputable def npMean (l : List ℝ) : ℝ := l.sum / l.length

/-- `_calc_total_cost` (177-191): the counters of all (non-server) agents of all trials -/
noncomputable def totalCost (c : Counts) (agents : List Counts) : ℝ :=
  c.function * npMean (agents.map Counts.function) + c.gradient * npMean (agents.map Counts.gradient) + c.hessian * npMean (agents.map Counts.hessian) +
    c.proximal * npMean (agents.map Counts.proximal) + c.sent * npMean (agents.map Counts.sent)

/-- the `compute` column (163-172): `iteration * scaling`, after step 4 -/
noncomputable def computeAxis (c : Counts) (scale : ℝ) (agentsOf : String → List Counts) (r : PRow) : ℝ :=
  (r.iteration : ℝ) * (totalCost c (agentsOf r.alg) * scale)

/-- `_preprocess` without cost (84-160): the frames by metric, in order -/
noncomputable def preprocess (tiny : ℝ) (results : List (String × PRow)) (ms : List PMetric) : List (PMetric × List PRow) :=
  ms.map fun m => (m, prepare tiny m.xLog m.yLog (framesOf results m))

/-! ### figures -/

/-- `metrics[i : i + 3] for i in range(0, len(metrics), 3)` (283) -/
def chunks (n : Nat) : Nat → List α → List (List α)
  | 0, _ => []
  | _ + 1, [] => []
  | fuel + 1, a :: t => (a :: t).take n :: chunks n fuel ((a :: t).drop n)

/-- `_organize_metrics_into_groups` (276-283) -/
def groups (ms : List α) (individual : Bool) : List (List α) :=
  if individual then ms.map fun m => [m] else chunks 3 ms.length ms

/-- `list(frame["algorithm"].unique())` (207) -/
def algsOf (f : List PRow) : List String := (f.map PRow.alg).reverse.dedup.reverse

/-- one plotted line: label, style, rows (223-241) -/
structure Line where
  label : String
  style : String × String × String
  rows : List PRow

/-- the lines of one metric, given the algorithms of the sample frame (222-241) -/
def linesOf (algs : List String) (f : List PRow) : List Line :=
  algs.zipIdx.map fun p => ⟨p.1, look p.2, f.filter fun r => r.alg == p.1⟩

/-- `_create_and_plot_figures` (194-248): the algorithms are those of the *first* metric's frame -/
def draw (frames : List (PMetric × List PRow)) : List (PMetric × List Line) :=
  match frames with
  | [] => []
  | s :: _ => frames.map fun p => (p.1, linesOf (algsOf s.2) p.2)

/-- `_select_legend_mode` (381-398): number of columns, and whether the legend gets its own figure -/
def legend (labels : List String) : Bool × Nat × Nat :=
  let count := labels.length
  let longest := (labels.map String.length).foldr max 0
  let cols := min (max count 1) 3
  let rows := (count + (cols - 1)) / cols
  (decide (count ≥ 9) || decide (rows ≥ 4) || (decide (longest > 24) && decide (count ≥ 6)), cols, rows)

/-! ### selection -/

/-- `MetricResult` (_metric_result.py 13-50): names of the algorithms of `network_views`, raw frames by metric description (rows tagged by
algorithm), aggregated frames (rows tagged by metric and algorithm) -/
structure Result (β : Type) where
  views : Option (List String)
  rawTable : Option (List (String × List (String × β)))
  rawPlot : Option (List (String × List (String × β)))
  table : Option (List (String × String × β))
  plot : Option (List (String × String × β))

variable {β : Type}

/-- `_which_attribute("all")` (92-99) -/
def Result.anyRaw (r : Result β) : Option (List (String × List (String × β))) := r.rawTable.orElse fun _ => r.rawPlot

/-- `algorithms` (60-67); only membership matters below, so not sorted -/
def Result.algorithms (r : Result β) : List String :=
  match r.views with
  | some l => l.dedup
  | none =>
    match r.anyRaw with
    | some ((_, rows) :: _) => (rows.map Prod.fst).dedup
    | _ => []

/-- `table_metrics`, `plot_metrics` (70-83); not sorted -/
def metricsOf : Option (List (String × List (String × β))) → List String
  | none => []
  | some d => (d.map Prod.fst).dedup

/-- `_filter_algorithms`, `_filter_metrics` (_display_metrics.py 189-223): requested and available; everything without request -/
def select (available : List String) : Option (List String) → List String
  | none => available
  | some l => available.filter fun a => decide (a ∈ l)

/-- what the table and plot displays receive -/
structure Shown (β : Type) where
  views : Option (List String)
  rawTable : Option (List (String × List (String × β)))
  table : Option (List (String × String × β))
  rawPlot : Option (List (String × List (String × β)))
  plot : Option (List (String × String × β))

/-- `_drop_metrics` (230-235) then `_drop_algorithms` (238-243) -/
def dropRaw (ms as : List String) (d : Option (List (String × List (String × β)))) : Option (List (String × List (String × β))) :=
  match d with
  | none => none
  | some [] => none
  | some l =>
    match l.filter fun p => decide (p.1 ∈ ms) with
    | [] => none
    | k => some (k.map fun p => (p.1, p.2.filter fun r => decide (r.1 ∈ as)))

/-- `_drop_df_rows` by metric, then by algorithm (246-249) -/
def dropRows (ms as : List String) (d : Option (List (String × String × β))) : Option (List (String × String × β)) :=
  d.map fun l => (l.filter fun r => decide (r.1 ∈ ms)).filter fun r => decide (r.2.1 ∈ as)

/-- `display_metrics` (125-186) up to the displays; `none` is an early return with a warning -/
def displayed (r : Result β) (tableMetrics plotMetrics algs : Option (List String)) : Option (Shown β) :=
  let as := select r.algorithms algs
  let ts := select (metricsOf r.rawTable) tableMetrics
  let ps := select (metricsOf r.rawPlot) plotMetrics
  if as = [] ∨ (ts = [] ∧ ps = []) then none
  else some
    { views := r.views.map fun l => l.filter fun a => decide (a ∈ as)
      rawTable := if ts = [] then none else dropRaw ts as r.rawTable
      table := if ts = [] then none else dropRows ts as r.table
      rawPlot := if ps = [] then none else dropRaw ps as r.rawPlot
      plot := if ps = [] then none else dropRows ps as r.plot }

end Display
end Verif
