import Verif.Model.Metrics
/-!
# Tables: from the raw frames to what is printed and stored
(decent_bench/benchmark/_compute/compute_tables.py, decent_bench/benchmark/_display/display_tables.py)

Frames live in a heap, so that writing to a shared frame is visible.  Number formatting and the two renderings of a table are
parameters.  Whether a format string is valid does not depend on the number (Python's `float.__format__`).
-/
namespace Verif
namespace Tables
open Metrics

/-! ### aggregation -/

/-- the names of the statistics (compute_tables.py 19-25) -/
def statName : Stat → String
  | .mean => "mean"
  | .std => "std"
  | .max => "max"
  | .min => "min"
  | .median => "median"

/-- a row of the aggregated frame: (metric, algorithm, statistic, mean, std) (compute_tables.py 141-142) -/
structure ARow where
  metric : String
  alg : String
  stat : String
  mean : Val
  std : Val

/-- sorted distinct strings: the keys of a pandas `groupby` or `pivot_table` -/
def sortedKeys (l : List String) : List String := l.dedup.mergeSort (fun a b => decide (a ≤ b))

/-- one metric of `aggregate_table_metrics` (compute_tables.py 111-143); `cast` is the rounding to float32.  With a single agent number
the statistic is the empty string and the requested statistics are ignored (113-116). -/
noncomputable def aggregateOne (cast : Val → Val) (ddof : Nat) (stats : List Stat) (description : String) (f : List TRow) : List ARow :=
  (sortedKeys (f.map TRow.alg)).flatMap fun a =>
    if singleValued f then [⟨description, a, "", cast (tableCell ddof f a .mean).1, cast (tableCell ddof f a .mean).2⟩]
    else stats.map fun s => ⟨description, a, statName s, cast (tableCell ddof f a s).1, cast (tableCell ddof f a s).2⟩

/-- `aggregate_table_metrics` (compute_tables.py 100-152); within one metric and algorithm the statistics come in the requested order
instead of sorted, which no reader of the frame observes -/
noncomputable def aggregateTable (cast : Val → Val) (ddof : Nat) (statistics : Option (List String)) (frames : List (String × List TRow)) :
    Option (List ARow) :=
  match frames with
  | [] => none
  | _ => some (frames.flatMap fun p => aggregateOne cast ddof (resolveStats statistics) p.1 p.2)

/-! ### display -/

/-- an entry of a column of dtype object -/
inductive Cell where
  | num (v : Val)
  | text (s : String)

/-- a row of the frame being displayed -/
structure Row where
  metric : String
  alg : String
  stat : String
  mean : Cell
  std : Cell

/-- an aggregated row, before anything is formatted -/
def ARow.row (r : ARow) : Row := ⟨r.metric, r.alg, r.stat, .num r.mean, .num r.std⟩

/-- the frames in memory -/
abbrev Heap := List (List Row)

/-- a key of `raw_table_results`; `calls` is `isinstance(metric, SCALE_METRICS)` (display_tables.py 14) -/
structure TMetric where
  description : String
  fmt : String
  calls : Bool

/-- the reorganised frame: index (metric, statistic), one column per algorithm, `none` is NaN (display_tables.py 50-55) -/
structure Table where
  rows : List (String × String)
  cols : List String
  cell : String → String → String → Option String

/-- number formatting and table rendering -/
structure Lib where
  /-- `"{:fmt}".format` on floats; `none` if the format string is invalid for floats (ValueError, TypeError) -/
  format : String → Option (Val → String)
  /-- the same on strings -/
  formatText : String → Option (String → String)
  /-- `DataFrame.to_string` -/
  toText : Table → String
  /-- `DataFrame.to_latex` -/
  toLatex : Table → String

/-- `_get_format` (display_tables.py 94-101); the warning is not modelled -/
def getFormat (lib : Lib) (fmt : String) : String := if (lib.format fmt).isSome then fmt else ".2e"

/-- multiplication of a float by a finite float -/
noncomputable def scaleVal (c : ℝ) : Val → Val
  | .fin r => .fin (r * c)
  | .nan => .nan
  | .posInf => if 0 < c then .posInf else if c < 0 then .negInf else .nan
  | .negInf => if 0 < c then .negInf else if c < 0 then .posInf else .nan

/-- `frame * scaling` on one entry (display_tables.py 86-87); a string times a float raises -/
noncomputable def scaleCell (c : ℝ) : Cell → Py Cell
  | .num v => .ok (.num (scaleVal c v))
  | .text _ => .error .typeError

/-- `fmt_map` on one entry (display_tables.py 89-90) -/
def formatCell (lib : Lib) (fmt : String) : Cell → Py Cell
  | .num v =>
    match lib.format fmt with
    | some f => .ok (.text (f v))
    | none => .error .valueError
  | .text s =>
    match lib.formatText fmt with
    | some f => .ok (.text (f s))
    | none => .error .valueError

/-- `_scale_and_format` on one entry (display_tables.py 84-91) -/
noncomputable def scaleAndFormat (lib : Lib) (fmt : String) (scaling : ℝ) (c : Cell) : Py Cell := do
  let c' ← if scaling ≠ 1 then scaleCell scaling c else .ok c
  formatCell lib (getFormat lib fmt) c'

/-- one pass of the loop over the metrics (display_tables.py 35-42): the rows of the metric are scaled and formatted -/
noncomputable def formatRows (lib : Lib) (scale : ℝ) (m : TMetric) (f : List Row) : Py (List Row) :=
  f.mapM fun r =>
    if r.metric = m.description then do
      let scaling := if m.calls then scale else 1
      let a ← scaleAndFormat lib m.fmt scaling r.mean
      let b ← scaleAndFormat lib m.fmt scaling r.std
      .ok { r with mean := a, std := b }
    else .ok r

/-- the loop (display_tables.py 35-42), writing into the frame `ref` -/
noncomputable def formatLoop (lib : Lib) (scale : ℝ) (ref : Nat) : List TMetric → Heap → Py Unit × Heap
  | [], h => (.ok (), h)
  | m :: ms, h =>
    match formatRows lib scale m (h.getD ref []) with
    | .error e => (.error e, h)
    | .ok f => formatLoop lib scale ref ms (h.set ref f)

/-- `table_results["mean"] + " ± " + table_results["std"]` (display_tables.py 46); a float plus a string raises -/
def joined (f : List Row) : Py (List (String × String × String × String)) :=
  f.mapM fun r =>
    match r.mean, r.std with
    | .text a, .text b => .ok (r.metric, r.stat, r.alg, a ++ " ± " ++ b)
    | _, _ => .error .typeError

/-- the sorted distinct pairs -/
def sortedPairs (l : List (String × String)) : List (String × String) :=
  l.dedup.mergeSort (fun a b => decide (a.1 < b.1 ∨ (a.1 = b.1 ∧ a.2 ≤ b.2)))

/-- `pivot_table(index=["metric", "statistic"], columns="algorithm", values="value", aggfunc="first")` (display_tables.py 50-55) -/
def pivot (f : List (String × String × String × String)) : Table :=
  { rows := sortedPairs (f.map fun r => (r.1, r.2.1))
    cols := sortedKeys (f.map fun r => r.2.2.1)
    cell := fun m s a => (f.find? fun r => r.1 == m && r.2.1 == s && r.2.2.1 == a).map fun r => r.2.2.2 }

/-- `np.isinf` on one entry -/
def isInf : Cell → Bool
  | .num .posInf => true
  | .num .negInf => true
  | _ => false

/-- what the call prints or stores -/
inductive Msg where
  | table (s : String)
  | computeHint
  | divergenceHint
  | saved (name : String)
  deriving DecidableEq

/-- the observable effects of the call -/
structure Out where
  log : List Msg
  files : List (String × String)

/-- display_tables.py 57-81 once the table is built; creating the directory and failing writes are not modelled -/
def report (lib : Lib) (latex : Bool) (save : Bool) (ms : List TMetric) (infinite : Bool) (t : Table) : Out :=
  { log := [.table (if latex then lib.toLatex t else lib.toText t)] ++ (if ms.any TMetric.calls then [.computeHint] else []) ++
      (if infinite then [.divergenceHint] else []) ++ (if save then [.saved "table.tex", .saved "table.txt"] else [])
    files := if save then [("table.tex", lib.toLatex t), ("table.txt", lib.toText t)] else [] }

/-- `display_tables(metrics_result, table_fmt, scale_compute, table_path)` (display_tables.py 17-81); `metrics` are the keys of
`raw_table_results`, `table` the frame `table_results` -/
noncomputable def displayTables (lib : Lib) (latex : Bool) (scale : ℝ) (save : Bool) (metrics : Option (List TMetric)) (table : Option Nat)
    (h : Heap) : Py Out × Heap :=
  match metrics, table with
  | some ms, some ref =>
    let new := h.length
    let h1 := h ++ [h.getD ref []]
    let infinite := (h1.getD new []).any fun r => isInf r.mean || isInf r.std
    match formatLoop lib scale new ms h1 with
    | (.error e, h2) => (.error e, h2)
    | (.ok (), h2) =>
      match joined (h2.getD new []) with
      | .error e => (.error e, h2)
      | .ok vs => (.ok (report lib latex save ms infinite (pivot vs)), h2)
  | _, _ => (.ok ⟨[], []⟩, h)

end Tables
end Verif
