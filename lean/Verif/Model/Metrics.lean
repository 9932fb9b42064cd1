import Verif.Model.History
import Mathlib.Analysis.SpecialFunctions.Pow.Real
import Mathlib.Data.List.Dedup
/-!
# Metric frames, tables and plots
(decent_bench/benchmark/_compute/*.py, decent_bench/utils/_metric_helpers.py)

Numbers are extended reals with NaN; the rounding to float32 of raw metric values is a parameter `cast`, the rounding of aggregated
values is not modelled.  A DataFrame is the list of its rows; index labels and the order of the rows of aggregated frames are not
modelled: an aggregated frame is the function from its key columns to its value columns.
-/
namespace Verif
namespace Metrics

/-- a float -/
inductive Val where
  | fin (r : ℝ)
  | posInf
  | negInf
  | nan

namespace Val

/-- `isna` -/
def isNan : Val → Bool
  | .nan => true
  | _ => false

/-- `np.isfinite` -/
def isFin : Val → Bool
  | .fin _ => true
  | _ => false

/-- floating-point addition (rounding not modelled) -/
def add : Val → Val → Val
  | .fin a, .fin b => .fin (a + b)
  | .fin _, v => v
  | .posInf, .fin _ => .posInf
  | .posInf, .posInf => .posInf
  | .negInf, .fin _ => .negInf
  | .negInf, .negInf => .negInf
  | _, _ => .nan

/-- sum of a column -/
def sum (l : List Val) : Val := l.foldr add (.fin 0)

/-- division by a positive count -/
noncomputable def divNat : Val → Nat → Val
  | .fin a, n => .fin (a / n)
  | v, _ => v

/-- the order of non-NaN floats; false if one of them is NaN -/
def le : Val → Val → Prop
  | .fin a, .fin b => a ≤ b
  | .negInf, .nan => False
  | .negInf, _ => True
  | .nan, _ => False
  | .posInf, .posInf => True
  | .posInf, _ => False
  | .fin _, .posInf => True
  | .fin _, _ => False

/-- `skipna=True` of pandas reductions -/
def dropna (l : List Val) : List Val := l.filter (fun v => !v.isNan)

/-- pandas `mean` -/
noncomputable def mean (l : List Val) : Val :=
  if dropna l = [] then .nan else divNat (sum (dropna l)) (dropna l).length

/-- smaller of two non-NaN floats -/
noncomputable def vmin (a b : Val) : Val := open Classical in if le a b then a else b

/-- larger of two non-NaN floats -/
noncomputable def vmax (a b : Val) : Val := open Classical in if le a b then b else a

/-- pandas `min` -/
noncomputable def minimum (l : List Val) : Val :=
  match dropna l with
  | [] => .nan
  | a :: t => t.foldr vmin a

/-- pandas `max` -/
noncomputable def maximum (l : List Val) : Val :=
  match dropna l with
  | [] => .nan
  | a :: t => t.foldr vmax a

/-- the real value of a finite float -/
def toReal : Val → ℝ
  | .fin r => r
  | _ => 0

/-- pandas `std(ddof)`: NaN as soon as one value is infinite (`inf - inf`), or with at most `ddof` values -/
noncomputable def std (ddof : Nat) (l : List Val) : Val :=
  let xs := dropna l
  if xs.length ≤ ddof then .nan
  else if xs.all isFin = false then .nan
  else
    let rs := xs.map toReal
    let μ := rs.sum / rs.length
    .fin (Real.sqrt ((rs.map (fun x => (x - μ) ^ 2)).sum / ((rs.length : ℝ) - ddof)))

/-- pandas `median`: middle of the sorted values, or half the sum of the two middle ones -/
noncomputable def median (l : List Val) : Val :=
  let s := (dropna l).mergeSort (fun a b => open Classical in decide (le a b))
  if s.length % 2 = 1 then s.getD (s.length / 2) .nan
  else divNat (add (s.getD (s.length / 2 - 1) .nan) (s.getD (s.length / 2) .nan)) 2

end Val

/-! ### raw frames -/

/-- a row of a raw metric frame -/
structure Row where
  alg : String
  trial : Nat
  agent : Nat
  iteration : Nat
  value : Val

/-- compute_metrics_at_iter.py 51-53: NaN and values above the limit become `inf` -/
noncomputable def capHigh (lim : ℝ) : Val → Val
  | .nan => .posInf
  | .fin r => open Classical in if r > lim then .posInf else .fin r
  | v => v

/-- compute_metrics_at_iter.py 54-56: NaN and values below the negative limit become `-inf` -/
noncomputable def capLow (lim : ℝ) : Val → Val
  | .nan => .negInf
  | .fin r => open Classical in if r < -lim then .negInf else .fin r
  | v => v

/-- compute_metrics_at_iter.py 49-56: cast to float32, then the two assignments in order.  `lim` is 1e30 as a float32. -/
noncomputable def sanitise (cast : Val → Val) (lim : ℝ) (v : Val) : Val := capLow lim (capHigh lim (cast v))

/-- a metric object: identity, description and `compute` (`V` is a NetworkMetricsView) -/
structure Metric (V : Type) where
  id : Nat
  description : String
  xLog : Bool
  yLog : Bool
  compute : V → Nat → Py (List Val)

variable {V : Type}

/-- the inner loop (compute_metrics_at_iter.py 37-46) with the column types of 59-61: uint16, uint16, uint32 wrap around -/
noncomputable def rowsOf (cast : Val → Val) (lim : ℝ) (name : String) (it t : Nat) (data : List Val) : List Row :=
  data.zipIdx.map fun p => ⟨name, t % 65536, p.2 % 65536, it % 4294967296, sanitise cast lim p.1⟩

/-- the trials of one algorithm (34-46) -/
noncomputable def algRows (cast : Val → Val) (lim : ℝ) (m : Metric V) (it : Nat) (name : String) : Nat → List V → Py (List Row)
  | _, [] => .ok []
  | t, v :: vs => do
    let data ← m.compute v it
    let rest ← algRows cast lim m it name (t + 1) vs
    .ok (rowsOf cast lim name it t data ++ rest)

/-- `compute_metrics_at_iter` (compute_metrics_at_iter.py 17-61) -/
noncomputable def computeAtIter (cast : Val → Val) (lim : ℝ) (m : Metric V) (it : Nat) : List (String × List V) → Py (List Row)
  | [] => .ok []
  | (name, vs) :: rest => do
    let rows ← algRows cast lim m it name 0 vs
    let more ← computeAtIter cast lim m it rest
    .ok (rows ++ more)

/-- the frames of one metric, concatenated (compute_plots.py 39-44) -/
noncomputable def plotFrame (cast : Val → Val) (lim : ℝ) (views : List (String × List V)) (m : Metric V) : List Nat → Py (List Row)
  | [] => .ok []
  | it :: its => do
    let f ← computeAtIter cast lim m it views
    let rest ← plotFrame cast lim views m its
    .ok (f ++ rest)

/-- the loop of `compute_plot_metrics` (36-44), filling the dictionary `d` keyed by metric objects -/
noncomputable def plotLoop (cast : Val → Val) (lim : ℝ) (views : List (String × List V)) (its : List Nat) :
    List (Metric V) → PyDict Nat (List Row) → Py (PyDict Nat (List Row))
  | [], d => .ok d
  | m :: ms, d => do
    let f ← plotFrame cast lim views m its
    plotLoop cast lim views its ms (d.set m.id f)

/-- `compute_plot_metrics` (compute_plots.py 16-48) -/
noncomputable def computePlots (cast : Val → Val) (lim : ℝ) (views : List (String × List V)) (ms : List (Metric V)) (its : List Nat) :
    Py (PyDict Nat (List Row)) :=
  if its = [] then .ok PyDict.empty else plotLoop cast lim views its ms PyDict.empty

/-- a row of a table frame: the iteration column is dropped (compute_tables.py 93) -/
structure TRow where
  alg : String
  trial : Nat
  agent : Nat
  value : Val

/-- `drop("iteration", axis="columns")` -/
def Row.drop (r : Row) : TRow := ⟨r.alg, r.trial, r.agent, r.value⟩

/-- the frame of one metric at the final iteration, taken from the plot frames if it is there (compute_tables.py 86-90) -/
noncomputable def tableFrame (cast : Val → Val) (lim : ℝ) (views : List (String × List V)) (plots : PyDict Nat (List Row)) (final : Nat)
    (m : Metric V) : Py (List Row) :=
  match plots.get? m.id with
  | some pf => .ok (pf.filter fun r => r.iteration == final)
  | none => computeAtIter cast lim m final views

/-- the loop of `compute_table_metrics` (83-93) -/
noncomputable def tableLoop (cast : Val → Val) (lim : ℝ) (views : List (String × List V)) (plots : PyDict Nat (List Row)) (final : Nat) :
    List (Metric V) → PyDict Nat (List TRow) → Py (PyDict Nat (List TRow))
  | [], d => .ok d
  | m :: ms, d => do
    let f ← tableFrame cast lim views plots final m
    tableLoop cast lim views plots final ms (d.set m.id (f.map Row.drop))

/-- `max` of a non-empty list of iterations -/
def maxIt (its : List Nat) : Nat := its.foldr max 0

/-- `compute_table_metrics` (compute_tables.py 58-97) -/
noncomputable def computeTables (cast : Val → Val) (lim : ℝ) (views : List (String × List V)) (ms : List (Metric V)) (its : List Nat)
    (plots : PyDict Nat (List Row)) : Py (PyDict Nat (List TRow)) :=
  if its = [] then .ok PyDict.empty else tableLoop cast lim views plots (maxIt its) ms PyDict.empty

/-- `sorted(set(l))` of iteration numbers (`all_sorted_iterations`, metrics/utils.py 318-330; `_all_iterations`,
_compute_metrics.py 188-195) -/
def sortedSet (l : List Nat) : List Nat := l.dedup.mergeSort (fun a b => decide (a ≤ b))

/-- `_all_iterations` (_compute_metrics.py 188-195); `iterationsOf` is `NetworkMetricsView.iterations` -/
def allIterations (iterationsOf : V → List Nat) (views : List (String × List V)) : List Nat :=
  sortedSet (views.flatMap fun p => p.2.flatMap iterationsOf)

/-! ### aggregation -/

/-- the values of the rows satisfying `p` -/
def column (f : List Row) (p : Row → Bool) : List Val := (f.filter p).map Row.value

/-- the trials of an algorithm at an iteration -/
def trialsAt (f : List Row) (alg : String) (it : Nat) : List Nat :=
  ((f.filter fun r => r.alg == alg && r.iteration == it).map Row.trial).dedup

/-- mean across agents (compute_plots.py 64) -/
noncomputable def agentMean (f : List Row) (alg : String) (it t : Nat) : Val :=
  Val.mean (column f fun r => r.alg == alg && r.iteration == it && r.trial == t)

/-- an aggregated row: (mean, min, max) across trials (compute_plots.py 67-69).  Keys without rows are not modelled. -/
noncomputable def plotPoint (f : List Row) (alg : String) (it : Nat) : Val × Val × Val :=
  let ms := (trialsAt f alg it).map (agentMean f alg it)
  (Val.mean ms, Val.minimum ms, Val.maximum ms)

/-- the statistics across agents (compute_tables.py 19-25) -/
inductive Stat where
  | mean | std | max | min | median
  deriving DecidableEq

/-- `STATISTICS` with the names and aliases (19-33) -/
def Stat.ofName : String → Option Stat
  | "mean" => some .mean
  | "average" => some .mean
  | "avg" => some .mean
  | "std" => some .std
  | "max" => some .max
  | "maximum" => some .max
  | "min" => some .min
  | "minimum" => some .min
  | "median" => some .median
  | "mdn" => some .median
  | _ => none

/-- `_resolve_statistics` (36-57); the dictionary keeps the first position of a repeated name -/
def resolveStats : Option (List String) → List Stat
  | none => [.mean, .std]
  | some names =>
    match names.filterMap Stat.ofName with
    | [] => [.mean, .std]
    | l => l.reverse.dedup.reverse

/-- a statistic of a group (compute_tables.py 121-123).  `ddof` is the one pandas applies when handed `np.std` (1 before pandas 3). -/
noncomputable def Stat.eval (ddof : Nat) : Stat → List Val → Val
  | .mean, l => Val.mean l
  | .std, l => Val.std ddof l
  | .max, l => Val.maximum l
  | .min, l => Val.minimum l
  | .median, l => Val.median l

/-- whether all rows have the same agent number (compute_tables.py 113) -/
def singleValued (f : List TRow) : Bool := (f.map TRow.agent).dedup.length == 1

/-- the values of one trial of an algorithm -/
def trialColumn (f : List TRow) (alg : String) (t : Nat) : List Val :=
  (f.filter fun r => r.alg == alg && r.trial == t).map TRow.value

/-- the values of `statistic` per trial (compute_tables.py 113-131) -/
noncomputable def perTrial (ddof : Nat) (f : List TRow) (alg : String) (s : Stat) : List Val :=
  if singleValued f then (f.filter fun r => r.alg == alg).map TRow.value
  else ((f.filter fun r => r.alg == alg).map TRow.trial).dedup.map fun t => s.eval ddof (trialColumn f alg t)

/-- a table cell: mean and std (`ddof=0`) across trials (compute_tables.py 134-138) -/
noncomputable def tableCell (ddof : Nat) (f : List TRow) (alg : String) (s : Stat) : Val × Val :=
  (Val.mean (perTrial ddof f alg s), Val.std 0 (perTrial ddof f alg s))

/-! ### names -/

/-- `_find_duplicates` (utils/_metric_helpers.py 1-10) -/
def findDuplicates (items : List String) : List String :=
  let r := items.foldl (fun (p : List String × List String) x =>
    if x ∈ p.1 then (p.1, if x ∈ p.2 then p.2 else x :: p.2) else (x :: p.1, p.2)) ([], [])
  r.2.mergeSort (fun a b => decide (a ≤ b))

/-- `_validate_unique_descriptions` (_compute_metrics.py 163-167) -/
def validateDescriptions (ms : List (Metric V)) : Py Unit :=
  if findDuplicates (ms.map Metric.description) = [] then .ok () else .error .valueError

/-- `_remove_unavailable` (_compute_metrics.py 170-185); `available` is `Metric.is_available` for the problem -/
def removeUnavailable (available : Metric V → Bool) (ms : List (Metric V)) : List (Metric V) := ms.filter available

end Metrics
end Verif
