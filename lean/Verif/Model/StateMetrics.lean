import Verif.Model.History
import Mathlib.Analysis.InnerProductSpace.Basic
/-!
# Metrics of the agents' states (decent_bench/metrics/utils.py, metric_library.py, runtime_library.py)

States are vectors of a real normed space, costs are their full-data (`indices="all"`) value and gradient functions; float rounding is not
modelled.  The `lru_cache` on `x_mean` and `_predict_agent` is not modelled here: see C130 (Model/Views).
-/
namespace Verif
namespace SMet

/-- `AgentMetricsView` (metrics/_metrics_view.py 15-31): the fields the state metrics read.  `f`, `g` are `cost.function` and
`cost.gradient` on all data. -/
structure View (E : Type) where
  f : E → ℝ
  g : E → E
  hist : History E
  nSelected : Nat

variable {E : Type} [NormedAddCommGroup E] [NormedSpace ℝ E]

/-- `reduce(operator.add, xs) / len(xs)` with the guard for an empty list (metrics/utils.py 72-75, 112) -/
noncomputable def average : List E → Py E
  | [] => .error .valueError
  | x :: t => .ok ((((x :: t).length : ℝ)⁻¹) • t.foldl (· + ·) x)

/-- `[a.x_history[iteration] for a in agents]` (metrics/utils.py 70, 57, 154-159) -/
def statesAt (agents : List (View E)) (it : Int) : Py (List E) := agents.mapM (fun a => a.hist.getX it)

/-- `x_mean` (metrics/utils.py 60-75) -/
noncomputable def xMean (agents : List (View E)) (it : Int) : Py E := do
  let xs ← statesAt agents it
  average xs

/-- the accumulation `total += ...` over agents -/
def addUp {β : Type} (l : List β) (v : β → ℝ) : ℝ := l.foldl (fun s a => s + v a) 0

/-- `_regret` (metrics/utils.py 78-95) with a given `problem.x_optimal` -/
noncomputable def regret (agents : List (View E)) (xopt : E) (it : Int) : Py ℝ := do
  let m ← xMean agents it
  pure ((addUp agents (fun a => a.f m) - addUp agents (fun a => a.f xopt)) / agents.length)

/-- `Regret.is_available` / `compute` (metric_library.py 18-53): unavailable metrics are not computed -/
noncomputable def regretMetric (agents : List (View E)) (xopt : Option E) (it : Int) : Option (Py (List ℝ)) :=
  match xopt with
  | none => none
  | some z => some (do let r ← regret agents z it; pure [r])

/-- `_gradient_norm` (metrics/utils.py 98-113) -/
noncomputable def gradientNorm (agents : List (View E)) (it : Int) : Py ℝ := do
  let m ← xMean agents it
  let v ← average (agents.map (fun a => a.g m))
  pure ‖v‖

/-- `_x_error` (metrics/utils.py 116-128) -/
noncomputable def xError (agents : List (View E)) (xopt : E) (it : Int) : Py ℝ := do
  let m ← xMean agents it
  pure ‖m - xopt‖

/-- `ConsensusError.compute` (metric_library.py 126-159) -/
noncomputable def consensusError (agents : List (View E)) (it : Int) : Py (List ℝ) := do
  let m ← xMean agents it
  agents.mapM (fun a => do let x ← a.hist.getX it; pure ‖m - x‖)

/-- `_drifts` (metrics/utils.py 54-57) -/
def drifts (agents : List (View E)) (server : View E) (it : Int) : Py (List ℝ) := do
  let s ← server.hist.getX it
  agents.mapM (fun a => do let x ← a.hist.getX it; pure ‖x - s‖)

/-- `_losses` (metrics/utils.py 143-150) -/
def losses (agents : List (View E)) (it : Int) : Py (List ℝ) :=
  agents.mapM (fun a => do let x ← a.hist.getX it; pure (a.f x))

/-- `max(...)` of a non-empty list -/
def maxOf : List Int → Int
  | [] => 0
  | a :: t => t.foldl max a

/-- `_observed_rounds` (metrics/utils.py 131-140) -/
def observedRounds (agents : List (View E)) : Py Int :=
  match agents with
  | [] => .ok 0
  | _ => do
    let ms ← agents.mapM (fun a => a.hist.max)
    pure (maxOf ms)

/-- `FractionSelectedClients.compute` (metric_library.py 671-701); `none` is NaN -/
noncomputable def fractionSelected (clients : List (View E)) : Py (Option ℝ) := do
  let r ← observedRounds clients
  if r = 0 ∨ clients = [] then pure none
  else pure (some ((((clients.map (·.nSelected)).sum : Nat) : ℝ) / ((r : ℝ) * clients.length)))

/-! ### metrics while running -/

/-- an agent as a runtime metric sees it: its cost on the data it evaluates, and its current `x` -/
structure Live (E : Type) where
  f : E → ℝ
  g : E → E
  x : E

/-- division by a Python int: `ZeroDivisionError` -/
noncomputable def divLen (a : ℝ) (n : Nat) : Py ℝ := if n = 0 then .error .zeroDivision else .ok (a / n)

/-- `RuntimeLoss.compute` (runtime_library.py 14-37) -/
noncomputable def runtimeLoss (agents : List (Live E)) : Py ℝ := divLen (addUp agents (fun a => a.f a.x)) agents.length

/-- `RuntimeRegret.compute` (runtime_library.py 40-71): value and the attribute `_cached_optimal_cost`; NaN is `none` -/
noncomputable def runtimeRegret (agents : List (Live E)) (xopt : Option E) (cached : Option ℝ) : Py (Option ℝ × Option ℝ) :=
  match xopt with
  | none => .ok (none, cached)
  | some z => do
    let c ← divLen (addUp agents (fun a => a.f a.x)) agents.length
    match cached with
    | some o => pure (some (c - o), some o)
    | none => do
      let o ← divLen (addUp agents (fun a => a.f z)) agents.length
      pure (some (c - o), some o)

/-- the values sent to the plotter in a trial: `compute` at successive states with one metric object -/
noncomputable def runtimeRegrets (xopt : Option E) : List (List (Live E)) → Option ℝ → Py (List (Option ℝ))
  | [], _ => .ok []
  | a :: t, c => do
    let r ← runtimeRegret a xopt c
    let rs ← runtimeRegrets xopt t r.2
    pure (r.1 :: rs)

/-- `RuntimeGradientNorm.compute` (runtime_library.py 74-98) -/
noncomputable def runtimeGradientNorm (agents : List (Live E)) : Py ℝ := divLen (addUp agents (fun a => ‖a.g a.x‖)) agents.length

/-- `RuntimeConsensusError.compute` (runtime_library.py 101-127); `iop.stack` of an empty list raises `ValueError` -/
noncomputable def runtimeConsensusError (agents : List (Live E)) : Py ℝ := do
  let m ← average (agents.map (·.x))
  divLen (addUp agents (fun a => ‖a.x - m‖)) agents.length

/-! ### prediction metrics -/

/-- `cost.predict(x, test_x)` as NumPy array: `none` stands for a NaN or infinite entry -/
abbrev Preds (β : Type) := List (Option β)

/-- `np.any(~np.isfinite(preds))` -/
def broken {β : Type} (p : Preds β) : Bool := p.any Option.isNone

/-- `sklearn.metrics.accuracy_score` (library contract): fraction of equal entries -/
noncomputable def accuracyScore (y p : List Int) : ℝ := ((List.zip y p).countP (fun q => q.1 == q.2) : ℝ) / y.length

/-- the classes present in either list (library contract) -/
def classes (y p : List Int) : List Int := (y ++ p).dedup

/-- true positives of a class (library contract) -/
def tp (y p : List Int) (c : Int) : Nat := (List.zip y p).countP (fun q => q.1 == c && q.2 == c)

/-- false positives of a class (library contract) -/
def fp (y p : List Int) (c : Int) : Nat := (List.zip y p).countP (fun q => !(q.1 == c) && q.2 == c)

/-- false negatives of a class (library contract) -/
def fn (y p : List Int) (c : Int) : Nat := (List.zip y p).countP (fun q => q.1 == c && !(q.2 == c))

/-- `precision_score(average="micro")` (library contract): pooled over all classes -/
noncomputable def precisionScore (y p : List Int) : ℝ :=
  ((((classes y p).map (tp y p)).sum : Nat) : ℝ) / ((((classes y p).map (fun c => tp y p c + fp y p c)).sum : Nat) : ℝ)

/-- `recall_score(average="micro")` (library contract) -/
noncomputable def recallScore (y p : List Int) : ℝ :=
  ((((classes y p).map (tp y p)).sum : Nat) : ℝ) / ((((classes y p).map (fun c => tp y p c + fn y p c)).sum : Nat) : ℝ)

/-- `mean_squared_error` (library contract) -/
noncomputable def mseScore (y p : List ℝ) : ℝ := ((List.zip y p).map (fun q => (q.1 - q.2) ^ 2)).sum / y.length

/-- the loop shared by `_accuracy`, `_mse`, `_precision`, `_recall` (metrics/utils.py 170-179, 198-207, 259-268, 289-298): `ps` are the
predictions of the agents in order, `n` their number; a broken one makes the function return NaN (`none`) for all agents -/
noncomputable def perAgent {β : Type} (score : List β → List β → ℝ) (y : List β) (n : Nat) : List (Preds β) → List (Option ℝ) → List (Option ℝ)
  | [], acc => acc
  | p :: t, acc =>
    if broken p then List.replicate n none
    else perAgent score y n t (acc ++ [some (score y (p.filterMap id))])

/-- `_accuracy` (metrics/utils.py 153-179) -/
noncomputable def accuracy (y : List Int) (ps : List (Preds Int)) : List (Option ℝ) := perAgent accuracyScore y ps.length ps []
/-- `_precision` (metrics/utils.py 241-268) -/
noncomputable def precision (y : List Int) (ps : List (Preds Int)) : List (Option ℝ) := perAgent precisionScore y ps.length ps []
/-- `_recall` (metrics/utils.py 271-298) -/
noncomputable def recall (y : List Int) (ps : List (Preds Int)) : List (Option ℝ) := perAgent recallScore y ps.length ps []
/-- `_mse` (metrics/utils.py 182-207) -/
noncomputable def mse (y : List ℝ) (ps : List (Preds ℝ)) : List (Option ℝ) := perAgent mseScore y ps.length ps []

/-- `_accuracy_at_x`, `_mse_at_x` (metrics/utils.py 216-238), used by `ServerAccuracy` and `ServerMSE` with the predictions of the first
client's cost at the server's state (metric_library.py 704-790) -/
noncomputable def scoreAt {β : Type} (score : List β → List β → ℝ) (y : List β) (p : Preds β) : Option ℝ :=
  if broken p then none else some (score y (p.filterMap id))

end SMet
end Verif
