import Verif.Props.RuntimeMetric
import Mathlib.Algebra.BigOperators.Group.List.Basic
import Mathlib.Algebra.Order.BigOperators.Group.List
import Mathlib.Data.List.TakeWhile
import Mathlib.Tactic.FieldSimp
import Mathlib.Tactic.Positivity
/-!
# C95: the values of the predefined runtime metrics, C96: the plotter
-/
set_option linter.unusedSectionVars false
namespace Verif
namespace Props
open Monitor

section Values
variable {A E : Type} [NormedAddCommGroup E] [NormedSpace ℝ E]

/-! ## Specification -/

/-- the average of `g` over the agents -/
noncomputable def avgOver (agents : List A) (g : A → ℝ) : ℝ := (agents.map g).sum / agents.length

/-- the agents' average point -/
noncomputable def centre (agents : List A) (x : A → E) : E := (agents.length : ℝ)⁻¹ • (agents.map x).sum

theorem meanOver_ok {agents : List A} (h : agents ≠ []) (g : A → ℝ) : meanOver agents g = .ok (avgOver agents g) := by
  unfold meanOver
  rw [if_neg (by simpa using h)]
  rfl

theorem length_pos_real {agents : List A} (h : agents ≠ []) : (0 : ℝ) < agents.length := by
  have : 0 < agents.length := List.length_pos_iff.2 h
  exact_mod_cast this

theorem avg_mono {agents : List A} {g h : A → ℝ} (hl : ∀ i ∈ agents, g i ≤ h i) : avgOver agents g ≤ avgOver agents h := by
  unfold avgOver
  exact div_le_div_of_nonneg_right (List.sum_le_sum hl) (by positivity)

theorem list_sum_sub (l : List A) (g h : A → ℝ) : (l.map (fun i => g i - h i)).sum = (l.map g).sum - (l.map h).sum := by
  induction l with
  | nil => simp
  | cons a l ih => simp only [List.map_cons, List.sum_cons, ih]; ring

theorem list_sum_cmul (l : List A) (c : ℝ) (g : A → ℝ) : (l.map (fun i => c * g i)).sum = c * (l.map g).sum := by
  induction l with
  | nil => simp
  | cons a l ih => simp only [List.map_cons, List.sum_cons, ih]; ring

theorem avg_sub (agents : List A) (g h : A → ℝ) : avgOver agents (fun i => g i - h i) = avgOver agents g - avgOver agents h := by
  unfold avgOver
  rw [list_sum_sub, sub_div]

theorem avg_cmul (agents : List A) (c : ℝ) (h : A → ℝ) : avgOver agents (fun i => c * h i) = c * avgOver agents h := by
  unfold avgOver
  rw [list_sum_cmul, mul_div_assoc]

theorem avg_nonneg {agents : List A} {g : A → ℝ} (hl : ∀ i ∈ agents, 0 ≤ g i) : 0 ≤ avgOver agents g := by
  unfold avgOver
  refine div_nonneg (List.sum_nonneg ?_) (by positivity)
  intro y hy
  obtain ⟨i, hi, rfl⟩ := List.mem_map.1 hy
  exact hl i hi

theorem list_sum_zero_iff (l : List A) (g : A → ℝ) (hl : ∀ i ∈ l, 0 ≤ g i) : (l.map g).sum = 0 ↔ ∀ i ∈ l, g i = 0 := by
  induction l with
  | nil => simp
  | cons a l ih =>
    have h1 := hl a (by simp)
    have h2 : 0 ≤ (l.map g).sum := List.sum_nonneg (by
      intro y hy
      obtain ⟨i, hi, rfl⟩ := List.mem_map.1 hy
      exact hl i (by simp [hi]))
    rw [List.map_cons, List.sum_cons, add_eq_zero_iff_of_nonneg h1 h2, ih (fun i hi => hl i (by simp [hi]))]
    simp

theorem avg_zero_iff {agents : List A} (hne : agents ≠ []) {g : A → ℝ} (hl : ∀ i ∈ agents, 0 ≤ g i) :
    avgOver agents g = 0 ↔ ∀ i ∈ agents, g i = 0 := by
  unfold avgOver
  rw [div_eq_zero_iff, list_sum_zero_iff _ _ hl]
  have := length_pos_real hne
  constructor
  · rintro (h | h)
    · exact h
    · exact absurd h this.ne'
  · exact Or.inl

/-- the runtime metric `RuntimeRegret` on costs `f` (deterministic), agents' points read from the system by `xOf` -/
noncomputable def regretMetric {σ : Type} (agents : List A) (xOpt : Option E) (f : A → E → ℝ) (xOf : σ → A → E) (interval : Int) :
    Metric σ (Option ℝ) Metrics.Val :=
  ⟨interval, fun _ mem s => ((runtimeRegret agents xOpt f f (xOf s) mem).1, (runtimeRegret agents xOpt f f (xOf s) mem).2, s)⟩

/-! ## C95 -/

/-- **The regret is the documented one at every iteration**, although the optimal cost is computed only once: a metric object that has
nothing cached keeps answering with `(1/N) Σ f_i(x_i) − (1/N) Σ f_i(x*)` (deterministic costs), and it does not touch the trial. -/
theorem C95_regret {σ : Type} (agents : List A) (hne : agents ≠ []) (xs : E) (f : A → E → ℝ) (xOf : σ → A → E) (interval : Int) :
    Pure (regretMetric agents (some xs) f xOf interval) ∧
    Steady (regretMetric agents (some xs) f xOf interval) none
      (fun _ s => .ok (.fin (avgOver agents (fun i => f i (xOf s i)) - avgOver agents (fun i => f i xs)))) := by
  refine ⟨fun _ _ _ => rfl, fun mem => mem = none ∨ mem = some (avgOver agents (fun i => f i xs)), Or.inl rfl, ?_⟩
  intro mem hmem k s
  simp only [regretMetric, runtimeRegret, meanOver_ok hne]
  rcases hmem with rfl | rfl
  · exact ⟨rfl, Or.inr rfl⟩
  · exact ⟨rfl, Or.inr rfl⟩

/-- **Without an optimal point the regret is nan** at every call, and nothing is cached. -/
theorem C95_regret_unknown (agents : List A) (f f' : A → E → ℝ) (x : A → E) (mem : Option ℝ) :
    runtimeRegret agents none f f' x mem = (.ok .nan, mem) := rfl

/-- successive calls of one metric object on costs, and points, which may be different at every call (`f k` is what the pass over the agents sees at
the k-th call, `f' k` what the pass at the optimal point would see) -/
noncomputable def regretCalls (agents : List A) (xs : E) (f f' : Nat → A → E → ℝ) (x : Nat → A → E) : Nat → Option ℝ
  | 0 => none
  | k + 1 => (runtimeRegret agents (some xs) (f k) (f' k) (x k) (regretCalls agents xs f f' x k)).2

/-- **The baseline is frozen at the first call.**  For costs that vary from call to call (mini-batches), every answer subtracts the
average cost at `x*` as the *first* call evaluated it. -/
theorem C95_regret_frozen (agents : List A) (hne : agents ≠ []) (xs : E) (f f' : Nat → A → E → ℝ) (x : Nat → A → E) (k : Nat) :
    (runtimeRegret agents (some xs) (f k) (f' k) (x k) (regretCalls agents xs f f' x k)).1 =
      .ok (.fin (avgOver agents (fun i => f k i (x k i)) - avgOver agents (fun i => f' 0 i xs))) := by
  have h : ∀ k, regretCalls agents xs f f' x (k + 1) = some (avgOver agents (fun i => f' 0 i xs)) := by
    intro k
    induction k with
    | zero => simp only [regretCalls, runtimeRegret, meanOver_ok hne]
    | succ k ih =>
      rw [regretCalls, ih]
      simp only [runtimeRegret, meanOver_ok hne]
  cases k with
  | zero => simp only [regretCalls, runtimeRegret, meanOver_ok hne]
  | succ k =>
    rw [h k]
    simp only [runtimeRegret, meanOver_ok hne]

/-- **At consensus the regret is non-negative, and zero exactly at the minimisers** of the average cost. -/
theorem C95_regret_consensus (agents : List A) (xs : E) (f : A → E → ℝ)
    (hmin : ∀ y, avgOver agents (fun i => f i xs) ≤ avgOver agents (fun i => f i y)) (y : E) :
    0 ≤ avgOver agents (fun i => f i y) - avgOver agents (fun i => f i xs) ∧
    (avgOver agents (fun i => f i y) - avgOver agents (fun i => f i xs) = 0 ↔
      ∀ y', avgOver agents (fun i => f i y) ≤ avgOver agents (fun i => f i y')) := by
  refine ⟨by linarith [hmin y], fun h y' => by linarith [hmin y'], fun h => ?_⟩
  linarith [h xs, hmin y]

/-- **Disagreeing agents can report a negative regret, but not more negative than their disagreement allows**: with costs
`L`-Lipschitz, regret ≥ −L · (runtime consensus error). -/
theorem C95_regret_below (agents : List A) (hne : agents ≠ []) (xs : E) (f : A → E → ℝ) (L : ℝ)
    (hL : ∀ i ∈ agents, ∀ y z, f i y - f i z ≤ L * ‖y - z‖)
    (hmin : ∀ y, avgOver agents (fun i => f i xs) ≤ avgOver agents (fun i => f i y)) (x : A → E) (c : ℝ)
    (hc : runtimeConsensusError agents x = .ok c) :
    -(L * c) ≤ avgOver agents (fun i => f i (x i)) - avgOver agents (fun i => f i xs) := by
  have hc' : c = avgOver agents (fun i => ‖x i - centre agents x‖) := by
    unfold runtimeConsensusError at hc
    rw [if_neg (by simpa using hne)] at hc
    dsimp only at hc
    rw [meanOver_ok hne] at hc
    injection hc with hc
    exact hc.symm
  have h1 : avgOver agents (fun i => f i (centre agents x) - f i (x i)) ≤ avgOver agents (fun i => L * ‖x i - centre agents x‖) := by
    refine avg_mono (fun i hi => ?_)
    rw [norm_sub_rev]
    exact hL i hi _ _
  rw [avg_sub, avg_cmul, ← hc'] at h1
  linarith [hmin (centre agents x)]

/-- negative regret does occur: two agents that pull apart, `f₁(y) = (y-1)²`, `f₂(y) = (y+1)²`, each at its own minimiser; the minimiser
of the average is 0 and the regret is -1 -/
theorem C95_regret_negative : ∃ (f : Bool → ℝ → ℝ) (x : Bool → ℝ),
    (∀ y, avgOver [true, false] (fun i => f i 0) ≤ avgOver [true, false] (fun i => f i y)) ∧
    (runtimeRegret [true, false] (some 0) f f x none).1 = .ok (.fin (-1)) := by
  refine ⟨fun i y => if i then (y - 1) ^ 2 else (y + 1) ^ 2, fun i => if i then 1 else -1, ?_, ?_⟩
  · intro y
    simp only [avgOver, List.map_cons, List.map_nil, List.sum_cons, List.sum_nil, if_true, Bool.false_eq_true, if_false]
    norm_num
    nlinarith [sq_nonneg y]
  · simp only [runtimeRegret, meanOver_ok (agents := [true, false]) (by simp), avgOver, List.map_cons, List.map_nil, List.sum_cons,
      List.sum_nil, if_true, Bool.false_eq_true, if_false]
    norm_num

/-- **Loss**: the average of each agent's own cost at its own point; in agreement, the average cost at the common point. -/
theorem C95_loss (agents : List A) (hne : agents ≠ []) (f : A → E → ℝ) (x : A → E) :
    runtimeLoss agents f x = .ok (avgOver agents (fun i => f i (x i))) ∧
    ∀ y, (∀ i ∈ agents, x i = y) → runtimeLoss agents f x = .ok (avgOver agents (fun i => f i y)) := by
  refine ⟨meanOver_ok hne _, fun y hy => ?_⟩
  show meanOver agents _ = _
  rw [meanOver_ok hne]
  unfold avgOver
  rw [List.map_congr_left (g := fun i => f i y) (fun i hi => by rw [hy i hi])]

/-- **The gradient norm vanishes exactly when every agent stands at a stationary point of its *own* cost** — not of the sum: agents in
agreement at a solution of the whole problem see a positive value unless that point is stationary for each of them. -/
theorem C95_gradient_norm (agents : List A) (hne : agents ≠ []) (g : A → E → E) (x : A → E) :
    ∃ v, runtimeGradientNorm agents g x = .ok v ∧ 0 ≤ v ∧ (v = 0 ↔ ∀ i ∈ agents, g i (x i) = 0) ∧
      ‖(agents.length : ℝ)⁻¹ • (agents.map (fun i => g i (x i))).sum‖ ≤ v := by
  refine ⟨avgOver agents (fun i => ‖g i (x i)‖), meanOver_ok hne _, avg_nonneg (fun i _ => norm_nonneg _), ?_, ?_⟩
  · rw [avg_zero_iff hne (fun i _ => norm_nonneg _)]
    simp only [norm_eq_zero]
  · have : ∀ l : List A, ‖(l.map (fun i => g i (x i))).sum‖ ≤ (l.map (fun i => ‖g i (x i)‖)).sum := by
      intro l
      induction l with
      | nil => simp
      | cons a l ih =>
        simp only [List.map_cons, List.sum_cons]
        exact (norm_add_le _ _).trans (by linarith)
    rw [norm_smul, Real.norm_of_nonneg (by positivity), avgOver, div_eq_inv_mul]
    exact mul_le_mul_of_nonneg_left (this agents) (by positivity)

/-- the gradient norm at the solution of a two-agent problem can be 1 -/
theorem C95_gradient_norm_at_solution : ∃ g : Bool → ℝ → ℝ, ((g true 0 + g false 0) = 0) ∧
    runtimeGradientNorm [true, false] g (fun _ => (0 : ℝ)) = .ok 1 := by
  refine ⟨fun i y => if i then y - 1 else y + 1, by norm_num, ?_⟩
  simp only [runtimeGradientNorm, meanOver_ok (agents := [true, false]) (by simp), avgOver, List.map_cons, List.map_nil, List.sum_cons,
    List.sum_nil, if_true, Bool.false_eq_true, if_false]
  norm_num

theorem centre_const (agents : List A) (hne : agents ≠ []) (x : A → E) (y : E) (h : ∀ i ∈ agents, x i = y) : centre agents x = y := by
  unfold centre
  have : (agents.map x).sum = (agents.length : ℝ) • y := by
    rw [List.map_congr_left (g := fun _ => y) h]
    induction agents with
    | nil => exact absurd rfl hne
    | cons a l ih =>
      by_cases hl : l = []
      · simp [hl]
      · have := ih hl (fun i hi => h i (by simp [hi]))
        simp only [List.map_cons, List.sum_cons, this, List.length_cons]
        push_cast
        module
  rw [this, smul_smul, inv_mul_cancel₀ (length_pos_real hne).ne', one_smul]

/-- **The consensus error is zero exactly in agreement**, and bounds every agent's distance from the average: no agent is farther than
`N` times it. -/
theorem C95_consensus_error (agents : List A) (hne : agents ≠ []) (x : A → E) :
    ∃ v, runtimeConsensusError agents x = .ok v ∧ 0 ≤ v ∧ (v = 0 ↔ ∃ y, ∀ i ∈ agents, x i = y) ∧
      (∀ i ∈ agents, ‖x i - centre agents x‖ ≤ agents.length * v) ∧
      ∀ b, (∀ i ∈ agents, ‖x i - centre agents x‖ ≤ b) → v ≤ b := by
  refine ⟨avgOver agents (fun i => ‖x i - centre agents x‖), ?_, avg_nonneg (fun i _ => norm_nonneg _), ?_, ?_, ?_⟩
  · unfold runtimeConsensusError
    rw [if_neg (by simpa using hne)]
    dsimp only
    rw [meanOver_ok hne]
    rfl
  · rw [avg_zero_iff hne (fun i _ => norm_nonneg _)]
    constructor
    · intro h
      exact ⟨centre agents x, fun i hi => sub_eq_zero.1 (norm_eq_zero.1 (h i hi))⟩
    · rintro ⟨y, hy⟩ i hi
      rw [centre_const agents hne x y hy, hy i hi, sub_self, norm_zero]
  · intro i hi
    unfold avgOver
    rw [mul_div_cancel₀ _ (length_pos_real hne).ne']
    refine List.single_le_sum ?_ _ (List.mem_map_of_mem hi)
    intro y hy
    obtain ⟨j, _, rfl⟩ := List.mem_map.1 hy
    exact norm_nonneg _
  · intro b hb
    have : avgOver agents (fun i => ‖x i - centre agents x‖) ≤ avgOver agents (fun _ => b) := avg_mono hb
    refine this.trans (le_of_eq ?_)
    unfold avgOver
    rw [List.map_const', List.sum_replicate, nsmul_eq_mul, mul_div_assoc, mul_div_cancel₀ _ (length_pos_real hne).ne']

example : runtimeLoss [true, false] (fun i (y : ℝ) => if i then y else 3 * y) (fun _ => 1) = .ok 2 := by
  simp only [runtimeLoss, meanOver_ok (agents := [true, false]) (by simp), avgOver, List.map_cons, List.map_nil, List.sum_cons,
    List.sum_nil, if_true, Bool.false_eq_true, if_false]
  norm_num

end Values

/-! ## C96: specification -/

/-- an init message for metric `m` -/
def IsInit (m : String) : PlotMsg → Bool
  | .init m' _ _ _ _ => m' == m
  | _ => false

/-- the point a message adds to the line of (metric, algorithm, trial), if it is one with a finite value -/
def pointFor (m a : String) (t : Nat) : PlotMsg → Option (Nat × ℝ)
  | .update m' a' t' k (.fin v) => if m' = m ∧ a' = a ∧ t' = t then some (k, v) else none
  | _ => none

/-- the first init message for a metric -/
def firstInit (m : String) (l : List PlotMsg) : Option PlotMsg := l.find? (IsInit m)

/-- the points for a line that come after the first init message of the metric -/
def pointsAfterInit (m a : String) (t : Nat) (l : List PlotMsg) : List (Nat × ℝ) :=
  (l.dropWhile (fun q => !IsInit m q)).filterMap (pointFor m a t)

/-- a line as the plotter has it (no line: no points) -/
def lineOf (p : Plotter) (m a : String) (t : Nat) : List (Nat × ℝ) := (p.data.get? (m, a, t)).getD []

/-- a figure as described by its init message -/
def figureOf : PlotMsg → Option Figure
  | .init _ d xl yl _ => some ⟨d, xl, yl⟩
  | _ => none

/-- the save path of an init message -/
def pathOf : PlotMsg → Option String
  | .init _ _ _ _ s => s
  | _ => none

/-! ### Lemmas -/

theorem processAll_append (l l' : List PlotMsg) (p : Plotter) :
    Plotter.processAll (l ++ l') p = Plotter.processAll l' (Plotter.processAll l p) := by
  unfold Plotter.processAll; rw [List.foldl_append]

theorem processAll_snoc (l : List PlotMsg) (q : PlotMsg) (p : Plotter) :
    Plotter.processAll (l ++ [q]) p = (Plotter.processAll l p).process q := by
  rw [processAll_append]; rfl

theorem firstInit_snoc (m : String) (l : List PlotMsg) (q : PlotMsg) :
    firstInit m (l ++ [q]) = if (firstInit m l).isSome then firstInit m l else if IsInit m q then some q else none := by
  unfold firstInit
  rw [List.find?_append]
  cases h : l.find? (IsInit m) with
  | some x => simp
  | none =>
    simp only [Option.none_or, Option.isSome_none, Bool.false_eq_true, if_false, List.find?_cons, List.find?_nil]
    cases IsInit m q <;> simp

/-- figures and save paths after any messages -/
theorem figures_spec (l : List PlotMsg) (m : String) :
    (Plotter.processAll l .fresh).figures.get? m = (firstInit m l).bind figureOf ∧
    (Plotter.processAll l .fresh).savePaths.get? m = (firstInit m l).bind pathOf ∧
    ((Plotter.processAll l .fresh).figures.contains m = (firstInit m l).isSome) := by
  induction l using List.reverseRecOn generalizing m with
  | nil => simp [Plotter.processAll, Plotter.fresh, firstInit, PyDict.contains]
  | append_singleton l q ih =>
    rw [processAll_snoc, firstInit_snoc]
    generalize hp : Plotter.processAll l .fresh = p at ih
    cases q with
    | other =>
      obtain ⟨h1, h2, h3⟩ := ih m
      simp only [Plotter.process, h1, h2, h3]
      cases h : firstInit m l <;> simp [IsInit]
    | update m' a t k v =>
      have hf : (p.update m' a t k v).figures = p.figures ∧ (p.update m' a t k v).savePaths = p.savePaths := by
        unfold Plotter.update
        split
        · split <;> simp [Plotter.addPoint]
        · simp
      simp only [Plotter.process, hf.1, hf.2]
      obtain ⟨h1, h2, h3⟩ := ih m
      rw [h1, h2, h3]
      cases h : firstInit m l <;> simp [IsInit]
    | init m' d xl yl sp =>
      simp only [Plotter.process, Plotter.createFigure]
      obtain ⟨h1, h2, h3⟩ := ih m
      obtain ⟨h1', h2', h3'⟩ := ih m'
      by_cases hc : p.figures.contains m' = true
      · rw [if_pos hc, h1, h2, h3]
        rw [h3'] at hc
        cases h : firstInit m l with
        | some x => simp
        | none =>
          have : IsInit m (.init m' d xl yl sp) = false := by
            simp only [IsInit, beq_eq_false_iff_ne]
            rintro rfl
            rw [h] at hc
            simp at hc
          simp [this]
      · rw [if_neg hc]
        rw [h3'] at hc
        by_cases hm : m' = m
        · subst hm
          have hn : firstInit m' l = none := by simpa using hc
          have e : IsInit m' (.init m' d xl yl sp) = true := by simp [IsInit]
          simp only [hn, Option.isSome_none, Bool.false_eq_true, if_false, e, if_true, PyDict.contains, PyDict.get?_set]
          refine ⟨by simp [figureOf], ?_, by simp⟩
          cases sp with
          | none => simp only [recordPath, h2', hn]; simp [pathOf]
          | some s => simp [recordPath, pathOf]
        · have hm' : ¬ m = m' := fun h => hm h.symm
          have e : IsInit m (.init m' d xl yl sp) = false := by simp [IsInit, hm]
          have e2 : (recordPath p.savePaths m' sp).get? m = p.savePaths.get? m := by
            cases sp with
            | none => rfl
            | some s => simp [recordPath, hm']
          simp only [e, PyDict.contains, PyDict.get?_set, if_neg hm', e2]
          simp only [PyDict.contains] at h3
          rw [h1, h2]
          rw [h1] at h3
          cases h : firstInit m l <;> simp [h] at h3 ⊢
          exact h3

/-- the line of every (metric, algorithm, trial) after any messages -/
theorem line_spec (l : List PlotMsg) (m a : String) (t : Nat) :
    lineOf (Plotter.processAll l .fresh) m a t = pointsAfterInit m a t l ∧
    (((Plotter.processAll l .fresh).data.get? (m, a, t)).isSome ↔ pointsAfterInit m a t l ≠ []) := by
  induction l using List.reverseRecOn generalizing m a t with
  | nil => simp [Plotter.processAll, Plotter.fresh, lineOf, pointsAfterInit]
  | append_singleton l q ih =>
    rw [processAll_snoc]
    have hfig := (figures_spec l m).2.2
    -- appending a message
    have happ : pointsAfterInit m a t (l ++ [q]) = pointsAfterInit m a t l ++
        (if (firstInit m l).isSome then (pointFor m a t q).toList else []) := by
      unfold pointsAfterInit firstInit
      clear ih hfig
      induction l with
      | nil =>
        simp only [List.nil_append, List.find?_nil, Option.isSome_none, Bool.false_eq_true, if_false, List.dropWhile_cons,
          List.dropWhile_nil, List.filterMap_nil, List.append_nil]
        cases q with
        | init => split <;> simp [pointFor]
        | update => simp [IsInit]
        | other => simp [IsInit]
      | cons x l ih =>
        simp only [List.cons_append, List.dropWhile_cons, List.find?_cons]
        by_cases hx : IsInit m x = true
        · simp only [hx, Bool.not_true, Bool.false_eq_true, if_false, Option.isSome_some, if_true]
          rw [← List.cons_append, List.filterMap_append]
          congr 1
        · simp only [Bool.not_eq_true] at hx
          simpa [hx] using ih
    rw [happ]
    generalize hp : Plotter.processAll l .fresh = p at ih hfig
    obtain ⟨i1, i2⟩ := ih m a t
    have noChange : ∀ p' : Plotter, p'.data = p.data → (if (firstInit m l).isSome then (pointFor m a t q).toList else []) = [] →
        lineOf p' m a t = pointsAfterInit m a t l ++ (if (firstInit m l).isSome then (pointFor m a t q).toList else []) ∧
        ((p'.data.get? (m, a, t)).isSome ↔
          pointsAfterInit m a t l ++ (if (firstInit m l).isSome then (pointFor m a t q).toList else []) ≠ []) := by
      intro p' h1 h2
      rw [h2, List.append_nil]
      unfold lineOf
      rw [h1]
      exact ⟨i1, i2⟩
    cases q with
    | other => exact noChange _ rfl (by simp [pointFor])
    | init m' d xl yl sp =>
      refine noChange _ ?_ (by simp [pointFor])
      simp only [Plotter.process, Plotter.createFigure]
      split <;> rfl
    | update m' a' t' k v =>
      simp only [Plotter.process]
      by_cases hkey : m' = m ∧ a' = a ∧ t' = t
      · obtain ⟨rfl, rfl, rfl⟩ := hkey
        unfold Plotter.update
        by_cases hf : p.figures.contains m' = true
        · rw [if_pos hf]
          rw [hf] at hfig
          cases v with
          | fin r =>
            have hpt : (if (firstInit m' l).isSome then (pointFor m' a' t' (.update m' a' t' k (.fin r))).toList else []) = [(k, r)] := by
              rw [← hfig]; simp [pointFor]
            rw [hpt]
            simp only [lineOf, Plotter.addPoint, PyDict.get?_set, if_true, Option.getD_some]
            refine ⟨?_, by simp⟩
            rw [← i1]
            rfl
          | posInf => exact noChange _ rfl (by simp [pointFor])
          | negInf => exact noChange _ rfl (by simp [pointFor])
          | nan => exact noChange _ rfl (by simp [pointFor])
        · rw [if_neg hf]
          exact noChange _ rfl (by rw [← hfig]; simp [hf])
      · have hpt : pointFor m a t (.update m' a' t' k v) = none := by cases v <;> simp [pointFor, hkey]
        have hkey' : ¬ (m, a, t) = (m', a', t') := by
          intro h
          simp only [Prod.mk.injEq] at h
          exact hkey ⟨h.1.symm, h.2.1.symm, h.2.2.symm⟩
        rw [hpt]
        simp only [Option.toList_none, ite_self, List.append_nil]
        have : (p.update m' a' t' k v).data.get? (m, a, t) = p.data.get? (m, a, t) := by
          unfold Plotter.update
          split
          · split
            · simp only [Plotter.addPoint, PyDict.get?_set, if_neg hkey']
            · rfl
          · rfl
        unfold lineOf
        rw [this]
        exact ⟨i1, i2⟩

/-- the colours: an index for each (algorithm, trial), all different, and every line has the index of its (algorithm, trial) -/
structure ColorsOk (p : Plotter) : Prop where
  wf : p.colors.WF
  bound : ∀ s c, p.colors.get? s = some c → c < p.colors.entries.length
  inj : ∀ s s' c, p.colors.get? s = some c → p.colors.get? s' = some c → s = s'
  known : ∀ m a t c, p.lineColor.get? (m, a, t) = some c → p.colors.get? (a, t) = some c
  drawn : ∀ m a t, (p.data.get? (m, a, t)).isSome ↔ (p.lineColor.get? (m, a, t)).isSome
  used : ∀ a t c, p.colors.get? (a, t) = some c → ∃ m, (p.data.get? (m, a, t)).isSome

theorem length_set_new {K W : Type} [DecidableEq K] (d : PyDict K W) (k : K) (v : W) (h : d.contains k = false) :
    (d.set k v).entries.length = d.entries.length + 1 := by
  have h1 : (d.set k v).keys.length = (d.set k v).entries.length := by simp [PyDict.keys]
  have h2 : d.keys.length = d.entries.length := by simp [PyDict.keys]
  have h3 : k ∉ d.keys := fun hk => by rw [(PyDict.contains_iff d k).2 hk] at h; cases h
  rw [← h1, PyDict.keys_set, if_neg h3, List.length_append, h2]
  rfl

theorem colorOf_ok {p : Plotter} (h : ColorsOk p) (s : String × Nat) :
    (p.colorOf s).WF ∧ (∀ s' c, (p.colorOf s).get? s' = some c → c < (p.colorOf s).entries.length) ∧
    (∀ s' s'' c, (p.colorOf s).get? s' = some c → (p.colorOf s).get? s'' = some c → s' = s'') ∧
    (∀ s' c, p.colors.get? s' = some c → (p.colorOf s).get? s' = some c) ∧ (∃ c, (p.colorOf s).get? s = some c) ∧
    (∀ s' c, (p.colorOf s).get? s' = some c → s' = s ∨ p.colors.get? s' = some c) := by
  unfold Plotter.colorOf
  by_cases hc : p.colors.contains s = true
  · rw [if_pos hc]
    refine ⟨h.wf, h.bound, h.inj, fun _ _ h => h, ?_, fun _ _ h => Or.inr h⟩
    exact Option.isSome_iff_exists.1 hc
  · rw [if_neg hc]
    have hc' : p.colors.contains s = false := by simpa using hc
    have hl := length_set_new p.colors s p.colors.entries.length hc'
    have hn : p.colors.get? s = none := by
      unfold PyDict.contains at hc'
      simpa using hc'
    refine ⟨PyDict.wf_set _ _ _ h.wf, ?_, ?_, ?_, ?_, ?_⟩
    · intro s' c hs
      rw [PyDict.get?_set] at hs
      rw [hl]
      split at hs
      · injection hs with hs; omega
      · have := h.bound s' c hs; omega
    · intro s' s'' c h1 h2
      rw [PyDict.get?_set] at h1 h2
      split at h1
      · split at h2
        · rename_i a b; rw [a, b]
        · injection h1 with h1
          have := h.bound _ _ h2
          omega
      · split at h2
        · injection h2 with h2
          have := h.bound _ _ h1
          omega
        · exact h.inj _ _ _ h1 h2
    · intro s' c hs
      rw [PyDict.get?_set]
      split
      · rename_i e; rw [e, hn] at hs; cases hs
      · exact hs
    · exact ⟨p.colors.entries.length, by rw [PyDict.get?_set, if_pos rfl]⟩
    · intro s' c hs
      rw [PyDict.get?_set] at hs
      split at hs
      · rename_i e; exact Or.inl e
      · exact Or.inr hs

theorem addPoint_ok {p : Plotter} (h : ColorsOk p) (m a : String) (t k : Nat) (v : ℝ) : ColorsOk (p.addPoint m a t k v) := by
  obtain ⟨c1, c2, c3, c4, ⟨c, c5⟩, c6⟩ := colorOf_ok h (a, t)
  by_cases hl : p.lineColor.contains (m, a, t) = true
  · have hd : (p.data.get? (m, a, t)).isSome := (h.drawn m a t).2 hl
    have e : p.addPoint m a t k v = { p with data := p.data.set (m, a, t) ((p.data.get? (m, a, t)).getD [] ++ [(k, v)]) } := by
      simp only [Plotter.addPoint, if_pos hl]
    rw [e]
    refine ⟨h.wf, h.bound, h.inj, h.known, ?_, ?_⟩
    · intro m' a' t'
      simp only [PyDict.get?_set]
      split
      · rename_i e'; rw [e']; simpa [PyDict.contains] using hl
      · exact h.drawn m' a' t'
    · intro a' t' c hc
      obtain ⟨m', hm'⟩ := h.used a' t' c hc
      refine ⟨m', ?_⟩
      simp only [PyDict.get?_set]
      split
      · simp
      · exact hm'
  · have e : p.addPoint m a t k v = { p with
        data := p.data.set (m, a, t) ((p.data.get? (m, a, t)).getD [] ++ [(k, v)])
        colors := p.colorOf (a, t)
        lineColor := p.lineColor.set (m, a, t) c } := by
      simp only [Plotter.addPoint, if_neg hl, c5, Option.getD_some]
    rw [e]
    refine ⟨c1, c2, c3, ?_, ?_, ?_⟩
    · intro m' a' t' c' hc
      simp only [PyDict.get?_set] at hc
      split at hc
      · rename_i e'
        simp only [Prod.mk.injEq] at e'
        obtain ⟨-, rfl, rfl⟩ := e'
        rw [← hc]
        exact c5
      · exact c4 _ _ (h.known _ _ _ _ hc)
    · intro m' a' t'
      simp only [PyDict.get?_set]
      split
      · simp
      · exact h.drawn m' a' t'
    · intro a' t' c' hc
      rcases c6 _ _ hc with e' | hc'
      · simp only [Prod.mk.injEq] at e'
        obtain ⟨rfl, rfl⟩ := e'
        exact ⟨m, by simp only [PyDict.get?_set, if_true, Option.isSome_some]⟩
      · obtain ⟨m', hm'⟩ := h.used a' t' c' hc'
        refine ⟨m', ?_⟩
        simp only [PyDict.get?_set]
        split
        · simp
        · exact hm'

theorem processAll_ok (l : List PlotMsg) : ColorsOk (Plotter.processAll l .fresh) := by
  induction l using List.reverseRecOn with
  | nil =>
    refine ⟨PyDict.wf_empty, ?_, ?_, ?_, ?_, ?_⟩ <;> simp [Plotter.processAll, Plotter.fresh]
  | append_singleton l q ih =>
    rw [processAll_snoc]
    generalize Plotter.processAll l .fresh = p at ih
    cases q with
    | other => exact ih
    | init m d xl yl sp =>
      simp only [Plotter.process, Plotter.createFigure]
      split
      · exact ih
      · exact ⟨ih.wf, ih.bound, ih.inj, ih.known, ih.drawn, ih.used⟩
    | update m a t k v =>
      simp only [Plotter.process, Plotter.update]
      split
      · split
        · exact addPoint_ok ih ..
        · exact ih
      · exact ih

/-! ## C96 -/

/-- **A figure shows every finite value sent for it, per (metric, algorithm, trial) in the order of the queue.**  For any messages in any
interleaving: the line of (metric, algorithm, trial) has the finite values sent for it after the metric's first init message, in
order, and nothing else; there is a line exactly when there is such a value. -/
theorem C96_lines (l : List PlotMsg) (m a : String) (t : Nat) :
    lineOf (Plotter.processAll l .fresh) m a t = pointsAfterInit m a t l ∧
    (((Plotter.processAll l .fresh).data.get? (m, a, t)).isSome ↔ pointsAfterInit m a t l ≠ []) := line_spec l m a t

/-- every update message is preceded by an init message of its metric.  Each trial sends the init messages of its metrics before it
runs (`_get_runtime_metrics`), so every interleaving of trials' messages is of this form unless the queue refuses an init. -/
def InitsFirst (l : List PlotMsg) : Prop :=
  ∀ pre post m a t k v, l = pre ++ PlotMsg.update m a t k v :: post → ∃ q ∈ pre, IsInit m q = true

/-- **Interleaving trials loses nothing**: if the inits come first, every line has all the finite values sent for its (metric, algorithm, trial), in order;
two interleavings that agree on the order of each trial's messages draw the same lines. -/
theorem C96_interleaving (l : List PlotMsg) (hl : InitsFirst l) (m a : String) (t : Nat) :
    lineOf (Plotter.processAll l .fresh) m a t = l.filterMap (pointFor m a t) ∧
    ∀ l', InitsFirst l' → l'.filterMap (pointFor m a t) = l.filterMap (pointFor m a t) →
      lineOf (Plotter.processAll l' .fresh) m a t = lineOf (Plotter.processAll l .fresh) m a t := by
  have key : ∀ l, InitsFirst l → lineOf (Plotter.processAll l .fresh) m a t = l.filterMap (pointFor m a t) := by
    intro l hl
    rw [(line_spec l m a t).1]
    unfold pointsAfterInit
    conv_rhs => rw [← List.takeWhile_append_dropWhile (p := fun q => !IsInit m q) (l := l), List.filterMap_append]
    have : (l.takeWhile (fun q => !IsInit m q)).filterMap (pointFor m a t) = [] := by
      rw [List.filterMap_eq_nil_iff]
      intro q hq
      have hno : ∀ q' ∈ l.takeWhile (fun q => !IsInit m q), IsInit m q' = false := by
        intro q' hq'
        have := List.mem_takeWhile_imp hq'
        simpa using this
      cases q with
      | init => rfl
      | other => rfl
      | update m' a' t' k v =>
        by_cases hm : m' = m
        · subst hm
          obtain ⟨pre, post, hs⟩ := List.append_of_mem hq
          have : l = pre ++ PlotMsg.update m' a' t' k v :: (post ++ l.dropWhile (fun q => !IsInit m' q)) := by
            conv_lhs => rw [← List.takeWhile_append_dropWhile (p := fun q => !IsInit m' q) (l := l), hs]
            simp
          obtain ⟨q', h1, h2⟩ := hl _ _ _ _ _ _ _ this
          have := hno q' (by rw [hs]; simp [h1])
          rw [this] at h2
          cases h2
        · cases v <;> simp [pointFor, hm]
    rw [this, List.nil_append]
  refine ⟨key l hl, fun l' hl' h => ?_⟩
  rw [key l hl, key l' hl', h]

/-- **Every interleaving of trials' messages is of that form**: `l` is the queue with each message marked by the trial that sent it; if
each trial on its own sends its inits first, so does the queue as a whole. -/
theorem C96_trials_interleave {ι : Type} [DecidableEq ι] (l : List (ι × PlotMsg))
    (h : ∀ i, InitsFirst ((l.filter (fun q => q.1 = i)).map Prod.snd)) : InitsFirst (l.map Prod.snd) := by
  intro pre post m a t k v e
  obtain ⟨l1, l2, e1, e2, e3⟩ := List.map_eq_append_iff.1 e
  obtain ⟨x, l3, e4, e5, e6⟩ := List.map_eq_cons_iff.1 e3
  have := h x.1 ((l1.filter (fun q => q.1 = x.1)).map Prod.snd) ((l3.filter (fun q => q.1 = x.1)).map Prod.snd) m a t k v (by
    rw [e1, e4, List.filter_append, List.map_append, List.filter_cons_of_pos (by simp), List.map_cons, e5])
  obtain ⟨q, hq, hi⟩ := this
  refine ⟨q, ?_, hi⟩
  rw [← e2]
  obtain ⟨y, hy, rfl⟩ := List.mem_map.1 hq
  exact List.mem_map_of_mem (List.mem_filter.1 hy).1

/-- a trial's own messages: the init messages of its metrics (in `_get_runtime_metrics`, before the run), then updates for these metrics -/
theorem C96_trial_stream (inits updates : List PlotMsg) (hi : ∀ q ∈ inits, ∃ m d xl yl s, q = .init m d xl yl s)
    (h : ∀ q ∈ updates, ∃ m a t k v, q = .update m a t k v ∧ ∃ q' ∈ inits, IsInit m q' = true) : InitsFirst (inits ++ updates) := by
  intro pre post m a t k v e
  have hmem : PlotMsg.update m a t k v ∈ updates := by
    have : PlotMsg.update m a t k v ∈ inits ++ updates := by rw [e]; simp
    rcases List.mem_append.1 this with h' | h'
    · obtain ⟨_, _, _, _, _, h''⟩ := hi _ h'
      cases h''
    · exact h'
  obtain ⟨m', a', t', k', v', e', q', hq', hm'⟩ := h _ hmem
  injection e' with e1
  subst e1
  refine ⟨q', ?_, hm'⟩
  -- the inits are all in `pre`
  rcases List.append_eq_append_iff.1 e with ⟨as, h1, h2⟩ | ⟨bs, h1, h2⟩
  · rw [h1]; simp [hq']
  · cases bs with
    | nil => rw [h1] at hq'; simpa using hq'
    | cons b bs =>
      simp only [List.cons_append, List.cons.injEq] at h2
      obtain ⟨_, _, _, _, _, h''⟩ := hi b (by rw [h1]; simp)
      rw [h''] at h2
      cases h2.1

/-- **One figure per metric class, described by the first init message**; later init messages (other instances of the class: another
save path, another scale) change nothing. -/
theorem C96_figures (l : List PlotMsg) (m : String) :
    (Plotter.processAll l .fresh).figures.get? m = (firstInit m l).bind figureOf :=
  (figures_spec l m).1

/-- **What is saved**: at shutdown, for every metric class whose *first* init message had a save path, one file of that name in that path;
after a keyboard interrupt nothing. -/
theorem C96_saved (l : List PlotMsg) (path file : String) :
    ((path, file) ∈ (Plotter.processAll l .fresh).closeAll false ↔
      ∃ m q, file = m ++ ".png" ∧ firstInit m l = some q ∧ pathOf q = some path) ∧
    (Plotter.processAll l .fresh).closeAll true = [] := by
  refine ⟨?_, rfl⟩
  have hwf : (Plotter.processAll l .fresh).savePaths.WF := by
    induction l using List.reverseRecOn with
    | nil => exact PyDict.wf_empty
    | append_singleton l q ih =>
      rw [processAll_snoc]
      generalize Plotter.processAll l .fresh = p at ih
      cases q with
      | other => exact ih
      | init m d xl yl sp =>
        simp only [Plotter.process, Plotter.createFigure]
        split
        · exact ih
        · cases sp with
          | none => exact ih
          | some s => exact PyDict.wf_set _ _ _ ih
      | update m a t k v =>
        simp only [Plotter.process, Plotter.update]
        split
        · split <;> exact ih
        · exact ih
  simp only [Plotter.closeAll, Bool.false_eq_true, if_false, List.mem_map, List.mem_filter, Prod.mk.injEq, Prod.exists]
  constructor
  · rintro ⟨m, s, ⟨h1, h2⟩, rfl, rfl⟩
    rw [PyDict.mem_entries_iff _ hwf, (figures_spec l m).2.1] at h1
    obtain ⟨q, hq, hq'⟩ := Option.bind_eq_some_iff.1 h1
    exact ⟨m, q, rfl, hq, hq'⟩
  · rintro ⟨m, q, rfl, h1, h2⟩
    refine ⟨m, path, ⟨?_, ?_⟩, rfl, rfl⟩
    · rw [PyDict.mem_entries_iff _ hwf, (figures_spec l m).2.1, h1]
      exact h2
    · rw [(figures_spec l m).2.2, h1]
      rfl

/-- **Colours**: every line has a colour index; the lines of one (algorithm, trial) have the same one in all figures, those of different
ones have different ones. -/
theorem C96_colors (l : List PlotMsg) (m m' a a' : String) (t t' : Nat) (h : lineOf (Plotter.processAll l .fresh) m a t ≠ [])
    (h' : lineOf (Plotter.processAll l .fresh) m' a' t' ≠ []) :
    ∃ c c', (Plotter.processAll l .fresh).lineColor.get? (m, a, t) = some c ∧
      (Plotter.processAll l .fresh).lineColor.get? (m', a', t') = some c' ∧ (c = c' ↔ (a, t) = (a', t')) := by
  have ok := processAll_ok l
  generalize Plotter.processAll l .fresh = p at h h' ok
  have some_of : ∀ m a t, lineOf p m a t ≠ [] → ∃ c, p.lineColor.get? (m, a, t) = some c := by
    intro m a t h
    refine Option.isSome_iff_exists.1 ((ok.drawn m a t).1 ?_)
    unfold lineOf at h
    cases hd : p.data.get? (m, a, t) with
    | none => rw [hd] at h; exact absurd rfl h
    | some x => rfl
  obtain ⟨c, hc⟩ := some_of m a t h
  obtain ⟨c', hc'⟩ := some_of m' a' t' h'
  refine ⟨c, c', hc, hc', ?_, ?_⟩
  · rintro rfl
    exact ok.inj _ _ c (ok.known _ _ _ _ hc) (ok.known _ _ _ _ hc')
  · intro e
    have h1 := ok.known _ _ _ _ hc
    rw [e, ok.known _ _ _ _ hc'] at h1
    injection h1 with h1
    exact h1.symm

/-- **Markers, line styles and colours**: with the 12 markers, 7 styles and 13 colours of display_plots.py, two indices look alike
exactly if they are equal modulo 1092 — in particular the first 1092 lines all look different; and already the markers and styles
alone of the first 84 are different. -/
theorem C96_looks (i j : Nat) : (markerStyleColor 12 7 13 i = markerStyleColor 12 7 13 j ↔ i % 1092 = j % 1092) ∧
    (((markerStyleColor 12 7 13 i).1 = (markerStyleColor 12 7 13 j).1 ∧
      (markerStyleColor 12 7 13 i).2.1 = (markerStyleColor 12 7 13 j).2.1) ↔ i % 84 = j % 84) := by
  simp only [markerStyleColor, Prod.mk.injEq]
  omega

/-! ### Examples -/

example : lineOf (Plotter.processAll [.init "RuntimeLoss" "Loss" false false (some "a"), .init "RuntimeLoss" "Loss" false false (some "b"),
    .update "RuntimeLoss" "DGD" 0 0 (.fin 3), .update "RuntimeLoss" "DGD" 1 0 (.fin 4), .update "RuntimeLoss" "DGD" 0 1 .nan,
    .update "RuntimeLoss" "DGD" 0 2 (.fin 1)] .fresh) "RuntimeLoss" "DGD" 0 = [(0, 3), (2, 1)] := by
  rw [(C96_lines _ _ _ _).1]
  simp [pointsAfterInit, IsInit, pointFor, List.filterMap]

/-- two instances of one metric class in a trial draw on one line: their points are mixed in it -/
example : lineOf (Plotter.processAll [.init "RuntimeLoss" "Loss" false false none, .init "RuntimeLoss" "Loss" false false none,
    .update "RuntimeLoss" "DGD" 0 0 (.fin 3), .update "RuntimeLoss" "DGD" 0 0 (.fin 3)] .fresh) "RuntimeLoss" "DGD" 0 = [(0, 3), (0, 3)] := by
  rw [(C96_lines _ _ _ _).1]
  simp [pointsAfterInit, IsInit, pointFor, List.filterMap]

example : ("a", "M.png") ∈ (Plotter.processAll [.init "M" "x" false false (some "a"), .init "M" "x" false false (some "b")] .fresh).closeAll false ∧
    ("b", "M.png") ∉ (Plotter.processAll [.init "M" "x" false false (some "a"), .init "M" "x" false false (some "b")] .fresh).closeAll false := by
  decide

end Props
end Verif
