import Verif.Model.Display
import Mathlib.Tactic.Linarith
import Mathlib.Tactic.NormNum
import Mathlib.Tactic.IntervalCases
import Mathlib.Tactic.Ring
/-!
# C63 plot styles, C77 plotted data, C78 selection of what is displayed
-/
set_option linter.unusedSectionVars false
namespace Verif.Props
open Verif Verif.Display Verif.Metrics

/-! ### C63 -/

/-- **C63.** The marker cycles first; marker and line style together determine the index up to multiples of 84, so the first 84 algorithms
are pairwise distinguishable even in black and white. -/
theorem C63_marker_style (i j : Nat) :
    ((look i).1 = (look j).1 ∧ (look i).2.1 = (look j).2.1 ↔ i % 84 = j % 84) ∧
    ((look i).1 = (look j).1 ↔ i % 12 = j % 12) := by
  have hm : ∀ a < 12, ∀ b < 12, (markers.getD a "" = markers.getD b "" ↔ a = b) := by decide
  have hs : ∀ a < 7, ∀ b < 7, (styles.getD a "" = styles.getD b "" ↔ a = b) := by decide
  have e1 : ∀ i, (look i).1 = markers.getD (i % 84 % 12) "" := fun i => rfl
  have e2 : ∀ i, (look i).2.1 = styles.getD (i % 84 / 12 % 7) "" := fun i => rfl
  rw [e1, e1, e2, e2, hm _ (Nat.mod_lt _ (by decide)) _ (Nat.mod_lt _ (by decide)), hs _ (Nat.mod_lt _ (by decide)) _ (Nat.mod_lt _ (by decide))]
  constructor <;> omega

/-- **C63.** With colours, the first 1092 = 84 * 13 indices look different. -/
theorem C63_all (i j : Nat) : look i = look j ↔ i % 1092 = j % 1092 := by
  have hc : ∀ a < 13, ∀ b < 13, (colors.getD a "" = colors.getD b "" ↔ a = b) := by decide
  have e3 : ∀ i, (look i).2.2 = colors.getD (i % 13) "" := fun i => rfl
  have h1 : look i = look j ↔ ((look i).1 = (look j).1 ∧ (look i).2.1 = (look j).2.1) ∧ (look i).2.2 = (look j).2.2 := by
    rw [Prod.ext_iff, Prod.ext_iff, and_assoc]
  rw [h1, (C63_marker_style i j).1, e3, e3, hc _ (Nat.mod_lt _ (by decide)) _ (Nat.mod_lt _ (by decide))]
  omega

/-- **C63.** Hence any two of the first 84 lines of a plot differ in marker or line style. -/
theorem C63_distinct (i j : Nat) (hi : i < 84) (hj : j < 84) (h : i ≠ j) : (look i).1 ≠ (look j).1 ∨ (look i).2.1 ≠ (look j).2.1 := by
  by_contra hc
  push Not at hc
  have := (C63_marker_style i j).1.1 hc
  omega

example : look 0 = ("o", "-", "#1f77b4") ∧ look 13 = ("s", ":", "#1f77b4") ∧ look 85 = ("s", "-", "#7f7f7f") := by decide

/-! ### C77: truncation -/

theorem cutoff_none {f : List PRow} {a : String} : cutoff f a = none ↔ ∀ r ∈ f, r.alg = a → r.hasInf = false := by
  unfold cutoff
  rw [List.min?_eq_none_iff, List.map_eq_nil_iff, List.filter_eq_nil_iff]
  constructor
  · intro h r hr ha; have := h r hr; simpa [ha] using this
  · intro h r hr; simp only [Bool.and_eq_true, beq_iff_eq, not_and, Bool.not_eq_true]; exact h r hr

theorem cutoff_some {f : List PRow} {a : String} {c : Nat} (h : cutoff f a = some c) :
    (∃ r ∈ f, r.alg = a ∧ r.hasInf = true ∧ r.iteration = c) ∧ ∀ r ∈ f, r.alg = a → r.hasInf = true → c ≤ r.iteration := by
  unfold cutoff at h
  rw [List.min?_eq_some_iff] at h
  obtain ⟨h1, h2⟩ := h
  constructor
  · obtain ⟨r, hr, e⟩ := List.mem_map.1 h1
    rw [List.mem_filter] at hr
    simp at hr
    exact ⟨r, hr.1, hr.2.1, hr.2.2, e⟩
  · intro r hr ha hi
    exact h2 _ (List.mem_map.2 ⟨r, List.mem_filter.2 ⟨hr, by simp [ha, hi]⟩, rfl⟩)

/-- a row is drawn before the truncation point iff no infinite value of the same algorithm is at the same or an earlier iteration -/
theorem keeps_iff (f : List PRow) (r : PRow) :
    keeps f r = true ↔ ∀ q ∈ f, q.alg = r.alg → q.hasInf = true → r.iteration < q.iteration := by
  unfold keeps
  cases h : cutoff f r.alg with
  | none =>
    simp only [true_iff]
    intro q hq ha hi
    rw [(cutoff_none.1 h) q hq ha] at hi; cases hi
  | some c =>
    obtain ⟨⟨p, hp, pa, pi, pe⟩, h2⟩ := cutoff_some h
    simp only [decide_eq_true_eq]
    constructor
    · intro hlt q hq ha hi; exact lt_of_lt_of_le hlt (h2 q hq ha hi)
    · intro hq; rw [← pe]; exact hq p hp pa pi

/-- **C77.** Divergence truncates a curve and nothing else: without logarithmic axes, the rows drawn for a metric are, unchanged and in
order, those rows for which no infinite mean, min or max of the same algorithm lies at the same or an earlier iteration. In particular no
infinite value is drawn, and an algorithm that never diverges is drawn completely. -/
theorem C77_truncation (tiny : ℝ) (f : List PRow) :
    List.Sublist (prepare tiny false false f) f ∧
    (∀ r, r ∈ prepare tiny false false f ↔ r ∈ f ∧ ∀ q ∈ f, q.alg = r.alg → q.hasInf = true → r.iteration < q.iteration) ∧
    (∀ r ∈ prepare tiny false false f, r.hasInf = false) ∧
    (∀ a, (∀ q ∈ f, q.alg = a → q.hasInf = false) →
      (prepare tiny false false f).filter (fun r => r.alg == a) = f.filter (fun r => r.alg == a)) := by
  have e : prepare tiny false false f = truncate f := by simp [prepare, positive, shift]
  rw [e]
  unfold truncate
  have hm : ∀ r, r ∈ f.filter (keeps f) ↔ r ∈ f ∧ ∀ q ∈ f, q.alg = r.alg → q.hasInf = true → r.iteration < q.iteration := by
    intro r; rw [List.mem_filter, keeps_iff]
  refine ⟨List.filter_sublist, hm, ?_, ?_⟩
  · intro r hr
    obtain ⟨h1, h2⟩ := (hm r).1 hr
    cases hi : r.hasInf with
    | false => rfl
    | true => exact absurd (h2 r h1 rfl hi) (lt_irrefl _)
  · intro a ha
    rw [List.filter_filter]
    apply List.filter_congr
    intro r hr
    by_cases h : r.alg = a
    · have : keeps f r = true := by
        rw [keeps_iff]; intro q hq hqa hi
        rw [ha q hq (hqa.trans h)] at hi; cases hi
      simp [h, this]
    · simp [h]

/-- a run diverging at iteration 2 is drawn up to iteration 1; the other one completely -/
example (tiny : ℝ) : (prepare tiny false false [⟨"A", 0, .fin 1, .fin 1, .fin 1⟩, ⟨"A", 2, .fin 5, .fin 1, .posInf⟩, ⟨"A", 3, .fin 1, .fin 1, .fin 1⟩,
    ⟨"B", 2, .fin 1, .fin 1, .fin 1⟩]).map (fun r => (r.alg, r.iteration)) = [("A", 0), ("B", 2)] := by
  simp [prepare, positive, shift, truncate, keeps, cutoff, PRow.hasInf, isInf, List.min?]

/-! ### C77: logarithmic axes -/

theorem vmin_cases (a b : Val) : Val.vmin a b = a ∨ Val.vmin a b = b := by
  unfold Val.vmin; split
  · exact Or.inl rfl
  · exact Or.inr rfl

theorem foldr_vmin_mem (a : Val) (t : List Val) : t.foldr Val.vmin a = a ∨ t.foldr Val.vmin a ∈ t := by
  induction t with
  | nil => exact Or.inl rfl
  | cons b t ih =>
    rw [List.foldr_cons]
    rcases vmin_cases b (t.foldr Val.vmin a) with h | h <;> rw [h]
    · right; simp
    · rcases ih with h | h
      · left; exact h
      · right; simp [h]

/-- the replacement is always the constant: the branch for the smallest positive value is never taken -/
theorem replacement_eq (tiny : ℝ) (f : List PRow) : replacement tiny f = .fin tiny := by
  classical
  unfold replacement
  rw [if_neg]
  push Not
  set l := (values f).filter fun v => decide (isPos v) with hl
  have hp : ∀ v ∈ Val.dropna l, isPos v := by
    intro v hv
    have : v ∈ l := List.mem_of_mem_filter hv
    rw [hl, List.mem_filter] at this
    exact of_decide_eq_true this.2
  unfold Val.minimum
  cases h : Val.dropna l with
  | nil => trivial
  | cons a t =>
    have hm : isPos (t.foldr Val.vmin a) := by
      apply hp
      rw [h]
      rcases foldr_vmin_mem a t with e | e
      · rw [e]; simp
      · simp [e]
    show truthy (t.foldr Val.vmin a)
    generalize t.foldr Val.vmin a = v at hm
    cases v with
    | fin r => exact ne_of_gt hm
    | posInf => trivial
    | negInf => trivial
    | nan => trivial

theorem lift_pos (rep v : Val) (h : isPos v) : lift rep v = v := by
  classical
  unfold lift
  rw [if_neg]
  cases v with
  | fin r => exact not_le.2 h
  | posInf => exact id
  | negInf => exact fun _ => h
  | nan => exact id

/-- lift of a value which is not NaN -/
theorem lift_isPos (tiny : ℝ) (ht : 0 < tiny) (v : Val) (hv : v ≠ .nan) : isPos (lift (.fin tiny) v) := by
  classical
  unfold lift
  split
  · exact ht
  · rename_i h
    cases v with
    | fin r => exact not_le.1 h
    | posInf => trivial
    | negInf => exact absurd trivial h
    | nan => exact absurd rfl hv

theorem positive_eq (tiny : ℝ) (yLog : Bool) (f : List PRow) :
    positive tiny yLog f = if yLog then f.map (fun r => { r with mean := lift (.fin tiny) r.mean, min := lift (.fin tiny) r.min, max := lift (.fin tiny) r.max })
      else f := by
  classical
  unfold positive
  cases yLog with
  | false => simp
  | true =>
    simp only [true_and, if_true, replacement_eq]
    split
    · rfl
    · rename_i h
      push Not at h
      symm
      have hid : ∀ v ∈ values f, lift (.fin tiny) v = v := by
        intro v hv; unfold lift; rw [if_neg (h v hv)]
      have : ∀ r ∈ f, ({ r with mean := lift (.fin tiny) r.mean, min := lift (.fin tiny) r.min, max := lift (.fin tiny) r.max } : PRow) = r := by
        intro r hr
        have hin : ∀ v ∈ [r.mean, r.min, r.max], v ∈ values f := fun v hv => List.mem_flatMap.2 ⟨r, hr, hv⟩
        rw [hid _ (hin r.mean (by simp)), hid _ (hin r.min (by simp)), hid _ (hin r.max (by simp))]
      rw [List.map_congr_left this, List.map_id']

/-- **C77.** On a logarithmic y-axis every drawn number is positive, positive numbers are drawn as they are, and non-positive ones at the
constant `tiny` (1e-15). -/
theorem C77_y_log (tiny : ℝ) (ht : 0 < tiny) (xLog : Bool) (f : List PRow) (r : PRow) (hr : r ∈ prepare tiny xLog true f) :
    (∀ v ∈ [r.mean, r.min, r.max], v ≠ .nan → isPos v) ∧
    ∃ q ∈ truncate f, q.alg = r.alg ∧ (isPos q.mean → r.mean = q.mean) ∧ (isPos q.min → r.min = q.min) ∧ (isPos q.max → r.max = q.max) ∧
      (nonPos q.mean → r.mean = .fin tiny) ∧ (nonPos q.min → r.min = .fin tiny) ∧ (nonPos q.max → r.max = .fin tiny) := by
  classical
  have hlift : ∀ v, nonPos v → lift (.fin tiny) v = .fin tiny := fun v h => by unfold lift; rw [if_pos h]
  have hnn : ∀ v, lift (.fin tiny) v ≠ .nan → v ≠ .nan := by
    intro v h e; subst e; apply h; unfold lift; exact if_neg (fun h : nonPos .nan => h)
  have hcore : ∃ q ∈ truncate f, r.alg = q.alg ∧ r.mean = lift (.fin tiny) q.mean ∧ r.min = lift (.fin tiny) q.min ∧ r.max = lift (.fin tiny) q.max := by
    unfold prepare shift at hr
    rw [positive_eq, if_pos rfl] at hr
    split at hr
    · simp only [List.mem_map] at hr
      obtain ⟨p, ⟨q, hq, e⟩, e'⟩ := hr
      subst e; subst e'
      exact ⟨q, hq, rfl, rfl, rfl, rfl⟩
    · simp only [List.mem_map] at hr
      obtain ⟨q, hq, e⟩ := hr
      subst e
      exact ⟨q, hq, rfl, rfl, rfl, rfl⟩
  obtain ⟨q, hq, ea, e1, e2, e3⟩ := hcore
  refine ⟨?_, q, hq, ea.symm, ?_, ?_, ?_, ?_, ?_, ?_⟩
  · intro v hv hn
    simp only [List.mem_cons, List.not_mem_nil, or_false] at hv
    rcases hv with rfl | rfl | rfl
    · rw [e1] at hn ⊢; exact lift_isPos tiny ht _ (hnn _ hn)
    · rw [e2] at hn ⊢; exact lift_isPos tiny ht _ (hnn _ hn)
    · rw [e3] at hn ⊢; exact lift_isPos tiny ht _ (hnn _ hn)
  · intro h; rw [e1, lift_pos _ _ h]
  · intro h; rw [e2, lift_pos _ _ h]
  · intro h; rw [e3, lift_pos _ _ h]
  · intro h; rw [e1, hlift _ h]
  · intro h; rw [e2, hlift _ h]
  · intro h; rw [e3, hlift _ h]

/-- a consensus error that reached exactly 0 in some trial -/
example : ∃ r ∈ prepare 1e-15 false true [⟨"A", 0, .fin 1, .fin 0, .fin 2⟩], r.min = .fin 1e-15 := by
  refine ⟨⟨"A", 0, .fin 1, .fin 1e-15, .fin 2⟩, ?_, rfl⟩
  have ht : truncate [⟨"A", 0, .fin 1, .fin 0, .fin 2⟩] = [⟨"A", 0, .fin 1, .fin 0, .fin 2⟩] := by
    simp [truncate, keeps, cutoff, PRow.hasInf, isInf]
  unfold prepare
  have h0 : lift (.fin 1e-15) (.fin 0) = .fin 1e-15 := by unfold lift; exact if_pos (le_refl (0 : ℝ))
  rw [ht, positive_eq]
  simp [shift, h0, lift_pos (.fin 1e-15) (.fin 1) (by show (0 : ℝ) < 1; norm_num), lift_pos (.fin 1e-15) (.fin 2) (by show (0 : ℝ) < 2; norm_num)]

/-- **C77 (refuted: the drawn mean lies in the drawn band).** If the smallest trial is not positive and the mean is positive but below the
constant, the lower end of the band is drawn above the mean. -/
theorem C77_band_above_mean (tiny m : ℝ) (hm : 0 < m) (hlt : m < tiny) (lo hi : Val) (hlo : nonPos lo) (hhi : isPos hi) (hhi' : hi ≠ .posInf)
    (hlo' : lo ≠ .negInf) (a : String) (it : Nat) :
    prepare tiny false true [⟨a, it, .fin m, lo, hi⟩] = [⟨a, it, .fin m, .fin tiny, hi⟩] ∧ m < tiny := by
  classical
  have htr : truncate [⟨a, it, .fin m, lo, hi⟩] = [⟨a, it, .fin m, lo, hi⟩] := by
    have h1 : isInf lo = false := by cases lo <;> first | rfl | exact absurd rfl hlo' | exact absurd hlo (fun h => h)
    have h2 : isInf hi = false := by cases hi <;> first | rfl | exact absurd rfl hhi' | exact absurd hhi (fun h => h)
    have hi : PRow.hasInf ⟨a, it, .fin m, lo, hi⟩ = false := by
      unfold PRow.hasInf; simp only [h1, h2]; rfl
    unfold truncate
    rw [List.filter_eq_self]
    intro r hr
    rw [keeps_iff]
    intro q hq _ hqi
    rw [List.mem_singleton] at hq
    rw [hq, hi] at hqi; cases hqi
  refine ⟨?_, hlt⟩
  unfold prepare
  rw [htr, positive_eq, if_pos rfl]
  simp only [shift, Bool.false_and, Bool.false_eq_true, if_false, List.map_cons, List.map_nil]
  rw [lift_pos _ (.fin m) hm, lift_pos _ hi hhi]
  unfold lift
  rw [if_pos hlo]

example : prepare 1e-15 false true [⟨"A", 3, .fin 1e-16, .fin (-1e-16), .fin 3e-16⟩] = [⟨"A", 3, .fin 1e-16, .fin 1e-15, .fin 3e-16⟩] :=
  (C77_band_above_mean 1e-15 1e-16 (by norm_num) (by norm_num) _ _ (by simp [nonPos]; norm_num) (by simp [isPos]; norm_num) (by simp) (by simp) _ _).1

/-- **C77.** On a logarithmic x-axis all drawn iterations are positive; either all rows of the metric are shifted by one or none. -/
theorem C77_x_log (tiny : ℝ) (yLog : Bool) (f : List PRow) :
    (∀ r ∈ prepare tiny true yLog f, 0 < r.iteration) ∧
    ((prepare tiny true yLog f).map PRow.iteration = (truncate f).map PRow.iteration ∨
      (prepare tiny true yLog f).map PRow.iteration = (truncate f).map fun r => r.iteration + 1) := by
  have hp : (positive tiny yLog (truncate f)).map PRow.iteration = (truncate f).map PRow.iteration := by
    rw [positive_eq]; split
    · rw [List.map_map]; rfl
    · rfl
  unfold prepare shift
  simp only [Bool.true_and]
  by_cases h : (positive tiny yLog (truncate f)).any (fun r => r.iteration == 0) = true
  · rw [if_pos h]
    refine ⟨?_, Or.inr ?_⟩
    · intro r hr
      obtain ⟨q, _, rfl⟩ := List.mem_map.1 hr
      exact Nat.succ_pos _
    · rw [List.map_map]
      have : (PRow.iteration ∘ fun r : PRow => { r with iteration := r.iteration + 1 }) = (fun k => k + 1) ∘ PRow.iteration := rfl
      rw [this, ← List.map_map, hp, List.map_map]; rfl
  · rw [if_neg h]
    refine ⟨?_, Or.inl hp⟩
    intro r hr
    rcases Nat.eq_zero_or_pos r.iteration with e | e
    · exact absurd (List.any_eq_true.2 ⟨r, hr, by simp [e]⟩) h
    · exact e

/-! ### C77: the cost axis -/

/-- the documented total cost: mean number of calls times cost per call -/
noncomputable def documentedCost (c : Counts) (agents : List Counts) : ℝ :=
  (agents.map fun a => c.function * a.function + c.gradient * a.gradient + c.hessian * a.hessian + c.proximal * a.proximal + c.sent * a.sent).sum /
    agents.length

/-- the scaling factor is the documented total cost of the whole run, averaged over agents and trials -/
theorem C77_total_cost (c : Counts) (agents : List Counts) : totalCost c agents = documentedCost c agents := by
  have h : ∀ l : List Counts, (l.map fun a => c.function * a.function + c.gradient * a.gradient + c.hessian * a.hessian + c.proximal * a.proximal + c.sent * a.sent).sum =
      c.function * (l.map Counts.function).sum + c.gradient * (l.map Counts.gradient).sum + c.hessian * (l.map Counts.hessian).sum +
        c.proximal * (l.map Counts.proximal).sum + c.sent * (l.map Counts.sent).sum := by
    intro l
    induction l with
    | nil => simp
    | cons a l ih => simp only [List.map_cons, List.sum_cons, ih]; ring
  unfold totalCost documentedCost npMean
  rw [h]
  simp only [List.length_map]
  ring

/-- **C77 (refuted: the cost axis ends at the total cost).** A curve's point at the final iteration `N` is placed at `N` times the (scaled)
documented total cost, not at the total cost: the axis is too long by a factor of the number of iterations, and the relative position of
two algorithms with the same total cost but different numbers of iterations is distorted. -/
theorem C77_cost_axis (c : Counts) (scale : ℝ) (agentsOf : String → List Counts) (r : PRow)
    (h : documentedCost c (agentsOf r.alg) * scale ≠ 0) :
    computeAxis c scale agentsOf r = r.iteration * (documentedCost c (agentsOf r.alg) * scale) ∧
    (computeAxis c scale agentsOf r = documentedCost c (agentsOf r.alg) * scale ↔ r.iteration = 1) := by
  unfold computeAxis
  rw [C77_total_cost]
  refine ⟨rfl, ?_⟩
  constructor
  · intro e
    have : ((r.iteration : ℝ) - 1) * (documentedCost c (agentsOf r.alg) * scale) = 0 := by rw [sub_mul, e]; ring
    rcases mul_eq_zero.1 this with e | e
    · have : (r.iteration : ℝ) = 1 := by linarith
      exact_mod_cast this
    · exact absurd e h
  · intro e; rw [e]; simp

example : computeAxis ⟨1, 1, 1, 1, 1⟩ 1 (fun _ => [⟨0, 100, 0, 0, 100⟩]) ⟨"A", 100, .fin 0, .fin 0, .fin 0⟩ = 20000 := by
  simp only [computeAxis, totalCost, npMean, List.map_cons, List.map_nil, List.sum_cons, List.sum_nil, List.length_singleton]; norm_num

/-! ### C77: figures and lines -/

theorem chunks_spec {α : Type} (n : Nat) (hn : 0 < n) (fuel : Nat) (l : List α) (hf : l.length ≤ fuel) :
    (chunks n fuel l).flatten = l ∧ ∀ g ∈ chunks n fuel l, g ≠ [] ∧ g.length ≤ n := by
  induction fuel generalizing l with
  | zero =>
    have : l = [] := List.length_eq_zero_iff.1 (by omega)
    subst this; simp [chunks]
  | succ fuel ih =>
    cases l with
    | nil => simp [chunks]
    | cons a t =>
      obtain ⟨h1, h2⟩ := ih ((a :: t).drop n) (by simp only [List.length_drop, List.length_cons] at hf ⊢; omega)
      simp only [chunks]
      constructor
      · rw [List.flatten_cons, h1, List.take_append_drop]
      · intro g hg
        rcases List.mem_cons.1 hg with rfl | hg
        · refine ⟨?_, by simp only [List.length_take]; omega⟩
          intro e
          have := congrArg List.length e
          simp only [List.length_take, List.length_cons, List.length_nil] at this; omega
        · exact h2 g hg

/-- **C77.** The figures partition the metrics in order, with one metric each if individual plots were requested and at most three
otherwise. -/
theorem C77_figures {α : Type} (ms : List α) (individual : Bool) :
    (groups ms individual).flatten = ms ∧ (∀ g ∈ groups ms individual, g ≠ [] ∧ g.length ≤ 3) ∧
    (individual = true → ∀ g ∈ groups ms individual, g.length = 1) := by
  unfold groups
  cases individual with
  | true =>
    simp only [if_true]
    refine ⟨?_, ?_, ?_⟩
    · induction ms with
      | nil => rfl
      | cons a t ih => simp [ih]
    · intro g hg; obtain ⟨m, _, rfl⟩ := List.mem_map.1 hg; simp
    · intro _ g hg; obtain ⟨m, _, rfl⟩ := List.mem_map.1 hg; rfl
  | false =>
    obtain ⟨h1, h2⟩ := chunks_spec 3 (by omega) ms.length ms (le_refl _)
    exact ⟨h1, h2, by simp⟩

example : groups [1, 2, 3, 4] false = [[1, 2, 3], [4]] := by decide

theorem mem_algsOf (f : List PRow) (a : String) : a ∈ algsOf f ↔ ∃ r ∈ f, r.alg = a := by
  unfold algsOf
  rw [List.mem_reverse, List.mem_dedup, List.mem_reverse, List.mem_map]

/-- **C77.** In every metric's plot the algorithms of the first metric are drawn, each once, with exactly its prepared rows of this metric
and with the same look in all metrics. -/
theorem C77_lines (first : PMetric × List PRow) (rest : List (PMetric × List PRow)) (m : PMetric) (f : List PRow) (h : (m, f) ∈ first :: rest) :
    ∃ lines, (m, lines) ∈ draw (first :: rest) ∧ lines.map Line.label = algsOf first.2 ∧ (lines.map Line.label).Nodup ∧
      ∀ (i : Nat) (l : Line), lines[i]? = some l → l.rows = f.filter (fun r => r.alg == l.label) ∧ l.style = look i := by
  refine ⟨linesOf (algsOf first.2) f, List.mem_map.2 ⟨(m, f), h, rfl⟩, ?_, ?_, ?_⟩
  · unfold linesOf; rw [List.map_map]
    have : (Line.label ∘ fun p : String × Nat => (⟨p.1, look p.2, f.filter fun r => r.alg == p.1⟩ : Line)) = Prod.fst := rfl
    rw [this, List.zipIdx_map_fst]
  · have : (linesOf (algsOf first.2) f).map Line.label = algsOf first.2 := by
      unfold linesOf; rw [List.map_map]
      have : (Line.label ∘ fun p : String × Nat => (⟨p.1, look p.2, f.filter fun r => r.alg == p.1⟩ : Line)) = Prod.fst := rfl
      rw [this, List.zipIdx_map_fst]
    rw [this]
    unfold algsOf
    exact List.nodup_reverse.2 (List.nodup_dedup _)
  · intro i l hl
    unfold linesOf at hl
    rw [List.getElem?_map, List.getElem?_zipIdx] at hl
    cases hx : (algsOf first.2)[i]? with
    | none => rw [hx] at hl; simp at hl
    | some a => rw [hx] at hl; simp at hl; subst hl; exact ⟨rfl, rfl⟩

/-- **C77 (refuted: every algorithm with finite data is drawn).** If an algorithm's first value of the *first* metric is already infinite, it
is missing from the plots of all metrics, even of those in which all its values are finite. -/
theorem C77_missing_algorithm (tiny : ℝ) (results : List (String × PRow)) (m : PMetric) (rest : List PMetric) (a : String)
    (hdiv : ∃ q ∈ framesOf results m, q.alg = a ∧ q.hasInf = true ∧ ∀ r ∈ framesOf results m, r.alg = a → q.iteration ≤ r.iteration) :
    ∀ p ∈ draw (preprocess tiny results (m :: rest)), ∀ l ∈ p.2, l.label ≠ a := by
  obtain ⟨q, hq, qa, qi, qmin⟩ := hdiv
  have hempty : a ∉ algsOf (prepare tiny m.xLog m.yLog (framesOf results m)) := by
    rw [mem_algsOf]
    rintro ⟨r, hr, ra⟩
    have hal : ∃ r' ∈ truncate (framesOf results m), r'.alg = a := by
      unfold prepare shift at hr
      rw [positive_eq] at hr
      split at hr <;> split at hr
      all_goals
        try simp only [List.mem_map] at hr
        first
        | (obtain ⟨x, ⟨y, hy, e⟩, e'⟩ := hr; subst e; subst e'; exact ⟨y, hy, ra⟩)
        | (obtain ⟨y, hy, e⟩ := hr; subst e; exact ⟨y, hy, ra⟩)
        | exact ⟨r, hr, ra⟩
    obtain ⟨r', hr', ra'⟩ := hal
    unfold truncate at hr'
    rw [List.mem_filter, keeps_iff] at hr'
    have := hr'.2 q hq (qa.trans ra'.symm) qi
    have := qmin r' hr'.1 ra'
    omega
  intro p hp l hl
  unfold preprocess at hp
  rw [List.map_cons] at hp
  unfold draw at hp
  obtain ⟨x, _, e⟩ := List.mem_map.1 hp
  subst e
  unfold linesOf at hl
  obtain ⟨y, hy, e⟩ := List.mem_map.1 hl
  subst e
  intro e
  apply hempty
  have h := List.fst_mem_of_mem_zipIdx hy
  change y.1 = a at e
  rw [e] at h
  exact h

/-- algorithm A starts with an infinite regret and vanishes from the plot of the finite loss -/
example : ∀ p ∈ draw (preprocess 1e-15 [("regret", ⟨"A", 0, .posInf, .posInf, .posInf⟩), ("loss", ⟨"A", 0, .fin 1, .fin 1, .fin 1⟩),
    ("loss", ⟨"B", 0, .fin 1, .fin 1, .fin 1⟩)] [⟨"regret", false, true⟩, ⟨"loss", false, false⟩]), ∀ l ∈ p.2, l.label ≠ "A" :=
  C77_missing_algorithm _ _ _ _ _ ⟨⟨"A", 0, .posInf, .posInf, .posInf⟩, by simp [framesOf], rfl, rfl, by simp [framesOf]⟩

/-- **C77.** The legend gets a figure of its own exactly from 9 lines on, or from 6 lines if a name is longer than 24 characters; it has at
most 3 columns and enough rows. -/
theorem C77_legend (labels : List String) :
    ((legend labels).1 = true ↔ 9 ≤ labels.length ∨ (6 ≤ labels.length ∧ ∃ s ∈ labels, 24 < s.length)) ∧
    (legend labels).2.1 ≤ 3 ∧ labels.length ≤ (legend labels).2.1 * (legend labels).2.2 := by
  have hmax : ∀ l : List Nat, 24 < l.foldr max 0 ↔ ∃ n ∈ l, 24 < n := by
    intro l
    induction l with
    | nil => simp
    | cons a t ih => simp [ih]
  have hl : 24 < (labels.map String.length).foldr max 0 ↔ ∃ s ∈ labels, 24 < s.length := by
    rw [hmax]; simp
  rw [← hl]
  simp only [legend, Bool.or_eq_true, Bool.and_eq_true, decide_eq_true_eq]
  generalize (labels.map String.length).foldr max 0 = L
  generalize labels.length = n
  rcases Nat.lt_or_ge n 3 with h | h
  · interval_cases n <;> simp <;> omega
  · have e : min (max n 1) 3 = 3 := by omega
    rw [e]
    refine ⟨?_, le_refl _, ?_⟩ <;> omega

example : (legend ["a", "b", "c", "d"]) = (false, 3, 2) := by decide

/-! ### C78 -/

section
variable {β : Type}

/-- requested by name; everything is requested by default -/
def Wants (req : Option (List String)) (a : String) : Prop := ∀ l, req = some l → a ∈ l

/-- a result as the backend builds it: every raw frame and the aggregated frames speak about the same algorithms and metrics -/
structure Backend (r : Result β) : Prop where
  algs : ∀ d, (r.rawTable = some d ∨ r.rawPlot = some d) → ∀ p ∈ d, ∀ a, a ∈ r.algorithms ↔ a ∈ p.2.map Prod.fst
  table : ∀ d, r.table = some d → ∀ row ∈ d, row.1 ∈ metricsOf r.rawTable ∧ row.2.1 ∈ r.algorithms
  plot : ∀ d, r.plot = some d → ∀ row ∈ d, row.1 ∈ metricsOf r.rawPlot ∧ row.2.1 ∈ r.algorithms

theorem mem_select (av : List String) (req : Option (List String)) (a : String) : a ∈ select av req ↔ a ∈ av ∧ Wants req a := by
  unfold Wants select
  cases req with
  | none => simp
  | some l => simp

theorem mem_metricsOf (d : List (String × List (String × β))) (m : String) : m ∈ metricsOf (some d) ↔ ∃ p ∈ d, p.1 = m := by
  unfold metricsOf; rw [List.mem_dedup, List.mem_map]

theorem rows_select (av av' : List String) (mreq areq : Option (List String)) (d : List (String × String × β))
    (h : ∀ row ∈ d, row.1 ∈ av ∧ row.2.1 ∈ av') (row : String × String × β) (keep : List (String × String × β))
    (hk : dropRows (select av mreq) (select av' areq) (some d) = some keep) :
    keep.Sublist d ∧ (row ∈ keep ↔ row ∈ d ∧ Wants mreq row.1 ∧ Wants areq row.2.1) := by
  unfold dropRows at hk
  simp only [Option.map_some, Option.some.injEq] at hk
  subst hk
  refine ⟨(List.filter_sublist).trans List.filter_sublist, ?_⟩
  rw [List.mem_filter, List.mem_filter, decide_eq_true_eq, decide_eq_true_eq, mem_select, mem_select]
  constructor
  · rintro ⟨⟨h1, _, h2⟩, _, h3⟩; exact ⟨h1, h2, h3⟩
  · rintro ⟨h1, h2, h3⟩; exact ⟨⟨h1, (h row h1).1, h2⟩, (h row h1).2, h3⟩

/-- **C78.** Something is displayed iff at least one requested algorithm and at least one requested metric are available. -/
theorem C78_something (r : Result β) (tm pm al : Option (List String)) :
    (displayed r tm pm al).isSome = true ↔
      (∃ a ∈ r.algorithms, Wants al a) ∧ ((∃ m ∈ metricsOf r.rawTable, Wants tm m) ∨ ∃ m ∈ metricsOf r.rawPlot, Wants pm m) := by
  have hne : ∀ (av : List String) (req : Option (List String)), select av req ≠ [] ↔ ∃ a ∈ av, Wants req a := by
    intro av req
    constructor
    · intro h
      obtain ⟨a, ha⟩ := List.exists_mem_of_ne_nil _ h
      exact ⟨a, (mem_select av req a).1 ha⟩
    · rintro ⟨a, h1, h2⟩; exact List.ne_nil_of_mem ((mem_select av req a).2 ⟨h1, h2⟩)
  rw [← hne, ← hne, ← hne]
  simp only [displayed]
  split
  · rename_i h; simp; tauto
  · rename_i h; push Not at h; simp; tauto

/-- **C78.** The displayed rows of the table and of the plots are, in their order, exactly those whose metric and algorithm were both
requested; tables and plots are selected independently; the input is not altered. -/
theorem C78_rows (r : Result β) (hr : Backend r) (tm pm al : Option (List String)) (s : Shown β) (h : displayed r tm pm al = some s) :
    (∀ d, r.table = some d → (∃ m ∈ metricsOf r.rawTable, Wants tm m) → ∃ rows, s.table = some rows ∧ rows.Sublist d ∧
      ∀ row, row ∈ rows ↔ row ∈ d ∧ Wants tm row.1 ∧ Wants al row.2.1) ∧
    (∀ d, r.plot = some d → (∃ m ∈ metricsOf r.rawPlot, Wants pm m) → ∃ rows, s.plot = some rows ∧ rows.Sublist d ∧
      ∀ row, row ∈ rows ↔ row ∈ d ∧ Wants pm row.1 ∧ Wants al row.2.1) ∧
    ((¬ ∃ m ∈ metricsOf r.rawTable, Wants tm m) → s.table = none ∧ s.rawTable = none) ∧
    ((¬ ∃ m ∈ metricsOf r.rawPlot, Wants pm m) → s.plot = none ∧ s.rawPlot = none) := by
  have hne : ∀ (av : List String) (req : Option (List String)), (∃ a ∈ av, Wants req a) ↔ select av req ≠ [] := by
    intro av req
    constructor
    · rintro ⟨a, h1, h2⟩; exact List.ne_nil_of_mem ((mem_select av req a).2 ⟨h1, h2⟩)
    · intro h
      obtain ⟨a, ha⟩ := List.exists_mem_of_ne_nil _ h
      exact ⟨a, (mem_select av req a).1 ha⟩
  simp only [displayed] at h
  split at h
  · cases h
  · injection h with h
    subst h
    refine ⟨?_, ?_, ?_, ?_⟩
    · intro d hd hm
      rw [hne] at hm
      simp only [if_neg hm, hd]
      refine ⟨_, rfl, ?_, fun row => ?_⟩
      · exact (List.filter_sublist).trans List.filter_sublist
      · exact (rows_select _ _ tm al d (hr.table d hd) row _ rfl).2
    · intro d hd hm
      rw [hne] at hm
      simp only [if_neg hm, hd]
      refine ⟨_, rfl, ?_, fun row => ?_⟩
      · exact (List.filter_sublist).trans List.filter_sublist
      · exact (rows_select _ _ pm al d (hr.plot d hd) row _ rfl).2
    · intro hm
      rw [hne] at hm
      push Not at hm
      simp [hm]
    · intro hm
      rw [hne] at hm
      push Not at hm
      simp [hm]

theorem dropRaw_some (ms as : List String) (d k : List (String × List (String × β))) (h : d.filter (fun p => decide (p.1 ∈ ms)) = k) (hk : k ≠ []) :
    dropRaw ms as (some d) = some (k.map fun p => (p.1, p.2.filter fun r => decide (r.1 ∈ as))) := by
  cases d with
  | nil => simp at h; exact absurd h.symm (by simpa using hk)
  | cons p0 d0 =>
    cases k with
    | nil => exact absurd rfl hk
    | cons k0 k1 => simp only [dropRaw, h]

/-- **C78.** The raw frames that drive formatting, axes and figures are those of the requested metrics, with the rows of the requested
algorithms. -/
theorem C78_raw (r : Result β) (hr : Backend r) (tm pm al : Option (List String)) (s : Shown β) (h : displayed r tm pm al = some s)
    (d : List (String × List (String × β))) (hd : r.rawPlot = some d) (hm : ∃ m ∈ metricsOf r.rawPlot, Wants pm m) :
    ∃ k, s.rawPlot = some k ∧ k.map Prod.fst = (d.map Prod.fst).filter (fun m => open Classical in decide (Wants pm m)) ∧
      ∀ m rows, (m, rows) ∈ k ↔ ∃ all, (m, all) ∈ d ∧ Wants pm m ∧ rows = all.filter (fun x => open Classical in decide (Wants al x.1)) := by
  classical
  have hsel : select (metricsOf r.rawPlot) pm ≠ [] := by
    obtain ⟨m, h1, h2⟩ := hm
    exact List.ne_nil_of_mem ((mem_select _ pm m).2 ⟨h1, h2⟩)
  simp only [displayed] at h
  split at h
  · cases h
  · injection h with h
    subst h
    simp only [if_neg hsel]
    have hfil : d.filter (fun p => decide (p.1 ∈ select (metricsOf r.rawPlot) pm)) = d.filter fun p => decide (Wants pm p.1) := by
      apply List.filter_congr
      intro p hp
      congr 1
      rw [mem_select, hd, mem_metricsOf]
      exact propext ⟨fun x => x.2, fun x => ⟨⟨p, hp, rfl⟩, x⟩⟩
    have hk0 : d.filter (fun p => decide (Wants pm p.1)) ≠ [] := by
      obtain ⟨m, h1, h2⟩ := hm
      rw [hd, mem_metricsOf] at h1
      obtain ⟨p, hp, e⟩ := h1
      exact List.ne_nil_of_mem (List.mem_filter.2 ⟨hp, by simp [e, h2]⟩)
    have hrow : ∀ p ∈ d, p.2.filter (fun x => decide (x.1 ∈ select r.algorithms al)) = p.2.filter fun x => decide (Wants al x.1) := by
      intro p hp
      apply List.filter_congr
      intro x hx
      congr 1
      rw [mem_select]
      exact propext ⟨fun y => y.2, fun y => ⟨(hr.algs d (Or.inr hd) p hp x.1).2 (List.mem_map.2 ⟨x, hx, rfl⟩), y⟩⟩
    refine ⟨(d.filter fun p => decide (Wants pm p.1)).map fun p => (p.1, p.2.filter fun x => decide (x.1 ∈ select r.algorithms al)), ?_, ?_, ?_⟩
    · rw [hd]
      rw [hd] at hfil
      cases hdd : d with
      | nil => rw [hdd] at hk0; simp at hk0
      | cons p0 d0 =>
        rw [← hdd]
        exact dropRaw_some _ _ d _ hfil hk0
    · rw [List.map_map, List.filter_map]; rfl
    · intro m rows
      rw [List.mem_map]
      constructor
      · rintro ⟨p, hp, e⟩
        rw [List.mem_filter] at hp
        injection e with e1 e2
        refine ⟨p.2, by rw [← e1]; exact hp.1, by rw [← e1]; simpa using hp.2, ?_⟩
        rw [← e2, hrow p hp.1]
      · rintro ⟨all, h1, h2, h3⟩
        exact ⟨(m, all), List.mem_filter.2 ⟨h1, by simpa using h2⟩, by rw [h3]; simp only [hrow _ h1]⟩

/-- two algorithms, two plot metrics; one of each requested -/
def shownExample : Result Nat :=
  ⟨some ["A", "B"], none, some [("loss", [("A", 1), ("B", 2)]), ("regret", [("A", 3), ("B", 4)])], none,
    some [("loss", "A", 10), ("loss", "B", 20), ("regret", "A", 30), ("regret", "B", 40)]⟩

example : (displayed shownExample none (some ["loss", "unknown"]) (some ["B"])).map (fun s => (s.views, s.rawPlot, s.plot, s.table)) =
    some (some ["B"], some [("loss", [("B", 2)])], some [("loss", "B", 20)], none) := by
  simp [displayed, shownExample, Result.algorithms, metricsOf, select, dropRaw, dropRows]
example : Backend shownExample := by
  constructor
  · rintro d (h | h)
    · simp [shownExample] at h
    · simp [shownExample] at h
      subst h
      intro p hp a
      simp at hp
      rcases hp with rfl | rfl <;> simp [shownExample, Result.algorithms]
  · intro d h; simp [shownExample] at h
  · intro d h
    simp [shownExample] at h
    subst h
    decide
end

end Verif.Props
