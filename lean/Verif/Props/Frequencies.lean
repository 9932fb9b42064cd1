import Verif.Props.Schemes
import Verif.Lemmas.Tape
import Mathlib.Analysis.SpecificLimits.Basic
import Mathlib.Algebra.Order.Field.GeomSum
import Mathlib.Tactic.FieldSimp
set_option linter.unusedSectionVars false
/-!
# C123: how often agents are active and messages are dropped
-/
namespace Verif.Props
open Verif.Schemes Verif.Tape MeasureTheory ProbabilityTheory Filter
open scoped Topology

/-- share of the first `T` queries answered `true` -/
noncomputable def share (ans : ℕ → Bool) (T : ℕ) : ℝ := (((Finset.range T).filter (fun t => ans t = true)).card : ℝ) / T

section chains

theorem two_state (x : ℕ → ℝ) (a b : ℝ) (hab : a + b ≠ 0) (h : ∀ t, x (t + 1) = x t * (1 - a) + (1 - x t) * b) (t : ℕ) :
    x t = b / (a + b) + (x 0 - b / (a + b)) * (1 - a - b) ^ t := by
  induction t with
  | zero => ring
  | succ t ih =>
    rw [h, ih, pow_succ]
    field_simp
    ring

/-- averages of `π + c rᵗ` tend to `π` -/
theorem cesaro (m c r : ℝ) (h1 : |r| ≤ 1) (h2 : r ≠ 1) : Tendsto (fun T : ℕ => (∑ t ∈ Finset.range T, (m + c * r ^ t)) / T) atTop (𝓝 m) := by
  have h3 : r - 1 ≠ 0 := sub_ne_zero.2 h2
  have e : ∀ T : ℕ, T ≠ 0 → (∑ t ∈ Finset.range T, (m + c * r ^ t)) / T = m + (c * ((r ^ T - 1) / (r - 1))) * (1 / (T : ℝ)) := by
    intro T hT
    have : (T : ℝ) ≠ 0 := by exact_mod_cast hT
    rw [Finset.sum_add_distrib, ← Finset.mul_sum, geom_sum_eq h2, Finset.sum_const, Finset.card_range, nsmul_eq_mul]
    field_simp
  have hz : Tendsto (fun T : ℕ => (c * ((r ^ T - 1) / (r - 1))) * (1 / (T : ℝ))) atTop (𝓝 0) := by
    have hb : ∀ T : ℕ, |c * ((r ^ T - 1) / (r - 1))| ≤ |c| * (2 / |r - 1|) := by
      intro T
      rw [abs_mul, abs_div]
      have : |r ^ T - 1| ≤ 2 := by
        have h4 : |r ^ T| ≤ 1 := by rw [abs_pow]; exact pow_le_one₀ (abs_nonneg _) h1
        have := abs_sub (r ^ T) 1
        rw [abs_one] at this
        linarith
      have : |r ^ T - 1| / |r - 1| ≤ 2 / |r - 1| := div_le_div_of_nonneg_right this (abs_nonneg _)
      exact mul_le_mul_of_nonneg_left this (abs_nonneg _)
    have hl : Tendsto (fun T : ℕ => (|c| * (2 / |r - 1|)) * (1 / (T : ℝ))) atTop (𝓝 0) := by
      have := (tendsto_one_div_atTop_nhds_zero_nat (𝕜 := ℝ)).const_mul (|c| * (2 / |r - 1|))
      rwa [mul_zero] at this
    refine squeeze_zero_norm (fun T => ?_) hl
    rw [Real.norm_eq_abs, abs_mul, abs_of_nonneg (show (0 : ℝ) ≤ 1 / (T : ℝ) by positivity)]
    exact mul_le_mul_of_nonneg_right (hb T) (by positivity)
  have := hz.const_add m
  rw [add_zero] at this
  refine this.congr' ?_
  filter_upwards [eventually_ne_atTop 0] with T hT
  exact (e T hT).symm

variable {Ω : Type} [MeasurableSpace Ω] {P : Measure Ω} {U : ℕ → Ω → ℝ}

/-- C123, Markov activation: the agent is active at its `t`-th query with probability `π + (1-π)(1-i2a-a2i)^(t+1)`, `π = i2a / (i2a + a2i)`; given that it is
active, it is active at the next query with probability `1 - a2i`. -/
theorem C123_markov (hU : Uniform P U) (i2a a2i : ℝ) (s : Ω → Markov) (hs : ∀ ω, Markov.ctor i2a a2i (fun n => U n ω) = .ok (s ω)) (t : ℕ) :
    (a2i + i2a ≠ 0 → P.real {ω | answer (Markov.isActive (fun n => U n ω)) (s ω) t = true} = i2a / (a2i + i2a) + (1 - i2a / (a2i + i2a)) * (1 - a2i - i2a) ^ (t + 1)) ∧
    P.real {ω | answer (Markov.isActive (fun n => U n ω)) (s ω) t = true ∧ answer (Markov.isActive (fun n => U n ω)) (s ω) (t + 1) = true} =
      P.real {ω | answer (Markov.isActive (fun n => U n ω)) (s ω) t = true} * (1 - a2i) := by
  have hprob := hU.prob
  obtain ⟨ω0⟩ : Nonempty Ω := by
    by_contra hne
    rw [not_nonempty_iff] at hne
    exact absurd (measure_univ (μ := P)) (by rw [Set.univ_eq_empty_iff.2 hne]; simp)
  obtain ⟨hi, ha⟩ : (0 ≤ i2a ∧ i2a ≤ 1) ∧ (0 ≤ a2i ∧ a2i ≤ 1) := by
    have := hs ω0
    unfold Markov.ctor at this
    split_ifs at this with hg
    push Not at hg
    exact ⟨hg.1, hg.2⟩
  have hch := fun ω => C15_markov i2a a2i (fun n => U n ω) (fun n => hU.range n ω) (s ω) (hs ω)
  choose chain h0 hstep hans using hch
  simp only [hans]
  have hm : ∀ t, MeasurableSet[past U (t + 1)] {ω | chain ω t = true} := by
    intro t
    induction t with
    | zero =>
      have : {ω | chain ω 0 = true} = Set.univ := by ext ω; simp [h0]
      rw [this]; exact @MeasurableSet.univ _ (past U _)
    | succ t ih =>
      have e : {ω | chain ω (t + 1) = true} = ({ω | chain ω t = true} ∩ {ω | U (t + 1) ω ∈ Set.Ici a2i}) ∪ ({ω | chain ω t = true}ᶜ ∩ {ω | U (t + 1) ω ∈ Set.Ici (1 - i2a)}) := by
        ext ω
        simp only [Set.mem_ofPred_eq, Set.mem_union, Set.mem_inter_iff, Set.mem_compl_iff, hstep, Set.mem_Ici]
        cases chain ω t <;> simp
      rw [e]
      have ih' := past_mono (U := U) (Nat.le_succ (t + 1)) _ ih
      exact (ih'.inter (past_draw (Nat.lt_succ_self _) measurableSet_Ici)).union (ih'.compl.inter (past_draw (Nat.lt_succ_self _) measurableSet_Ici))
  have hI : ∀ p : ℝ, 0 ≤ p → p ≤ 1 → P.real {ω | U 0 ω ∈ Set.Ici p} = 1 - p := fun p a b => hU.chance_ge 0 a b
  have hboth : ∀ t, P.real {ω | chain ω t = true ∧ chain ω (t + 1) = true} = P.real {ω | chain ω t = true} * (1 - a2i) := by
    intro t
    rw [← hI a2i ha.1 ha.2, ← hU.fresh (hm t) measurableSet_Ici]
    congr 1
    ext ω
    simp only [Set.mem_ofPred_eq, Set.mem_inter_iff, hstep, Set.mem_Ici]
    cases chain ω t <;> simp
  have hne : ∀ t, P.real ({ω | chain ω t = true}ᶜ ∩ {ω | U (t + 1) ω ∈ Set.Ici (1 - i2a)}) = (1 - P.real {ω | chain ω t = true}) * i2a := by
    intro t
    rw [hU.fresh (hm t).compl measurableSet_Ici, hI _ (by linarith) (by linarith), probReal_compl_eq_one_sub (hU.past_le _ _ (hm t)), sub_sub_cancel]
  have hrec : ∀ t, P.real {ω | chain ω (t + 1) = true} = P.real {ω | chain ω t = true} * (1 - a2i) + (1 - P.real {ω | chain ω t = true}) * i2a := by
    intro t
    rw [← hboth, ← hne]
    have hd : Disjoint {ω | chain ω t = true ∧ chain ω (t + 1) = true} ({ω | chain ω t = true}ᶜ ∩ {ω | U (t + 1) ω ∈ Set.Ici (1 - i2a)}) :=
      Set.disjoint_left.2 fun ω a b => b.1 a.1
    rw [← measureReal_union hd ((hU.past_le _ _ (hm t)).compl.inter ((hU.meas _) measurableSet_Ici))]
    congr 1
    ext ω
    simp only [Set.mem_ofPred_eq, Set.mem_union, Set.mem_inter_iff, Set.mem_compl_iff, hstep, Set.mem_Ici]
    cases chain ω t <;> simp
  refine ⟨fun hab => ?_, hboth (t + 1)⟩
  rw [two_state (fun t => P.real {ω | chain ω t = true}) a2i i2a hab hrec (t + 1)]
  have : {ω | chain ω 0 = true} = Set.univ := by ext ω; simp [h0]
  simp only [this, probReal_univ]

/-- C123, Markov activation in the long run: the expected share of active iterations tends to `i2a / (i2a + a2i)` unless both probabilities are 0; and so does the
probability of being active in iteration `t`, unless both are 0 or both are 1. -/
theorem C123_markov_long_run (hU : Uniform P U) (i2a a2i : ℝ) (s : Ω → Markov) (hs : ∀ ω, Markov.ctor i2a a2i (fun n => U n ω) = .ok (s ω)) (hpos : 0 < a2i + i2a) :
    Tendsto (fun T : ℕ => (∑ t ∈ Finset.range T, P.real {ω | answer (Markov.isActive (fun n => U n ω)) (s ω) t = true}) / T) atTop (𝓝 (i2a / (a2i + i2a))) ∧
    (a2i + i2a < 2 → Tendsto (fun t : ℕ => P.real {ω | answer (Markov.isActive (fun n => U n ω)) (s ω) t = true}) atTop (𝓝 (i2a / (a2i + i2a)))) := by
  have hprob := hU.prob
  obtain ⟨ω0⟩ : Nonempty Ω := by
    by_contra hne
    rw [not_nonempty_iff] at hne
    exact absurd (measure_univ (μ := P)) (by rw [Set.univ_eq_empty_iff.2 hne]; simp)
  obtain ⟨hi, ha⟩ : (0 ≤ i2a ∧ i2a ≤ 1) ∧ (0 ≤ a2i ∧ a2i ≤ 1) := by
    have := hs ω0
    unfold Markov.ctor at this
    split_ifs at this with hg
    push Not at hg
    exact ⟨hg.1, hg.2⟩
  have e : ∀ t, P.real {ω | answer (Markov.isActive (fun n => U n ω)) (s ω) t = true} =
      i2a / (a2i + i2a) + ((1 - i2a / (a2i + i2a)) * (1 - a2i - i2a)) * (1 - a2i - i2a) ^ t := by
    intro t
    rw [(C123_markov hU i2a a2i s hs t).1 hpos.ne', pow_succ]; ring
  simp only [e]
  refine ⟨cesaro _ _ _ (abs_le.2 ⟨by linarith, by linarith⟩) (by linarith), fun h2 => ?_⟩
  have h3 : |1 - a2i - i2a| < 1 := abs_lt.2 ⟨by linarith, by linarith⟩
  have := ((tendsto_pow_atTop_nhds_zero_of_abs_lt_one h3).const_mul ((1 - i2a / (a2i + i2a)) * (1 - a2i - i2a))).const_add (i2a / (a2i + i2a))
  rwa [mul_zero, add_zero] at this

/-- C123, Gilbert-Elliott: the `t`-th message is dropped with probability `drop_rate (π + (b₀ - π)(1-b2g-g2b)^(t+1))`, `π = g2b / (b2g + g2b)`, `b₀` = 1 if the chain starts
bad and 0 if good; drops come in bursts: after a dropped message the next one is dropped with probability `drop_rate (1 - b2g)`. -/
theorem C123_gilbert_elliott (hU : Uniform P U) (dropRate b2g g2b : ℝ) (init : Bool) (s : GE) (hs : GE.ctor dropRate b2g g2b init = .ok s) (t : ℕ) :
    (b2g + g2b ≠ 0 → P.real {ω | answer (GE.shouldDrop (fun n => U n ω)) s t = true} =
      dropRate * (g2b / (b2g + g2b) + ((if init then 1 else 0) - g2b / (b2g + g2b)) * (1 - b2g - g2b) ^ (t + 1))) ∧
    P.real {ω | answer (GE.shouldDrop (fun n => U n ω)) s t = true ∧ answer (GE.shouldDrop (fun n => U n ω)) s (t + 1) = true} =
      P.real {ω | answer (GE.shouldDrop (fun n => U n ω)) s t = true} * (dropRate * (1 - b2g)) := by
  have hprob := hU.prob
  obtain ⟨hd, hb, hg⟩ : (0 ≤ dropRate ∧ dropRate ≤ 1) ∧ (0 ≤ b2g ∧ b2g ≤ 1) ∧ (0 ≤ g2b ∧ g2b ≤ 1) := by
    have := hs
    unfold GE.ctor at this
    split_ifs at this with h1 h2
    push Not at h1 h2
    exact ⟨h1, h2.1, h2.2⟩
  have hch := fun ω => C15_gilbert_elliott dropRate b2g g2b init (fun n => U n ω) s hs
  choose bad pos h0 p0 hstep hpos hans using hch
  simp only [hans]
  have hbound : ∀ ω t, pos ω t ≤ 2 * t := by
    intro ω t
    induction t with
    | zero => rw [p0]
    | succ t ih => rw [hpos]; split <;> omega
  -- what is decided when
  have hm : ∀ (t : ℕ) (n : ℕ) (b : Bool), MeasurableSet[past U n] {ω | bad ω t = b ∧ pos ω t = n} := by
    intro t
    induction t with
    | zero =>
      intro n b
      by_cases h : init = b ∧ 0 = n
      · have : {ω | bad ω 0 = b ∧ pos ω 0 = n} = Set.univ := by ext ω; simp only [Set.mem_ofPred_eq, h0, p0, Set.mem_univ, iff_true]; exact h
        rw [this]; exact @MeasurableSet.univ _ (past U n)
      · have : {ω | bad ω 0 = b ∧ pos ω 0 = n} = ∅ := by ext ω; simp only [Set.mem_ofPred_eq, h0, p0, Set.mem_empty_iff_false, iff_false]; exact h
        rw [this]; exact @MeasurableSet.empty _ (past U n)
    | succ t ih =>
      have hbt : ∀ n b, MeasurableSet[past U (n + 1)] {ω | bad ω (t + 1) = b ∧ pos ω t = n} := by
        intro n b
        have e : {ω | bad ω (t + 1) = true ∧ pos ω t = n} = ({ω | bad ω t = true ∧ pos ω t = n} ∩ {ω | U n ω ∈ Set.Ici b2g}) ∪
            ({ω | bad ω t = false ∧ pos ω t = n} ∩ {ω | U n ω ∈ Set.Ici (1 - g2b)}) := by
          ext ω
          simp only [Set.mem_ofPred_eq, Set.mem_union, Set.mem_inter_iff, hstep, Set.mem_Ici]
          cases bad ω t <;> simp <;> (constructor <;> (rintro ⟨a, c⟩; subst_vars; exact ⟨by first | rfl | assumption | linarith, by first | rfl | assumption | linarith⟩))
        have e' : {ω | bad ω (t + 1) = false ∧ pos ω t = n} = ({ω | bad ω t = true ∧ pos ω t = n} ∩ {ω | U n ω ∈ Set.Iio b2g}) ∪
            ({ω | bad ω t = false ∧ pos ω t = n} ∩ {ω | U n ω ∈ Set.Iio (1 - g2b)}) := by
          ext ω
          simp only [Set.mem_ofPred_eq, Set.mem_union, Set.mem_inter_iff, hstep, Set.mem_Iio]
          cases bad ω t <;> simp <;> (constructor <;> (rintro ⟨a, c⟩; subst_vars; exact ⟨by first | rfl | assumption | linarith, by first | rfl | assumption | linarith⟩))
        have m1 := past_mono (U := U) (Nat.le_succ n) _ (ih n true)
        have m2 := past_mono (U := U) (Nat.le_succ n) _ (ih n false)
        cases b with
        | true => rw [e]; exact (m1.inter (past_draw (Nat.lt_succ_self _) measurableSet_Ici)).union (m2.inter (past_draw (Nat.lt_succ_self _) measurableSet_Ici))
        | false => rw [e']; exact (m1.inter (past_draw (Nat.lt_succ_self _) measurableSet_Iio)).union (m2.inter (past_draw (Nat.lt_succ_self _) measurableSet_Iio))
      intro n b
      cases b with
      | false =>
        cases n with
        | zero =>
          have : {ω | bad ω (t + 1) = false ∧ pos ω (t + 1) = 0} = ∅ := by
            ext ω; simp only [Set.mem_ofPred_eq, Set.mem_empty_iff_false, iff_false, hpos]; rintro ⟨a, c⟩; rw [a] at c; simp at c
          rw [this]; exact @MeasurableSet.empty _ (past U _)
        | succ n =>
          have : {ω | bad ω (t + 1) = false ∧ pos ω (t + 1) = n + 1} = {ω | bad ω (t + 1) = false ∧ pos ω t = n} := by
            ext ω
            simp only [Set.mem_ofPred_eq]
            constructor
            · rintro ⟨a, c⟩; rw [hpos, a] at c; simp at c; exact ⟨a, c⟩
            · rintro ⟨a, c⟩; refine ⟨a, ?_⟩; rw [hpos, a]; simp [c]
          rw [this]; exact hbt n false
      | true =>
        have : {ω | bad ω (t + 1) = true ∧ pos ω (t + 1) = n} = if 2 ≤ n then {ω | bad ω (t + 1) = true ∧ pos ω t = n - 2} else ∅ := by
          split
          · ext ω
            simp only [Set.mem_ofPred_eq]
            constructor
            · rintro ⟨a, c⟩; rw [hpos, a] at c; simp at c; exact ⟨a, by omega⟩
            · rintro ⟨a, c⟩; refine ⟨a, ?_⟩; rw [hpos, a]; simp; omega
          · ext ω; simp only [Set.mem_ofPred_eq, Set.mem_empty_iff_false, iff_false, hpos]; rintro ⟨a, c⟩; rw [a] at c; simp at c; omega
        rw [this]
        split
        · exact past_mono (by omega) _ (hbt (n - 2) true)
        · exact @MeasurableSet.empty _ (past U _)
  have hm' : ∀ (t n : ℕ), MeasurableSet[past U (n + 1)] {ω | bad ω (t + 1) = true ∧ pos ω t = n} := by
    intro t n
    have e : {ω | bad ω (t + 1) = true ∧ pos ω t = n} = ({ω | bad ω t = true ∧ pos ω t = n} ∩ {ω | U n ω ∈ Set.Ici b2g}) ∪
        ({ω | bad ω t = false ∧ pos ω t = n} ∩ {ω | U n ω ∈ Set.Ici (1 - g2b)}) := by
      ext ω
      simp only [Set.mem_ofPred_eq, Set.mem_union, Set.mem_inter_iff, hstep, Set.mem_Ici]
      cases bad ω t <;> simp <;> (constructor <;> (rintro ⟨a, c⟩; subst_vars; exact ⟨by first | rfl | assumption | linarith, by first | rfl | assumption | linarith⟩))
    rw [e]
    exact ((past_mono (U := U) (Nat.le_succ n) _ (hm t n true)).inter (past_draw (Nat.lt_succ_self _) measurableSet_Ici)).union
      ((past_mono (U := U) (Nat.le_succ n) _ (hm t n false)).inter (past_draw (Nat.lt_succ_self _) measurableSet_Ici))
  have hI : ∀ p : ℝ, 0 ≤ p → p ≤ 1 → P.real {ω | U 0 ω ∈ Set.Ici p} = 1 - p := fun p a b => hU.chance_ge 0 a b
  have hJ : P.real {ω | U 0 ω ∈ Set.Iio dropRate} = dropRate := hU.chance_lt 0 hd.1 hd.2
  -- the drop itself
  have hdrop : ∀ t, P.real {ω | (bad ω (t + 1) && decide (U (pos ω t + 1) ω < dropRate)) = true} = P.real {ω | bad ω (t + 1) = true} * dropRate := by
    intro t
    have := hU.draw_next (E := fun ω => bad ω (t + 1) = true) (pos := fun ω => pos ω t + 1) (2 * t + 1) (fun ω => by have := hbound ω t; omega) (fun n => by
      cases n with
      | zero =>
        have : {ω | bad ω (t + 1) = true ∧ pos ω t + 1 = 0} = ∅ := by ext ω; simp
        rw [this]; exact @MeasurableSet.empty _ (past U _)
      | succ n =>
        have := hm' t n
        simpa using this) (measurableSet_Iio (a := dropRate))
    rw [hJ] at this
    rw [← this]
    congr 1
    ext ω; simp
  -- the chain
  have hmb : ∀ t b, MeasurableSet {ω | bad ω t = b} := by
    intro t b
    have : {ω | bad ω t = b} = ⋃ n ∈ Finset.range (2 * t + 1), {ω | bad ω t = b ∧ pos ω t = n} := by
      ext ω
      simp only [Set.mem_ofPred_eq, Set.mem_iUnion, Finset.mem_range, exists_prop]
      exact ⟨fun h => ⟨pos ω t, by have := hbound ω t; omega, h, rfl⟩, fun ⟨_, _, h, _⟩ => h⟩
    rw [this]
    exact Finset.measurableSet_biUnion _ fun n _ => hU.past_le n _ (hm t n b)
  have hrec : ∀ t, P.real {ω | bad ω (t + 1) = true} = P.real {ω | bad ω t = true} * (1 - b2g) + (1 - P.real {ω | bad ω t = true}) * g2b := by
    intro t
    have h1 := hU.draw_next (E := fun ω => bad ω t = true) (pos := fun ω => pos ω t) (2 * t) (fun ω => hbound ω t) (fun n => hm t n true) (measurableSet_Ici (a := b2g))
    have h2 := hU.draw_next (E := fun ω => bad ω t = false) (pos := fun ω => pos ω t) (2 * t) (fun ω => hbound ω t) (fun n => hm t n false) (measurableSet_Ici (a := 1 - g2b))
    rw [hI _ hb.1 hb.2] at h1
    rw [hI _ (by linarith) (by linarith), sub_sub_cancel] at h2
    have hc : P.real {ω | bad ω t = false} = 1 - P.real {ω | bad ω t = true} := by
      rw [← probReal_compl_eq_one_sub (hmb t true)]
      congr 1; ext ω; simp
    rw [hc] at h2
    rw [← h1, ← h2]
    have hdj : Disjoint {ω | bad ω t = true ∧ U (pos ω t) ω ∈ Set.Ici b2g} {ω | bad ω t = false ∧ U (pos ω t) ω ∈ Set.Ici (1 - g2b)} :=
      Set.disjoint_left.2 fun ω a b => by have := a.1; rw [b.1] at this; cases this
    have e : {ω | bad ω (t + 1) = true} = {ω | bad ω t = true ∧ U (pos ω t) ω ∈ Set.Ici b2g} ∪ {ω | bad ω t = false ∧ U (pos ω t) ω ∈ Set.Ici (1 - g2b)} := by
      ext ω
      simp only [Set.mem_ofPred_eq, Set.mem_union, hstep, Set.mem_Ici]
      cases bad ω t <;> simp
    have hms : MeasurableSet {ω | bad ω t = false ∧ U (pos ω t) ω ∈ Set.Ici (1 - g2b)} := by
      have e' : {ω | bad ω t = false ∧ U (pos ω t) ω ∈ Set.Ici (1 - g2b)} = {ω | bad ω (t + 1) = true} ∩ {ω | bad ω t = false} := by
        ext ω
        simp only [Set.mem_ofPred_eq, Set.mem_inter_iff, hstep, Set.mem_Ici]
        cases bad ω t <;> simp
      rw [e']; exact (hmb _ _).inter (hmb _ _)
    rw [e, measureReal_union hdj hms]
  constructor
  · intro hab
    rw [hdrop, two_state (fun t => P.real {ω | bad ω t = true}) b2g g2b hab hrec (t + 1), mul_comm]
    congr 4
    cases init with
    | true =>
      have : {ω | bad ω 0 = true} = Set.univ := by ext ω; simp [h0]
      simp [this]
    | false =>
      have : {ω | bad ω 0 = true} = ∅ := by ext ω; simp [h0]
      simp [this]
  · -- two drops in a row
    have hE : ∀ n, MeasurableSet[past U n] {ω | (bad ω (t + 1) && decide (U (pos ω t + 1) ω < dropRate)) = true ∧ pos ω (t + 1) = n} := by
      intro n
      have e : {ω | (bad ω (t + 1) && decide (U (pos ω t + 1) ω < dropRate)) = true ∧ pos ω (t + 1) = n} =
          if 2 ≤ n then {ω | bad ω (t + 1) = true ∧ pos ω t = n - 2} ∩ {ω | U (n - 1) ω ∈ Set.Iio dropRate} else ∅ := by
        split
        · ext ω
          simp only [Set.mem_ofPred_eq, Set.mem_inter_iff, Set.mem_Iio, Bool.and_eq_true, decide_eq_true_eq]
          constructor
          · rintro ⟨⟨a, c⟩, d⟩
            rw [hpos, a] at d; simp at d
            have : pos ω t + 1 = n - 1 := by omega
            rw [this] at c
            exact ⟨⟨a, by omega⟩, c⟩
          · rintro ⟨⟨a, c⟩, d⟩
            have : pos ω t + 1 = n - 1 := by omega
            rw [this]
            refine ⟨⟨a, d⟩, ?_⟩
            rw [hpos, a]; simp; omega
        · ext ω
          simp only [Set.mem_ofPred_eq, Set.mem_empty_iff_false, iff_false, hpos, Bool.and_eq_true]
          rintro ⟨⟨a, _⟩, c⟩; rw [a] at c; simp at c; omega
      rw [e]
      split
      · exact (past_mono (by omega) _ (hm' t (n - 2))).inter (past_draw (by omega) measurableSet_Iio)
      · exact @MeasurableSet.empty _ (past U _)
    have h1 := hU.draw_next (E := fun ω => (bad ω (t + 1) && decide (U (pos ω t + 1) ω < dropRate)) = true) (pos := fun ω => pos ω (t + 1)) (2 * (t + 1))
      (fun ω => hbound ω (t + 1)) hE (measurableSet_Ici (a := b2g))
    have h2 := hU.draw_next (E := fun ω => (bad ω (t + 1) && decide (U (pos ω t + 1) ω < dropRate)) = true ∧ U (pos ω (t + 1)) ω ∈ Set.Ici b2g)
      (pos := fun ω => pos ω (t + 1) + 1) (2 * (t + 1) + 1) (fun ω => by have := hbound ω (t + 1); omega) (fun n => by
        cases n with
        | zero =>
          have : {ω | ((bad ω (t + 1) && decide (U (pos ω t + 1) ω < dropRate)) = true ∧ U (pos ω (t + 1)) ω ∈ Set.Ici b2g) ∧ pos ω (t + 1) + 1 = 0} = ∅ := by ext ω; simp
          rw [this]; exact @MeasurableSet.empty _ (past U _)
        | succ n =>
          have : {ω | ((bad ω (t + 1) && decide (U (pos ω t + 1) ω < dropRate)) = true ∧ U (pos ω (t + 1)) ω ∈ Set.Ici b2g) ∧ pos ω (t + 1) + 1 = n + 1} =
              {ω | (bad ω (t + 1) && decide (U (pos ω t + 1) ω < dropRate)) = true ∧ pos ω (t + 1) = n} ∩ {ω | U n ω ∈ Set.Ici b2g} := by
            ext ω
            simp only [Set.mem_ofPred_eq, Set.mem_inter_iff, Nat.add_right_cancel_iff]
            constructor
            · rintro ⟨⟨a, c⟩, rfl⟩; exact ⟨⟨a, rfl⟩, c⟩
            · rintro ⟨⟨a, rfl⟩, c⟩; exact ⟨⟨a, c⟩, rfl⟩
          rw [this]
          exact (past_mono (Nat.le_succ n) _ (hE n)).inter (past_draw (Nat.lt_succ_self n) measurableSet_Ici)) (measurableSet_Iio (a := dropRate))
    rw [h1, hI _ hb.1 hb.2, hJ] at h2
    rw [mul_comm dropRate, ← mul_assoc, ← h2]
    congr 1
    ext ω
    simp only [Set.mem_ofPred_eq, Set.mem_Ici, Set.mem_Iio, hstep ω (t + 1), Bool.and_eq_true, decide_eq_true_eq]
    constructor
    · rintro ⟨⟨a, c⟩, d, e⟩
      rw [a] at d; simp at d
      exact ⟨⟨⟨a, c⟩, d⟩, e⟩
    · rintro ⟨⟨⟨a, c⟩, d⟩, e⟩
      refine ⟨⟨a, c⟩, ?_, e⟩
      rw [a]; simpa using d

/-- C123, Gilbert-Elliott with equal transition probabilities (as by default, 1/2 and 1/2), the initial state drawn uniformly: every message is dropped with probability
`drop_rate / 2`, not `drop_rate`. -/
theorem C123_gilbert_elliott_half (hU : Uniform P U) (dropRate p : ℝ) (hp : p ≠ 0) (s : Bool → GE) (hs : ∀ init, GE.ctor dropRate p p init = .ok (s init)) (t : ℕ) :
    (1 / 2 : ℝ) * P.real {ω | answer (GE.shouldDrop (fun n => U n ω)) (s true) t = true} +
      (1 / 2 : ℝ) * P.real {ω | answer (GE.shouldDrop (fun n => U n ω)) (s false) t = true} = dropRate / 2 := by
  have h2 : p + p ≠ 0 := by
    intro h; exact hp (by linarith)
  rw [(C123_gilbert_elliott hU dropRate p p true (s true) (hs true) t).1 h2, (C123_gilbert_elliott hU dropRate p p false (s false) (hs false) t).1 h2]
  have e : p / (p + p) = 1 / 2 := by field_simp; ring
  rw [e]
  simp only [if_true]
  norm_num
  ring

/-- C123, Gilbert-Elliott in the long run, whatever the initial state: the expected share of dropped messages tends to `drop_rate g2b / (b2g + g2b)`. -/
theorem C123_gilbert_elliott_long_run (hU : Uniform P U) (dropRate b2g g2b : ℝ) (init : Bool) (s : GE) (hs : GE.ctor dropRate b2g g2b init = .ok s) (hpos : 0 < b2g + g2b) :
    Tendsto (fun T : ℕ => (∑ t ∈ Finset.range T, P.real {ω | answer (GE.shouldDrop (fun n => U n ω)) s t = true}) / T) atTop (𝓝 (dropRate * (g2b / (b2g + g2b)))) := by
  obtain ⟨hb, hg⟩ : (0 ≤ b2g ∧ b2g ≤ 1) ∧ (0 ≤ g2b ∧ g2b ≤ 1) := by
    have := hs
    unfold GE.ctor at this
    split_ifs at this with h1 h2
    push Not at h2
    exact ⟨h2.1, h2.2⟩
  have e : ∀ t, P.real {ω | answer (GE.shouldDrop (fun n => U n ω)) s t = true} =
      dropRate * (g2b / (b2g + g2b)) + (dropRate * ((if init then 1 else 0) - g2b / (b2g + g2b)) * (1 - b2g - g2b)) * (1 - b2g - g2b) ^ t := by
    intro t
    rw [(C123_gilbert_elliott hU dropRate b2g g2b init s hs t).1 hpos.ne', pow_succ]; ring
  simp only [e]
  exact cesaro _ _ _ (abs_le.2 ⟨by linarith, by linarith⟩) (by linarith)

end chains

/-! ## shares along one run -/
section shares

/-- iterations up to and including the `n`-th activation -/
def spent (d : ℕ → ℕ) (n : ℕ) : ℕ := ∑ i ∈ Finset.range n, (d i + 1)

theorem poisson_count (d : ℕ → ℕ) (T : ℕ) :
    ∃ N, ((Finset.range T).filter (fun t => answer (Poisson.isActive d) (Poisson.ctor d) t = true)).card = N ∧ spent d N ≤ T ∧ T < spent d (N + 1) := by
  suffices h : ∃ N, ((Finset.range T).filter (fun t => answer (Poisson.isActive d) (Poisson.ctor d) t = true)).card = N ∧ spent d N ≤ T ∧
      (after (Poisson.isActive d) T (Poisson.ctor d)).pos = N + 1 ∧ T + (after (Poisson.isActive d) T (Poisson.ctor d)).countdown + 1 = spent d (N + 1) by
    obtain ⟨N, h1, h2, _, h4⟩ := h
    exact ⟨N, h1, h2, by omega⟩
  induction T with
  | zero => exact ⟨0, rfl, by simp [spent], rfl, by simp [after, Poisson.ctor, spent]⟩
  | succ T ih =>
    obtain ⟨N, h1, h2, h3, h4⟩ := ih
    rw [after_succ]
    have hc : ((Finset.range (T + 1)).filter (fun t => answer (Poisson.isActive d) (Poisson.ctor d) t = true)).card =
        N + if answer (Poisson.isActive d) (Poisson.ctor d) T = true then 1 else 0 := by
      rw [Finset.range_add_one, Finset.filter_insert]
      split
      · rw [Finset.card_insert_of_notMem (by simp), h1]
      · rw [h1]; rfl
    have ha : answer (Poisson.isActive d) (Poisson.ctor d) T = (Poisson.isActive d (after (Poisson.isActive d) T (Poisson.ctor d))).1 := rfl
    rw [hc, ha]
    generalize after (Poisson.isActive d) T (Poisson.ctor d) = s at *
    unfold Poisson.isActive
    by_cases h0 : s.countdown = 0
    · simp only [h0, if_true]
      refine ⟨N + 1, rfl, by omega, by omega, ?_⟩
      have : spent d (N + 1 + 1) = spent d (N + 1) + (d (N + 1) + 1) := by unfold spent; rw [Finset.sum_range_succ]
      rw [this, h3, ← h4, h0]; omega
    · simp only [h0, if_false]
      exact ⟨N, by simp, by omega, h3, by omega⟩

/-- C123, Poisson activation, along every run: if the mean of the first `n` drawn waiting times tends to `mean`, the share of active iterations tends to
`1 / (1 + mean)`. -/
theorem C123_poisson (d : ℕ → ℕ) (mean : ℝ) (hmean : 0 ≤ mean) (hd : Tendsto (fun n : ℕ => (∑ i ∈ Finset.range n, (d i : ℝ)) / n) atTop (𝓝 mean)) :
    Tendsto (share (answer (Poisson.isActive d) (Poisson.ctor d))) atTop (𝓝 (1 / (1 + mean))) := by
  have hsp : ∀ n, (spent d n : ℝ) = ∑ i ∈ Finset.range n, (d i : ℝ) + n := by
    intro n; unfold spent; push_cast; rw [Finset.sum_add_distrib]; simp
  have hge : ∀ n, n ≤ spent d n := by
    intro n; unfold spent
    calc n = ∑ _i ∈ Finset.range n, 1 := by simp
      _ ≤ _ := Finset.sum_le_sum fun i _ => by omega
  obtain ⟨N, hN⟩ : ∃ N : ℕ → ℕ, ∀ T, ((Finset.range T).filter (fun t => answer (Poisson.isActive d) (Poisson.ctor d) t = true)).card = N T ∧ spent d (N T) ≤ T ∧ T < spent d (N T + 1) := by
    choose N hN using poisson_count d
    exact ⟨N, hN⟩
  have hmono : Monotone (spent d) := by
    intro a b hab; unfold spent
    exact Finset.sum_le_sum_of_subset (Finset.range_mono hab)
  have hNt : Tendsto N atTop atTop := by
    rw [tendsto_atTop_atTop]
    intro b
    refine ⟨spent d b, fun T hT => ?_⟩
    by_contra hlt
    push Not at hlt
    have h1 := (hN T).2.2
    have h2 : spent d (N T + 1) ≤ spent d b := hmono (by omega)
    omega
  -- n / spent n
  have hr : Tendsto (fun n : ℕ => (n : ℝ) / spent d n) atTop (𝓝 (1 / (1 + mean))) := by
    have h1 : Tendsto (fun n : ℕ => 1 / ((∑ i ∈ Finset.range n, (d i : ℝ)) / n + 1)) atTop (𝓝 (1 / (mean + 1))) :=
      Tendsto.div tendsto_const_nhds (hd.add_const 1) (by linarith)
    rw [add_comm 1 mean]
    refine h1.congr' ?_
    filter_upwards [eventually_ne_atTop 0] with n hn
    have : (n : ℝ) ≠ 0 := by exact_mod_cast hn
    rw [hsp]
    have h3 : 0 ≤ ∑ i ∈ Finset.range n, (d i : ℝ) := Finset.sum_nonneg fun i _ => by positivity
    have h4 : (0 : ℝ) < n := by positivity
    field_simp
  have hr1 : Tendsto (fun n : ℕ => (n : ℝ) / spent d (n + 1)) atTop (𝓝 (1 / (1 + mean))) := by
    have h1 : Tendsto (fun n : ℕ => ((n + 1 : ℕ) : ℝ) / spent d (n + 1)) atTop (𝓝 (1 / (1 + mean))) := hr.comp (tendsto_add_atTop_nat 1)
    have h2 : Tendsto (fun n : ℕ => (n : ℝ) / ((n : ℝ) + 1)) atTop (𝓝 1) := tendsto_natCast_div_add_atTop 1
    have h3 := h1.mul h2
    rw [mul_one] at h3
    refine h3.congr fun n => ?_
    have : ((n : ℝ) + 1) ≠ 0 := by positivity
    push_cast
    field_simp
  have hlow := hr1.comp hNt
  have hup := hr.comp hNt
  refine tendsto_of_tendsto_of_tendsto_of_le_of_le' hlow hup ?_ ?_
  · filter_upwards [eventually_gt_atTop 0] with T hT
    unfold share
    rw [(hN T).1]
    have h1 := (hN T).2.2
    have hT' : (0 : ℝ) < T := by exact_mod_cast hT
    exact div_le_div_of_nonneg_left (by positivity) hT' (by exact_mod_cast h1.le)
  · filter_upwards [eventually_gt_atTop 0, hNt.eventually_gt_atTop 0] with T hT hn
    unfold share
    rw [(hN T).1]
    have h1 := (hN T).2.1
    have h2 := hge (N T)
    have hT' : (0 : ℝ) < spent d (N T) := by exact_mod_cast lt_of_lt_of_le hn h2
    exact div_le_div_of_nonneg_left (by positivity) hT' (by exact_mod_cast h1)

variable {Ω : Type} [MeasurableSpace Ω] {P : Measure Ω}

/-- C123, Poisson activation with independent waiting times of the given mean: almost surely the agent is active in a share `1 / (1 + mean_interval)` of the iterations. -/
theorem C123_poisson_almost_surely [IsProbabilityMeasure P] (D : ℕ → Ω → ℕ) (mean : ℝ) (hint : Integrable (fun ω => (D 0 ω : ℝ)) P)
    (hind : Pairwise (fun i j => IndepFun (fun ω => (D i ω : ℝ)) (fun ω => (D j ω : ℝ)) P))
    (hid : ∀ i, IdentDistrib (fun ω => (D i ω : ℝ)) (fun ω => (D 0 ω : ℝ)) P P) (hm : ∫ ω, (D 0 ω : ℝ) ∂P = mean) :
    ∀ᵐ ω ∂P, Tendsto (share (answer (Poisson.isActive (fun n => D n ω)) (Poisson.ctor (fun n => D n ω)))) atTop (𝓝 (1 / (1 + mean))) := by
  have h := strong_law_ae_real (fun n ω => (D n ω : ℝ)) hint hind hid
  have h0 : 0 ≤ mean := by rw [← hm]; exact integral_nonneg fun ω => by positivity
  filter_upwards [h] with ω hω
  rw [hm] at hω
  exact C123_poisson (fun n => D n ω) mean h0 hω

/-- C123, UniformActivationRate and UniformDropRate: almost surely the share of active iterations (of dropped messages) tends to the given probability. -/
theorem C123_bernoulli_almost_surely {U : ℕ → Ω → ℝ} (hU : Uniform P U) (p q : ℝ) (h : rateCtor p = .ok q) :
    ∀ᵐ ω ∂P, Tendsto (share (fun t => bernoulli q (U t ω))) atTop (𝓝 p) := by
  have hprob := hU.prob
  obtain ⟨hp, rfl⟩ : (0 ≤ p ∧ p ≤ 1) ∧ q = p := by
    unfold rateCtor at h
    split_ifs at h with h1
    push Not at h1
    cases h
    exact ⟨h1, rfl⟩
  obtain ⟨φ, hφ⟩ : ∃ φ : ℝ → ℝ, φ = fun x => if x < q then 1 else 0 := ⟨_, rfl⟩
  have hφm : Measurable φ := by rw [hφ]; exact Measurable.ite measurableSet_Iio measurable_const measurable_const
  have hlaw := strong_law_ae_real (μ := P) (fun n ω => φ (U n ω)) (by
      refine Integrable.of_bound (C := 1) (hφm.comp (hU.meas 0)).aestronglyMeasurable (Eventually.of_forall fun ω => ?_)
      rw [hφ]; dsimp only; split <;> simp)
    (fun i j hij => (hU.indep.indepFun hij).comp hφm hφm)
    (fun i => IdentDistrib.comp (⟨(hU.meas i).aemeasurable, (hU.meas 0).aemeasurable, by rw [hU.law, hU.law]⟩ : IdentDistrib (U i) (U 0) P P) hφm)
  have hmean : ∫ ω, φ (U 0 ω) ∂P = q := by
    have e : (fun ω => φ (U 0 ω)) = Set.indicator {ω | U 0 ω < q} (fun _ => (1 : ℝ)) := by
      funext ω; rw [hφ]; simp [Set.indicator]
    have hms : MeasurableSet {ω | U 0 ω < q} := (hU.meas 0) measurableSet_Iio
    rw [e, integral_indicator_const _ hms, hU.chance_lt 0 hp.1 hp.2, smul_eq_mul, mul_one]
  rw [hmean] at hlaw
  filter_upwards [hlaw] with ω hω
  refine hω.congr fun T => ?_
  unfold share
  congr 1
  rw [Finset.card_filter]
  push_cast
  refine Finset.sum_congr rfl fun t _ => ?_
  rw [hφ]; simp [bernoulli]

end shares

/-! ### concrete schemes -/

/-- active with probability 1/2 each time it is inactive, inactive with probability 1/4 each time it is active: active two thirds of the time -/
example {Ω : Type} [MeasurableSpace Ω] {P : Measure Ω} {U : ℕ → Ω → ℝ} (hU : Uniform P U) :
    ∃ s : Ω → Markov, (∀ ω, Markov.ctor (1 / 2) (1 / 4) (fun n => U n ω) = .ok (s ω)) ∧
      Tendsto (fun T : ℕ => (∑ t ∈ Finset.range T, P.real {ω | answer (Markov.isActive (fun n => U n ω)) (s ω) t = true}) / T) atTop (𝓝 (2 / 3)) := by
  refine ⟨fun ω => ⟨1 / 2, 1 / 4, choice2 0 (U 0 ω), 1⟩, fun ω => by unfold Markov.ctor; rw [if_neg (by norm_num)], ?_⟩
  have := (C123_markov_long_run hU (1 / 2) (1 / 4) (fun ω => ⟨1 / 2, 1 / 4, choice2 0 (U 0 ω), 1⟩) (fun ω => by unfold Markov.ctor; rw [if_neg (by norm_num)]) (by norm_num)).1
  norm_num at this ⊢
  exact this

/-- the default Gilbert-Elliott scheme with `drop_rate = 1` loses every second message on average -/
example {Ω : Type} [MeasurableSpace Ω] {P : Measure Ω} {U : ℕ → Ω → ℝ} (hU : Uniform P U) (t : ℕ) :
    (1 / 2 : ℝ) * P.real {ω | answer (GE.shouldDrop (fun n => U n ω)) ⟨1, 1 / 2, 1 / 2, true, 0⟩ t = true} +
      (1 / 2 : ℝ) * P.real {ω | answer (GE.shouldDrop (fun n => U n ω)) ⟨1, 1 / 2, 1 / 2, false, 0⟩ t = true} = 1 / 2 :=
  C123_gilbert_elliott_half hU 1 (1 / 2) (by norm_num) (fun b => ⟨1, 1 / 2, 1 / 2, b, 0⟩) (fun b => by unfold GE.ctor; rw [if_neg (by norm_num), if_neg (by norm_num)]) t

/-- waiting times always 1 (a mean interval of 1): active every second iteration -/
example : Tendsto (share (answer (Poisson.isActive (fun _ => 1)) (Poisson.ctor (fun _ => 1)))) atTop (𝓝 (1 / 2)) := by
  have := C123_poisson (fun _ => 1) 1 zero_le_one (by
    refine (tendsto_const_nhds (x := (1 : ℝ))).congr' ?_
    filter_upwards [eventually_ne_atTop 0] with n hn
    have : (n : ℝ) ≠ 0 := by exact_mod_cast hn
    simp [this])
  norm_num at this ⊢
  exact this

/-- the draws exist -/
example : ∃ (P : Measure (ℕ → ℝ)) (U : ℕ → (ℕ → ℝ) → ℝ), ∀ᵐ ω ∂P, Tendsto (share (fun t => bernoulli (1 / 3) (U t ω))) atTop (𝓝 (1 / 3)) := by
  obtain ⟨P, U, hU⟩ := exists_uniform
  exact ⟨P, U, C123_bernoulli_almost_surely hU (1 / 3) (1 / 3) (by unfold rateCtor; rw [if_neg (by norm_num)])⟩

end Verif.Props
