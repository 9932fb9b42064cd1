import Mathlib.Analysis.InnerProductSpace.Basic
import Mathlib.Algebra.BigOperators.Ring.Finset
import Mathlib.Algebra.Order.BigOperators.Group.Finset
import Mathlib.Tactic.Linarith
import Mathlib.Tactic.FieldSimp
import Mathlib.Tactic.Module
import Mathlib.Tactic.Positivity
set_option linter.unusedSectionVars false
/-! # Mean and variance of the average of a random sample without replacement (for C112) -/
namespace Verif.Sampling
open scoped InnerProductSpace

section
variable {ι Θ H : Type} [Fintype ι] [DecidableEq ι] [Fintype Θ] [NormedAddCommGroup H] [InnerProductSpace ℝ H]

/-- probability of an event -/
noncomputable def prob (q : Θ → ℝ) (e : Θ → Prop) [DecidablePred e] : ℝ := ∑ θ, if e θ then q θ else 0

/-- a random set of `k` indices in which all indices, and all pairs of indices, are equally likely -/
structure Fair (q : Θ → ℝ) (S : Θ → Finset ι) (k : Nat) : Prop where
  total : ∑ θ, q θ = 1
  card : ∀ θ, (S θ).card = k
  one : ∀ i j, prob q (fun θ => i ∈ S θ) = prob q (fun θ => j ∈ S θ)
  two : ∀ i j i' j', i ≠ j → i' ≠ j' → prob q (fun θ => i ∈ S θ ∧ j ∈ S θ) = prob q (fun θ => i' ∈ S θ ∧ j' ∈ S θ)

variable {q : Θ → ℝ} {S : Θ → Finset ι} {k : Nat}

/-- expectation of a weighted count -/
theorem mean_sum (F : ι → ℝ) : ∑ θ, q θ * ∑ i ∈ S θ, F i = ∑ i, prob q (fun θ => i ∈ S θ) * F i := by
  have : ∀ θ, q θ * ∑ i ∈ S θ, F i = ∑ i, (if i ∈ S θ then q θ else 0) * F i := by
    intro θ
    rw [Finset.mul_sum]
    rw [← Finset.sum_filter_add_sum_filter_not Finset.univ (fun i => i ∈ S θ) (fun i => (if i ∈ S θ then q θ else 0) * F i)]
    have e1 : ∑ i ∈ Finset.univ.filter (fun i => ¬ i ∈ S θ), (if i ∈ S θ then q θ else 0) * F i = 0 :=
      Finset.sum_eq_zero fun i hi => by rw [if_neg (Finset.mem_filter.1 hi).2, zero_mul]
    have e2 : Finset.univ.filter (fun i => i ∈ S θ) = S θ := by ext i; simp
    rw [e1, add_zero, e2]
    exact Finset.sum_congr rfl fun i hi => by rw [if_pos hi]
  rw [Finset.sum_congr rfl (fun θ _ => this θ), Finset.sum_comm]
  exact Finset.sum_congr rfl fun i _ => by rw [prob, Finset.sum_mul]

theorem Fair.incl (h : Fair q S k) (i : ι) : (Fintype.card ι : ℝ) * prob q (fun θ => i ∈ S θ) = k := by
  have e := mean_sum (q := q) (S := S) (fun _ => 1)
  have e1 : ∀ θ, q θ * ∑ _i ∈ S θ, (1 : ℝ) = q θ * k := by intro θ; rw [Finset.sum_const, nsmul_eq_mul, mul_one, h.card]
  rw [Finset.sum_congr rfl (fun θ _ => e1 θ), ← Finset.sum_mul, h.total, one_mul] at e
  rw [e, Finset.sum_congr rfl (fun j _ => by rw [mul_one, h.one j i]), Finset.sum_const, Finset.card_univ, nsmul_eq_mul]

/-- a sum over ordered pairs of distinct elements of a set -/
theorem pair_sum (T : Finset ι) (F : ι → ι → ℝ) : ∑ i ∈ T, ∑ j ∈ T, F i j = ∑ i ∈ T, F i i + ∑ i, ∑ j, if i ≠ j ∧ i ∈ T ∧ j ∈ T then F i j else 0 := by
  have e : ∀ i j, (if i ∈ T then if j ∈ T then F i j else 0 else 0) = (if i = j then if i ∈ T then F i i else 0 else 0) + if i ≠ j ∧ i ∈ T ∧ j ∈ T then F i j else 0 := by
    intro i j
    by_cases hij : i = j
    · subst hij; by_cases hi : i ∈ T <;> simp [hi]
    · by_cases hi : i ∈ T <;> by_cases hj : j ∈ T <;> simp [hij, hi, hj]
  have l : ∑ i ∈ T, ∑ j ∈ T, F i j = ∑ i, ∑ j, if i ∈ T then if j ∈ T then F i j else 0 else 0 := by
    have : ∀ i, (∑ j, if i ∈ T then if j ∈ T then F i j else 0 else 0) = if i ∈ T then ∑ j ∈ T, F i j else 0 := by
      intro i
      split
      · rw [Finset.sum_ite_mem, Finset.univ_inter]
      · exact Finset.sum_const_zero
    rw [Finset.sum_congr rfl (fun i _ => this i), Finset.sum_ite_mem, Finset.univ_inter]
  rw [l, Finset.sum_congr rfl (fun i _ => Finset.sum_congr rfl (fun j _ => e i j))]
  simp only [Finset.sum_add_distrib]
  congr 1
  have : ∀ i, (∑ j, if i = j then if i ∈ T then F i i else 0 else 0) = if i ∈ T then F i i else 0 := by
    intro i; rw [Finset.sum_ite_eq]; simp
  rw [Finset.sum_congr rfl (fun i _ => this i), Finset.sum_ite_mem, Finset.univ_inter]

theorem mean_pairs (F : ι → ι → ℝ) : ∑ θ, q θ * ∑ i, ∑ j, (if i ≠ j ∧ i ∈ S θ ∧ j ∈ S θ then F i j else 0) =
    ∑ i, ∑ j, if i ≠ j then prob q (fun θ => i ∈ S θ ∧ j ∈ S θ) * F i j else 0 := by
  have : ∀ θ, q θ * ∑ i, ∑ j, (if i ≠ j ∧ i ∈ S θ ∧ j ∈ S θ then F i j else 0) = ∑ i, ∑ j, if i ≠ j then (if i ∈ S θ ∧ j ∈ S θ then q θ else 0) * F i j else 0 := by
    intro θ
    rw [Finset.mul_sum]
    refine Finset.sum_congr rfl fun i _ => ?_
    rw [Finset.mul_sum]
    refine Finset.sum_congr rfl fun j _ => ?_
    by_cases hij : i = j
    · simp [hij]
    · by_cases hs : i ∈ S θ ∧ j ∈ S θ
      · simp [hij, hs]
      · rw [if_neg (fun h => hs h.2), if_pos hij, if_neg hs]; ring
  rw [Finset.sum_congr rfl (fun θ _ => this θ), Finset.sum_comm]
  refine Finset.sum_congr rfl fun i _ => ?_
  rw [Finset.sum_comm]
  refine Finset.sum_congr rfl fun j _ => ?_
  split
  · rw [prob, Finset.sum_mul]
  · exact Finset.sum_const_zero

/-- number of ordered pairs of distinct elements -/
theorem pair_count (T : Finset ι) : (∑ i, ∑ j, if i ≠ j ∧ i ∈ T ∧ j ∈ T then (1 : ℝ) else 0) = (T.card : ℝ) * (T.card - 1) := by
  have h := pair_sum T (fun _ _ => 1)
  simp only [Finset.sum_const, nsmul_eq_mul, mul_one] at h
  linarith

theorem Fair.pair (h : Fair q S k) {i j : ι} (hij : i ≠ j) :
    (Fintype.card ι : ℝ) * (Fintype.card ι - 1) * prob q (fun θ => i ∈ S θ ∧ j ∈ S θ) = k * (k - 1) := by
  have e := mean_pairs (q := q) (S := S) (fun _ _ => 1)
  have e1 : ∀ θ, q θ * ∑ i, ∑ j, (if i ≠ j ∧ i ∈ S θ ∧ j ∈ S θ then (1 : ℝ) else 0) = q θ * (k * (k - 1)) := by intro θ; rw [pair_count, h.card]
  rw [Finset.sum_congr rfl (fun θ _ => e1 θ), ← Finset.sum_mul, h.total, one_mul] at e
  rw [e]
  have e2 : ∀ a b, (if a ≠ b then prob q (fun θ => a ∈ S θ ∧ b ∈ S θ) * (1 : ℝ) else 0) = (if a ≠ b ∧ a ∈ (Finset.univ : Finset ι) ∧ b ∈ (Finset.univ : Finset ι) then 1 else 0) * prob q (fun θ => i ∈ S θ ∧ j ∈ S θ) := by
    intro a b
    by_cases hab : a = b
    · simp [hab]
    · rw [if_pos hab, h.two a b i j hab hij]; simp [hab]
  rw [Finset.sum_congr rfl (fun a _ => Finset.sum_congr rfl (fun b _ => e2 a b))]
  simp only [← Finset.sum_mul]
  rw [pair_count, Finset.card_univ]

/-- the sample average is unbiased -/
theorem Fair.mean (h : Fair q S k) (hk : 0 < k) (v : ι → H) :
    ∑ θ, q θ • ((1 / (k : ℝ)) • ∑ i ∈ S θ, v i) = (1 / (Fintype.card ι : ℝ)) • ∑ i, v i := by
  have hk' : (k : ℝ) ≠ 0 := by positivity
  have : ∀ θ, q θ • ((1 / (k : ℝ)) • ∑ i ∈ S θ, v i) = ∑ i, ((1 / (k : ℝ)) * (if i ∈ S θ then q θ else 0)) • v i := by
    intro θ
    rw [smul_smul, Finset.smul_sum]
    have e : ∀ i, ((1 / (k : ℝ)) * (if i ∈ S θ then q θ else 0)) • v i = if i ∈ S θ then (q θ * (1 / (k : ℝ))) • v i else 0 := by
      intro i; split
      · rw [mul_comm]
      · rw [mul_zero, zero_smul]
    rw [Finset.sum_congr rfl (fun i _ => e i), Finset.sum_ite_mem, Finset.univ_inter]
  rw [Finset.sum_congr rfl (fun θ _ => this θ), Finset.sum_comm, Finset.smul_sum]
  refine Finset.sum_congr rfl fun i _ => ?_
  rw [← Finset.sum_smul, ← Finset.mul_sum]
  congr 1
  have hN : (Fintype.card ι : ℝ) ≠ 0 := by
    have : 0 < Fintype.card ι := Fintype.card_pos_iff.2 ⟨i⟩
    positivity
  have := h.incl i
  rw [prob] at this
  field_simp
  rw [mul_comm]; exact this

/-- squared norm of a sum as a double sum -/
theorem sum_sq (T : Finset ι) (v : ι → H) : ‖∑ i ∈ T, v i‖ ^ 2 = ∑ i ∈ T, ∑ j ∈ T, ⟪v i, v j⟫_ℝ := by
  rw [← real_inner_self_eq_norm_sq, sum_inner]
  exact Finset.sum_congr rfl fun i _ => by rw [inner_sum]

/-- the variance of the sample average: the finite population correction -/
theorem Fair.variance (h : Fair q S k) (hk : 0 < k) (u : ι → H) (hu : ∑ i, u i = 0) :
    ∑ θ, q θ * ‖(1 / (k : ℝ)) • ∑ i ∈ S θ, u i‖ ^ 2 =
      ((Fintype.card ι : ℝ) - k) / (k * ((Fintype.card ι : ℝ) - 1)) * ((1 / (Fintype.card ι : ℝ)) * ∑ i, ‖u i‖ ^ 2) := by
  have hk' : (k : ℝ) ≠ 0 := by positivity
  obtain ⟨N, hN⟩ : ∃ N : ℝ, N = Fintype.card ι := ⟨_, rfl⟩
  rw [← hN]
  obtain ⟨Q, hQ⟩ : ∃ Q : ℝ, Q = ∑ i, ‖u i‖ ^ 2 := ⟨_, rfl⟩
  rw [← hQ]
  -- the sum over all pairs of distinct indices
  have hpairs : ∑ i, ∑ j, (if i ≠ j then ⟪u i, u j⟫_ℝ else 0) = - Q := by
    have e := pair_sum (Finset.univ : Finset ι) (fun i j => ⟪u i, u j⟫_ℝ)
    rw [← sum_sq, hu, norm_zero] at e
    simp only [Finset.mem_univ, and_true, real_inner_self_eq_norm_sq, ← hQ] at e
    simp only [ne_eq] at e ⊢
    linarith
  have e1 : ∀ θ, q θ * ‖(1 / (k : ℝ)) • ∑ i ∈ S θ, u i‖ ^ 2 =
      (1 / (k : ℝ)) ^ 2 * (q θ * ∑ i ∈ S θ, ‖u i‖ ^ 2 + q θ * ∑ i, ∑ j, if i ≠ j ∧ i ∈ S θ ∧ j ∈ S θ then ⟪u i, u j⟫_ℝ else 0) := by
    intro θ
    rw [norm_smul, mul_pow, Real.norm_eq_abs, sq_abs, sum_sq, pair_sum]
    simp only [real_inner_self_eq_norm_sq]
    ring
  rw [Finset.sum_congr rfl (fun θ _ => e1 θ), ← Finset.mul_sum, Finset.sum_add_distrib, mean_sum, mean_pairs]
  by_cases hι : IsEmpty ι
  · have hQ0 : Q = 0 := by rw [hQ]; exact Fintype.sum_empty _
    have e0 : (∑ i : ι, prob q (fun θ => i ∈ S θ) * ‖u i‖ ^ 2) = 0 := Fintype.sum_empty _
    have e00 : (∑ i : ι, ∑ j : ι, if i ≠ j then prob q (fun θ => i ∈ S θ ∧ j ∈ S θ) * ⟪u i, u j⟫_ℝ else 0) = 0 := Fintype.sum_empty _
    rw [hQ0, e0, e00]; ring
  rw [not_isEmpty_iff] at hι
  obtain ⟨i0⟩ := hι
  have hNpos : 1 ≤ N := by
    rw [hN]
    have : 0 < Fintype.card ι := Fintype.card_pos_iff.2 ⟨i0⟩
    exact_mod_cast this
  have e2 : ∑ i, prob q (fun θ => i ∈ S θ) * ‖u i‖ ^ 2 = k / N * Q := by
    rw [hQ, Finset.mul_sum]
    refine Finset.sum_congr rfl fun i _ => ?_
    congr 1
    rw [eq_div_iff (by positivity), mul_comm, hN]; exact h.incl i
  rw [e2]
  by_cases hN1 : N = 1
  · -- one index: the only value is zero
    have huniq : ∀ j, j = i0 := by
      have : Fintype.card ι = 1 := by rw [hN] at hN1; exact_mod_cast hN1
      intro j
      exact (Fintype.card_le_one_iff.1 this.le) j i0
    have hu0 : u i0 = 0 := by
      have : ∑ i, u i = u i0 := by
        rw [Finset.sum_eq_single i0 (fun b _ hb => absurd (huniq b) hb) (fun hh => absurd (Finset.mem_univ _) hh)]
      rw [← this, hu]
    have hQ0 : Q = 0 := by
      rw [hQ]
      exact Finset.sum_eq_zero fun i _ => by rw [huniq i, hu0, norm_zero]; norm_num
    have e3 : (∑ i : ι, ∑ j : ι, if i ≠ j then prob q (fun θ => i ∈ S θ ∧ j ∈ S θ) * ⟪u i, u j⟫_ℝ else 0) = 0 :=
      Finset.sum_eq_zero fun i _ => Finset.sum_eq_zero fun j _ => by rw [if_neg]; rw [huniq i, huniq j]; simp
    rw [hQ0, e3]; ring
  · have hN1' : 0 < N - 1 := by
      rcases lt_or_eq_of_le hNpos with h' | h'
      · linarith
      · exact absurd h'.symm hN1
    have e3 : (∑ i : ι, ∑ j : ι, if i ≠ j then prob q (fun θ => i ∈ S θ ∧ j ∈ S θ) * ⟪u i, u j⟫_ℝ else 0) = k * (k - 1) / (N * (N - 1)) * (- Q) := by
      rw [← hpairs, Finset.mul_sum]
      refine Finset.sum_congr rfl fun i _ => ?_
      rw [Finset.mul_sum]
      refine Finset.sum_congr rfl fun j _ => ?_
      by_cases hij : i = j
      · simp [hij]
      · rw [if_pos hij, if_pos hij]
        congr 1
        rw [eq_div_iff (by positivity), mul_comm, hN]; exact h.pair hij
    rw [e3]
    field_simp
    ring

/-- squared distance = squared distance of the mean plus variance -/
theorem split_sq (v : ι → H) (p : H) [Nonempty ι] (c : H) (hc : c = (1 / (Fintype.card ι : ℝ)) • ∑ i, v i) :
    (1 / (Fintype.card ι : ℝ)) * ∑ i, ‖v i - p‖ ^ 2 = ‖c - p‖ ^ 2 + (1 / (Fintype.card ι : ℝ)) * ∑ i, ‖v i - c‖ ^ 2 := by
  have hN : (Fintype.card ι : ℝ) ≠ 0 := by
    have : 0 < Fintype.card ι := Fintype.card_pos
    positivity
  have hz : ∑ i, (v i - c) = 0 := by
    rw [Finset.sum_sub_distrib, Finset.sum_const, Finset.card_univ, hc, ← Nat.cast_smul_eq_nsmul ℝ, smul_smul, mul_one_div_cancel hN, one_smul, sub_self]
  have e : ∀ i, ‖v i - p‖ ^ 2 = ‖v i - c‖ ^ 2 + 2 * ⟪v i - c, c - p⟫_ℝ + ‖c - p‖ ^ 2 := by
    intro i
    rw [← norm_add_sq_real]; congr 2; abel
  rw [Finset.sum_congr rfl (fun i _ => e i), Finset.sum_add_distrib, Finset.sum_add_distrib, ← Finset.mul_sum, ← sum_inner, hz, inner_zero_left,
    Finset.sum_const, Finset.card_univ, nsmul_eq_mul]
  field_simp
  ring

/-- mean squared distance of the sample average to any point -/
theorem Fair.mean_sq (h : Fair q S k) (hk : 0 < k) (v : ι → H) (p : H) [Nonempty ι] (c : H) (hc : c = (1 / (Fintype.card ι : ℝ)) • ∑ i, v i) :
    ∑ θ, q θ * ‖(1 / (k : ℝ)) • ∑ i ∈ S θ, v i - p‖ ^ 2 =
      ‖c - p‖ ^ 2 + ((Fintype.card ι : ℝ) - k) / (k * ((Fintype.card ι : ℝ) - 1)) * ((1 / (Fintype.card ι : ℝ)) * ∑ i, ‖v i - c‖ ^ 2) := by
  have hN : (Fintype.card ι : ℝ) ≠ 0 := by
    have : 0 < Fintype.card ι := Fintype.card_pos
    positivity
  have hk' : (k : ℝ) ≠ 0 := by positivity
  have hz : ∑ i, (v i - c) = 0 := by
    rw [Finset.sum_sub_distrib, Finset.sum_const, Finset.card_univ, hc, ← Nat.cast_smul_eq_nsmul ℝ, smul_smul, mul_one_div_cancel hN, one_smul, sub_self]
  have hs : ∀ θ, (1 / (k : ℝ)) • ∑ i ∈ S θ, v i - p = (1 / (k : ℝ)) • ∑ i ∈ S θ, (v i - c) + (c - p) := by
    intro θ
    rw [Finset.sum_sub_distrib, Finset.sum_const, h.card, ← Nat.cast_smul_eq_nsmul ℝ, smul_sub, smul_smul, one_div_mul_cancel hk', one_smul]
    abel
  have hm := h.mean hk (fun i => v i - c)
  rw [hz, smul_zero] at hm
  have e : ∀ θ, q θ * ‖(1 / (k : ℝ)) • ∑ i ∈ S θ, v i - p‖ ^ 2 =
      q θ * ‖(1 / (k : ℝ)) • ∑ i ∈ S θ, (v i - c)‖ ^ 2 + 2 * ⟪q θ • ((1 / (k : ℝ)) • ∑ i ∈ S θ, (v i - c)), c - p⟫_ℝ + q θ * ‖c - p‖ ^ 2 := by
    intro θ
    rw [hs θ]
    generalize (1 / (k : ℝ)) • ∑ i ∈ S θ, (v i - c) = y
    rw [norm_add_sq_real, real_inner_smul_left]
    ring
  rw [Finset.sum_congr rfl (fun θ _ => e θ), Finset.sum_add_distrib, Finset.sum_add_distrib, ← Finset.mul_sum, ← sum_inner, hm, inner_zero_left, ← Finset.sum_mul, h.total,
    h.variance hk _ hz]
  ring

/-- one round of averaging sampled contractions: contraction up to a multiple of the disagreement of the maps at the common fixed point -/
theorem Fair.contract (h : Fair q S k) (hk : 0 < k) (hkN : k ≤ Fintype.card ι) (T : ι → H → H) (Q : ℝ) (hQ0 : 0 ≤ Q) (hT : ∀ i x y, ‖T i x - T i y‖ ≤ Q * ‖x - y‖) (xs : H)
    (hfix : (1 / (Fintype.card ι : ℝ)) • ∑ i, T i xs = xs) (ε : ℝ) (hε : 0 < ε) (x : H) [Nonempty ι] :
    ∑ θ, q θ * ‖(1 / (k : ℝ)) • ∑ i ∈ S θ, T i x - xs‖ ^ 2 ≤ (1 + ε) * Q ^ 2 * ‖x - xs‖ ^ 2 +
      (1 + 1 / ε) * (((Fintype.card ι : ℝ) - k) / (k * ((Fintype.card ι : ℝ) - 1)) * ((1 / (Fintype.card ι : ℝ)) * ∑ i, ‖T i xs - xs‖ ^ 2)) := by
  obtain ⟨N, hN⟩ : ∃ N : ℝ, N = Fintype.card ι := ⟨_, rfl⟩
  have hN1 : 1 ≤ N := by rw [hN]; exact_mod_cast (Fintype.card_pos : 0 < Fintype.card ι)
  have hkN' : (k : ℝ) ≤ N := by rw [hN]; exact_mod_cast hkN
  have hk1 : (1 : ℝ) ≤ k := by exact_mod_cast hk
  obtain ⟨φ, hφ⟩ : ∃ φ : ℝ, φ = (N - k) / (k * (N - 1)) := ⟨_, rfl⟩
  have hφ0 : 0 ≤ φ := by rw [hφ]; exact div_nonneg (by linarith) (mul_nonneg (by linarith) (by linarith))
  have hφ1 : φ ≤ 1 := by
    rw [hφ]
    rcases eq_or_lt_of_le hN1 with e | e
    · rw [← e]; norm_num
    · rw [div_le_one (mul_pos (by linarith) (by linarith))]
      nlinarith
  set c := (1 / (Fintype.card ι : ℝ)) • ∑ i, T i x with hc
  set a : ι → H := fun i => T i x - T i xs with ha
  have hā : c - xs = (1 / (Fintype.card ι : ℝ)) • ∑ i, a i := by
    rw [hc, ha]
    simp only [Finset.sum_sub_distrib, smul_sub]
    rw [hfix]
  rw [h.mean_sq hk (fun i => T i x) xs c hc, ← hN, ← hφ]
  have hsplit := split_sq a 0 (c - xs) hā
  rw [← hN] at hsplit
  simp only [sub_zero] at hsplit
  have hbound : (1 / N) * ∑ i, ‖a i‖ ^ 2 ≤ Q ^ 2 * ‖x - xs‖ ^ 2 := by
    have h1 : ∑ i, ‖a i‖ ^ 2 ≤ ∑ _i : ι, Q ^ 2 * ‖x - xs‖ ^ 2 := by
      refine Finset.sum_le_sum fun i _ => ?_
      have := pow_le_pow_left₀ (norm_nonneg _) (hT i x xs) 2
      rwa [mul_pow] at this
    rw [Finset.sum_const, Finset.card_univ, nsmul_eq_mul, ← hN] at h1
    have h2 := mul_le_mul_of_nonneg_left h1 (show 0 ≤ 1 / N by positivity)
    refine h2.trans (le_of_eq ?_)
    field_simp
  have hyoung : ∑ i, ‖T i x - c‖ ^ 2 ≤ (1 + ε) * ∑ i, ‖a i - (c - xs)‖ ^ 2 + (1 + 1 / ε) * ∑ i, ‖T i xs - xs‖ ^ 2 := by
    rw [Finset.mul_sum, Finset.mul_sum, ← Finset.sum_add_distrib]
    refine Finset.sum_le_sum fun i _ => ?_
    have e : T i x - c = (a i - (c - xs)) + (T i xs - xs) := by rw [ha]; simp only; abel
    rw [e, norm_add_sq_real]
    have h1 := real_inner_le_norm (a i - (c - xs)) (T i xs - xs)
    have h2 : 0 ≤ (1 / ε) * (ε * ‖a i - (c - xs)‖ - ‖T i xs - xs‖) ^ 2 := by positivity
    have h3 : (1 / ε) * (ε * ‖a i - (c - xs)‖ - ‖T i xs - xs‖) ^ 2 = ε * ‖a i - (c - xs)‖ ^ 2 - 2 * (‖a i - (c - xs)‖ * ‖T i xs - xs‖) + 1 / ε * ‖T i xs - xs‖ ^ 2 := by
      field_simp
      ring
    linarith
  obtain ⟨Va, hVa⟩ : ∃ Va, Va = ∑ i, ‖a i - (c - xs)‖ ^ 2 := ⟨_, rfl⟩
  obtain ⟨Vb, hVb⟩ : ∃ Vb, Vb = ∑ i, ‖T i xs - xs‖ ^ 2 := ⟨_, rfl⟩
  rw [← hVa] at hyoung hsplit
  rw [← hVb] at hyoung ⊢
  have hVa0 : 0 ≤ Va := by rw [hVa]; exact Finset.sum_nonneg fun i _ => sq_nonneg _
  have h1 := mul_le_mul_of_nonneg_left hyoung (show 0 ≤ φ * (1 / N) by positivity)
  have h2 : φ * ((1 + ε) * (1 / N * Va)) ≤ 1 * ((1 + ε) * (1 / N * Va)) := mul_le_mul_of_nonneg_right hφ1 (by positivity)
  have h3 : ‖c - xs‖ ^ 2 ≤ (1 + ε) * ‖c - xs‖ ^ 2 := by nlinarith [sq_nonneg ‖c - xs‖]
  have h4 := mul_le_mul_of_nonneg_left hbound (show 0 ≤ 1 + ε by positivity)
  rw [hsplit] at h4
  calc ‖c - xs‖ ^ 2 + φ * (1 / N * ∑ i, ‖T i x - c‖ ^ 2) = ‖c - xs‖ ^ 2 + φ * (1 / N) * ∑ i, ‖T i x - c‖ ^ 2 := by ring
    _ ≤ ‖c - xs‖ ^ 2 + φ * (1 / N) * ((1 + ε) * Va + (1 + 1 / ε) * Vb) := by linarith
    _ = ‖c - xs‖ ^ 2 + φ * ((1 + ε) * (1 / N * Va)) + (1 + 1 / ε) * (φ * (1 / N * Vb)) := by ring
    _ ≤ (1 + ε) * ‖c - xs‖ ^ 2 + (1 + ε) * (1 / N * Va) + (1 + 1 / ε) * (φ * (1 / N * Vb)) := by linarith
    _ = (1 + ε) * (‖c - xs‖ ^ 2 + 1 / N * Va) + (1 + 1 / ε) * (φ * (1 / N * Vb)) := by ring
    _ ≤ (1 + ε) * (Q ^ 2 * ‖x - xs‖ ^ 2) + (1 + 1 / ε) * (φ * (1 / N * Vb)) := by linarith
    _ = _ := by ring

end
end Verif.Sampling
