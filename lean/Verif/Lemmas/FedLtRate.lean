import Verif.Lemmas.FedPdRate
import Verif.Lemmas.FedRest
import Mathlib.Algebra.BigOperators.Group.List.Basic
import Mathlib.Tactic.Linarith
import Mathlib.Tactic.Positivity
import Mathlib.Tactic.FieldSimp
set_option linter.unusedSectionVars false
/-! # Fed-LT: reflections, inexact local solves and the potential that shrinks -/
namespace Verif.Consensus
open Verif.Costs
open scoped InnerProductSpace

theorem weighted_sq (a b u V X : ℝ) (ha : 0 ≤ a) (hb : 0 ≤ b) (hu : 0 < u) : (a * V + b * X) ^ 2 ≤ (a + b * u) * (a * V ^ 2 + b * X ^ 2 / u) := by
  have e : (a + b * u) * (a * V ^ 2 + b * X ^ 2 / u) - (a * V + b * X) ^ 2 = a * b / u * (u * V - X) ^ 2 := by
    field_simp; ring
  have : 0 ≤ a * b / u * (u * V - X) ^ 2 := by positivity
  linarith

theorem coupled_weights (c s : ℝ) (hc0 : 0 ≤ c) (hs : 0 ≤ s) (h : s * (5 - c) < 1 - c) (hs5 : s < 1 / 5) :
    ∃ u w : ℝ, 0 < u ∧ 0 < w ∧ c + 2 * s + 2 * s * u < 1 ∧ 1 + s + s * u < u ∧ c + 2 * s + w * (1 + s) < 1 ∧ 2 * s + w * s < w := by
  have h1s : 0 < 1 - s := by linarith
  obtain ⟨δ, hδ⟩ : ∃ δ, δ = 1 - c - 2 * s - 2 * s * (1 + s) / (1 - s) := ⟨_, rfl⟩
  have hδ0 : 0 < δ := by
    have e : δ = (1 - c - s * (5 - c)) / (1 - s) := by rw [hδ]; field_simp; ring
    rw [e]; exact div_pos (by linarith) h1s
  have hm1 : (1 - s) * ((1 + s) / (1 - s)) = 1 + s := by field_simp
  have hm2 : (1 - s) * (2 * s / (1 - s)) = 2 * s := by field_simp
  have hm3 : 2 * s * (1 + s) / (1 - s) = 2 * s * ((1 + s) / (1 - s)) := by ring
  have hm4 : 2 * s * (1 + s) / (1 - s) = (1 + s) * (2 * s / (1 - s)) := by ring
  obtain ⟨P, hP⟩ : ∃ P, P = (1 + s) / (1 - s) := ⟨_, rfl⟩
  obtain ⟨Q, hQ⟩ : ∃ Q, Q = 2 * s / (1 - s) := ⟨_, rfl⟩
  have hP0 : 0 < P := by rw [hP]; positivity
  have hQ0 : 0 ≤ Q := by rw [hQ]; positivity
  rw [← hP] at hm1 hm3
  rw [← hQ] at hm2 hm4
  have d1 : δ = 1 - c - 2 * s - 2 * s * P := by rw [hδ, hm3]
  have d2 : δ = 1 - c - 2 * s - (1 + s) * Q := by rw [hδ, hm4]
  clear hδ hm3 hm4 hP hQ
  have t1 : 2 * s * δ < δ := by
    have := mul_lt_mul_of_pos_right (show 2 * s < 1 by linarith) hδ0
    linarith
  have t2 : (1 + s) * (δ / 2) < δ := by
    have := mul_lt_mul_of_pos_right (show 1 + s < 2 by linarith) (half_pos hδ0)
    linarith
  have t3 : 0 < (1 - s) * δ := mul_pos h1s hδ0
  refine ⟨P + δ, Q + δ / 2, by positivity, by positivity, ?_, ?_, ?_, ?_⟩
  · have : 2 * s * (P + δ) = 2 * s * P + 2 * s * δ := by ring
    linarith
  · have : (1 - s) * (P + δ) = 1 + s + (1 - s) * δ := by rw [mul_add, hm1]
    have e : (1 - s) * (P + δ) = (P + δ) - s * (P + δ) := by ring
    linarith
  · have : (Q + δ / 2) * (1 + s) = (1 + s) * Q + (1 + s) * (δ / 2) := by ring
    linarith
  · have : (1 - s) * (Q + δ / 2) = 2 * s + (1 - s) * δ / 2 := by rw [mul_add, hm2]; ring
    have e : (1 - s) * (Q + δ / 2) = (Q + δ / 2) - (Q + δ / 2) * s := by ring
    linarith

/-- two coupled errors: if the local solves are accurate enough a weighted sum of their squares shrinks -/
theorem coupled_gain (c s : ℝ) (hc0 : 0 ≤ c) (hc1 : c < 1) (hs : 0 ≤ s) (h : s * (5 - c) < 1 - c) :
    ∃ b r : ℝ, 0 < b ∧ 0 ≤ r ∧ r < 1 ∧ ∀ V X Z' X' : ℝ, 0 ≤ Z' → 0 ≤ X' → Z' ≤ (c + 2 * s) * V + 2 * s * X → X' ≤ (1 + s) * V + s * X →
      Z' ^ 2 + b * X' ^ 2 ≤ r * (V ^ 2 + b * X ^ 2) := by
  have hs5 : s < 1 / 5 := by nlinarith
  obtain ⟨u, w, hu0, hw0, u1, u2, w1, w2⟩ := coupled_weights c s hc0 hs h hs5
  clear h hs5 hc1
  obtain ⟨r1, hr1, hr1', a1, a2⟩ : ∃ r1, 0 ≤ r1 ∧ r1 < 1 ∧ c + 2 * s + 2 * s * u ≤ r1 ∧ 1 + s + s * u ≤ r1 * u :=
    ⟨max (c + 2 * s + 2 * s * u) ((1 + s + s * u) / u), le_trans (by positivity) (le_max_left _ _), max_lt u1 ((div_lt_one hu0).2 u2), le_max_left _ _,
      (div_le_iff₀ hu0).1 (le_max_right _ _)⟩
  obtain ⟨r2, hr2, hr2', b1, b2⟩ : ∃ r2, 0 ≤ r2 ∧ r2 < 1 ∧ c + 2 * s + w * (1 + s) ≤ r2 ∧ 2 * s + w * s ≤ r2 * w :=
    ⟨max (c + 2 * s + w * (1 + s)) ((2 * s + w * s) / w), le_trans (by positivity) (le_max_left _ _), max_lt w1 ((div_lt_one hw0).2 w2), le_max_left _ _,
      (div_le_iff₀ hw0).1 (le_max_right _ _)⟩
  refine ⟨w / u, r1 * r2, by positivity, by positivity, mul_lt_one_of_nonneg_of_lt_one_left hr1 hr1' hr2'.le, fun V X Z' X' hZ0 hX0 hZ hX => ?_⟩
  clear u1 u2 w1 w2 hr1' hr2'
  have e1 : Z' ^ 2 ≤ r1 * ((c + 2 * s) * V ^ 2 + 2 * s * X ^ 2 / u) := by
    refine (pow_le_pow_left₀ hZ0 hZ 2).trans ((weighted_sq (c + 2 * s) (2 * s) u V X (by positivity) (by positivity) hu0).trans ?_)
    exact mul_le_mul_of_nonneg_right a1 (by positivity)
  have e2 : X' ^ 2 ≤ r1 * u * ((1 + s) * V ^ 2 + s * X ^ 2 / u) := by
    refine (pow_le_pow_left₀ hX0 hX 2).trans ((weighted_sq (1 + s) s u V X (by positivity) hs hu0).trans ?_)
    exact mul_le_mul_of_nonneg_right a2 (by positivity)
  have e3 : w / u * X' ^ 2 ≤ r1 * (w * ((1 + s) * V ^ 2 + s * X ^ 2 / u)) := by
    refine (mul_le_mul_of_nonneg_left e2 (by positivity : 0 ≤ w / u)).trans (le_of_eq ?_)
    have : w / u * (r1 * u * ((1 + s) * V ^ 2 + s * X ^ 2 / u)) = (u / u) * (r1 * (w * ((1 + s) * V ^ 2 + s * X ^ 2 / u))) := by ring
    rw [this, div_self hu0.ne', one_mul]
  have e4 : (c + 2 * s) * V ^ 2 + 2 * s * X ^ 2 / u + w * ((1 + s) * V ^ 2 + s * X ^ 2 / u) ≤ r2 * (V ^ 2 + w / u * X ^ 2) := by
    have f1 := mul_le_mul_of_nonneg_right b1 (sq_nonneg V)
    have f2 := mul_le_mul_of_nonneg_right b2 (by positivity : 0 ≤ X ^ 2 / u)
    have g1 : r2 * (V ^ 2 + w / u * X ^ 2) = r2 * V ^ 2 + r2 * w * (X ^ 2 / u) := by ring
    have g2 : (c + 2 * s) * V ^ 2 + 2 * s * X ^ 2 / u + w * ((1 + s) * V ^ 2 + s * X ^ 2 / u) = (c + 2 * s + w * (1 + s)) * V ^ 2 + (2 * s + w * s) * (X ^ 2 / u) := by ring
    rw [g1, g2]
    exact add_le_add f1 f2
  have e5 := mul_le_mul_of_nonneg_left e4 hr1
  rw [mul_assoc]
  refine le_trans ?_ e5
  rw [mul_add]
  exact add_le_add e1 e3

section
variable {d : Nat} {f : Vec d → ℝ} {g : Vec d → Vec d} {L m ρ : ℝ}

theorem tilt_lower (hl : Lower f g m) (r : Vec d) (a : ℝ) : Lower (fun x => f x + a / 2 * ‖x - r‖ ^ 2) (fun x => g x + a • (x - r)) (m + a) := by
  intro x y
  have h := hl x y
  have e : y - r = (x - r) + (y - x) := by abel
  have e1 : ‖y - r‖ ^ 2 = ‖x - r‖ ^ 2 + 2 * ⟪x - r, y - x⟫_ℝ + ‖y - x‖ ^ 2 := by rw [e, norm_add_sq_real]
  simp only [inner_add_left, inner_smul_left, RCLike.conj_to_real]
  rw [e1]
  nlinarith

/-- the exact local solution -/
theorem exists_local (hu : Upper f g L) (hl : Lower f g m) (hL : 0 < L) (hm : 0 ≤ m) (hρ : 0 < ρ) (v : Vec d) : ∃ p, p + ρ • g p = v := by
  have hu' := tilt_upper hu 0 v (1 / ρ)
  have hl' := tilt_lower hl v (1 / ρ)
  simp only [inner_zero_left, add_zero] at hu'
  have hpos : 0 < L + 1 / ρ := by positivity
  obtain ⟨p, hp, _⟩ := gd_banach hu' hl' (by positivity) hpos (t := 1 / (L + 1 / ρ)) (by positivity) (le_of_eq (one_div_mul_cancel hpos.ne'))
  refine ⟨p, ?_⟩
  have h := (hp p).2 rfl
  have h2 : ρ • (g p + (1 / ρ) • (p - v)) = 0 := by rw [h, smul_zero]
  rw [smul_add, smul_smul, mul_one_div_cancel hρ.ne', one_smul] at h2
  have : p + ρ • g p = (ρ • g p + (p - v)) + v := by abel
  rw [this, h2, zero_add]

/-- the local solution moves no more than its data, and its reflection strictly less -/
theorem local_reflect (hu : Upper f g L) (hl : Lower f g m) (hL : 0 < L) (hm : 0 < m) (hρ : 0 < ρ) {p p' v v' : Vec d} (hp : p + ρ • g p = v) (hp' : p' + ρ • g p' = v') :
    ‖p - p'‖ ≤ ‖v - v'‖ ∧ ‖((2 : ℝ) • p - v) - ((2 : ℝ) • p' - v')‖ ≤ Real.sqrt (max 0 (1 - 4 * ρ * m / (1 + ρ * L) ^ 2)) * ‖v - v'‖ := by
  obtain ⟨a, ha⟩ : ∃ a, a = p - p' := ⟨_, rfl⟩
  obtain ⟨e, he⟩ : ∃ e, e = g p - g p' := ⟨_, rfl⟩
  have hv : v - v' = a + ρ • e := by rw [← hp, ← hp', ha, he]; module
  have hz : ((2 : ℝ) • p - v) - ((2 : ℝ) • p' - v') = a - ρ • e := by rw [← hp, ← hp', ha, he]; module
  have hsm : m * ‖a‖ ^ 2 ≤ ⟪e, a⟫_ℝ := by rw [ha, he]; exact strong_monotone hl p p'
  have hlip : ‖e‖ ^ 2 ≤ L ^ 2 * ‖a‖ ^ 2 := by rw [ha, he]; exact grad_lip hL hu (hl.mono hm.le) p p'
  have hc : ⟪a, e⟫_ℝ = ⟪e, a⟫_ℝ := real_inner_comm e a
  have s1 : ‖v - v'‖ ^ 2 = ‖a‖ ^ 2 + 2 * ρ * ⟪e, a⟫_ℝ + ρ ^ 2 * ‖e‖ ^ 2 := by
    rw [hv, norm_add_sq_real, inner_smul_right, norm_smul, mul_pow, Real.norm_eq_abs, sq_abs, hc]; ring
  have s2 : ‖((2 : ℝ) • p - v) - ((2 : ℝ) • p' - v')‖ ^ 2 = ‖v - v'‖ ^ 2 - 4 * ρ * ⟪e, a⟫_ℝ := by
    rw [s1, hz, norm_sub_sq_real, inner_smul_right, norm_smul, mul_pow, Real.norm_eq_abs, sq_abs, hc]; ring
  have hin : 0 ≤ ⟪e, a⟫_ℝ := le_trans (by positivity) hsm
  rw [← ha]
  constructor
  · refine abs_le_of_sq_le_sq' ?_ (norm_nonneg _) |>.2
    rw [s1]
    have : 0 ≤ 2 * ρ * ⟪e, a⟫_ℝ + ρ ^ 2 * ‖e‖ ^ 2 := by positivity
    linarith
  · have hel : ‖e‖ ≤ L * ‖a‖ := by
      refine abs_le_of_sq_le_sq' ?_ (by positivity) |>.2
      rw [mul_pow]; exact hlip
    have hvn : ‖v - v'‖ ≤ (1 + ρ * L) * ‖a‖ := by
      rw [hv]
      refine (norm_add_le _ _).trans ?_
      rw [norm_smul, Real.norm_eq_abs, abs_of_pos hρ]
      have := mul_le_mul_of_nonneg_left hel hρ.le
      linarith
    have hpos : 0 < 1 + ρ * L := by positivity
    have hvn2 : ‖v - v'‖ ^ 2 ≤ (1 + ρ * L) ^ 2 * ‖a‖ ^ 2 := by
      rw [← mul_pow]; exact pow_le_pow_left₀ (norm_nonneg _) hvn 2
    have hkey : ‖((2 : ℝ) • p - v) - ((2 : ℝ) • p' - v')‖ ^ 2 ≤ max 0 (1 - 4 * ρ * m / (1 + ρ * L) ^ 2) * ‖v - v'‖ ^ 2 := by
      refine le_trans ?_ (mul_le_mul_of_nonneg_right (le_max_right _ _) (by positivity))
      rw [s2, sub_mul, one_mul]
      have : 4 * ρ * m / (1 + ρ * L) ^ 2 * ‖v - v'‖ ^ 2 ≤ 4 * ρ * m / (1 + ρ * L) ^ 2 * ((1 + ρ * L) ^ 2 * ‖a‖ ^ 2) := mul_le_mul_of_nonneg_left hvn2 (by positivity)
      have e2 : 4 * ρ * m / (1 + ρ * L) ^ 2 * ((1 + ρ * L) ^ 2 * ‖a‖ ^ 2) = 4 * ρ * (m * ‖a‖ ^ 2) := by field_simp
      have := mul_le_mul_of_nonneg_left hsm (by positivity : 0 ≤ 4 * ρ)
      linarith
    refine abs_le_of_sq_le_sq' ?_ (by positivity) |>.2
    rw [mul_pow, Real.sq_sqrt (le_max_left _ _)]
    exact hkey

end

section
variable {A : Type} {d : Nat}

/-- reflecting through a firmly nonexpansive function of the mean does not expand -/
theorem mean_reflect (l : List A) (N : ℝ) (hN : 0 < N) (hl : (l.length : ℝ) = N) (dz : A → Vec d) (dy : Vec d)
    (hfirm : ‖dy‖ ^ 2 ≤ ⟪dy, (1 / N) • (l.map dz).sum⟫_ℝ) : (l.map (fun c => ‖(2 : ℝ) • dy - dz c‖ ^ 2)).sum ≤ (l.map (fun c => ‖dz c‖ ^ 2)).sum := by
  have key : ∀ t : List A, (t.map (fun c => ‖(2 : ℝ) • dy - dz c‖ ^ 2)).sum = 4 * (t.length : ℝ) * ‖dy‖ ^ 2 - 4 * ⟪dy, (t.map dz).sum⟫_ℝ + (t.map (fun c => ‖dz c‖ ^ 2)).sum := by
    intro t
    induction t with
    | nil => simp
    | cons a t ih =>
      rw [List.map_cons, List.sum_cons, ih]
      simp only [List.map_cons, List.sum_cons, List.length_cons, inner_add_right]
      rw [norm_sub_sq_real, inner_smul_left, norm_smul, mul_pow, RCLike.conj_to_real, Real.norm_eq_abs, sq_abs]
      push_cast; ring
  rw [key l, hl]
  rw [inner_smul_right] at hfirm
  have := mul_le_mul_of_nonneg_left hfirm hN.le
  rw [← mul_assoc, mul_one_div_cancel hN.ne', one_mul] at this
  linarith

/-- the mean is not further than the root mean square -/
theorem mean_sq_le (l : List A) (N : ℝ) (hN : 0 < N) (hl : (l.length : ℝ) = N) (dz : A → Vec d) : ‖(1 / N) • (l.map dz).sum‖ ^ 2 ≤ 1 / N * (l.map (fun c => ‖dz c‖ ^ 2)).sum := by
  have key : ∀ (t : List A) (y : Vec d), 2 * ⟪y, (t.map dz).sum⟫_ℝ ≤ (t.length : ℝ) * ‖y‖ ^ 2 + (t.map (fun c => ‖dz c‖ ^ 2)).sum := by
    intro t y
    induction t with
    | nil => simp
    | cons a t ih =>
      simp only [List.map_cons, List.sum_cons, List.length_cons, inner_add_right]
      have := norm_sub_sq_real y (dz a)
      have := sq_nonneg ‖y - dz a‖
      push_cast; nlinarith
  have h := key l ((1 / N) • (l.map dz).sum)
  obtain ⟨S, hS⟩ : ∃ S, S = (l.map dz).sum := ⟨_, rfl⟩
  rw [hl, ← hS, inner_smul_left, RCLike.conj_to_real, real_inner_self_eq_norm_sq, norm_smul, mul_pow, Real.norm_eq_abs, sq_abs] at h
  rw [← hS, norm_smul, mul_pow, Real.norm_eq_abs, sq_abs]
  have e : N * ((1 / N) ^ 2 * ‖S‖ ^ 2) = 1 / N * ‖S‖ ^ 2 := by field_simp
  rw [e] at h
  have h2 : 1 / N * ‖S‖ ^ 2 ≤ (l.map (fun c => ‖dz c‖ ^ 2)).sum := by linarith
  have := mul_le_mul_of_nonneg_left h2 (by positivity : 0 ≤ 1 / N)
  calc (1 / N) ^ 2 * ‖S‖ ^ 2 = 1 / N * (1 / N * ‖S‖ ^ 2) := by ring
    _ ≤ _ := this

end

end Verif.Consensus
