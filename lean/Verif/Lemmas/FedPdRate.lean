import Verif.Lemmas.Rates
set_option linter.unusedSectionVars false
/-! # One FedPD step of one client -/
namespace Verif.Consensus
open Verif.Costs
open scoped InnerProductSpace

section
variable {d : Nat}

/-- the identity behind the descent of `‖x - xs‖²/γ + η‖λ - λs‖²` -/
theorem pd_identity (e D p c : Vec d) (γ η : ℝ) (hγ : γ ≠ 0) (hη : η ≠ 0) (h : Vec d) (hD : D = -(γ • (h + p + (1 / η) • (e - c)))) :
    1 / γ * ‖e + D‖ ^ 2 + η * ‖p + (1 / η) • (e + D - c)‖ ^ 2 = 1 / γ * ‖e‖ ^ 2 + η * ‖p‖ ^ 2 - 2 * ⟪h, e⟫_ℝ - 2 * ⟪h, D⟫_ℝ
      + 2 * ⟪D, (1 / η) • (e + D - c)⟫_ℝ - η * ‖(1 / η) • (e + D - c)‖ ^ 2 - 1 / γ * ‖D‖ ^ 2 - 2 * ⟪p + (1 / η) • (e - c), c⟫_ℝ := by
  have hh : h = -((1 / γ) • D) - p - (1 / η) • (e - c) := by
    rw [hD, smul_neg, smul_smul, one_div_mul_cancel hγ, one_smul]; module
  rw [hh]
  simp only [← real_inner_self_eq_norm_sq, inner_add_left, inner_add_right, inner_sub_left, inner_sub_right, inner_smul_left, inner_smul_right,
    inner_neg_left, RCLike.conj_to_real]
  rw [real_inner_comm e D, real_inner_comm p e, real_inner_comm p D, real_inner_comm c e, real_inner_comm c D, real_inner_comm c p]
  field_simp
  ring

theorem grad_lip {f : Vec d → ℝ} {g : Vec d → Vec d} {L : ℝ} (hL : 0 < L) (hu : Upper f g L) (hl : Lower f g 0) (x y : Vec d) :
    ‖g x - g y‖ ^ 2 ≤ L ^ 2 * ‖x - y‖ ^ 2 := by
  have h1 := cocoercive hL hu hl x y
  have h2 := real_inner_le_norm (g x - g y) (x - y)
  have h3 : ‖g x - g y‖ ^ 2 ≤ L * (‖g x - g y‖ * ‖x - y‖) := by
    have := mul_le_mul_of_nonneg_left (h1.trans h2) hL.le
    rwa [← mul_assoc, mul_one_div_cancel hL.ne', one_mul] at this
  by_cases h0 : ‖g x - g y‖ = 0
  · rw [h0, zero_pow two_ne_zero]; positivity
  · have hp : 0 < ‖g x - g y‖ := lt_of_le_of_ne (norm_nonneg _) (Ne.symm h0)
    have h4 : ‖g x - g y‖ ≤ L * ‖x - y‖ := by
      by_contra hc
      have := mul_lt_mul_of_pos_left (not_le.1 hc) hp
      nlinarith
    calc ‖g x - g y‖ ^ 2 ≤ (L * ‖x - y‖) ^ 2 := pow_le_pow_left₀ hp.le h4 2
      _ = L ^ 2 * ‖x - y‖ ^ 2 := by ring

/-- one client, one local step: contraction up to a term that vanishes when summed over the clients -/
theorem pd_client {f : Vec d → ℝ} {g : Vec d → Vec d} {L m γ η : ℝ} (hu : Upper f g L) (hl : Lower f g m) (hm : 0 < m) (hL : 0 < L)
    (hγ : 0 < γ) (hη : 0 < η) (hs : 0 < 1 / γ - 1 / η - L) (x lam c xs : Vec d) :
    (1 + min m (1 / γ - 1 / η - L) / (2 / γ + 2 * η * (L ^ 2 + (1 / γ - 1 / η) ^ 2))) *
      (1 / γ * ‖x - γ • (g x + lam + (1 / η) • (x - c)) - xs‖ ^ 2 +
        η * ‖lam + (1 / η) • (x - γ • (g x + lam + (1 / η) • (x - c)) - c) + g xs‖ ^ 2) ≤
      1 / γ * ‖x - xs‖ ^ 2 + η * ‖lam + g xs‖ ^ 2 - 2 * ⟪lam + (1 / η) • (x - c) + g xs, c - xs⟫_ℝ := by
  set D : Vec d := -(γ • ((g x - g xs) + (lam + g xs) + (1 / η) • ((x - xs) - (c - xs)))) with hD
  have eD : x - γ • (g x + lam + (1 / η) • (x - c)) - xs = (x - xs) + D := by rw [hD]; module
  have eL : lam + (1 / η) • (x - γ • (g x + lam + (1 / η) • (x - c)) - c) + g xs =
      (lam + g xs) + (1 / η) • ((x - xs) + D - (c - xs)) := by rw [hD]; module
  have eC : lam + (1 / η) • (x - c) + g xs = (lam + g xs) + (1 / η) • ((x - xs) - (c - xs)) := by module
  rw [eD, eL, eC]
  have hid := pd_identity (x - xs) D (lam + g xs) (c - xs) γ η hγ.ne' hη.ne' (g x - g xs) hD
  have hEL : (lam + g xs) + (1 / η) • ((x - xs) + D - (c - xs)) = -(g x - g xs) - (1 / γ - 1 / η) • D := by
    have : (1 / γ) • D = -((g x - g xs) + (lam + g xs) + (1 / η) • ((x - xs) - (c - xs))) := by
      rw [hD, smul_neg, smul_smul, one_div_mul_cancel hγ.ne', one_smul]
    rw [sub_smul, this]; module
  set e := x - xs with he
  set p := lam + g xs
  set c' := c - xs
  set h := g x - g xs with hh
  set ell := (1 / η) • (e + D - c') with hell
  set q := 1 / γ - 1 / η with hq
  set V' := 1 / γ * ‖e + D‖ ^ 2 + η * ‖p + ell‖ ^ 2 with hV'
  -- the descent
  have h1 := cocoercive hL hu (hl.mono hm.le) x xs
  have h2 := strong_monotone hl x xs
  have h3 : 2 * ⟪D, ell⟫_ℝ ≤ 1 / η * ‖D‖ ^ 2 + η * ‖ell‖ ^ 2 := by
    have := sq_nonneg (‖D - η • ell‖)
    rw [norm_sub_sq_real, inner_smul_right, norm_smul, mul_pow, Real.norm_eq_abs, sq_abs] at this
    have h4 := mul_nonneg (show 0 ≤ 1 / η by positivity) this
    have e1 : 1 / η * (‖D‖ ^ 2 - 2 * (η * ⟪D, ell⟫_ℝ) + η ^ 2 * ‖ell‖ ^ 2) = 1 / η * ‖D‖ ^ 2 - 2 * ⟪D, ell⟫_ℝ + η * ‖ell‖ ^ 2 := by field_simp
    linarith
  have h5 : -(2 * ⟪h, D⟫_ℝ) ≤ 1 / L * ‖h‖ ^ 2 + L * ‖D‖ ^ 2 := by
    have := sq_nonneg (‖h + L • D‖)
    rw [norm_add_sq_real, inner_smul_right, norm_smul, mul_pow, Real.norm_eq_abs, sq_abs] at this
    have h4 := mul_nonneg (show 0 ≤ 1 / L by positivity) this
    have e1 : 1 / L * (‖h‖ ^ 2 + 2 * (L * ⟪h, D⟫_ℝ) + L ^ 2 * ‖D‖ ^ 2) = 1 / L * ‖h‖ ^ 2 + 2 * ⟪h, D⟫_ℝ + L * ‖D‖ ^ 2 := by field_simp
    linarith
  have hdesc : V' ≤ 1 / γ * ‖e‖ ^ 2 + η * ‖p‖ ^ 2 - m * ‖e‖ ^ 2 - (q - L) * ‖D‖ ^ 2 - 2 * ⟪p + (1 / η) • (e - c'), c'⟫_ℝ := by
    have e1 : (q - L) * ‖D‖ ^ 2 = 1 / γ * ‖D‖ ^ 2 - 1 / η * ‖D‖ ^ 2 - L * ‖D‖ ^ 2 := by rw [hq]; ring
    linarith
  -- the size of the new error
  have hlip := grad_lip hL hu (hl.mono hm.le) x xs
  have hg1 : ‖p + ell‖ ^ 2 ≤ 2 * (L ^ 2 * ‖e‖ ^ 2) + 2 * (q ^ 2 * ‖D‖ ^ 2) := by
    rw [hEL]
    have := parallelogram_law_with_norm ℝ (-h) (q • D)
    have e2 : ‖q • D‖ ^ 2 = q ^ 2 * ‖D‖ ^ 2 := by rw [norm_smul, mul_pow, Real.norm_eq_abs, sq_abs]
    rw [norm_neg] at this
    nlinarith [sq_nonneg ‖-h + q • D‖]
  have hg2 : ‖e + D‖ ^ 2 ≤ 2 * ‖e‖ ^ 2 + 2 * ‖D‖ ^ 2 := by
    have := parallelogram_law_with_norm ℝ e D
    nlinarith [sq_nonneg ‖e - D‖]
  set Cc := 2 / γ + 2 * η * (L ^ 2 + q ^ 2) with hCc
  have hC : 0 < Cc := by positivity
  have hbig : V' ≤ Cc * (‖e‖ ^ 2 + ‖D‖ ^ 2) := by
    have a1 := mul_le_mul_of_nonneg_left hg2 (show 0 ≤ 1 / γ by positivity)
    have a2 := mul_le_mul_of_nonneg_left hg1 hη.le
    have a3 : 0 ≤ η * (L ^ 2 * ‖D‖ ^ 2) := by positivity
    have a4 : 0 ≤ η * (q ^ 2 * ‖e‖ ^ 2) := by positivity
    have a5 : Cc * (‖e‖ ^ 2 + ‖D‖ ^ 2) = 1 / γ * (2 * ‖e‖ ^ 2 + 2 * ‖D‖ ^ 2) + η * (2 * (L ^ 2 * ‖e‖ ^ 2) + 2 * (q ^ 2 * ‖D‖ ^ 2))
        + 2 * (η * (L ^ 2 * ‖D‖ ^ 2)) + 2 * (η * (q ^ 2 * ‖e‖ ^ 2)) := by rw [hCc]; ring
    linarith
  set κ := min m (q - L) with hκ
  have hκ0 : 0 < κ := lt_min hm hs
  have hk1 : κ * (‖e‖ ^ 2 + ‖D‖ ^ 2) ≤ m * ‖e‖ ^ 2 + (q - L) * ‖D‖ ^ 2 := by
    have b1 := mul_le_mul_of_nonneg_right (min_le_left m (q - L)) (sq_nonneg ‖e‖)
    have b2 := mul_le_mul_of_nonneg_right (min_le_right m (q - L)) (sq_nonneg ‖D‖)
    rw [mul_add]; linarith
  have hk2 : κ / Cc * V' ≤ κ * (‖e‖ ^ 2 + ‖D‖ ^ 2) := by
    have := mul_le_mul_of_nonneg_left hbig (show 0 ≤ κ / Cc by positivity)
    have e3 : κ / Cc * (Cc * (‖e‖ ^ 2 + ‖D‖ ^ 2)) = κ * (‖e‖ ^ 2 + ‖D‖ ^ 2) := by field_simp
    linarith
  have e4 : (1 + κ / Cc) * V' = V' + κ / Cc * V' := by ring
  rw [e4]
  linarith

/-- a gradient step on the augmented local cost is a contraction -/
theorem aug_contract {f : Vec d → ℝ} {g : Vec d → Vec d} {L γ η : ℝ} (hu : Upper f g L) (hl : Lower f g 0) (hL : 0 < L)
    (hγ : 0 < γ) (hs : γ * (L + 1 / η) ≤ 1) (lam c x y : Vec d) :
    ‖(x - γ • (g x + lam + (1 / η) • (x - c))) - (y - γ • (g y + lam + (1 / η) • (y - c)))‖ ^ 2 ≤ (1 - γ / η) ^ 2 * ‖x - y‖ ^ 2 := by
  have e : (x - γ • (g x + lam + (1 / η) • (x - c))) - (y - γ • (g y + lam + (1 / η) • (y - c))) =
      (1 - γ / η) • (x - y) - γ • (g x - g y) := by
    rw [show γ / η = γ * (1 / η) by ring]; module
  have h1 := cocoercive hL hu hl x y
  rw [e, norm_sub_smul_sq, norm_smul, mul_pow, Real.norm_eq_abs, sq_abs, inner_smul_right]
  have ha : γ * L ≤ 1 - γ / η := by
    have : γ * (L + 1 / η) = γ * L + γ / η := by ring
    linarith
  have h2 : ‖g x - g y‖ ^ 2 ≤ L * ⟪g x - g y, x - y⟫_ℝ := by
    have := mul_le_mul_of_nonneg_left h1 hL.le
    rwa [← mul_assoc, mul_one_div_cancel hL.ne', one_mul] at this
  have h0 : 0 ≤ ⟪g x - g y, x - y⟫_ℝ := le_trans (by positivity) h1
  have h3 := mul_le_mul_of_nonneg_left h2 (sq_nonneg γ)
  have h4 := mul_le_mul_of_nonneg_right ha (mul_nonneg hγ.le h0)
  have h5 : 0 ≤ (1 - γ / η) * (γ * ⟪g x - g y, x - y⟫_ℝ) := by
    have : 0 ≤ γ * L := by positivity
    have : 0 ≤ 1 - γ / η := by linarith
    positivity
  have e5 : γ ^ 2 * (L * ⟪g x - g y, x - y⟫_ℝ) = γ * L * (γ * ⟪g x - g y, x - y⟫_ℝ) := by ring
  have e6 : 2 * γ * ((1 - γ / η) * ⟪g x - g y, x - y⟫_ℝ) = 2 * ((1 - γ / η) * (γ * ⟪g x - g y, x - y⟫_ℝ)) := by ring
  rw [e6]
  linarith

end
end Verif.Consensus
