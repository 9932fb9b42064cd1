import Verif.Lemmas.Rates
import Mathlib.Tactic.Positivity
import Mathlib.Tactic.FieldSimp
import Mathlib.Tactic.Module
set_option linter.unusedSectionVars false
/-! # Small steps: gradient methods whose disagreement contracts by itself

Gradient tracking and the primal-dual methods are split into the mean of the agents (which follows gradient descent up to the
disagreement) and the disagreement (which contracts up to an error proportional to the step size). -/
namespace Verif.Consensus
open scoped InnerProductSpace

/-- Two coupled non-negative quantities: `a` shrinks by `1 - ρ μ`, `b` by a fixed factor `s`, each disturbed by the other with
strength proportional to `ρ`. For small `ρ` a weighted sum of them shrinks. -/
theorem small_gain (μ K s : ℝ) (hμ : 0 < μ) (hK : 0 ≤ K) (hs0 : 0 ≤ s) (hs1 : s < 1) : ∃ ρ0 : ℝ, 0 < ρ0 ∧ ρ0 ≤ 1 ∧ ∀ ρ, 0 < ρ → ρ < ρ0 →
    ∃ q θ : ℝ, 0 < q ∧ 0 ≤ θ ∧ θ < 1 ∧ ∀ a b a' b' : ℝ, 0 ≤ a → 0 ≤ b →
      a' ≤ (1 - ρ * μ + ρ ^ 2 * K) * a + ρ * K * b → b' ≤ s * b + ρ * K * (a + b) → a' + q * b' ≤ θ * (a + q * b) := by
  set q : ℝ := μ / (4 * (K + 1)) with hq
  have hK1 : 0 < K + 1 := by linarith
  have hq0 : 0 < q := by positivity
  have hqK : q * K ≤ μ / 4 := by
    have : q * (K + 1) = μ / 4 := by rw [hq]; field_simp
    nlinarith
  set t : ℝ := q * (1 - s) / (2 * ((K + 1) * (1 + q))) with ht
  have h1s : 0 < 1 - s := by linarith
  have ht0 : 0 < t := by positivity
  refine ⟨min 1 (min q t), by positivity, min_le_left _ _, fun ρ hρ hρ0 => ?_⟩
  have hρq : ρ < q := hρ0.trans_le ((min_le_right _ _).trans (min_le_left _ _))
  have hρt : ρ < t := hρ0.trans_le ((min_le_right _ _).trans (min_le_right _ _))
  have h1 : ρ * K ≤ μ / 4 := (mul_le_mul_of_nonneg_right hρq.le hK).trans hqK
  have h2 : ρ * K * (1 + q) ≤ q * ((1 - s) / 2) := by
    have e : t * ((K + 1) * (1 + q)) = q * ((1 - s) / 2) := by rw [ht]; field_simp
    have h3 : ρ * ((K + 1) * (1 + q)) ≤ t * ((K + 1) * (1 + q)) := mul_le_mul_of_nonneg_right hρt.le (by positivity)
    have h4 : ρ * K * (1 + q) ≤ ρ * ((K + 1) * (1 + q)) := by nlinarith [mul_pos hρ (show 0 < 1 + q by linarith)]
    linarith
  refine ⟨q, max (1 - ρ * μ / 2) ((1 + s) / 2), hq0, le_max_of_le_right (by linarith), max_lt (by have := mul_pos hρ hμ; linarith) (by linarith), ?_⟩
  intro a b a' b' ha hb h3 h4
  have c1 : 1 - ρ * μ + ρ ^ 2 * K + q * (ρ * K) ≤ max (1 - ρ * μ / 2) ((1 + s) / 2) := by
    refine le_trans ?_ (le_max_left _ _)
    have e1 := mul_le_mul_of_nonneg_left h1 hρ.le
    have e2 := mul_le_mul_of_nonneg_left hqK hρ.le
    have : ρ ^ 2 * K = ρ * (ρ * K) := by ring
    have : q * (ρ * K) = ρ * (q * K) := by ring
    linarith
  have c2 : ρ * K + q * (s + ρ * K) ≤ max (1 - ρ * μ / 2) ((1 + s) / 2) * q := by
    refine le_trans ?_ (mul_le_mul_of_nonneg_right (le_max_right _ _) hq0.le)
    nlinarith
  have e1 := mul_le_mul_of_nonneg_right c1 ha
  have e2 := mul_le_mul_of_nonneg_right c2 hb
  have e3 := mul_le_mul_of_nonneg_left h4 hq0.le
  nlinarith

section abstract_
variable {H : Type} [NormedAddCommGroup H] [InnerProductSpace ℝ H]

/-- an orthogonal projection -/
structure Proj (P : H →ₗ[ℝ] H) : Prop where
  symm : ∀ u v, ⟪P u, v⟫_ℝ = ⟪u, P v⟫_ℝ
  idem : ∀ v, P (P v) = P v

theorem Proj.split {P : H →ₗ[ℝ] H} (h : Proj P) (v : H) : ‖v‖ ^ 2 = ‖P v‖ ^ 2 + ‖v - P v‖ ^ 2 := by
  have e : ⟪P v, v - P v⟫_ℝ = 0 := by rw [h.symm, map_sub, h.idem, sub_self, inner_zero_right]
  have : v = P v + (v - P v) := by abel
  conv_lhs => rw [this]
  rw [norm_add_sq_real, e]; ring

theorem Proj.norm_le {P : H →ₗ[ℝ] H} (h : Proj P) (v : H) : ‖P v‖ ≤ ‖v‖ := by
  have := h.split v
  exact (abs_le_of_sq_le_sq' (by nlinarith [sq_nonneg ‖v - P v‖]) (norm_nonneg _)).2

theorem Proj.compl_le {P : H →ₗ[ℝ] H} (h : Proj P) (v : H) : ‖v - P v‖ ≤ ‖v‖ := by
  have := h.split v
  exact (abs_le_of_sq_le_sq' (by nlinarith [sq_nonneg ‖P v‖]) (norm_nonneg _)).2

/-- an operator that keeps agreements and means and does not expand -/
structure Even (P T : H →ₗ[ℝ] H) : Prop where
  keeps : ∀ v, T (P v) = P v
  mean : ∀ v, P (T v) = P v
  le : ∀ v, ‖T v‖ ≤ ‖v‖

theorem Even.id (P : H →ₗ[ℝ] H) : Even P (LinearMap.id : H →ₗ[ℝ] H) := ⟨fun _ => rfl, fun _ => rfl, fun _ => le_refl _⟩

theorem Even.compl {P T : H →ₗ[ℝ] H} (h : Even P T) (v : H) : ‖T v - P v‖ ≤ ‖v - P v‖ := by
  have : T v - P v = T (v - P v) := by rw [map_sub, h.keeps]
  rw [this]; exact h.le _

/-- ... and shrinks disagreement by the factor `s` -/
structure Shrinks (P W : H →ₗ[ℝ] H) (s : ℝ) : Prop where
  even : Even P W
  shrink : ∀ v, ‖W v - P v‖ ≤ s * ‖v - P v‖

/-- the stacked gradient of `m`-strongly convex, `L`-smooth costs -/
structure GradLike (g : H → H) (L m : ℝ) : Prop where
  Lpos : 0 < L
  mpos : 0 < m
  coco : ∀ x y, ‖g x - g y‖ ^ 2 ≤ L * ⟪g x - g y, x - y⟫_ℝ
  mono : ∀ x y, m * ‖x - y‖ ^ 2 ≤ ⟪g x - g y, x - y⟫_ℝ

theorem GradLike.lip {g : H → H} {L m : ℝ} (h : GradLike g L m) (x y : H) : ‖g x - g y‖ ≤ L * ‖x - y‖ := by
  have h1 := h.coco x y
  have h2 := real_inner_le_norm (g x - g y) (x - y)
  rcases (norm_nonneg (g x - g y)).eq_or_lt with e | e
  · rw [← e]; exact mul_nonneg h.Lpos.le (norm_nonneg _)
  · have h3 : ‖g x - g y‖ * ‖g x - g y‖ ≤ ‖g x - g y‖ * (L * ‖x - y‖) := by
      have := mul_le_mul_of_nonneg_left h2 h.Lpos.le
      nlinarith
    exact le_of_mul_le_mul_left h3 e

/-- the mean of the local gradients at an agreement: a gradient step contracts -/
theorem mean_contract {P : H →ₗ[ℝ] H} (hP : Proj P) {g : H → H} {L m : ℝ} (hg : GradLike g L m) {ρ : ℝ} (hρ : 0 < ρ) (hρL : ρ * L ≤ 1)
    {z xs : H} (hz : P z = z) (hxs : P xs = xs) (hopt : P (g xs) = 0) : ‖z - xs - ρ • P (g z)‖ ≤ (1 - ρ * (m / 2)) * ‖z - xs‖ := by
  set e := z - xs with he
  set u := g z - g xs with hu
  have hPe : P e = e := by rw [he, map_sub, hz, hxs]
  have hq : P (g z) = P u := by rw [hu, map_sub, hopt, sub_zero]
  have hin : ⟪e, P u⟫_ℝ = ⟪u, e⟫_ℝ := by rw [← hP.symm, hPe, real_inner_comm]
  have h1 := hg.coco z xs
  have h2 := hg.mono z xs
  have h3 : ‖P u‖ ^ 2 ≤ ‖u‖ ^ 2 := pow_le_pow_left₀ (norm_nonneg _) (hP.norm_le u) 2
  have hmL : ρ * m ≤ 1 ∨ ‖e‖ = 0 := by
    by_cases h0 : ‖e‖ = 0
    · exact Or.inr h0
    · left
      have hpos : 0 < ‖e‖ ^ 2 := by positivity
      have h4 : ⟪u, e⟫_ℝ ≤ L * ‖e‖ ^ 2 := by
        have a := real_inner_le_norm u e
        have b := hg.lip z xs
        have c := mul_le_mul_of_nonneg_right b (norm_nonneg e)
        nlinarith
      have : m ≤ L := le_of_mul_le_mul_right (h2.trans h4) hpos
      nlinarith [mul_le_mul_of_nonneg_left this hρ.le]
  have key : ‖e - ρ • P u‖ ^ 2 ≤ (1 - ρ * m) * ‖e‖ ^ 2 := by
    rw [norm_sub_sq_real, inner_smul_right, norm_smul, mul_pow, Real.norm_eq_abs, sq_abs, hin]
    have a := mul_le_mul_of_nonneg_left (h3.trans h1) (sq_nonneg ρ)
    have hin0 : 0 ≤ ⟪u, e⟫_ℝ := le_trans (by have := hg.mpos; positivity) h2
    have b : ρ ^ 2 * (L * ⟪u, e⟫_ℝ) ≤ ρ * ⟪u, e⟫_ℝ := by
      have : ρ ^ 2 * (L * ⟪u, e⟫_ℝ) = (ρ * L) * (ρ * ⟪u, e⟫_ℝ) := by ring
      rw [this]
      exact (mul_le_mul_of_nonneg_right hρL (mul_nonneg hρ.le hin0)).trans (by rw [one_mul])
    have c := mul_le_mul_of_nonneg_left h2 hρ.le
    nlinarith
  rw [hq]
  rcases hmL with hmL | h0
  · have hb : 0 ≤ (1 - ρ * (m / 2)) * ‖e‖ := mul_nonneg (by nlinarith [mul_pos hρ hg.mpos]) (norm_nonneg _)
    refine (abs_le_of_sq_le_sq' (key.trans ?_) hb).2
    rw [mul_pow]
    refine mul_le_mul_of_nonneg_right ?_ (sq_nonneg _)
    nlinarith [sq_nonneg (ρ * (m / 2))]
  · have : ‖e - ρ • P u‖ ^ 2 ≤ 0 := by rw [h0] at key; simpa using key
    have h4 : ‖e - ρ • P u‖ = 0 := pow_eq_zero_iff two_ne_zero |>.1 (le_antisymm this (sq_nonneg _))
    rw [h4, h0, mul_zero]

/-- One step of gradient tracking with disturbances `e1`, `e2` proportional to the step size and the tracker. -/
theorem tracking_step {P W T2 T3 : H →ₗ[ℝ] H} (hP : Proj P) {s : ℝ} (hW : Shrinks P W s) (h2 : Even P T2) (h3 : Even P T3)
    {g : H → H} {L m : ℝ} (hg : GradLike g L m) {ρ κ : ℝ} (hρ : 0 < ρ) (hρ1 : ρ ≤ 1) (hρL : ρ * L ≤ 1) (hκ : 0 ≤ κ)
    {xs x y x' y' e1 e2 : H} (hxs : P xs = xs) (hopt : P (g xs) = 0) (htr : P y = P (g x))
    (hx' : x' = W x - ρ • T2 (y + e1)) (hy' : y' = W y + T3 (g x' - g x) + e2) (he2 : P e2 = 0)
    (hb1 : ‖e1‖ ≤ κ * ρ * ‖y‖) (hb2 : ‖e2‖ ≤ κ * ρ * ‖y‖) :
    P y' = P (g x') ∧ ‖y‖ ≤ L * (‖P x - xs‖ + ‖x - P x‖) + ‖y - P y‖ ∧
      ‖P x' - xs‖ ≤ (1 - ρ * (m / 2)) * ‖P x - xs‖ + ρ * L * ‖x - P x‖ + ρ ^ 2 * κ * ‖y‖ ∧
      ‖x' - P x'‖ ≤ s * ‖x - P x‖ + ρ * (‖y - P y‖ + κ * ‖y‖) ∧
      ‖y' - P y'‖ ≤ s * ‖y - P y‖ + L * (2 * ‖x - P x‖) + ρ * ((L * (1 + κ) + κ) * ‖y‖) := by
  have hPx' : P x' = P x - ρ • (P y + P e1) := by rw [hx', map_sub, map_smul, hW.even.mean, h2.mean, map_add]
  have hPy' : P y' = P (g x') := by
    rw [hy', map_add, map_add, hW.even.mean, h3.mean, he2, map_sub, htr]; abel
  have hy0 : 0 ≤ ‖y‖ := norm_nonneg y
  have hκρ : κ * ρ * ‖y‖ ≤ κ * ‖y‖ := by nlinarith [mul_nonneg hκ hy0]
  have hxn : ‖x - xs‖ ≤ ‖P x - xs‖ + ‖x - P x‖ := by
    have : x - xs = (P x - xs) + (x - P x) := by abel
    rw [this]; exact norm_add_le _ _
  have hyn : ‖y‖ ≤ L * (‖P x - xs‖ + ‖x - P x‖) + ‖y - P y‖ := by
    have e : y = P y + (y - P y) := by abel
    have h1 : ‖y‖ ≤ ‖P y‖ + ‖y - P y‖ := by
      have := norm_add_le (P y) (y - P y)
      rwa [← e] at this
    have h4 : P y = P (g x - g xs) := by rw [map_sub, hopt, sub_zero, htr]
    have h5 : ‖P y‖ ≤ L * ‖x - xs‖ := by rw [h4]; exact (hP.norm_le _).trans (hg.lip x xs)
    have h6 := mul_le_mul_of_nonneg_left hxn hg.Lpos.le
    linarith
  refine ⟨hPy', hyn, ?_, ?_, ?_⟩
  · have e : P x' - xs = (P x - xs - ρ • P (g (P x))) - ρ • P (g x - g (P x)) - ρ • P e1 := by
      rw [hPx', htr, map_sub]; module
    rw [e]
    have a1 := mean_contract hP hg hρ hρL (hP.idem x) hxs hopt
    have a2 : ‖ρ • P (g x - g (P x))‖ ≤ ρ * (L * ‖x - P x‖) := by
      rw [norm_smul, Real.norm_of_nonneg hρ.le]
      exact mul_le_mul_of_nonneg_left ((hP.norm_le _).trans (hg.lip _ _)) hρ.le
    have a3 : ‖ρ • P e1‖ ≤ ρ * (κ * ρ * ‖y‖) := by
      rw [norm_smul, Real.norm_of_nonneg hρ.le]
      exact mul_le_mul_of_nonneg_left ((hP.norm_le _).trans hb1) hρ.le
    refine (norm_sub_le _ _).trans ?_
    refine (add_le_add_left (norm_sub_le _ _) _).trans ?_
    nlinarith
  · have e : x' - P x' = (W x - P x) - ρ • (T2 (y + e1) - P (y + e1)) := by
      rw [hPx', hx', map_add P]; module
    rw [e]
    have a1 := hW.shrink x
    have a2 := h2.compl (y + e1)
    have a3 : ‖y + e1 - P (y + e1)‖ ≤ ‖y - P y‖ + κ * ‖y‖ := by
      have : y + e1 - P (y + e1) = (y - P y) + (e1 - P e1) := by rw [map_add]; abel
      rw [this]
      refine (norm_add_le _ _).trans (add_le_add_right ?_ _)
      exact ((hP.compl_le e1).trans hb1).trans hκρ
    have a4 : ‖ρ • (T2 (y + e1) - P (y + e1))‖ ≤ ρ * (‖y - P y‖ + κ * ‖y‖) := by
      rw [norm_smul, Real.norm_of_nonneg hρ.le]
      exact mul_le_mul_of_nonneg_left (a2.trans a3) hρ.le
    exact (norm_sub_le _ _).trans (add_le_add a1 a4)
  · have e : y' - P y' = (W y - P y) + (T3 (g x' - g x) - P (g x' - g x)) + e2 := by
      rw [hPy', hy', htr, map_sub P]; abel
    rw [e]
    have hs1 : ‖W x - x‖ ≤ 2 * ‖x - P x‖ := by
      have e : W x - x = (W x - P x) - (x - P x) := by abel
      rw [e]
      have := norm_sub_le (W x - P x) (x - P x)
      have := hW.even.compl x
      linarith
    have hu : ‖y + e1‖ ≤ (1 + κ) * ‖y‖ := by
      have := norm_add_le y e1
      linarith
    have a0 : ‖x' - x‖ ≤ 2 * ‖x - P x‖ + ρ * ((1 + κ) * ‖y‖) := by
      have e : x' - x = (W x - x) - ρ • T2 (y + e1) := by rw [hx']; abel
      rw [e]
      refine (norm_sub_le _ _).trans (add_le_add hs1 ?_)
      rw [norm_smul, Real.norm_of_nonneg hρ.le]
      exact mul_le_mul_of_nonneg_left ((h2.le _).trans hu) hρ.le
    have a1 : ‖T3 (g x' - g x) - P (g x' - g x)‖ ≤ L * (2 * ‖x - P x‖ + ρ * ((1 + κ) * ‖y‖)) :=
      ((h3.compl _).trans (hP.compl_le _)).trans ((hg.lip x' x).trans (mul_le_mul_of_nonneg_left a0 hg.Lpos.le))
    have a2 := hW.shrink y
    refine (norm_add_le _ _).trans ?_
    refine (add_le_add_left (norm_add_le _ _) _).trans ?_
    nlinarith

/-- the arithmetic of one tracking step -/
theorem tracking_gain {L m s κ t i M N K ρ a p c Y a' p' c' : ℝ} (hL : 0 < L) (hs : s < 1) (hκ : 0 ≤ κ) (ht : 0 < t) (hi : 0 ≤ i) (hit : i * t = 1)
    (htL : t * L * 2 = (1 - s) / 2) (hM : M = L + i) (hN : N = κ + t * (L * (1 + κ) + κ)) (hK : K = L + κ * M + i + N * M)
    (hρ : 0 < ρ) (hρ1 : ρ ≤ 1) (ha : 0 ≤ a) (hp : 0 ≤ p) (hc : 0 ≤ c)
    (i1 : Y ≤ L * (a + p) + c) (i2 : a' ≤ (1 - ρ * (m / 2)) * a + ρ * L * p + ρ ^ 2 * κ * Y)
    (i3 : p' ≤ s * p + ρ * (c + κ * Y)) (i4 : c' ≤ s * c + L * (2 * p) + ρ * ((L * (1 + κ) + κ) * Y)) :
    a' ≤ (1 - ρ * (m / 2) + ρ ^ 2 * K) * a + ρ * K * (p + t * c) ∧ p' + t * c' ≤ (1 + s) / 2 * (p + t * c) + ρ * K * (a + (p + t * c)) := by
  have htc : 0 ≤ t * c := mul_nonneg ht.le hc
  have hM0 : 0 ≤ M := by rw [hM]; positivity
  have hN0 : 0 ≤ N := by rw [hN]; positivity
  have hκM : 0 ≤ κ * M := mul_nonneg hκ hM0
  have hNM : 0 ≤ N * M := mul_nonneg hN0 hM0
  have hci : c = i * (t * c) := by rw [← mul_assoc, hit, one_mul]
  generalize hb : p + t * c = b at *
  have hb0 : 0 ≤ b := by rw [← hb]; positivity
  have hcb : c ≤ i * b := by rw [hci]; exact mul_le_mul_of_nonneg_left (by linarith) hi
  have hpb : p ≤ b := by linarith
  have hib : i * b ≤ i * (a + b) := mul_le_mul_of_nonneg_left (by linarith) hi
  have hY : Y ≤ M * (a + b) := by
    have := mul_le_mul_of_nonneg_left hpb hL.le
    rw [hM]; nlinarith
  constructor
  · have e1 : ρ * L * p ≤ ρ * L * b := mul_le_mul_of_nonneg_left hpb (by positivity)
    have e2 : ρ ^ 2 * κ * Y ≤ ρ ^ 2 * κ * (M * (a + b)) := mul_le_mul_of_nonneg_left hY (by positivity)
    have e3 : ρ ^ 2 * (κ * M * b) ≤ ρ * (κ * M * b) := mul_le_mul_of_nonneg_right (by nlinarith) (mul_nonneg hκM hb0)
    have e4 : ρ ^ 2 * (κ * M) * a ≤ ρ ^ 2 * K * a := mul_le_mul_of_nonneg_right (mul_le_mul_of_nonneg_left (by linarith) (sq_nonneg _)) ha
    have e5 : ρ * (L + κ * M) * b ≤ ρ * K * b := mul_le_mul_of_nonneg_right (mul_le_mul_of_nonneg_left (by linarith) hρ.le) hb0
    clear i1 i3 i4 hM hN hK
    have j1 : ρ ^ 2 * κ * (M * (a + b)) = ρ ^ 2 * (κ * M) * a + ρ ^ 2 * (κ * M * b) := by ring
    have j2 : ρ * (L + κ * M) * b = ρ * L * b + ρ * (κ * M * b) := by ring
    have j3 : (1 - ρ * (m / 2) + ρ ^ 2 * K) * a = (1 - ρ * (m / 2)) * a + ρ ^ 2 * K * a := by ring
    linarith
  · have f1 := mul_le_mul_of_nonneg_left i4 ht.le
    have f2 : ρ * c ≤ ρ * (i * (a + b)) := mul_le_mul_of_nonneg_left (hcb.trans hib) hρ.le
    have f3 : ρ * (N * Y) ≤ ρ * (N * (M * (a + b))) := mul_le_mul_of_nonneg_left (mul_le_mul_of_nonneg_left hY hN0) hρ.le
    have f5 : ρ * (i + N * M) * (a + b) ≤ ρ * K * (a + b) :=
      mul_le_mul_of_nonneg_right (mul_le_mul_of_nonneg_left (by linarith) hρ.le) (by linarith)
    have f7 : s * p + t * (L * (2 * p)) + t * (s * c) ≤ (1 + s) / 2 * b := by
      have e : t * (L * (2 * p)) = (1 - s) / 2 * p := by rw [← htL]; ring
      rw [e, ← hb]
      have : (1 - s) / 2 * (t * c) ≥ 0 := mul_nonneg (by linarith) htc
      have e2 : (1 + s) / 2 * (p + t * c) = s * p + (1 - s) / 2 * p + t * (s * c) + (1 - s) / 2 * (t * c) := by ring
      linarith
    have f8 : ρ * (κ * Y) + t * (ρ * ((L * (1 + κ) + κ) * Y)) = ρ * (N * Y) := by rw [hN]; ring
    have j1 : t * (s * c + L * (2 * p) + ρ * ((L * (1 + κ) + κ) * Y)) = t * (s * c) + t * (L * (2 * p)) + t * (ρ * ((L * (1 + κ) + κ) * Y)) := by ring
    have j2 : ρ * (c + κ * Y) = ρ * c + ρ * (κ * Y) := by ring
    have j3 : ρ * (i + N * M) * (a + b) = ρ * (i * (a + b)) + ρ * (N * (M * (a + b))) := by ring
    linarith

/-- **Gradient tracking.** There is a step size, depending only on the smoothness, the strong convexity, the mixing factor and the
size of the disturbances, below which every sequence of (disturbed) tracking steps converges linearly. -/
theorem tracking_rate (L m s κ : ℝ) (hL : 0 < L) (hm : 0 < m) (hs0 : 0 ≤ s) (hs1 : s < 1) (hκ : 0 ≤ κ) :
    ∃ ρ0 : ℝ, 0 < ρ0 ∧ ∀ ρ, 0 < ρ → ρ < ρ0 → ∃ r : ℝ, 0 ≤ r ∧ r < 1 ∧
      ∀ (P W T2 T3 : H →ₗ[ℝ] H), Proj P → Shrinks P W s → Even P T2 → Even P T3 → ∀ (g : H → H), GradLike g L m →
      ∀ xs : H, P xs = xs → P (g xs) = 0 → ∀ (X Y E1 E2 : Nat → H), P (Y 0) = P (g (X 0)) →
        (∀ k, X (k + 1) = W (X k) - ρ • T2 (Y k + E1 k)) → (∀ k, Y (k + 1) = W (Y k) + T3 (g (X (k + 1)) - g (X k)) + E2 k) →
        (∀ k, P (E2 k) = 0) → (∀ k, P (Y k) = P (g (X k)) → ‖E1 k‖ ≤ κ * ρ * ‖Y k‖ ∧ ‖E2 k‖ ≤ κ * ρ * ‖Y k‖) →
        ∃ C : ℝ, ∀ k, ‖X k - xs‖ ^ 2 ≤ C * r ^ k := by
  have h1s : 0 < 1 - s := by linarith
  obtain ⟨t, ht0, htL⟩ : ∃ t : ℝ, 0 < t ∧ t * L * 2 = (1 - s) / 2 := ⟨(1 - s) / (4 * L), by positivity, by field_simp; ring⟩
  obtain ⟨i, hi0, hit⟩ : ∃ i : ℝ, 0 ≤ i ∧ i * t = 1 := ⟨t⁻¹, by positivity, by field_simp⟩
  obtain ⟨M, hM⟩ : ∃ M : ℝ, M = L + i := ⟨_, rfl⟩
  obtain ⟨N, hN⟩ : ∃ N : ℝ, N = κ + t * (L * (1 + κ) + κ) := ⟨_, rfl⟩
  obtain ⟨K, hK⟩ : ∃ K : ℝ, K = L + κ * M + i + N * M := ⟨_, rfl⟩
  have hK0 : 0 ≤ K := by rw [hK, hN, hM]; positivity
  obtain ⟨ρ0, hρ0, hρ01, hgain⟩ := small_gain (m / 2) K ((1 + s) / 2) (by linarith) hK0 (by linarith) (by linarith)
  refine ⟨min ρ0 (1 / L), by positivity, fun ρ hρ hlt => ?_⟩
  have hρρ0 : ρ < ρ0 := hlt.trans_le (min_le_left _ _)
  have hρL : ρ * L ≤ 1 := by
    have := hlt.le.trans (min_le_right _ _)
    rw [le_div_iff₀ hL] at this
    exact this
  have hρ1 : ρ ≤ 1 := hρρ0.le.trans hρ01
  obtain ⟨q, θ, hq, hθ0, hθ1, hstep⟩ := hgain ρ hρ hρρ0
  refine ⟨θ ^ 2, sq_nonneg _, by nlinarith, ?_⟩
  intro P W T2 T3 hP hW h2 h3 g hg xs hxs hopt X Y E1 E2 h0 hX hY hE2 hE
  have htr : ∀ k, P (Y k) = P (g (X k)) := by
    intro k
    induction k with
    | zero => exact h0
    | succ k ih => exact (tracking_step hP hW h2 h3 hg hρ hρ1 hρL hκ hxs hopt ih (hX k) (hY k) (hE2 k) (hE k ih).1 (hE k ih).2).1
  let a : Nat → ℝ := fun k => ‖P (X k) - xs‖
  let b : Nat → ℝ := fun k => ‖X k - P (X k)‖ + t * ‖Y k - P (Y k)‖
  have ha : ∀ k, 0 ≤ a k := fun k => norm_nonneg _
  have hb : ∀ k, 0 ≤ b k := fun k => add_nonneg (norm_nonneg _) (mul_nonneg ht0.le (norm_nonneg _))
  have hV : ∀ k, a (k + 1) + q * b (k + 1) ≤ θ * (a k + q * b k) := by
    intro k
    obtain ⟨-, i1, i2, i3, i4⟩ := tracking_step hP hW h2 h3 hg hρ hρ1 hρL hκ hxs hopt (htr k) (hX k) (hY k) (hE2 k) (hE k (htr k)).1 (hE k (htr k)).2
    obtain ⟨j1, j2⟩ := tracking_gain hL hs1 hκ ht0 hi0 hit htL hM hN hK hρ hρ1 (norm_nonneg _) (norm_nonneg _) (norm_nonneg _) i1 i2 i3 i4
    exact hstep (a k) (b k) _ _ (ha k) (hb k) j1 j2
  have hVk : ∀ k, a k + q * b k ≤ θ ^ k * (a 0 + q * b 0) := by
    intro k
    induction k with
    | zero => simp
    | succ k ih =>
      refine (hV k).trans ?_
      rw [pow_succ θ k, mul_comm (θ ^ k) θ, mul_assoc]
      exact mul_le_mul_of_nonneg_left ih hθ0
  refine ⟨((1 + 1 / q) * (a 0 + q * b 0)) ^ 2, fun k => ?_⟩
  have hx : ‖X k - xs‖ ≤ (1 + 1 / q) * (a k + q * b k) := by
    have e : X k - xs = (P (X k) - xs) + (X k - P (X k)) := by abel
    have h1 : ‖X k - xs‖ ≤ a k + b k := by
      rw [e]
      exact (norm_add_le _ _).trans (add_le_add_right (le_add_of_nonneg_right (mul_nonneg ht0.le (norm_nonneg _))) _)
    have h2 : (1 + 1 / q) * (a k + q * b k) = a k + b k + (1 / q * a k + q * b k) := by field_simp; ring
    have h3 : 0 ≤ 1 / q * a k + q * b k := add_nonneg (mul_nonneg (by positivity) (ha k)) (mul_nonneg hq.le (hb k))
    linarith
  have h4 : ‖X k - xs‖ ≤ (1 + 1 / q) * (a 0 + q * b 0) * θ ^ k := by
    refine hx.trans ?_
    rw [mul_assoc]
    exact mul_le_mul_of_nonneg_left ((hVk k).trans (le_of_eq (mul_comm _ _))) (by positivity)
  calc ‖X k - xs‖ ^ 2 ≤ ((1 + 1 / q) * (a 0 + q * b 0) * θ ^ k) ^ 2 := pow_le_pow_left₀ (norm_nonneg _) h4 2
    _ = ((1 + 1 / q) * (a 0 + q * b 0)) ^ 2 * (θ ^ 2) ^ k := by rw [mul_pow, ← pow_mul, ← pow_mul, mul_comm k 2]

/-- a positive symmetric operator with a spectral gap is at least the gap on the complement of its kernel -/
theorem gap_on_range {T : H →ₗ[ℝ] H} (hs : ∀ u v, ⟪T u, v⟫_ℝ = ⟪u, T v⟫_ℝ) (hp : ∀ v, 0 ≤ ⟪v, T v⟫_ℝ) {c : ℝ} (hc : 0 < c)
    (hgap : ∀ v, c * ⟪v, T v⟫_ℝ ≤ ‖T v‖ ^ 2) (z : H) : c * ‖T z‖ ^ 2 ≤ ⟪T z, T (T z)⟫_ℝ := by
  have h1 := hp (T z - c • z)
  have h2 := mul_le_mul_of_nonneg_left (hgap z) hc.le
  have e1 : ⟪z, T (T z)⟫_ℝ = ‖T z‖ ^ 2 := by rw [← hs, real_inner_self_eq_norm_sq]
  have e2 : ⟪T z, T z⟫_ℝ = ‖T z‖ ^ 2 := real_inner_self_eq_norm_sq _
  rw [map_sub, map_smul, inner_sub_left, inner_sub_right, inner_sub_right, inner_smul_left, inner_smul_left, inner_smul_right, inner_smul_right, e1, e2] at h1
  simp only [conj_trivial] at h1
  nlinarith

/-- averaging with a positive diagonal shrinks what is orthogonal to the agreements -/
theorem shrink_sq {W : H →ₗ[ℝ] H} (h : Averaging W) {δ : ℝ} (hdiag : ∀ v, δ * ‖v‖ ^ 2 ≤ ⟪v, plus W v⟫_ℝ) {c : ℝ} {u : H}
    (hδ : 0 ≤ δ) (hc : c * ‖u‖ ^ 2 ≤ ⟪u, minus W u⟫_ℝ) : ‖W u‖ ^ 2 ≤ (1 - 4 * δ * c) * ‖u‖ ^ 2 := by
  have h1 := positive_firm (minus W) (minus_symm h) (minus_nonneg h) (1 - δ) (minus_firm h δ hdiag) u
  have e : W u = u - (2 : ℝ) • minus W u := by rw [minus_apply]; module
  rw [e, norm_sub_sq_real, inner_smul_right, norm_smul, mul_pow]
  have e2 : ‖(2 : ℝ)‖ ^ 2 = 4 := by norm_num
  rw [e2]
  nlinarith [mul_le_mul_of_nonneg_left hc hδ]

end abstract_

section stacked
variable {ι : Type} [Fintype ι] [DecidableEq ι] {d : Nat}

/-- every agent replaced by the mean of the agents -/
noncomputable def meanOp : Stack ι d →ₗ[ℝ] Stack ι d := mixOp fun _ _ => 1 / (Fintype.card ι : ℝ)

theorem meanOp_apply (v : Stack ι d) (i : ι) : meanOp v i = (1 / (Fintype.card ι : ℝ)) • ∑ j, v j := by
  rw [meanOp, mixOp_apply, Finset.smul_sum]

theorem mean_agree (v : Stack ι d) : Agree (meanOp v) := fun i j => by rw [meanOp_apply, meanOp_apply]

theorem mean_of_agree {v : Stack ι d} (h : Agree v) : meanOp v = v := by
  apply stack_ext; intro i
  rw [meanOp_apply, Finset.sum_congr rfl (fun j _ => h j i), Finset.sum_const, Finset.card_univ, ← Nat.cast_smul_eq_nsmul ℝ, smul_smul]
  have : (Fintype.card ι : ℝ) ≠ 0 := by exact_mod_cast (Fintype.card_pos_iff.2 ⟨i⟩).ne'
  rw [one_div, inv_mul_cancel₀ this, one_smul]

theorem mean_eq_zero {v : Stack ι d} : meanOp v = 0 ↔ ∑ j, v j = 0 := by
  constructor
  · intro h
    rcases isEmpty_or_nonempty ι with he | ⟨⟨i⟩⟩
    · simp
    · have h1 : meanOp v i = 0 := by rw [h]; rfl
      rw [meanOp_apply] at h1
      have : (Fintype.card ι : ℝ) ≠ 0 := by exact_mod_cast (Fintype.card_pos_iff.2 ⟨i⟩).ne'
      exact (smul_eq_zero.1 h1).resolve_left (by positivity)
  · intro h; apply stack_ext; intro i; rw [meanOp_apply, h, smul_zero]; rfl

theorem mean_proj : Proj (meanOp : Stack ι d →ₗ[ℝ] Stack ι d) where
  symm u v := by
    rw [stack_inner, stack_inner]
    simp only [meanOp_apply, inner_smul_left, inner_smul_right, conj_trivial, ← Finset.mul_sum]
    rw [← inner_sum, ← sum_inner]
  idem v := mean_of_agree (mean_agree v)

theorem mean_even {W : ι → ι → ℝ} (h : Stochastic W) : Even (meanOp : Stack ι d →ₗ[ℝ] Stack ι d) (mixOp W) where
  keeps v := agree_fixed h _ (mean_agree v)
  mean v := by
    apply stack_ext; intro i
    rw [meanOp_apply, meanOp_apply]
    congr 1
    simp only [mixOp_apply]
    rw [Finset.sum_comm]
    refine Finset.sum_congr rfl fun j _ => ?_
    rw [← Finset.sum_smul, Finset.sum_congr rfl (fun i _ => h.symm i j), h.row, one_smul]
  le v := (averaging h).le v

/-- on a connected network disagreement is seen by `1 - W` -/
theorem exists_disagreement {W : ι → ι → ℝ} (h : Stochastic W) (hc : Linked W) : ∃ c : ℝ, 0 < c ∧ c ≤ 1 ∧
    ∀ v : Stack ι d, c * ‖v - meanOp v‖ ^ 2 ≤ ⟪v - meanOp v, minus (mixOp W) (v - meanOp v)⟫_ℝ := by
  have hA : Averaging (mixOp W : Stack ι d →ₗ[ℝ] Stack ι d) := averaging h
  obtain ⟨c, hc0, hc1, hgap⟩ := exists_gap (minus (mixOp W : Stack ι d →ₗ[ℝ] Stack ι d)) (minus_symm hA) (minus_nonneg hA)
  refine ⟨c, hc0, hc1, fun v => ?_⟩
  obtain ⟨z, hz⟩ := exists_preimage (minus (mixOp W)) (minus_symm hA) (v - meanOp v) (fun u hu => by
    have := mean_of_agree (minus_ker h hc u hu)
    rw [← this, mean_proj.symm, map_sub, mean_proj.idem, sub_self, inner_zero_right])
  rw [← hz]
  exact gap_on_range (minus_symm hA) (minus_nonneg hA) hc0 hgap z

theorem exists_shrinks {W : ι → ι → ℝ} (h : Stochastic W) (hc : Linked W) {δ : ℝ} (hδ : 0 < δ) (hdiag : ∀ i, δ ≤ W i i) :
    ∃ s : ℝ, 0 ≤ s ∧ s < 1 ∧ Shrinks (meanOp : Stack ι d →ₗ[ℝ] Stack ι d) (mixOp W) s := by
  have hA : Averaging (mixOp W : Stack ι d →ₗ[ℝ] Stack ι d) := averaging h
  obtain ⟨c, hc0, -, hgap⟩ := exists_disagreement (d := d) h hc
  have hpos : 0 < 4 * δ * c := by positivity
  refine ⟨Real.sqrt (max 0 (1 - 4 * δ * c)), Real.sqrt_nonneg _, ?_, mean_even h, fun v => ?_⟩
  · rw [Real.sqrt_lt' one_pos, one_pow]; exact max_lt one_pos (by linarith)
  · have e : mixOp W v - meanOp v = mixOp W (v - meanOp v) := by rw [map_sub, (mean_even h).keeps]
    rw [e]
    have h1 := shrink_sq hA (inner_plus_ge h δ hdiag) hδ.le (hgap v)
    have h2 : ‖mixOp W (v - meanOp v)‖ ^ 2 ≤ (Real.sqrt (max 0 (1 - 4 * δ * c)) * ‖v - meanOp v‖) ^ 2 := by
      rw [mul_pow, Real.sq_sqrt (le_max_left _ _)]
      exact h1.trans (mul_le_mul_of_nonneg_right (le_max_right _ _) (sq_nonneg _))
    exact (abs_le_of_sq_le_sq' h2 (mul_nonneg (Real.sqrt_nonneg _) (norm_nonneg _))).2

end stacked
end Verif.Consensus
