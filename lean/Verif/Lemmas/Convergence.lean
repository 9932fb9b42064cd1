import Verif.Lemmas.Descent
import Mathlib.Tactic.Linarith
import Mathlib.Tactic.FieldSimp
import Mathlib.Tactic.Positivity
/-! # Convergence of gradient methods for smooth convex functions -/
set_option linter.unusedSectionVars false
namespace Verif.Costs
open scoped InnerProductSpace

variable {d : Nat}

/-- upper parabola -/
def Upper (f : Vec d → ℝ) (g : Vec d → Vec d) (L : ℝ) : Prop :=
  ∀ x y, f y ≤ f x + ⟪g x, y - x⟫_ℝ + L / 2 * ‖y - x‖ ^ 2

/-- lower parabola -/
def Lower (f : Vec d → ℝ) (g : Vec d → Vec d) (m : ℝ) : Prop :=
  ∀ x y, f x + ⟪g x, y - x⟫_ℝ + m / 2 * ‖y - x‖ ^ 2 ≤ f y

theorem Lower.le_upper {f : Vec d → ℝ} {g : Vec d → Vec d} {L m : ℝ} (hL : Upper f g L) (hm : Lower f g m) {x y : Vec d} (h : x ≠ y) :
    m ≤ L := by
  have h1 := (hm x y).trans (hL x y)
  have h2 : 0 < ‖y - x‖ ^ 2 := by
    have : 0 < ‖y - x‖ := norm_pos_iff.2 (sub_ne_zero.2 h.symm)
    positivity
  by_contra hc
  have h3 := mul_lt_mul_of_pos_right (not_le.1 hc) h2
  linarith

theorem Lower.mono {f : Vec d → ℝ} {g : Vec d → Vec d} {m : ℝ} (hm : Lower f g m) (h : 0 ≤ m) : Lower f g 0 := by
  intro x y
  have := hm x y
  have h2 : 0 ≤ m / 2 * ‖y - x‖ ^ 2 := by positivity
  linarith

/-- one gradient step against any comparison point -/
theorem step_ineq {f : Vec d → ℝ} {g : Vec d → Vec d} {L m : ℝ} (hL : Upper f g L) (hm : Lower f g m) (hp : 0 < L) (y w : Vec d) :
    f (y - (1 / L) • g y) - f w ≤ ⟪g y, y - w⟫_ℝ - 1 / (2 * L) * ‖g y‖ ^ 2 - m / 2 * ‖y - w‖ ^ 2 := by
  have h1 := hL y (y - (1 / L) • g y)
  have h2 := hm y w
  have e1 : y - (1 / L) • g y - y = -((1 / L) • g y) := by abel
  rw [e1, inner_neg_right, inner_smul_right, real_inner_self_eq_norm_sq, norm_neg, norm_smul, Real.norm_of_nonneg (by positivity)] at h1
  have e2 : ⟪g y, w - y⟫_ℝ = - ⟪g y, y - w⟫_ℝ := by rw [← inner_neg_right, neg_sub]
  rw [e2, norm_sub_rev] at h2
  have e3 : L / 2 * (1 / L * ‖g y‖) ^ 2 = 1 / (2 * L) * ‖g y‖ ^ 2 := by field_simp
  have e4 : 1 / L * ‖g y‖ ^ 2 = 2 * (1 / (2 * L) * ‖g y‖ ^ 2) := by field_simp
  rw [e3, e4] at h1
  linarith

/-! ### gradient descent with step `1 / L` -/

/-- the iterates -/
noncomputable def gdSeq (η : ℝ) (g : Vec d → Vec d) (x0 : Vec d) : Nat → Vec d
  | 0 => x0
  | k + 1 => gdSeq η g x0 k - η • g (gdSeq η g x0 k)

theorem norm_sub_smul_sq (a b : Vec d) (t : ℝ) : ‖a - t • b‖ ^ 2 = ‖a‖ ^ 2 - 2 * t * ⟪b, a⟫_ℝ + t ^ 2 * ‖b‖ ^ 2 := by
  rw [norm_sub_sq_real, inner_smul_right, norm_smul, mul_pow, Real.norm_eq_abs, sq_abs, real_inner_comm]
  ring

theorem gd_monotone {f : Vec d → ℝ} {g : Vec d → Vec d} {L : ℝ} (hL : Upper f g L) (hp : 0 < L) (x : Vec d) :
    f (x - (1 / L) • g x) ≤ f x - 1 / (2 * L) * ‖g x‖ ^ 2 := by
  have h1 := hL x (x - (1 / L) • g x)
  have e1 : x - (1 / L) • g x - x = -((1 / L) • g x) := by abel
  rw [e1, inner_neg_right, inner_smul_right, real_inner_self_eq_norm_sq, norm_neg, norm_smul, Real.norm_of_nonneg (by positivity)] at h1
  have e3 : L / 2 * (1 / L * ‖g x‖) ^ 2 = 1 / (2 * L) * ‖g x‖ ^ 2 := by field_simp
  have e4 : 1 / L * ‖g x‖ ^ 2 = 2 * (1 / (2 * L) * ‖g x‖ ^ 2) := by field_simp
  rw [e3, e4] at h1
  linarith

theorem gd_rate {f : Vec d → ℝ} {g : Vec d → Vec d} {L : ℝ} (hL : Upper f g L) (hm : Lower f g 0) (hp : 0 < L) (x0 z : Vec d) (k : Nat) :
    k * (f (gdSeq (1 / L) g x0 k) - f z) ≤ L / 2 * (‖x0 - z‖ ^ 2 - ‖gdSeq (1 / L) g x0 k - z‖ ^ 2) := by
  induction k with
  | zero => simp [gdSeq]
  | succ k ih =>
    set x := gdSeq (1 / L) g x0 k with hx
    have e : gdSeq (1 / L) g x0 (k + 1) = x - (1 / L) • g x := rfl
    rw [e]
    have h1 := step_ineq hL hm hp x z
    have h2 := gd_monotone hL hp x
    have h3 : x - (1 / L) • g x - z = (x - z) - (1 / L) • g x := by abel
    rw [h3, norm_sub_smul_sq]
    have h4 : 0 ≤ 1 / (2 * L) * ‖g x‖ ^ 2 := by positivity
    have h5 : (k : ℝ) * (f (x - (1 / L) • g x) - f z) ≤ k * (f x - f z) := by
      apply mul_le_mul_of_nonneg_left _ (Nat.cast_nonneg k)
      linarith
    have h6 : L / 2 * (‖x0 - z‖ ^ 2 - (‖x - z‖ ^ 2 - 2 * (1 / L) * ⟪g x, x - z⟫_ℝ + (1 / L) ^ 2 * ‖g x‖ ^ 2)) =
        L / 2 * (‖x0 - z‖ ^ 2 - ‖x - z‖ ^ 2) + (⟪g x, x - z⟫_ℝ - 1 / (2 * L) * ‖g x‖ ^ 2) := by
      field_simp
      ring
    rw [h6]
    push_cast
    have h7 : (k + 1 : ℝ) * (f (x - (1 / L) • g x) - f z) =
      k * (f (x - (1 / L) • g x) - f z) + (f (x - (1 / L) • g x) - f z) := by ring
    rw [h7]
    simp only [zero_div, zero_mul, sub_zero] at h1
    linarith

/-! ### gradient descent with step `2 / (L + m)` -/

/-- convex functions under a parabola have co-coercive gradients -/
theorem cocoercive {h : Vec d → ℝ} {g : Vec d → Vec d} {M : ℝ} (hM : 0 < M) (hu : Upper h g M) (hl : Lower h g 0) (x y : Vec d) :
    1 / M * ‖g x - g y‖ ^ 2 ≤ ⟪g x - g y, x - y⟫_ℝ := by
  have key : ∀ x y, h x + ⟪g x, y - x⟫_ℝ + 1 / (2 * M) * ‖g x - g y‖ ^ 2 ≤ h y := by
    intro x y
    set v := g y - g x with hv
    set z := y - (1 / M) • v with hz
    have h1 := hl x z
    have h2 := hu y z
    have e1 : z - y = -((1 / M) • v) := by rw [hz]; abel
    have e2 : z - x = (y - x) - (1 / M) • v := by rw [hz]; abel
    rw [e1, inner_neg_right, inner_smul_right, norm_neg, norm_smul, Real.norm_of_nonneg (by positivity)] at h2
    rw [e2, inner_sub_right, inner_smul_right] at h1
    have e3 : ⟪g y, v⟫_ℝ = ⟪g x, v⟫_ℝ + ‖v‖ ^ 2 := by
      rw [← real_inner_self_eq_norm_sq, ← inner_add_left, hv]; congr 1; abel
    rw [e3] at h2
    have e4 : ‖g x - g y‖ = ‖v‖ := by rw [hv, norm_sub_rev]
    rw [e4]
    have e5 : M / 2 * (1 / M * ‖v‖) ^ 2 = 1 / (2 * M) * ‖v‖ ^ 2 := by field_simp
    rw [e5] at h2
    have e6 : 1 / M * (⟪g x, v⟫_ℝ + ‖v‖ ^ 2) = 1 / M * ⟪g x, v⟫_ℝ + 2 * (1 / (2 * M) * ‖v‖ ^ 2) := by field_simp
    rw [e6] at h2
    linarith
  have h1 := key x y
  have h2 := key y x
  rw [norm_sub_rev (g y)] at h2
  have e1 : ⟪g x - g y, x - y⟫_ℝ = - ⟪g x, y - x⟫_ℝ - ⟪g y, x - y⟫_ℝ := by
    rw [inner_sub_left, ← neg_sub y x, inner_neg_right]
  have e2 : 1 / M * ‖g x - g y‖ ^ 2 = 2 * (1 / (2 * M) * ‖g x - g y‖ ^ 2) := by field_simp
  rw [e1, e2]
  linarith

/-- the function minus its quadratic lower part -/
theorem shift_bounds {f : Vec d → ℝ} {g : Vec d → Vec d} {L m : ℝ} (hL : Upper f g L) (hm : Lower f g m) :
    Upper (fun x => f x - m / 2 * ‖x‖ ^ 2) (fun x => g x - m • x) (L - m) ∧
    Lower (fun x => f x - m / 2 * ‖x‖ ^ 2) (fun x => g x - m • x) 0 := by
  have e : ∀ x y : Vec d, ‖y‖ ^ 2 = ‖x‖ ^ 2 + 2 * ⟪x, y - x⟫_ℝ + ‖y - x‖ ^ 2 := by
    intro x y
    have := norm_add_sq_real x (y - x)
    rwa [add_sub_cancel] at this
  constructor
  · intro x y
    simp only
    have := hL x y
    rw [inner_sub_left, inner_smul_left, e x y]
    simp only [conj_trivial]
    linarith
  · intro x y
    simp only
    have := hm x y
    rw [inner_sub_left, inner_smul_left, e x y]
    simp only [conj_trivial]
    linarith

theorem strong_cocoercive {f : Vec d → ℝ} {g : Vec d → Vec d} {L m : ℝ} (hL : Upper f g L) (hm : Lower f g m) (hp : 0 < m)
    (x y : Vec d) :
    L * m * ‖x - y‖ ^ 2 + ‖g x - g y‖ ^ 2 ≤ (L + m) * ⟪g x - g y, x - y⟫_ℝ := by
  by_cases hxy : x = y
  · subst hxy; simp
  have hle := hm.le_upper hL hxy
  obtain ⟨hu, hl⟩ := shift_bounds hL hm
  have e1 : (g x - m • x) - (g y - m • y) = (g x - g y) - m • (x - y) := by rw [smul_sub]; abel
  rcases hle.eq_or_lt with he | hlt
  · -- the shifted function is affine
    have hM : L - m = 0 := by linarith
    have hg : (g x - m • x) = (g y - m • y) := by
      have key : ∀ M : ℝ, 0 < M → ‖(g x - m • x) - (g y - m • y)‖ ^ 2 ≤
          M * ⟪(g x - m • x) - (g y - m • y), x - y⟫_ℝ := by
        intro M hM0
        have := cocoercive hM0 (g := fun x => g x - m • x) (h := fun x => f x - m / 2 * ‖x‖ ^ 2) (fun x y => (hu x y).trans (by
          rw [hM]
          have : 0 ≤ M / 2 * ‖y - x‖ ^ 2 := by positivity
          linarith)) hl x y
        rw [one_div, inv_mul_le_iff₀ hM0] at this
        exact this
      set a := ‖(g x - m • x) - (g y - m • y)‖ ^ 2 with ha
      set b := ⟪(g x - m • x) - (g y - m • y), x - y⟫_ℝ with hb
      have ha0 : a ≤ 0 := by
        by_contra hc
        have hc := not_le.1 hc
        have hb1 := key 1 one_pos
        have hb0 : 0 < b := by linarith
        have := key (a / (2 * b)) (by positivity)
        have e : a / (2 * b) * b = a / 2 := by field_simp
        rw [e] at this
        linarith
      have hz : ‖(g x - m • x) - (g y - m • y)‖ = 0 := by
        have := le_antisymm ha0 (by rw [ha]; positivity)
        exact pow_eq_zero_iff (two_ne_zero) |>.1 this
      exact sub_eq_zero.1 (norm_eq_zero.1 hz)
    have hg2 : g x - g y = m • (x - y) := by
      have := sub_eq_zero.2 hg
      rw [e1] at this
      exact sub_eq_zero.1 this
    rw [hg2, ← he, norm_smul, inner_smul_left, real_inner_self_eq_norm_sq, Real.norm_of_nonneg hp.le]
    simp only [conj_trivial]
    apply le_of_eq
    ring
  · have h := cocoercive (sub_pos.2 hlt) (g := fun x => g x - m • x) (h := fun x => f x - m / 2 * ‖x‖ ^ 2) hu hl x y
    -- (no simplification needed)
    rw [e1, norm_sub_smul_sq, inner_sub_left (g x - g y), inner_smul_left, real_inner_self_eq_norm_sq, real_inner_comm (g x - g y) (x - y)] at h
    simp only [conj_trivial] at h
    rw [one_div, inv_mul_le_iff₀ (sub_pos.2 hlt)] at h
    nlinarith [h]

/-- one step contracts towards the stationary point -/
theorem gd_contract {f : Vec d → ℝ} {g : Vec d → Vec d} {L m : ℝ} (hL : Upper f g L) (hm : Lower f g m) (hp : 0 < m)
    (hL0 : 0 ≤ L) (x z : Vec d) (hz : g z = 0) :
    ‖x - (2 / (L + m)) • g x - z‖ ≤ |L - m| / (L + m) * ‖x - z‖ := by
  have hs : 0 < L + m := by linarith
  have h1 := strong_cocoercive hL hm hp x z
  rw [hz, sub_zero] at h1
  have e : x - (2 / (L + m)) • g x - z = (x - z) - (2 / (L + m)) • g x := by abel
  have h2 : ‖x - (2 / (L + m)) • g x - z‖ ^ 2 ≤ (|L - m| / (L + m) * ‖x - z‖) ^ 2 := by
    have e0 : (|L - m| / (L + m) * ‖x - z‖) ^ 2 = (L - m) ^ 2 / (L + m) ^ 2 * ‖x - z‖ ^ 2 := by rw [mul_pow, div_pow, sq_abs]
    rw [e, norm_sub_smul_sq, e0]
    have e2 : (L - m) ^ 2 / (L + m) ^ 2 * ‖x - z‖ ^ 2 = ‖x - z‖ ^ 2 - 4 / (L + m) ^ 2 * (L * m * ‖x - z‖ ^ 2) := by
      field_simp
      ring
    have e3 : 2 * (2 / (L + m)) * ⟪g x, x - z⟫_ℝ = 4 / (L + m) ^ 2 * ((L + m) * ⟪g x, x - z⟫_ℝ) := by
      field_simp
      ring
    have e4 : (2 / (L + m)) ^ 2 = 4 / (L + m) ^ 2 := by rw [div_pow]; norm_num
    rw [e2, e3, e4]
    have := mul_le_mul_of_nonneg_left h1 (show 0 ≤ 4 / (L + m) ^ 2 by positivity)
    linarith
  exact (abs_le_of_sq_le_sq' h2 (by positivity)).2

theorem gd_linear_rate {f : Vec d → ℝ} {g : Vec d → Vec d} {L m : ℝ} (hL : Upper f g L) (hm : Lower f g m) (hp : 0 < m)
    (hL0 : 0 ≤ L) (x0 z : Vec d) (hz : g z = 0) (k : Nat) :
    ‖gdSeq (2 / (L + m)) g x0 k - z‖ ≤ (|L - m| / (L + m)) ^ k * ‖x0 - z‖ := by
  induction k with
  | zero => simp [gdSeq]
  | succ k ih =>
    have h := gd_contract hL hm hp hL0 (gdSeq (2 / (L + m)) g x0 k) z hz
    rw [gdSeq, pow_succ']
    refine h.trans ?_
    rw [mul_assoc]
    exact mul_le_mul_of_nonneg_left ih (by positivity)

/-! ### accelerated gradient descent -/

/-- the pairs `(x_k, y_k)` -/
noncomputable def agdSeq (η : ℝ) (β : Nat → ℝ) (g : Vec d → Vec d) (x0 : Vec d) : Nat → Vec d × Vec d
  | 0 => (x0, x0)
  | k + 1 =>
    let p := agdSeq η β g x0 k
    let x' := p.2 - η • g p.2
    (x', x' + β k • (x' - p.1))

theorem agd_potential {f : Vec d → ℝ} {g : Vec d → Vec d} {L : ℝ} (hL : Upper f g L) (hm : Lower f g 0) (hp : 0 < L) (x0 z : Vec d)
    (hz : ∀ x, f z ≤ f x) (k : Nat) :
    let p := agdSeq (1 / L) (fun k => (k : ℝ) / (k + 3)) g x0 k
    let t : ℝ := (k + 2) / 2
    ((k + 1) / 2 : ℝ) ^ 2 * (if k = 0 then 0 else f p.1 - f z) + L / 2 * ‖t • p.2 - (t - 1) • p.1 - z‖ ^ 2 ≤ L / 2 * ‖x0 - z‖ ^ 2 := by
  induction k with
  | zero =>
    simp only [agdSeq]
    simp
  | succ k ih =>
    intro p t
    set q := agdSeq (1 / L) (fun k => (k : ℝ) / (k + 3)) g x0 k with hq
    set s : ℝ := (k + 2) / 2 with hs
    set x' := q.2 - (1 / L) • g q.2 with hx'
    have hp1 : p = (x', x' + ((k : ℝ) / (k + 3)) • (x' - q.1)) := rfl
    have hs1 : 1 ≤ s := by rw [hs]; have : (0 : ℝ) ≤ k := Nat.cast_nonneg k; linarith
    -- the two comparison inequalities
    have a1 := step_ineq hL hm hp q.2 q.1
    have a2 := step_ineq hL hm hp q.2 z
    simp only [zero_div, zero_mul, sub_zero] at a1 a2
    rw [← hx'] at a1 a2
    -- combined
    set u := s • q.2 - (s - 1) • q.1 - z with hu
    have hcomb : s ^ 2 * (f x' - f z) - s * (s - 1) * (f q.1 - f z) ≤ s * ⟪g q.2, u⟫_ℝ - s ^ 2 * (1 / (2 * L) * ‖g q.2‖ ^ 2) := by
      have e : u = (s - 1) • (q.2 - q.1) + (q.2 - z) := by
        rw [hu, smul_sub, sub_smul, sub_smul, one_smul, one_smul]; abel
      rw [e, inner_add_right, inner_smul_right]
      have b1 := mul_le_mul_of_nonneg_left a1 (show 0 ≤ s * (s - 1) from mul_nonneg (by linarith) (by linarith))
      have b2 := mul_le_mul_of_nonneg_left a2 (show 0 ≤ s by linarith)
      linarith [b1, b2]
    have hu' : t • p.2 - (t - 1) • p.1 - z = u - (s / L) • g q.2 := by
      rw [hp1, hu]
      simp only
      have ht : t = (k + 3) / 2 := by simp only [t]; push_cast; ring
      have e1 : t • (x' + ((k : ℝ) / (k + 3)) • (x' - q.1)) - (t - 1) • x' = s • x' - (s - 1) • q.1 := by
        rw [smul_add, smul_smul, show t * ((k : ℝ) / (k + 3)) = s - 1 by rw [ht, hs]; field_simp; ring]
        module
      rw [e1, hx', smul_sub, smul_smul, show s * (1 / L) = s / L by ring]
      abel
    rw [hu', norm_sub_smul_sq]
    have hp0 : p.1 = x' := rfl
    rw [if_neg (Nat.succ_ne_zero k), hp0]
    have hk0 : s * (s - 1) * (f q.1 - f z) ≤ ((k + 1) / 2 : ℝ) ^ 2 * (if k = 0 then 0 else f q.1 - f z) := by
      by_cases hk : k = 0
      · rw [if_pos hk]
        have : s = 1 := by rw [hs, hk]; norm_num
        rw [this]; simp
      · rw [if_neg hk]
        apply mul_le_mul_of_nonneg_right _ (sub_nonneg.2 (hz _))
        rw [hs]
        nlinarith
    have hsq : (((k + 1 : ℕ) : ℝ) + 1) / 2 = s := by rw [hs]; push_cast; ring
    rw [hsq]
    have e7 : L / 2 * (‖u‖ ^ 2 - 2 * (s / L) * ⟪g q.2, u⟫_ℝ + (s / L) ^ 2 * ‖g q.2‖ ^ 2) =
        L / 2 * ‖u‖ ^ 2 - (s * ⟪g q.2, u⟫_ℝ - s ^ 2 * (1 / (2 * L) * ‖g q.2‖ ^ 2)) := by
      field_simp
      ring
    rw [e7]
    simp only at ih
    linarith

theorem agd_rate {f : Vec d → ℝ} {g : Vec d → Vec d} {L : ℝ} (hL : Upper f g L) (hm : Lower f g 0) (hp : 0 < L) (x0 z : Vec d)
    (hz : ∀ x, f z ≤ f x) (k : Nat) (hk : 1 ≤ k) :
    f (agdSeq (1 / L) (fun k => (k : ℝ) / (k + 3)) g x0 k).1 - f z ≤ 2 * L * ‖x0 - z‖ ^ 2 / (k + 1) ^ 2 := by
  have h := agd_potential hL hm hp x0 z hz k
  simp only at h
  rw [if_neg (by omega)] at h
  have h2 : 0 ≤ L / 2 * ‖((k + 2 : ℝ) / 2) • (agdSeq (1 / L) (fun k => (k : ℝ) / (k + 3)) g x0 k).2 -
      ((k + 2 : ℝ) / 2 - 1) • (agdSeq (1 / L) (fun k => (k : ℝ) / (k + 3)) g x0 k).1 - z‖ ^ 2 := by positivity
  rw [le_div_iff₀ (by positivity)]
  nlinarith

/-- the strongly convex momentum -/
theorem agd_strong_potential {f : Vec d → ℝ} {g : Vec d → Vec d} {L m : ℝ} (hL : Upper f g L) (hm : Lower f g m) (hp : 0 < m)
    (hle : m ≤ L) (x0 z : Vec d) (k : Nat) :
    let q := Real.sqrt m / Real.sqrt L
    let p := agdSeq (1 / L) (fun _ => (Real.sqrt L - Real.sqrt m) / (Real.sqrt L + Real.sqrt m)) g x0 k
    f p.1 - f z + m / 2 * ‖p.2 + (1 / q) • (p.2 - p.1) - z‖ ^ 2 ≤ (1 - q) ^ k * (f x0 - f z + m / 2 * ‖x0 - z‖ ^ 2) := by
  intro q
  have hLp : 0 < L := lt_of_lt_of_le hp hle
  have sL : 0 < Real.sqrt L := Real.sqrt_pos.2 hLp
  have sm : 0 < Real.sqrt m := Real.sqrt_pos.2 hp
  have q0 : 0 < q := div_pos sm sL
  have q1 : q ≤ 1 := (div_le_one sL).2 (Real.sqrt_le_sqrt hle)
  have qq : q ^ 2 = m / L := by simp only [q]; rw [div_pow, Real.sq_sqrt hp.le, Real.sq_sqrt hLp.le]
  have hβ : (Real.sqrt L - Real.sqrt m) / (Real.sqrt L + Real.sqrt m) = (1 - q) / (1 + q) := by
    simp only [q]; field_simp
  rw [hβ]
  induction k with
  | zero => simp [agdSeq]
  | succ k ih =>
    intro p
    set r := agdSeq (1 / L) (fun _ => (1 - q) / (1 + q)) g x0 k with hr
    set y := r.2 with hy
    set x := r.1 with hx
    set G := g y with hG
    set x' := y - (1 / L) • G with hx'
    have hp1 : p = (x', x' + ((1 - q) / (1 + q)) • (x' - x)) := rfl
    set v := y + (1 / q) • (y - x) with hv
    set w := q • y + (1 - q) • v with hw
    have a1 := step_ineq hL (hm.mono hp.le) hLp y x
    have a2 := step_ineq hL hm hLp y z
    rw [← hG, ← hx'] at a1 a2
    simp only [zero_div, zero_mul, sub_zero] at a1
    have hyx : y - x = q • (v - y) := by
      rw [hv, add_sub_cancel_left, smul_smul, mul_one_div_cancel q0.ne', one_smul]
    have hinner : q * ⟪G, y - z⟫_ℝ + (1 - q) * ⟪G, y - x⟫_ℝ = q * ⟪G, w - z⟫_ℝ := by
      rw [hyx, inner_smul_right]
      have : w - z = (y - z) + (1 - q) • (v - y) := by
        rw [hw, smul_sub, sub_smul, sub_smul, one_smul, one_smul]; abel
      rw [this, inner_add_right, inner_smul_right]
      ring
    have hcomb : f x' - f z ≤ (1 - q) * (f x - f z) + q * ⟪G, w - z⟫_ℝ - 1 / (2 * L) * ‖G‖ ^ 2 - q * (m / 2) * ‖y - z‖ ^ 2 := by
      have b1 := mul_le_mul_of_nonneg_left a1 (show 0 ≤ 1 - q by linarith)
      have b2 := mul_le_mul_of_nonneg_left a2 q0.le
      linarith [b1, b2, hinner]
    have hv' : p.2 + (1 / q) • (p.2 - p.1) - z = (w - z) - (q / m) • G := by
      rw [hp1]
      simp only [add_sub_cancel_left]
      have e1 : x = y - q • (v - y) := by rw [← hyx]; abel
      have e2 : q / m = 1 / (q * L) := by
        have : m = q ^ 2 * L := by rw [qq]; field_simp
        rw [this]; field_simp
      have e3 : x' + ((1 - q) / (1 + q)) • (x' - x) + (1 / q) • ((1 - q) / (1 + q)) • (x' - x) = x' + ((1 - q) / q) • (x' - x) := by
        rw [add_assoc, smul_smul, ← add_smul]
        congr 2
        field_simp
        ring
      rw [e3, e2, hw]
      have e4 : x' - x = q • (v - y) - (1 / L) • G := by rw [hx', e1]; abel
      rw [e4, hx', smul_sub, smul_smul, smul_smul]
      have e5 : (1 - q) / q * q = 1 - q := by field_simp
      have e6 : (1 / (q * L)) = 1 / L + (1 - q) / q * (1 / L) := by field_simp; ring
      rw [e5, e6, add_smul, smul_sub (1 - q), sub_smul 1 q y, one_smul]
      abel
    rw [hv', norm_sub_smul_sq]
    have hp0 : p.1 = x' := rfl
    rw [hp0]
    have e8 : m / 2 * (‖w - z‖ ^ 2 - 2 * (q / m) * ⟪G, w - z⟫_ℝ + (q / m) ^ 2 * ‖G‖ ^ 2) =
        m / 2 * ‖w - z‖ ^ 2 - q * ⟪G, w - z⟫_ℝ + 1 / (2 * L) * ‖G‖ ^ 2 := by
      have : (q / m) ^ 2 = 1 / (m * L) := by rw [div_pow, qq]; field_simp
      rw [this]
      field_simp
    rw [e8]
    have hconv : ‖w - z‖ ^ 2 ≤ q * ‖y - z‖ ^ 2 + (1 - q) * ‖v - z‖ ^ 2 := by
      have e9 : w - z = q • (y - z) + (1 - q) • (v - z) := by
        rw [hw, smul_sub, smul_sub, sub_smul 1 q z, one_smul]; abel
      rw [e9, norm_add_sq_real, inner_smul_left, inner_smul_right, norm_smul, norm_smul, mul_pow, mul_pow,
        Real.norm_of_nonneg q0.le, Real.norm_of_nonneg (by linarith : 0 ≤ 1 - q)]
      simp only [conj_trivial]
      have h0 := sq_nonneg ‖(y - z) - (v - z)‖
      have h1 := norm_sub_sq_real (y - z) (v - z)
      have h2 : 0 ≤ q * (1 - q) := mul_nonneg q0.le (by linarith)
      have h3 : 0 ≤ q * (1 - q) * ‖(y - z) - (v - z)‖ ^ 2 := by positivity
      rw [h1] at h3
      linarith [h3]
    have h10 := mul_le_mul_of_nonneg_left hconv (show 0 ≤ m / 2 by positivity)
    have h11 : f x' - f z + (m / 2 * ‖w - z‖ ^ 2 - q * ⟪G, w - z⟫_ℝ + 1 / (2 * L) * ‖G‖ ^ 2) ≤
        (1 - q) * (f x - f z + m / 2 * ‖v - z‖ ^ 2) := by linarith [hcomb, h10]
    refine h11.trans ?_
    rw [pow_succ' (1 - q), mul_assoc]
    exact mul_le_mul_of_nonneg_left ih (by linarith)

theorem agd_strong_rate {f : Vec d → ℝ} {g : Vec d → Vec d} {L m : ℝ} (hL : Upper f g L) (hm : Lower f g m) (hp : 0 < m)
    (hle : m ≤ L) (x0 z : Vec d) (k : Nat) :
    f (agdSeq (1 / L) (fun _ => (Real.sqrt L - Real.sqrt m) / (Real.sqrt L + Real.sqrt m)) g x0 k).1 - f z ≤
      (1 - Real.sqrt m / Real.sqrt L) ^ k * (f x0 - f z + m / 2 * ‖x0 - z‖ ^ 2) := by
  have h := agd_strong_potential hL hm hp hle x0 z k
  simp only at h
  refine le_trans ?_ h
  have : 0 ≤ m / 2 * ‖(agdSeq (1 / L) (fun _ => (Real.sqrt L - Real.sqrt m) / (Real.sqrt L + Real.sqrt m)) g x0 k).2 +
    (1 / (Real.sqrt m / Real.sqrt L)) • ((agdSeq (1 / L) (fun _ => (Real.sqrt L - Real.sqrt m) / (Real.sqrt L + Real.sqrt m)) g x0 k).2 -
    (agdSeq (1 / L) (fun _ => (Real.sqrt L - Real.sqrt m) / (Real.sqrt L + Real.sqrt m)) g x0 k).1) - z‖ ^ 2 := by positivity
  linarith

end Verif.Costs
