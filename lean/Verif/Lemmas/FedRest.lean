import Verif.Lemmas.Rates
import Mathlib.Topology.MetricSpace.Contracting
set_option linter.unusedSectionVars false
/-!
Gradient steps that come back to where they started, and gradient descent on a tilted mean of costs.
-/
namespace Verif.Consensus
open Verif Verif.Costs
open scoped InnerProductSpace
variable {d : Nat}

/-- tilting a cost and adding a proximal term -/
theorem tilt_upper {f : Vec d → ℝ} {g : Vec d → Vec d} {L : ℝ} (hu : Upper f g L) (t r : Vec d) (a : ℝ) :
    Upper (fun x => f x + ⟪t, x⟫_ℝ + a / 2 * ‖x - r‖ ^ 2) (fun x => g x + t + a • (x - r)) (L + a) := by
  intro x y
  have h := hu x y
  have e : y - r = (x - r) + (y - x) := by abel
  have e1 : ‖y - r‖ ^ 2 = ‖x - r‖ ^ 2 + 2 * ⟪x - r, y - x⟫_ℝ + ‖y - x‖ ^ 2 := by rw [e, norm_add_sq_real]
  have e2 : ⟪t, y - x⟫_ℝ = ⟪t, y⟫_ℝ - ⟪t, x⟫_ℝ := inner_sub_right _ _ _
  simp only [inner_add_left, inner_smul_left, RCLike.conj_to_real]
  rw [e1, e2]
  nlinarith

/-- one gradient step of size `η < 2 / L` decreases the cost -/
theorem gd_decrease {f : Vec d → ℝ} {g : Vec d → Vec d} {L : ℝ} (hu : Upper f g L) (η : ℝ) (x : Vec d) :
    f (x - η • g x) ≤ f x - η * (1 - η * L / 2) * ‖g x‖ ^ 2 := by
  have h1 := hu x (x - η • g x)
  have e1 : x - η • g x - x = -(η • g x) := by abel
  rw [e1, inner_neg_right, inner_smul_right, real_inner_self_eq_norm_sq, norm_neg, norm_smul, mul_pow, Real.norm_eq_abs, sq_abs] at h1
  nlinarith

/-- gradient steps of size below `2 / L` that return to their start started at a stationary point -/
theorem gd_return {f : Vec d → ℝ} {g : Vec d → Vec d} {L η : ℝ} (hu : Upper f g L) (hη : 0 < η) (hs : η * L < 2) (K : Nat) (hK : 0 < K)
    (x : Vec d) (hx : (fun y => y - η • g y)^[K] x = x) : g x = 0 := by
  have hc : 0 < η * (1 - η * L / 2) := mul_pos hη (by linarith)
  have hmono : ∀ (k : Nat) (y : Vec d), f ((fun y => y - η • g y)^[k] y) ≤ f y := by
    intro k
    induction k with
    | zero => intro y; exact le_rfl
    | succ k ih =>
      intro y
      rw [Function.iterate_succ_apply]
      have h1 := gd_decrease hu η y
      have h2 := mul_nonneg hc.le (sq_nonneg ‖g y‖)
      exact (ih _).trans (by linarith)
  obtain ⟨K', rfl⟩ := Nat.exists_eq_succ_of_ne_zero hK.ne'
  rw [Function.iterate_succ_apply] at hx
  have h1 := hmono K' (x - η • g x)
  rw [hx] at h1
  have h2 := gd_decrease hu η x
  have h3 : η * (1 - η * L / 2) * ‖g x‖ ^ 2 ≤ 0 := by linarith
  have h4 : ‖g x‖ ^ 2 ≤ 0 := by
    by_contra h
    push Not at h
    have := mul_pos hc h
    linarith
  exact norm_eq_zero.1 (pow_eq_zero_iff two_ne_zero |>.1 (le_antisymm h4 (sq_nonneg _)))

/-- gradient descent with a small constant step converges linearly to the unique stationary point -/
theorem gd_banach {f : Vec d → ℝ} {g : Vec d → Vec d} {L m t : ℝ} (hu : Upper f g L) (hl : Lower f g m) (hm : 0 < m) (hL : 0 < L)
    (ht : 0 < t) (hs : t * L ≤ 1) : ∃ xs : Vec d, (∀ y, g y = 0 ↔ y = xs) ∧ ∃ r : ℝ, 0 ≤ r ∧ r < 1 ∧
      ∀ (x : Vec d) (k : Nat), ‖(fun y => y - t • g y)^[k] x - xs‖ ≤ r ^ k * ‖x - xs‖ := by
  set T : Vec d → Vec d := fun y => y - t • g y with hT
  set q := Real.sqrt (max 0 (1 - t * m)) with hq
  have hq0 : 0 ≤ q := Real.sqrt_nonneg _
  have hq1 : q < 1 := by
    rw [hq, Real.sqrt_lt' one_pos, one_pow]
    exact max_lt zero_lt_one (by have : 0 < t * m := by positivity
                                 linarith)
  have hM : ∀ x y, ‖T x - T y‖ ≤ q * ‖x - y‖ := by
    intro x y
    have h1 := cocoercive hL hu (hl.mono hm.le) x y
    have h2 := strong_monotone hl x y
    have h0 : 0 ≤ ⟪g x - g y, x - y⟫_ℝ := le_trans (by positivity) h1
    have h3 : ‖g x - g y‖ ^ 2 ≤ L * ⟪g x - g y, x - y⟫_ℝ := by
      have := mul_le_mul_of_nonneg_left h1 hL.le
      rwa [← mul_assoc, mul_one_div_cancel hL.ne', one_mul] at this
    have e : T x - T y = (x - y) - t • (g x - g y) := by rw [hT]; module
    have h4 : ‖T x - T y‖ ^ 2 ≤ max 0 (1 - t * m) * ‖x - y‖ ^ 2 := by
      rw [e, norm_sub_smul_sq]
      have a1 := mul_le_mul_of_nonneg_left h3 (sq_nonneg t)
      have a2 := mul_le_mul_of_nonneg_right hs (mul_nonneg ht.le h0)
      have a3 := mul_le_mul_of_nonneg_left h2 ht.le
      have a4 := mul_le_mul_of_nonneg_right (le_max_right 0 (1 - t * m)) (sq_nonneg ‖x - y‖)
      nlinarith
    rw [← Real.sqrt_sq (norm_nonneg (x - y)), hq, ← Real.sqrt_mul (le_max_left _ _)]
    exact Real.le_sqrt_of_sq_le h4
  have hc : ContractingWith (Real.toNNReal q) T := by
    refine ⟨?_, LipschitzWith.of_dist_le_mul fun x y => ?_⟩
    · rw [← NNReal.coe_lt_coe, Real.coe_toNNReal _ hq0, NNReal.coe_one]; exact hq1
    · rw [dist_eq_norm, dist_eq_norm, Real.coe_toNNReal _ hq0]; exact hM x y
  have hfix : T (ContractingWith.fixedPoint T hc) = ContractingWith.fixedPoint T hc := hc.fixedPoint_isFixedPt
  set xs := ContractingWith.fixedPoint T hc
  have hiff : ∀ y, g y = 0 ↔ T y = y := by
    intro y
    rw [hT]
    constructor
    · intro h; simp [h]
    · intro h
      have : t • g y = 0 := by simpa using h
      exact (smul_eq_zero.1 this).resolve_left ht.ne'
  refine ⟨xs, fun y => ⟨fun hy => hc.fixedPoint_unique ((hiff y).1 hy), fun hy => (hiff y).2 (hy ▸ hfix)⟩, q, hq0, hq1, fun x k => ?_⟩
  induction k with
  | zero => simp
  | succ k ih =>
    rw [Function.iterate_succ_apply']
    have h3 := hM (T^[k] x) xs
    rw [hfix] at h3
    refine h3.trans ?_
    rw [pow_succ' q k, mul_assoc]
    exact mul_le_mul_of_nonneg_left ih hq0

end Verif.Consensus
