import Verif.Lemmas.Costs
import Mathlib.Analysis.Calculus.Deriv.MeanValue
/-! # The descent lemma -/
set_option linter.unusedSectionVars false
namespace Verif.Costs
open scoped InnerProductSpace

variable {d : Nat}

/-- the restriction of a differentiable function to a line -/
theorem hasDerivAt_line {f : Vec d → ℝ} {g : Vec d → Vec d} (hg : ∀ x, HasGradientAt f (g x) x) (x v : Vec d) (t : ℝ) :
    HasDerivAt (fun t : ℝ => f (x + t • v)) ⟪g (x + t • v), v⟫_ℝ t := by
  have h1 : HasDerivAt (fun t : ℝ => x + t • v) v t := by
    have := ((hasDerivAt_id' t).smul_const v).const_add x
    simpa using this
  have h2 := (hg (x + t • v)).hasFDerivAt.comp_hasDerivAt t h1
  simpa [InnerProductSpace.toDual_apply_apply, Function.comp_def] using h2

/-- a gradient with Lipschitz constant `L` bounds the function by a parabola from above -/
theorem descent_le {f : Vec d → ℝ} {g : Vec d → Vec d} {L : ℝ} (hg : ∀ x, HasGradientAt f (g x) x)
    (hL : ∀ x y, ‖g x - g y‖ ≤ L * ‖x - y‖) (x y : Vec d) :
    f y ≤ f x + ⟪g x, y - x⟫_ℝ + L / 2 * ‖y - x‖ ^ 2 := by
  set v := y - x with hv
  let φ : ℝ → ℝ := fun t => f (x + t • v) - t * ⟪g x, v⟫_ℝ - L / 2 * ‖v‖ ^ 2 * (t * t)
  have hd : ∀ t, HasDerivAt φ (⟪g (x + t • v), v⟫_ℝ - ⟪g x, v⟫_ℝ - L / 2 * ‖v‖ ^ 2 * (t + t)) t := by
    intro t
    have h1 := hasDerivAt_line hg x v t
    have h2 : HasDerivAt (fun t : ℝ => t * ⟪g x, v⟫_ℝ) ⟪g x, v⟫_ℝ t := by
      simpa using (hasDerivAt_id' t).mul_const ⟪g x, v⟫_ℝ
    have h3 : HasDerivAt (fun t : ℝ => L / 2 * ‖v‖ ^ 2 * (t * t)) (L / 2 * ‖v‖ ^ 2 * (t + t)) t := by
      have := ((hasDerivAt_id' t).fun_mul (hasDerivAt_id' t)).const_mul (L / 2 * ‖v‖ ^ 2)
      simpa using this
    exact (h1.fun_sub h2).fun_sub h3
  have hanti : AntitoneOn φ (Set.Icc 0 1) := by
    refine antitoneOn_of_deriv_nonpos (convex_Icc 0 1) (fun t _ => (hd t).continuousAt.continuousWithinAt)
      (fun t _ => (hd t).differentiableAt.differentiableWithinAt) ?_
    intro t ht
    rw [interior_Icc] at ht
    rw [(hd t).deriv, ← inner_sub_left]
    have h1 := real_inner_le_norm (g (x + t • v) - g x) v
    have h2 := hL (x + t • v) x
    rw [add_sub_cancel_left, norm_smul, Real.norm_of_nonneg ht.1.le] at h2
    have h3 := mul_le_mul_of_nonneg_right h2 (norm_nonneg v)
    have h4 : L / 2 * ‖v‖ ^ 2 * (t + t) = L * (t * ‖v‖) * ‖v‖ := by ring
    rw [h4]
    linarith
  have h := hanti (Set.left_mem_Icc.2 zero_le_one) (Set.right_mem_Icc.2 zero_le_one) zero_le_one
  simp only [φ, one_smul, zero_smul, add_zero, zero_mul, mul_zero, sub_zero, one_mul, mul_one] at h
  rw [hv, add_sub_cancel] at h
  rw [← hv] at h
  linarith

end Verif.Costs
