import Verif.Lemmas.Costs
import Mathlib.Analysis.InnerProductSpace.Calculus
import Mathlib.Analysis.Calculus.MeanValue
import Mathlib.Analysis.Calculus.Deriv.Abs
import Mathlib.Analysis.Convex.SpecificFunctions.Basic
/-!
# C55 (gradients are derivatives), and the constants of the concrete costs (C52)
-/
set_option linter.unusedSectionVars false
namespace Verif.Props
open Verif Verif.Costs
open scoped InnerProductSpace

variable {d : Nat}

/-- `H` is the derivative of the vector field `g` at `x` -/
def IsHessianAt (g : Vec d → Vec d) (H : Mat d) (x : Vec d) : Prop :=
  HasFDerivAt g (LinearMap.toContinuousLinearMap (Matrix.toEuclideanLin H)) x

/-! ### quadratic -/

theorem hasFDerivAt_app (A : Mat d) (x : Vec d) : IsHessianAt (app A) A x := by
  have : app A = fun y => LinearMap.toContinuousLinearMap (Matrix.toEuclideanLin A) y := by
    funext y; rw [app_eq]; rfl
  unfold IsHessianAt
  rw [this]
  exact (LinearMap.toContinuousLinearMap (Matrix.toEuclideanLin A)).hasFDerivAt

/-- **C55.** `QuadraticCost`: the gradient is the gradient of the value, for every matrix (symmetric or not), vector and
constant, at every point. -/
theorem C55_quadratic (A : Mat d) (b : Vec d) (c : ℝ) (x : Vec d) : HasGradientAt (quadFn A b c) (quadGrad A b x) x := by
  have h1 := (hasFDerivAt_id x).inner ℝ (hasFDerivAt_app A x)
  have h2 : HasGradientAt (fun y : Vec d => dot y (app A y)) (app A x + app A.transpose x) x := by
    have he : (fun y : Vec d => dot y (app A y)) = fun y => ⟪id y, app A y⟫_ℝ := by funext y; rw [dot_eq_inner]; rfl
    rw [he]
    refine grad_of_fderiv h1 ?_
    intro v
    have hv : ⟪x, app A v⟫_ℝ + ⟪v, app A x⟫_ℝ = ⟪app A x + app A.transpose x, v⟫_ℝ := by
      rw [inner_app, inner_add_left, real_inner_comm (app A x) v]
      ring
    rw [← hv, app_eq A v]
    simp [fderivInnerCLM_apply]
  have h3 : HasGradientAt (fun y : Vec d => dot b y) b x := by
    have := hasGradientAt_ridge (φ := fun t => t) b x (hasDerivAt_id _)
    simpa using this
  have h4 := HasGradientAt.add' (HasGradientAt.add' (HasGradientAt.cmul' 0.5 h2) h3) (hasGradientAt_const c x)
  refine hasGradientAt_congr h4 ?_
  rw [quadGrad, symPart, smul_app, add_app, add_zero]
  norm_num

theorem C55_quadratic_hessian (A : Mat d) (b : Vec d) (x : Vec d) : IsHessianAt (quadGrad A b) (quadHess A) x :=
  (hasFDerivAt_app (symPart A) x).add_const b

/-! ### regularizers -/

theorem C55_l2 (x : Vec d) : HasGradientAt l2Fn (l2Grad x) x := by
  have h := hasGradientAt_coord (φ := fun t => t * t) (φ' := fun i => x i + x i) x (fun i => by
    simpa using (hasDerivAt_id' (x i)).fun_mul (hasDerivAt_id' (x i)))
  refine hasGradientAt_congr (HasGradientAt.cmul' 0.5 h) ?_
  ext i
  simp [l2Grad]
  ring

theorem C55_l2_hessian (x : Vec d) : IsHessianAt l2Grad (1 : Mat d) x := by
  have := hasFDerivAt_app (1 : Mat d) x
  have he : app (1 : Mat d) = l2Grad := by funext y; rw [one_app]; rfl
  rwa [he] at this

theorem frac_deriv (t : ℝ) : HasDerivAt (fun t : ℝ => (t * t) / (1 + t * t)) (2 * t / (1 + t * t) ^ 2) t := by
  have h0 : (1 + t * t) ≠ 0 := by have := mul_self_nonneg t; linarith
  have h1 : HasDerivAt (fun t : ℝ => t * t) (t + t) t := by simpa using (hasDerivAt_id' t).fun_mul (hasDerivAt_id' t)
  have h := h1.fun_div (h1.const_add 1) h0
  refine h.congr_deriv ?_
  field_simp
  ring

theorem frac_deriv2 (t : ℝ) : HasDerivAt (fun t : ℝ => 2 * t / (1 + t * t) ^ 2) (2 * (1 - 3 * (t * t)) / (1 + t * t) ^ 3) t := by
  have h0 : (1 + t * t) ≠ 0 := by have := mul_self_nonneg t; linarith
  have h1 : HasDerivAt (fun t : ℝ => t * t) (t + t) t := by simpa using (hasDerivAt_id' t).fun_mul (hasDerivAt_id' t)
  have h2 : HasDerivAt (fun t : ℝ => 2 * t) 2 t := by simpa using (hasDerivAt_id t).const_mul 2
  have h := h2.fun_div ((h1.const_add 1).fun_pow 2) (pow_ne_zero 2 h0)
  refine h.congr_deriv ?_
  field_simp
  ring

theorem C55_fractional (x : Vec d) : HasGradientAt fracFn (fracGrad x) x :=
  hasGradientAt_coord (φ := fun t => (t * t) / (1 + t * t)) x (fun i => frac_deriv (x i))

theorem C55_fractional_hessian (x : Vec d) : IsHessianAt fracGrad (fracHess x) x := by
  unfold IsHessianAt
  rw [← hasFDerivWithinAt_univ, hasFDerivWithinAt_euclidean]
  intro i
  have h1 : HasFDerivAt (fun y : Vec d => y i) (EuclideanSpace.proj i : Vec d →L[ℝ] ℝ) x :=
    (EuclideanSpace.proj i : Vec d →L[ℝ] ℝ).hasFDerivAt
  have h2 := (frac_deriv2 (x i)).comp_hasFDerivAt x h1
  refine HasFDerivAt.hasFDerivWithinAt (h2.congr_fderiv ?_)
  refine ContinuousLinearMap.ext fun v => ?_
  simp [fracHess, Matrix.toLpLin_apply, Matrix.mulVec_diagonal]

/-- **C55.** L1: where no coordinate vanishes, the sign vector is the gradient. -/
theorem C55_l1 (x : Vec d) (h : ∀ i, x i ≠ 0) : HasGradientAt l1Fn (l1Grad x) x := by
  refine hasGradientAt_coord (φ := fun t => |t|) x (fun i => ?_)
  rcases lt_or_gt_of_ne (h i) with hi | hi
  · rw [Real.sign_of_neg hi]; exact hasDerivAt_abs_neg hi
  · rw [Real.sign_of_pos hi]; exact hasDerivAt_abs_pos hi

example : HasGradientAt l1Fn (l1Grad (vec ![(2 : ℝ), -3])) (vec ![(2 : ℝ), -3]) :=
  C55_l1 _ (by intro i; fin_cases i <;> simp)

/-! ### linear regression -/

theorem linGrad_eq (S : List (Vec d × ℝ)) (x : Vec d) :
    linGrad S x = (1 / (S.length : ℝ)) • (S.map (fun s => (dot s.1 x - s.2) • s.1)).sum := by
  rw [linGrad, app_gram, atb_eq]
  congr 1
  induction S with
  | nil => simp
  | cons s S ih =>
    simp only [List.map_cons, List.sum_cons]
    rw [← ih, sub_smul]
    abel

theorem C55_linear (S : List (Vec d × ℝ)) (x : Vec d) : HasGradientAt (linFn S) (linGrad S x) x := by
  have h := hasGradientAt_listSum S (fun s y => (dot s.1 y - s.2) * (dot s.1 y - s.2)) (fun s => (2 * (dot s.1 x - s.2)) • s.1) x
    (fun s _ => hasGradientAt_ridge (φ := fun t => (t - s.2) * (t - s.2)) s.1 x (by
      have h1 := (hasDerivAt_id (dot s.1 x)).sub_const s.2
      refine (h1.fun_mul h1).congr_deriv ?_
      simp; ring))
  have h2 := HasGradientAt.cmul' (0.5 / (S.length : ℝ)) h
  have he : linFn S = fun y => 0.5 / (S.length : ℝ) * (S.map (fun s => (dot s.1 y - s.2) * (dot s.1 y - s.2))).sum := by
    funext y; rw [linFn]; ring
  rw [he]
  refine hasGradientAt_congr h2 ?_
  rw [linGrad_eq, List.smul_sum, List.smul_sum, List.map_map, List.map_map]
  congr 1
  refine List.map_congr_left fun s _ => ?_
  simp only [Function.comp_apply, smul_smul]
  congr 1
  ring

theorem C55_linear_hessian (S : List (Vec d × ℝ)) (x : Vec d) : IsHessianAt (linGrad S) (linHess S) x := by
  have h := hasFDerivAt_app (linHess S) x
  have he : linGrad S = fun y => app (linHess S) y - (1 / (S.length : ℝ)) • atb S := by
    funext y; rw [linGrad, linHess, smul_app, smul_sub]
  rw [he]
  exact h.sub_const _

/-- **C55.** Per-sample gradients are the gradients of the single-sample costs, and their mean is the gradient. -/
theorem C55_linear_per_sample (S : List (Vec d × ℝ)) (x : Vec d) :
    linPerSample S x = S.map (fun s => linGrad [s] x) ∧
    linGrad S x = (1 / ((linPerSample S x).length : ℝ)) • (linPerSample S x).sum := by
  constructor
  · refine List.map_congr_left fun s _ => ?_
    rw [linGrad_eq]; simp
  · rw [linGrad_eq]; simp [linPerSample]

/-! ### logistic regression -/

theorem one_add_exp_pos (t : ℝ) : 0 < 1 + Real.exp (-t) := by positivity

theorem negLogSig_deriv (t : ℝ) : HasDerivAt negLogSig (expit t - 1) t := by
  have h1 : HasDerivAt (fun t : ℝ => 1 + Real.exp (-t)) (-Real.exp (-t)) t := by
    have := ((hasDerivAt_neg t).exp).const_add 1
    refine this.congr_deriv ?_
    ring
  have h2 := h1.log (one_add_exp_pos t).ne'
  refine h2.congr_deriv ?_
  have := (one_add_exp_pos t).ne'
  rw [expit]
  field_simp
  ring

theorem expit_deriv (t : ℝ) : HasDerivAt expit (expit t * (1 - expit t)) t := by
  have h1 : HasDerivAt (fun t : ℝ => 1 + Real.exp (-t)) (-Real.exp (-t)) t := by
    have := ((hasDerivAt_neg t).exp).const_add 1
    refine this.congr_deriv ?_
    ring
  have h2 := (hasDerivAt_const t (1 : ℝ)).div h1 (one_add_exp_pos t).ne'
  refine h2.congr_deriv ?_
  have := (one_add_exp_pos t).ne'
  rw [expit]
  field_simp
  ring

theorem logGrad_eq (S : List (Vec d × ℝ)) (x : Vec d) :
    logGrad S x = (1 / (S.length : ℝ)) • (S.map (fun s => (expit (dot s.1 x) - s.2) • s.1)).sum := by
  have : ∀ l : List (Vec d × ℝ), (l.map (fun s => (expit (dot s.1 x) - s.2) • s.1)).sum =
      vec (fun j => (l.map (fun s => s.1 j * (expit (dot s.1 x) - s.2))).sum) := by
    intro l
    induction l with
    | nil => ext i; simp
    | cons s l ih =>
      rw [List.map_cons, List.sum_cons, ih]
      ext i
      simp [mul_comm]
  rw [this]
  ext i
  simp [logGrad]
  ring

theorem C55_logistic (S : List (Vec d × ℝ)) (x : Vec d) : HasGradientAt (logFn S) (logGrad S x) x := by
  have h := hasGradientAt_listSum S (fun s y => s.2 * negLogSig (dot s.1 y) + (1 - s.2) * (dot s.1 y + negLogSig (dot s.1 y)))
    (fun s => (expit (dot s.1 x) - s.2) • s.1) x
    (fun s _ => hasGradientAt_ridge (φ := fun t => s.2 * negLogSig t + (1 - s.2) * (t + negLogSig t)) s.1 x (by
      have h1 := negLogSig_deriv (dot s.1 x)
      refine ((h1.const_mul s.2).add (((hasDerivAt_id _).add h1).const_mul (1 - s.2))).congr_deriv ?_
      ring))
  have h2 := HasGradientAt.cmul' (1 / (S.length : ℝ)) h
  have he : logFn S = fun y => 1 / (S.length : ℝ) * (S.map (fun s => s.2 * negLogSig (dot s.1 y) + (1 - s.2) * (dot s.1 y + negLogSig (dot s.1 y)))).sum := by
    funext y
    rw [logFn, ← List.sum_map_add]
    ring
  rw [he]
  refine hasGradientAt_congr h2 ?_
  rw [logGrad_eq]

theorem C55_logistic_hessian (S : List (Vec d × ℝ)) (x : Vec d) : IsHessianAt (logGrad S) (logHess S x) x := by
  unfold IsHessianAt
  rw [← hasFDerivWithinAt_univ, hasFDerivWithinAt_euclidean]
  intro j
  -- the j-th partial derivative
  have hsum : ∀ l : List (Vec d × ℝ), HasGradientAt (fun y : Vec d => (l.map (fun s => s.1 j * (expit (dot s.1 y) - s.2))).sum)
      (l.map (fun s => (s.1 j * (expit (dot s.1 x) * (1 - expit (dot s.1 x)))) • s.1)).sum x := by
    intro l
    refine hasGradientAt_listSum l (fun s y => s.1 j * (expit (dot s.1 y) - s.2)) _ x (fun s _ => ?_)
    exact hasGradientAt_ridge (φ := fun t => s.1 j * (expit t - s.2)) s.1 x
      (((expit_deriv (dot s.1 x)).sub_const s.2).const_mul (s.1 j))
  have h2 := (HasGradientAt.cmul' (1 / (S.length : ℝ)) (hsum S)).hasFDerivAt
  have he : (fun y : Vec d => (logGrad S y) j) =
      fun y => 1 / (S.length : ℝ) * (S.map (fun s => s.1 j * (expit (dot s.1 y) - s.2))).sum := by
    funext y; simp only [logGrad, vec_apply]; ring
  rw [he]
  refine HasFDerivAt.hasFDerivWithinAt (h2.congr_fderiv ?_)
  refine ContinuousLinearMap.ext fun v => ?_
  rw [InnerProductSpace.toDual_apply_apply]
  have h3 : ∀ l : List (Vec d × ℝ), ⟪(l.map (fun s => (s.1 j * (expit (dot s.1 x) * (1 - expit (dot s.1 x)))) • s.1)).sum, v⟫_ℝ =
      ∑ k, (l.map (fun s => s.1 j * (expit (dot s.1 x) * (1 - expit (dot s.1 x))) * s.1 k)).sum * v k := by
    intro l
    induction l with
    | nil => simp
    | cons s l ih =>
      simp only [List.map_cons, List.sum_cons, inner_add_left, ih, add_mul, Finset.sum_add_distrib, inner_smul_left]
      congr 1
      have hd : dot s.1 v = ∑ k, s.1 k * v k := rfl
      rw [← dot_eq_inner, hd, Finset.mul_sum]
      refine Finset.sum_congr rfl fun k _ => ?_
      simp only [conj_trivial]
      ring
  rw [inner_smul_left, h3, conj_trivial, Finset.mul_sum]
  have h4 : (EuclideanSpace.proj j : Vec d →L[ℝ] ℝ) (LinearMap.toContinuousLinearMap (Matrix.toEuclideanLin (logHess S x)) v) =
      ∑ k, logHess S x j k * v k := by
    change (Matrix.toEuclideanLin (logHess S x) v) j = _
    rw [← app_eq, app_apply]
  rw [ContinuousLinearMap.comp_apply, h4]
  refine Finset.sum_congr rfl fun k _ => ?_
  simp only [logHess, Matrix.of_apply]
  ring

theorem C55_logistic_per_sample (S : List (Vec d × ℝ)) (x : Vec d) :
    logPerSample S x = S.map (fun s => logGrad [s] x) ∧
    logGrad S x = (1 / ((logPerSample S x).length : ℝ)) • (logPerSample S x).sum := by
  constructor
  · refine List.map_congr_left fun s _ => ?_
    rw [logGrad_eq]; simp
  · rw [logGrad_eq]; simp [logPerSample]

/-- **C55.** The logistic cost computed through `logaddexp` is the documented cross-entropy. -/
theorem C55_logistic_documented (S : List (Vec d × ℝ)) (x : Vec d) :
    logFn S x = -(1 / (S.length : ℝ)) * ((S.map (fun s => s.2 * Real.log (expit (dot s.1 x)))).sum +
      (S.map (fun s => (1 - s.2) * Real.log (1 - expit (dot s.1 x)))).sum) := by
  have h1 : ∀ t, Real.log (expit t) = - negLogSig t := by
    intro t; rw [expit, negLogSig, one_div, Real.log_inv]
  have h2 : ∀ t, Real.log (1 - expit t) = - (t + negLogSig t) := by
    intro t
    have hp := one_add_exp_pos t
    have : 1 - expit t = Real.exp (-t) / (1 + Real.exp (-t)) := by rw [expit]; field_simp; ring
    rw [this, Real.log_div (Real.exp_pos _).ne' hp.ne', Real.log_exp, negLogSig]
    ring
  have hneg : ∀ f : Vec d × ℝ → ℝ, (S.map (fun s => -f s)).sum = -(S.map f).sum := by
    intro f
    induction S with
    | nil => simp
    | cons s S ih => simp only [List.map_cons, List.sum_cons, ih]; ring
  simp only [h1, h2, logFn, mul_neg]
  rw [hneg, hneg]
  ring

end Verif.Props
