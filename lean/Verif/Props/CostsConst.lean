import Verif.Props.CostsCalc
import Mathlib.Analysis.Convex.SpecificFunctions.Basic
/-!
# C52 (constants of the concrete costs)
-/
set_option linter.unusedSectionVars false
namespace Verif.Props
open Verif Verif.Costs
open scoped InnerProductSpace

variable {d : Nat}

/-- the documentation of `Cost.m_smooth` (_cost.py 78-94): what a reported value means for the value function `f` and the gradient
function `g` -/
def SmoothMeaning (f : Vec d → ℝ) (g : Vec d → Vec d) : Fl → Prop
  | .nan => True
  | .inf => ∀ x, HasGradientAt f (g x) x
  | .fin L => 0 ≤ L ∧ (∀ x, HasGradientAt f (g x) x) ∧ ∀ x y, ‖g x - g y‖ ≤ L * ‖x - y‖

/-- the documentation of `Cost.m_cvx` (_cost.py 96-115) -/
def ConvexMeaning (f : Vec d → ℝ) (g : Vec d → Vec d) : Fl → Prop
  | .nan => True
  | .inf => False
  | .fin m => 0 ≤ m ∧ ∀ x y, f x + ⟪g x, y - x⟫_ℝ + m / 2 * ‖y - x‖ ^ 2 ≤ f y

/-! ### quadratic -/

theorem quad_expand (A : Mat d) (b : Vec d) (c : ℝ) (x y : Vec d) :
    quadFn A b c y = quadFn A b c x + ⟪quadGrad A b x, y - x⟫_ℝ + 1 / 2 * ⟪y - x, app (symPart A) (y - x)⟫_ℝ := by
  have e : ∀ z : Vec d, quadFn A b c z = 1 / 2 * ⟪z, app (symPart A) z⟫_ℝ + ⟪b, z⟫_ℝ + c := by
    intro z
    rw [inner_symPart, quadFn, dot_eq_inner, dot_eq_inner]
    norm_num
  rw [e, e, quadGrad, app_sub, inner_add_left, inner_sub_right, inner_sub_right, inner_sub_right, inner_sub_left, inner_sub_left,
    inner_app_herm (symPart_herm A) x y, inner_app_herm (symPart_herm A) x x,
    real_inner_comm (app (symPart A) x) y]
  ring

/-- **C52.** `QuadraticCost.m_smooth` is a Lipschitz constant of the gradient, for every matrix. -/
theorem C52_quadratic_smooth (A : Mat d) (b : Vec d) (c : ℝ) :
    SmoothMeaning (quadFn A b c) (quadGrad A b) (.fin (quadSmooth A)) := by
  refine ⟨maxAbsEig_nonneg _, C55_quadratic A b c, fun x y => ?_⟩
  have : quadGrad A b x - quadGrad A b y = app (symPart A) (x - y) := by
    rw [app_sub, quadGrad, quadGrad]; abel
  rw [this]
  exact norm_app_le (symPart_herm A) _

/-- **C52.** No smaller constant works (for a non-empty domain). -/
theorem C52_quadratic_smooth_tight (A : Mat d) (b : Vec d) (hd : 0 < d) (L : ℝ)
    (h : ∀ x y, ‖quadGrad A b x - quadGrad A b y‖ ≤ L * ‖x - y‖) : quadSmooth A ≤ L := by
  have : Nonempty (Fin d) := ⟨⟨0, hd⟩⟩
  refine ciSup_le fun i => ?_
  have h1 := h ((symPart_herm A).eigenvectorBasis i) 0
  rw [quadGrad, quadGrad, app_zero, sub_zero, zero_add, add_sub_cancel_right, app_eigen, norm_smul,
    (symPart_herm A).eigenvectorBasis.orthonormal.1 i, mul_one, mul_one, Real.norm_eq_abs] at h1
  exact h1

/-- **C52.** `QuadraticCost.m_cvx` is a (strong) convexity constant unless the smallest eigenvalue is negative by rounding-error
size (at most 1e-12), in which case 0 is reported (see `C52_quadratic_tolerance`). -/
theorem C52_quadratic_convex (A : Mat d) (b : Vec d) (c : ℝ)
    (h : ¬ (-1e-12 ≤ minEig (symPart A) (symPart_herm A) ∧ minEig (symPart A) (symPart_herm A) < 0)) :
    ConvexMeaning (quadFn A b c) (quadGrad A b) (quadCvx A) := by
  have key : ∀ m, m ≤ minEig (symPart A) (symPart_herm A) → ∀ x y : Vec d,
      quadFn A b c x + ⟪quadGrad A b x, y - x⟫_ℝ + m / 2 * ‖y - x‖ ^ 2 ≤ quadFn A b c y := by
    intro m hm x y
    rw [quad_expand A b c x y]
    have h1 := minEig_mul_le (symPart_herm A) (y - x)
    have h2 : m * ‖y - x‖ ^ 2 ≤ minEig (symPart A) (symPart_herm A) * ‖y - x‖ ^ 2 :=
      mul_le_mul_of_nonneg_right hm (sq_nonneg _)
    linarith
  unfold quadCvx cvxOf
  split
  · exact ⟨by norm_num at *; linarith, key _ le_rfl⟩
  · split
    · rename_i h1 h2
      have h3 := abs_le.1 h2
      have h0 : 0 ≤ minEig (symPart A) (symPart_herm A) := by
        by_contra hneg
        exact h ⟨h3.1, not_le.1 hneg⟩
      exact ⟨le_rfl, key _ h0⟩
    · trivial

/-- **C52.** Whenever a convexity constant is reported it is the true one up to 1e-12. -/
theorem C52_quadratic_convex_tolerance (A : Mat d) (b : Vec d) (c m : ℝ) (h : quadCvx A = .fin m) (x y : Vec d) :
    quadFn A b c x + ⟪quadGrad A b x, y - x⟫_ℝ + (m - 1e-12) / 2 * ‖y - x‖ ^ 2 ≤ quadFn A b c y := by
  have h0 : m - 1e-12 ≤ minEig (symPart A) (symPart_herm A) := by
    unfold quadCvx cvxOf at h
    split at h
    · cases h; norm_num
    · split at h
      · rename_i h2
        cases h
        have := (abs_le.1 h2).1
        linarith
      · cases h
  rw [quad_expand A b c x y]
  have h1 := minEig_mul_le (symPart_herm A) (y - x)
  have h2 := mul_le_mul_of_nonneg_right h0 (sq_nonneg ‖y - x‖)
  linarith

theorem symPart_smul_one (a : ℝ) : symPart (a • (1 : Mat d)) = a • (1 : Mat d) := by
  ext i j
  by_cases hij : i = j
  · subst hij; simp [symPart]; ring
  · simp [symPart, hij, Ne.symm hij]

theorem minEig_smul_one (a : ℝ) (hd : 0 < d) (h : (a • (1 : Mat d)).IsHermitian) : minEig (a • (1 : Mat d)) h = a := by
  obtain ⟨v, hv, hw⟩ := exists_minEig h hd
  rw [smul_app, one_app] at hw
  have h1 : (a - minEig (a • (1 : Mat d)) h) • v = 0 := by rw [sub_smul, hw, sub_self]
  rcases smul_eq_zero.1 h1 with h2 | h2
  · linarith
  · rw [h2] at hv; simp at hv

theorem minEig_congr {M N : Mat d} (e : M = N) (hM : M.IsHermitian) (hN : N.IsHermitian) : minEig M hM = minEig N hN := by
  subst e; rfl

theorem quadCvx_smul_one (a : ℝ) (hd : 0 < d) : quadCvx (a • (1 : Mat d)) = cvxOf a := by
  have hh : (a • (1 : Mat d)).IsHermitian := by
    have := symPart_herm (a • (1 : Mat d)); rwa [symPart_smul_one] at this
  rw [quadCvx, minEig_congr (symPart_smul_one a) _ hh, minEig_smul_one a hd hh]

/-- **C52 (refutation of the documented rule).** A matrix with smallest eigenvalue -1e-13 reports `m_cvx = 0`, "convex", although
the function is concave; the documentation promises NaN for every negative eigenvalue. -/
theorem C52_quadratic_tolerance : quadCvx ((-1e-13 : ℝ) • (1 : Mat 1)) = .fin 0 ∧
    ¬ ConvexMeaning (quadFn ((-1e-13 : ℝ) • (1 : Mat 1)) 0 0) (quadGrad ((-1e-13 : ℝ) • (1 : Mat 1)) 0) (.fin 0) := by
  constructor
  · rw [quadCvx_smul_one _ (by norm_num), cvxOf]
    rw [if_neg (by norm_num), if_pos (by norm_num [abs_le])]
  · rintro ⟨-, h⟩
    have h1 := h 0 (vec fun _ => 1)
    have e0 : quadFn ((-1e-13 : ℝ) • (1 : Mat 1)) 0 0 0 = 0 := by simp [quadFn, dot]
    have e1 : quadGrad ((-1e-13 : ℝ) • (1 : Mat 1)) 0 0 = 0 := by rw [quadGrad, app_zero, zero_add]
    have e2 : quadFn ((-1e-13 : ℝ) • (1 : Mat 1)) 0 0 (vec fun _ => 1) = -0.5e-13 := by
      rw [quadFn, smul_app, one_app, dot_eq_inner, inner_smul_right, ← dot_eq_inner]
      simp only [dot, vec_apply]
      norm_num
    rw [e0, e1, e2, inner_zero_left] at h1
    norm_num at h1

/-- the hypothesis of `C52_quadratic_convex` holds for the identity, with constant 1 -/
example : quadCvx ((1 : ℝ) • (1 : Mat 3)) = .fin 1 := by
  rw [quadCvx_smul_one _ (by norm_num), cvxOf, if_pos (by norm_num)]

/-! ### regularizers -/

theorem l2_eq (x : Vec d) : l2Fn x = 1 / 2 * ⟪x, x⟫_ℝ := by
  rw [l2Fn, ← dot_eq_inner, dot]; norm_num

/-- **C52.** `L2RegularizerCost`: `m_smooth = 1` -/
theorem C52_l2_smooth : SmoothMeaning (l2Fn (d := d)) l2Grad (.fin 1) :=
  ⟨zero_le_one, C55_l2, fun x y => by simp [l2Grad]⟩

/-- **C52.** `L2RegularizerCost`: `m_cvx = 1` -/
theorem C52_l2_convex : ConvexMeaning (l2Fn (d := d)) l2Grad (.fin 1) := by
  refine ⟨zero_le_one, fun x y => le_of_eq ?_⟩
  rw [l2_eq, l2_eq, l2Grad, ← real_inner_self_eq_norm_sq, inner_sub_right, inner_sub_right, inner_sub_left, inner_sub_left,
    real_inner_comm x y]
  ring

/-- **C52.** `L1RegularizerCost`: convex (`m_cvx = 0`) with the sign vector as subgradient, also at points with vanishing
coordinates, where the function is not differentiable (`m_smooth` is NaN). -/
theorem C52_l1_convex : ConvexMeaning (l1Fn (d := d)) l1Grad (.fin 0) := by
  refine ⟨le_rfl, fun x y => ?_⟩
  rw [← dot_eq_inner, dot, l1Fn, l1Fn, zero_div, zero_mul, add_zero, ← Finset.sum_add_distrib]
  refine Finset.sum_le_sum fun i _ => ?_
  simp only [l1Grad, vec_apply, PiLp.sub_apply]
  rcases lt_trichotomy (x i) 0 with h | h | h
  · rw [Real.sign_of_neg h, abs_of_neg h]; have := neg_le_abs (y i); linarith
  · rw [h, Real.sign_zero]; simp
  · rw [Real.sign_of_pos h, abs_of_pos h]; have := le_abs_self (y i); linarith

theorem frac_lip (s t : ℝ) : |2 * s / (1 + s * s) ^ 2 - 2 * t / (1 + t * t) ^ 2| ≤ 2 * |s - t| := by
  have h := Convex.norm_image_sub_le_of_norm_hasDerivWithin_le (f := fun t : ℝ => 2 * t / (1 + t * t) ^ 2)
    (f' := fun t => 2 * (1 - 3 * (t * t)) / (1 + t * t) ^ 3) (s := Set.univ) (C := 2) (x := t) (y := s)
    (fun u _ => (frac_deriv2 u).hasDerivWithinAt) ?_ convex_univ trivial trivial
  · simpa [Real.norm_eq_abs] using h
  · intro u _
    have h0 := mul_self_nonneg u
    have h1 : 0 < (1 + u * u) ^ 3 := by positivity
    rw [Real.norm_eq_abs, abs_div, abs_of_pos h1, div_le_iff₀ h1, abs_le]
    constructor <;> nlinarith [mul_nonneg h0 h0, mul_nonneg h0 (mul_nonneg h0 h0)]

/-- **C52.** `FractionalQuadraticRegularizerCost`: `m_smooth = 2` (`m_cvx` is NaN). -/
theorem C52_fractional_smooth : SmoothMeaning (fracFn (d := d)) fracGrad (.fin 2) := by
  refine ⟨by norm_num, C55_fractional, fun x y => ?_⟩
  refine le_of_sq_le_sq ?_ (by positivity)
  rw [mul_pow, EuclideanSpace.norm_sq_eq, EuclideanSpace.norm_sq_eq, Finset.mul_sum]
  refine Finset.sum_le_sum fun i _ => ?_
  simp only [fracGrad, PiLp.sub_apply, vec_apply, Real.norm_eq_abs]
  rw [← mul_pow]
  exact pow_le_pow_left₀ (abs_nonneg _) (frac_lip (x i) (y i)) 2

/-! ### linear regression -/

theorem lin_expand (S : List (Vec d × ℝ)) (x y : Vec d) :
    linFn S y = linFn S x + ⟪linGrad S x, y - x⟫_ℝ + 1 / 2 * (1 / (S.length : ℝ)) * ⟪y - x, app (gram S) (y - x)⟫_ℝ := by
  rw [linGrad_eq, inner_smul_left, inner_gram]
  have h1 : ∀ l : List (Vec d × ℝ), (l.map (fun s => (dot s.1 y - s.2) * (dot s.1 y - s.2))).sum =
      (l.map (fun s => (dot s.1 x - s.2) * (dot s.1 x - s.2))).sum +
      2 * ⟪(l.map (fun s => (dot s.1 x - s.2) • s.1)).sum, y - x⟫_ℝ +
      (l.map (fun s => dot s.1 (y - x) * dot s.1 (y - x))).sum := by
    intro l
    induction l with
    | nil => simp
    | cons s l ih =>
      simp only [List.map_cons, List.sum_cons, inner_add_left, ih, inner_smul_left, conj_trivial]
      have : dot s.1 (y - x) = dot s.1 y - dot s.1 x := by
        simp only [dot_eq_inner, inner_sub_right]
      have h2 : ⟪s.1, y - x⟫_ℝ = dot s.1 y - dot s.1 x := by simp only [dot_eq_inner, inner_sub_right]
      rw [this, h2]
      ring
  rw [linFn, linFn, h1]
  simp only [conj_trivial]
  ring

/-- **C52.** `LinearRegressionCost.m_smooth` -/
theorem C52_linear_smooth (S : List (Vec d × ℝ)) : SmoothMeaning (linFn S) (linGrad S) (.fin (linSmooth S)) := by
  refine ⟨div_nonneg (maxAbsEig_nonneg _) (Nat.cast_nonneg _), C55_linear S, fun x y => ?_⟩
  have : linGrad S x - linGrad S y = (1 / (S.length : ℝ)) • app (gram S) (x - y) := by
    rw [app_sub, linGrad, linGrad, ← smul_sub]; congr 1; abel
  rw [this, norm_smul, Real.norm_of_nonneg (by positivity), linSmooth]
  have h1 := mul_le_mul_of_nonneg_left (norm_app_le (gram_herm S) (x - y)) (by positivity : (0 : ℝ) ≤ 1 / (S.length : ℝ))
  calc _ ≤ _ := h1
    _ = _ := by ring

theorem minEig_gram_nonneg (S : List (Vec d × ℝ)) : 0 ≤ minEig (gram S) (gram_herm S) := by
  rcases Nat.eq_zero_or_pos d with h | h
  · subst h
    unfold minEig
    rw [Real.iInf_of_isEmpty]
  · obtain ⟨v, hv, hw⟩ := exists_minEig (gram_herm S) h
    have h1 : ⟪v, app (gram S) v⟫_ℝ = minEig (gram S) (gram_herm S) := by
      rw [hw, inner_smul_right, real_inner_self_eq_norm_sq, hv]; ring
    rw [← h1, inner_gram]
    exact List.sum_nonneg (by simp only [List.mem_map]; rintro _ ⟨s, _, rfl⟩; exact mul_self_nonneg _)

/-- **C52.** `LinearRegressionCost.m_cvx` is never NaN and always sound, for every data set. -/
theorem C52_linear_convex (S : List (Vec d × ℝ)) : linCvx S ≠ .nan ∧ ConvexMeaning (linFn S) (linGrad S) (linCvx S) := by
  have h0 : 0 ≤ minEig (gram S) (gram_herm S) / S.length := div_nonneg (minEig_gram_nonneg S) (Nat.cast_nonneg _)
  have key : ∀ m, m ≤ minEig (gram S) (gram_herm S) / S.length → ∀ x y : Vec d,
      linFn S x + ⟪linGrad S x, y - x⟫_ℝ + m / 2 * ‖y - x‖ ^ 2 ≤ linFn S y := by
    intro m hm x y
    rw [lin_expand S x y]
    have h1 := mul_le_mul_of_nonneg_left (minEig_mul_le (gram_herm S) (y - x)) (by positivity : (0 : ℝ) ≤ 1 / (S.length : ℝ))
    have h2 : m * ‖y - x‖ ^ 2 ≤ minEig (gram S) (gram_herm S) / S.length * ‖y - x‖ ^ 2 :=
      mul_le_mul_of_nonneg_right hm (sq_nonneg _)
    have h3 : 1 / (S.length : ℝ) * (minEig (gram S) (gram_herm S) * ‖y - x‖ ^ 2) =
      minEig (gram S) (gram_herm S) / S.length * ‖y - x‖ ^ 2 := by ring
    rw [h3] at h1
    linarith
  unfold linCvx cvxOf
  split
  · exact ⟨by simp, h0, key _ le_rfl⟩
  · split
    · exact ⟨by simp, le_rfl, key _ h0⟩
    · rename_i h1 h2
      exact absurd (by rw [abs_of_nonneg h0]; exact not_lt.1 h1) h2

/-! ### logistic regression -/

theorem expit_pos (t : ℝ) : 0 < expit t := by rw [expit]; have := one_add_exp_pos t; positivity

theorem expit_lt_one (t : ℝ) : expit t < 1 := by
  rw [expit, div_lt_one (one_add_exp_pos t)]
  have := Real.exp_pos (-t)
  linarith

theorem expit_lip (s t : ℝ) : |expit s - expit t| ≤ 1 / 4 * |s - t| := by
  have h := Convex.norm_image_sub_le_of_norm_hasDerivWithin_le (f := expit)
    (f' := fun t => expit t * (1 - expit t)) (s := Set.univ) (C := 1 / 4) (x := t) (y := s)
    (fun u _ => (expit_deriv u).hasDerivWithinAt) ?_ convex_univ trivial trivial
  · simpa [Real.norm_eq_abs] using h
  · intro u _
    have h1 := expit_pos u
    have h2 := expit_lt_one u
    rw [Real.norm_eq_abs, abs_of_nonneg (mul_nonneg h1.le (by linarith))]
    nlinarith [sq_nonneg (expit u - 1 / 2)]

theorem le_foldr_max (l : List ℝ) {a : ℝ} (h : a ∈ l) : a ≤ l.foldr max 0 := by
  induction l with
  | nil => simp at h
  | cons b t ih =>
    rcases List.mem_cons.1 h with rfl | h
    · exact le_max_left _ _
    · exact le_trans (ih h) (le_max_right _ _)

theorem foldr_max_nonneg (l : List ℝ) : 0 ≤ l.foldr max 0 := by
  induction l with
  | nil => simp
  | cons b t ih => exact le_trans ih (le_max_right _ _)

theorem norm_list_sum_le (l : List (Vec d)) (C : ℝ) (h : ∀ v ∈ l, ‖v‖ ≤ C) : ‖l.sum‖ ≤ l.length * C := by
  induction l with
  | nil => simp
  | cons a t ih =>
    rw [List.sum_cons, List.length_cons]
    have h1 := h a (by simp)
    have h2 := ih (fun v hv => h v (by simp [hv]))
    have h3 := norm_add_le a t.sum
    push_cast
    linarith

/-- **C52.** `LogisticRegressionCost.m_smooth` (a quarter of the largest squared row norm) bounds the gradient's variation. -/
theorem C52_logistic_smooth (S : List (Vec d × ℝ)) : SmoothMeaning (logFn S) (logGrad S) (.fin (logSmooth S)) := by
  have hm := foldr_max_nonneg (S.map (fun s => dot s.1 s.1))
  refine ⟨by rw [logSmooth]; positivity, C55_logistic S, fun x y => ?_⟩
  have hdiff : ∀ l : List (Vec d × ℝ), (l.map (fun s => (expit (dot s.1 x) - s.2) • s.1)).sum -
      (l.map (fun s => (expit (dot s.1 y) - s.2) • s.1)).sum = (l.map (fun s => (expit (dot s.1 x) - expit (dot s.1 y)) • s.1)).sum := by
    intro l
    induction l with
    | nil => simp
    | cons s l ih => simp only [List.map_cons, List.sum_cons]; rw [← ih]; module
  have hb := norm_list_sum_le (S.map (fun s => (expit (dot s.1 x) - expit (dot s.1 y)) • s.1)) (logSmooth S * ‖x - y‖) ?_
  · rw [logGrad_eq, logGrad_eq, ← smul_sub, hdiff, norm_smul, Real.norm_of_nonneg (by positivity)]
    rw [List.length_map] at hb
    rcases Nat.eq_zero_or_pos S.length with h0 | h0
    · rw [h0]; simp; rw [logSmooth]; positivity
    · have : (0 : ℝ) < S.length := by exact_mod_cast h0
      rw [one_div, inv_mul_le_iff₀ this]
      exact hb
  · simp only [List.mem_map]
    rintro _ ⟨s, hs, rfl⟩
    have h1 := expit_lip (dot s.1 x) (dot s.1 y)
    have h2 : |dot s.1 x - dot s.1 y| ≤ ‖s.1‖ * ‖x - y‖ := by
      rw [dot_eq_inner, dot_eq_inner, ← inner_sub_right]
      exact abs_real_inner_le_norm _ _
    have h3 : ‖s.1‖ * ‖s.1‖ ≤ (S.map (fun s => dot s.1 s.1)).foldr max 0 := by
      refine le_foldr_max _ (List.mem_map.2 ⟨s, hs, ?_⟩)
      rw [dot_eq_inner, real_inner_self_eq_norm_mul_norm]
    rw [norm_smul, Real.norm_eq_abs, logSmooth]
    have hn := norm_nonneg s.1
    have hxy := norm_nonneg (x - y)
    calc |expit (dot s.1 x) - expit (dot s.1 y)| * ‖s.1‖ ≤ 1 / 4 * (‖s.1‖ * ‖x - y‖) * ‖s.1‖ := by
          refine mul_le_mul_of_nonneg_right (le_trans h1 ?_) hn
          linarith
      _ = 1 / 4 * (‖s.1‖ * ‖s.1‖) * ‖x - y‖ := by ring
      _ ≤ _ := by
          refine mul_le_mul_of_nonneg_right ?_ hxy
          linarith

/-- the logistic loss lies above its tangents -/
theorem negLogSig_tangent (s t : ℝ) : negLogSig s + (expit s - 1) * (t - s) ≤ negLogSig t := by
  have hp := one_add_exp_pos s
  have hq := one_add_exp_pos t
  -- weights p = expit s, 1 - p = exp(-s)/(1+exp(-s))
  have h1 : 1 - expit s = Real.exp (-s) / (1 + Real.exp (-s)) := by rw [expit]; field_simp; ring
  have hcvx := convexOn_exp.2 (Set.mem_univ 0) (Set.mem_univ (s - t)) (expit_pos s).le (by linarith [expit_lt_one s] : (0:ℝ) ≤ 1 - expit s)
    (by ring)
  simp only [smul_eq_mul, mul_zero, zero_add, Real.exp_zero, mul_one] at hcvx
  have h2 : expit s + (1 - expit s) * Real.exp (s - t) = (1 + Real.exp (-t)) / (1 + Real.exp (-s)) := by
    rw [h1, expit]
    have : Real.exp (-s) * Real.exp (s - t) = Real.exp (-t) := by rw [← Real.exp_add]; congr 1; ring
    field_simp
    linarith
  rw [h2] at hcvx
  have h3 := Real.log_le_log (Real.exp_pos _) hcvx
  rw [Real.log_exp, Real.log_div hq.ne' hp.ne'] at h3
  rw [negLogSig, negLogSig]
  linarith

/-- **C52.** `LogisticRegressionCost`: convex (`m_cvx = 0`), whatever the labels. -/
theorem C52_logistic_convex (S : List (Vec d × ℝ)) : ConvexMeaning (logFn S) (logGrad S) (.fin 0) := by
  refine ⟨le_rfl, fun x y => ?_⟩
  have h : ∀ l : List (Vec d × ℝ),
      (l.map (fun s => s.2 * negLogSig (dot s.1 x))).sum + (l.map (fun s => (1 - s.2) * (dot s.1 x + negLogSig (dot s.1 x)))).sum +
        ⟪(l.map (fun s => (expit (dot s.1 x) - s.2) • s.1)).sum, y - x⟫_ℝ ≤
      (l.map (fun s => s.2 * negLogSig (dot s.1 y))).sum + (l.map (fun s => (1 - s.2) * (dot s.1 y + negLogSig (dot s.1 y)))).sum := by
    intro l
    induction l with
    | nil => simp
    | cons s l ih =>
      simp only [List.map_cons, List.sum_cons, inner_add_left, inner_smul_left, conj_trivial]
      have h1 := negLogSig_tangent (dot s.1 x) (dot s.1 y)
      have h2 : ⟪s.1, y - x⟫_ℝ = dot s.1 y - dot s.1 x := by simp only [dot_eq_inner, inner_sub_right]
      rw [h2]
      linarith
  have hS := h S
  have hn : (0 : ℝ) ≤ 1 / (S.length : ℝ) := by positivity
  have := mul_le_mul_of_nonneg_left hS hn
  rw [logGrad_eq, inner_smul_left, conj_trivial, logFn, logFn]
  simp only [zero_div, zero_mul, add_zero]
  calc _ = _ := by ring
    _ ≤ _ := this
    _ = _ := by ring

end Verif.Props
