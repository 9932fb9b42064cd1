import Verif.Model.Costs
import Mathlib.Analysis.Calculus.Gradient.Basic
import Mathlib.Analysis.SpecialFunctions.Log.Deriv
import Mathlib.Analysis.SpecialFunctions.ExpDeriv
import Mathlib.Analysis.Calculus.Deriv.Inv
import Mathlib.Tactic.Linarith
import Mathlib.Tactic.FieldSimp
import Mathlib.Tactic.Positivity
import Mathlib.Tactic.NormNum
import Mathlib.Tactic.Module
/-! # Calculus and spectral facts for the cost functions -/
set_option linter.unusedSectionVars false
namespace Verif.Costs
open scoped InnerProductSpace

variable {d : Nat}

@[simp] theorem vec_apply (f : Fin d → ℝ) (i : Fin d) : vec f i = f i := rfl

theorem dot_eq_inner (x y : Vec d) : dot x y = ⟪x, y⟫_ℝ := by
  simp [dot, PiLp.inner_apply, mul_comm]

theorem dot_comm (x y : Vec d) : dot x y = dot y x := by rw [dot_eq_inner, dot_eq_inner, real_inner_comm]

theorem app_eq (A : Mat d) (x : Vec d) : app A x = Matrix.toEuclideanLin A x := by
  ext i
  simp [app, Matrix.mulVec, dotProduct]

theorem app_apply (A : Mat d) (x : Vec d) (i : Fin d) : app A x i = ∑ j, A i j * x j := rfl

theorem app_add (A : Mat d) (x y : Vec d) : app A (x + y) = app A x + app A y := by
  simp only [app_eq, map_add]
theorem app_sub (A : Mat d) (x y : Vec d) : app A (x - y) = app A x - app A y := by
  simp only [app_eq, map_sub]
theorem app_smul (A : Mat d) (c : ℝ) (x : Vec d) : app A (c • x) = c • app A x := by
  simp only [app_eq, map_smul]
theorem app_zero (A : Mat d) : app A 0 = 0 := by simp only [app_eq, map_zero]
theorem add_app (A B : Mat d) (x : Vec d) : app (A + B) x = app A x + app B x := by
  simp only [app_eq, map_add, LinearMap.add_apply]
theorem neg_app (A : Mat d) (x : Vec d) : app (-A) x = -app A x := by
  simp only [app_eq, map_neg, LinearMap.neg_apply]
theorem smul_app (c : ℝ) (A : Mat d) (x : Vec d) : app (c • A) x = c • app A x := by
  simp only [app_eq, map_smul, LinearMap.smul_apply]
theorem one_app (x : Vec d) : app (1 : Mat d) x = x := by
  ext i; simp [app, Matrix.one_apply]
theorem zero_app (x : Vec d) : app (0 : Mat d) x = 0 := by
  ext i; simp [app]
theorem mul_app (A B : Mat d) (x : Vec d) : app (A * B) x = app A (app B x) := by
  rw [app_eq, app_eq, app_eq, Matrix.toLpLin_apply, Matrix.toLpLin_apply, Matrix.toLpLin_apply,
    Matrix.mulVec_mulVec]

theorem list_sum_app (l : List (Mat d)) (x : Vec d) : app l.sum x = (l.map (fun A => app A x)).sum := by
  induction l with
  | nil => simp [zero_app]
  | cons a t ih => simp [add_app, ih]

/-- `⟪x, A y⟫ = ⟪Aᵀ x, y⟫` -/
theorem inner_app (A : Mat d) (x y : Vec d) : ⟪x, app A y⟫_ℝ = ⟪app A.transpose x, y⟫_ℝ := by
  rw [← dot_eq_inner, ← dot_eq_inner]
  simp only [dot, app_apply, Finset.mul_sum, Finset.sum_mul, Matrix.transpose_apply]
  rw [Finset.sum_comm]
  refine Finset.sum_congr rfl fun i _ => Finset.sum_congr rfl fun j _ => ?_
  ring

theorem inner_app_herm {A : Mat d} (h : A.IsHermitian) (x y : Vec d) : ⟪x, app A y⟫_ℝ = ⟪app A x, y⟫_ℝ := by
  rw [inner_app]
  have : A.transpose = A := by
    have := h.eq
    rwa [Matrix.conjTranspose_eq_transpose_of_trivial] at this
  rw [this]

/-- the symmetric part defines the same quadratic form -/
theorem inner_symPart (A : Mat d) (x : Vec d) : ⟪x, app (symPart A) x⟫_ℝ = ⟪x, app A x⟫_ℝ := by
  rw [symPart, smul_app, add_app, inner_smul_right, inner_add_right, inner_app A.transpose, Matrix.transpose_transpose,
    real_inner_comm]
  ring

theorem solveLin_some {M : Mat d} {r x : Vec d} (h : solveLin M r = some x) : M.det ≠ 0 ∧ app M x = r := by
  unfold solveLin at h
  split at h
  · cases h
  · rename_i hd
    cases h
    refine ⟨hd, ?_⟩
    rw [← mul_app, Matrix.mul_nonsing_inv _ (isUnit_iff_ne_zero.2 hd), one_app]

theorem solveLin_of {M : Mat d} (hd : M.det ≠ 0) (r : Vec d) : ∃ x, solveLin M r = some x ∧ app M x = r := by
  refine ⟨app M⁻¹ r, by simp [solveLin, hd], ?_⟩
  rw [← mul_app, Matrix.mul_nonsing_inv _ (isUnit_iff_ne_zero.2 hd), one_app]

/-- a matrix without non-trivial kernel is regular -/
theorem det_ne_zero_of_ker {M : Mat d} (h : ∀ v, app M v = 0 → v = 0) : M.det ≠ 0 := by
  intro hd
  obtain ⟨v, hv, hz⟩ := Matrix.exists_mulVec_eq_zero_iff.2 hd
  apply hv
  have : vec v = 0 := by
    apply h
    ext i
    have := congrFun hz i
    simpa [app, Matrix.mulVec, dotProduct] using this
  funext i
  have := congrArg (fun w : Vec d => w i) this
  simpa using this

theorem ker_of_det {M : Mat d} (h : M.det ≠ 0) (v : Vec d) (hv : app M v = 0) : v = 0 := by
  have := congrArg (app M⁻¹) hv
  rwa [← mul_app, Matrix.nonsing_inv_mul _ (isUnit_iff_ne_zero.2 h), one_app, app_zero] at this

/-! ### gradients -/

theorem hasGradientAt_congr {f : Vec d → ℝ} {g g' x : Vec d} (h : HasGradientAt f g x) (e : g = g') : HasGradientAt f g' x := e ▸ h

theorem grad_of_fderiv {f : Vec d → ℝ} {L : Vec d →L[ℝ] ℝ} {g x : Vec d} (h : HasFDerivAt f L x) (e : ∀ v, L v = ⟪g, v⟫_ℝ) :
    HasGradientAt f g x := by
  rw [hasGradientAt_iff_hasFDerivAt]
  have : InnerProductSpace.toDual ℝ (Vec d) g = L := by
    refine ContinuousLinearMap.ext fun v => ?_
    rw [InnerProductSpace.toDual_apply_apply, e]
  rw [this]
  exact h

theorem hasGradientAt_const (c : ℝ) (x : Vec d) : HasGradientAt (fun _ : Vec d => c) 0 x :=
  grad_of_fderiv (hasFDerivAt_const c x) (by simp)

theorem HasGradientAt.add' {f g : Vec d → ℝ} {a b x : Vec d} (hf : HasGradientAt f a x) (hg : HasGradientAt g b x) :
    HasGradientAt (fun y => f y + g y) (a + b) x :=
  grad_of_fderiv (hf.hasFDerivAt.add hg.hasFDerivAt) (by intro v; simp [inner_add_left, InnerProductSpace.toDual_apply_apply])

theorem HasGradientAt.cmul' {f : Vec d → ℝ} {a x : Vec d} (c : ℝ) (hf : HasGradientAt f a x) :
    HasGradientAt (fun y => c * f y) (c • a) x :=
  grad_of_fderiv (hf.hasFDerivAt.const_mul c) (by intro v; simp [inner_smul_left, InnerProductSpace.toDual_apply_apply])

theorem hasGradientAt_listSum {ι : Type} (l : List ι) (f : ι → Vec d → ℝ) (g : ι → Vec d) (x : Vec d)
    (h : ∀ i ∈ l, HasGradientAt (f i) (g i) x) : HasGradientAt (fun y => (l.map (fun i => f i y)).sum) (l.map g).sum x := by
  induction l with
  | nil => simpa using hasGradientAt_const 0 x
  | cons a t ih =>
    simp only [List.map_cons, List.sum_cons]
    exact HasGradientAt.add' (h a (by simp)) (ih (fun i hi => h i (by simp [hi])))

/-- `φ(⟨a, x⟩)` -/
theorem hasGradientAt_ridge {φ : ℝ → ℝ} {φ' : ℝ} (a x : Vec d) (h : HasDerivAt φ φ' (dot a x)) :
    HasGradientAt (fun y => φ (dot a y)) (φ' • a) x := by
  have h1 : HasFDerivAt (fun y : Vec d => dot a y) (innerSL ℝ a) x := by
    have : (fun y : Vec d => dot a y) = fun y => innerSL ℝ a y := by funext y; simp [dot_eq_inner]
    rw [this]
    exact (innerSL ℝ a).hasFDerivAt
  refine grad_of_fderiv (h.comp_hasFDerivAt x h1) ?_
  intro v
  simp [inner_smul_left]

/-- a sum of functions of single coordinates -/
theorem hasGradientAt_coord {φ : ℝ → ℝ} {φ' : Fin d → ℝ} (x : Vec d) (h : ∀ i, HasDerivAt φ (φ' i) (x i)) :
    HasGradientAt (fun y : Vec d => ∑ i, φ (y i)) (vec φ') x := by
  have h1 : ∀ i : Fin d, HasFDerivAt (fun y : Vec d => y i) (EuclideanSpace.proj i : Vec d →L[ℝ] ℝ) x := by
    intro i
    exact (EuclideanSpace.proj i : Vec d →L[ℝ] ℝ).hasFDerivAt
  refine grad_of_fderiv (HasFDerivAt.fun_sum (fun i _ => (h i).comp_hasFDerivAt x (h1 i))) ?_
  intro v
  simp [PiLp.inner_apply, mul_comm]

/-! ### spectra -/

section spectral
variable {M : Mat d} (hM : M.IsHermitian)

theorem app_eigen (i : Fin d) : app M (hM.eigenvectorBasis i) = hM.eigenvalues i • hM.eigenvectorBasis i := by
  rw [app_eq, Matrix.toLpLin_apply, hM.mulVec_eigenvectorBasis]
  rfl

theorem repr_app (v : Vec d) (i : Fin d) :
    ⟪hM.eigenvectorBasis i, app M v⟫_ℝ = hM.eigenvalues i * ⟪hM.eigenvectorBasis i, v⟫_ℝ := by
  rw [inner_app_herm hM, app_eigen, inner_smul_left]
  simp

theorem norm_sq_eigen (v : Vec d) : ‖v‖ ^ 2 = ∑ i, ⟪hM.eigenvectorBasis i, v⟫_ℝ ^ 2 := by
  have := hM.eigenvectorBasis.sum_sq_norm_inner_right v
  rw [← this]
  refine Finset.sum_congr rfl fun i _ => ?_
  rw [Real.norm_eq_abs, sq_abs]

theorem inner_app_eigen (v : Vec d) : ⟪v, app M v⟫_ℝ = ∑ i, hM.eigenvalues i * ⟪hM.eigenvectorBasis i, v⟫_ℝ ^ 2 := by
  rw [← hM.eigenvectorBasis.sum_inner_mul_inner v (app M v)]
  refine Finset.sum_congr rfl fun i _ => ?_
  rw [repr_app, real_inner_comm]
  ring

theorem abs_eig_le (i : Fin d) : |hM.eigenvalues i| ≤ maxAbsEig M hM :=
  le_ciSup (f := fun i => |hM.eigenvalues i|) (Set.finite_range _).bddAbove i

theorem maxAbsEig_nonneg : 0 ≤ maxAbsEig M hM := Real.iSup_nonneg (fun _ => abs_nonneg _)

theorem minEig_le (i : Fin d) : minEig M hM ≤ hM.eigenvalues i :=
  ciInf_le (f := hM.eigenvalues) (Set.finite_range _).bddBelow i

theorem norm_app_le (v : Vec d) : ‖app M v‖ ≤ maxAbsEig M hM * ‖v‖ := by
  have h0 := maxAbsEig_nonneg hM
  refine le_of_sq_le_sq ?_ (by positivity)
  rw [mul_pow, norm_sq_eigen hM (app M v), norm_sq_eigen hM v, Finset.mul_sum]
  refine Finset.sum_le_sum fun i _ => ?_
  rw [repr_app, mul_pow]
  refine mul_le_mul_of_nonneg_right ?_ (sq_nonneg _)
  rw [← sq_abs]
  exact pow_le_pow_left₀ (abs_nonneg _) (abs_eig_le hM i) 2

theorem minEig_mul_le (v : Vec d) : minEig M hM * ‖v‖ ^ 2 ≤ ⟪v, app M v⟫_ℝ := by
  rw [inner_app_eigen hM, norm_sq_eigen hM v, Finset.mul_sum]
  exact Finset.sum_le_sum fun i _ => mul_le_mul_of_nonneg_right (minEig_le hM i) (sq_nonneg _)

/-- the smallest eigenvalue is attained -/
theorem exists_minEig (h : 0 < d) : ∃ v : Vec d, ‖v‖ = 1 ∧ app M v = minEig M hM • v := by
  have : Nonempty (Fin d) := ⟨⟨0, h⟩⟩
  obtain ⟨i, hi⟩ := exists_eq_ciInf_of_finite (f := hM.eigenvalues)
  refine ⟨hM.eigenvectorBasis i, hM.eigenvectorBasis.orthonormal.1 i, ?_⟩
  rw [app_eigen, hi]
  rfl

end spectral

/-! ### the data matrix -/

theorem inner_gram (S : List (Vec d × ℝ)) (x y : Vec d) :
    ⟪x, app (gram S) y⟫_ℝ = (S.map (fun s => dot s.1 x * dot s.1 y)).sum := by
  induction S with
  | nil =>
    have : gram ([] : List (Vec d × ℝ)) = 0 := by ext i j; simp [gram]
    simp [this, zero_app]
  | cons s S ih =>
    have h1 : gram (s :: S) = (Matrix.of fun j k => s.1 j * s.1 k : Mat d) + gram S := by
      ext j k; simp [gram]
    have h2 : ⟪x, app (Matrix.of fun j k => s.1 j * s.1 k : Mat d) y⟫_ℝ = dot s.1 x * dot s.1 y := by
      rw [← dot_eq_inner]
      simp only [dot, app_apply, Matrix.of_apply]
      rw [Finset.sum_mul_sum]
      refine Finset.sum_congr rfl fun i _ => ?_
      rw [Finset.mul_sum]
      refine Finset.sum_congr rfl fun j _ => ?_
      ring
    rw [h1, add_app, inner_add_right, h2, ih, List.map_cons, List.sum_cons]

theorem app_gram (S : List (Vec d × ℝ)) (y : Vec d) : app (gram S) y = (S.map (fun s => dot s.1 y • s.1)).sum := by
  refine ext_inner_left ℝ fun x => ?_
  rw [inner_gram]
  induction S with
  | nil => simp
  | cons s S ih =>
    simp only [List.map_cons, List.sum_cons, inner_add_right, inner_smul_right, ← ih]
    rw [dot_eq_inner s.1 x, real_inner_comm]
    ring

theorem atb_eq (S : List (Vec d × ℝ)) : atb S = (S.map (fun s => s.2 • s.1)).sum := by
  induction S with
  | nil => ext i; simp [atb]
  | cons s S ih =>
    rw [List.map_cons, List.sum_cons, ← ih]
    ext i
    simp [atb, mul_comm]

theorem inner_list_sum (x : Vec d) (l : List (Vec d)) : ⟪x, l.sum⟫_ℝ = (l.map (fun y => ⟪x, y⟫_ℝ)).sum := by
  induction l with
  | nil => simp
  | cons a t ih => simp [inner_add_right, ih]

end Verif.Costs
