import Verif.Props.CostsConst
import Verif.Lemmas.Descent
import Mathlib.Analysis.InnerProductSpace.Projection.Minimal
/-!
# C53 (proximal operators), C54 (direct solution)
-/
set_option linter.unusedSectionVars false
namespace Verif.Props
open Verif Verif.Costs
open scoped InnerProductSpace

variable {d : Nat}

/-- `z` is the unique minimiser of `f(y) + ‖y - x‖² / (2 ρ)`: the definition of the proximal operator of `f` at `x` with penalty `ρ`
(docs/source/snippets/proximal_operator.rst) -/
def IsProx (f : Vec d → ℝ) (x : Vec d) (ρ : ℝ) (z : Vec d) : Prop :=
  ∀ y, y ≠ z → f z + ‖z - x‖ ^ 2 / (2 * ρ) < f y + ‖y - x‖ ^ 2 / (2 * ρ)

/-- optimality from a subgradient -/
theorem isProx_of_subgrad {f : Vec d → ℝ} {x z : Vec d} {ρ : ℝ} (hρ : 0 < ρ)
    (h : ∀ y, f z + ⟪(1 / ρ) • (x - z), y - z⟫_ℝ ≤ f y) : IsProx f x ρ z := by
  intro y hy
  have h1 := h y
  have h2 : ‖y - x‖ ^ 2 = ‖y - z‖ ^ 2 - 2 * ⟪x - z, y - z⟫_ℝ + ‖z - x‖ ^ 2 := by
    have : y - x = (y - z) - (x - z) := by abel
    rw [this, norm_sub_sq_real, real_inner_comm, norm_sub_rev x z]
  have h3 : 0 < ‖y - z‖ ^ 2 := by
    have := norm_pos_iff.2 (sub_ne_zero.2 hy)
    positivity
  rw [inner_smul_left, conj_trivial] at h1
  rw [h2]
  have h4 : (‖y - z‖ ^ 2 - 2 * ⟪x - z, y - z⟫_ℝ + ‖z - x‖ ^ 2) / (2 * ρ) =
      ‖y - z‖ ^ 2 / (2 * ρ) - 1 / ρ * ⟪x - z, y - z⟫_ℝ + ‖z - x‖ ^ 2 / (2 * ρ) := by field_simp
  rw [h4]
  have h5 : 0 < ‖y - z‖ ^ 2 / (2 * ρ) := by positivity
  linarith

/-- at most one point satisfies the definition -/
theorem isProx_unique {f : Vec d → ℝ} {x z w : Vec d} {ρ : ℝ} (hz : IsProx f x ρ z) (hw : IsProx f x ρ w) : z = w := by
  by_contra hne
  have h1 := hz w (Ne.symm hne)
  have h2 := hw z hne
  linarith

/-- **C53.** `L1RegularizerCost.proximal` (soft thresholding). -/
theorem C53_l1 (x : Vec d) (ρ : ℝ) (hρ : 0 < ρ) : ∃ z, l1Prox x ρ = .ok z ∧ IsProx l1Fn x ρ z := by
  refine ⟨_, by rw [l1Prox, if_neg (not_le.2 hρ)], ?_⟩
  refine isProx_of_subgrad hρ fun y => ?_
  rw [← dot_eq_inner, dot, l1Fn, l1Fn, ← Finset.sum_add_distrib]
  refine Finset.sum_le_sum fun i _ => ?_
  simp only [PiLp.smul_apply, PiLp.sub_apply, vec_apply, smul_eq_mul]
  have hcase : ∃ p z : ℝ, z = Real.sign (x i) * max (|x i| - ρ) 0 ∧ 1 / ρ * (x i - z) = p ∧ |p| ≤ 1 ∧ p * z = |z| := by
    refine ⟨_, _, rfl, rfl, ?_⟩
    rcases lt_trichotomy (x i) 0 with h | h | h
    · rw [Real.sign_of_neg h, abs_of_neg h]
      rcases le_total (-x i - ρ) 0 with h2 | h2
      · rw [max_eq_right h2]
        simp only [mul_zero, sub_zero, abs_zero, and_true]
        rw [abs_mul, abs_of_pos (by positivity), abs_of_neg h, one_div, inv_mul_le_iff₀ hρ]
        linarith
      · rw [max_eq_left h2]
        have : 1 / ρ * (x i - -1 * (-x i - ρ)) = -1 := by field_simp; ring
        rw [this, abs_of_nonpos (by linarith : -1 * (-x i - ρ) ≤ 0)]
        simp
    · rw [h, Real.sign_zero]; simp
    · rw [Real.sign_of_pos h, abs_of_pos h]
      rcases le_total (x i - ρ) 0 with h2 | h2
      · rw [max_eq_right h2]
        simp only [mul_zero, sub_zero, abs_zero, and_true]
        rw [abs_mul, abs_of_pos (by positivity), abs_of_pos h, one_div, inv_mul_le_iff₀ hρ]
        linarith
      · rw [max_eq_left h2]
        have : 1 / ρ * (x i - 1 * (x i - ρ)) = 1 := by field_simp; ring
        rw [this, abs_of_nonneg (by linarith : 0 ≤ 1 * (x i - ρ))]
        simp
  obtain ⟨p, z, hz, hp, h1, h2⟩ := hcase
  rw [← hz, hp]
  have h3 : p * y i ≤ |y i| := by
    calc p * y i ≤ |p * y i| := le_abs_self _
      _ = |p| * |y i| := abs_mul _ _
      _ ≤ 1 * |y i| := mul_le_mul_of_nonneg_right h1 (abs_nonneg _)
      _ = |y i| := one_mul _
  rw [← h2]
  linarith

/-- **C53.** `L2RegularizerCost.proximal`. -/
theorem C53_l2 (x : Vec d) (ρ : ℝ) (hρ : 0 < ρ) : ∃ z, l2Prox x ρ = .ok z ∧ IsProx l2Fn x ρ z := by
  refine ⟨_, by rw [l2Prox, if_neg (not_le.2 hρ)], ?_⟩
  refine isProx_of_subgrad hρ fun y => ?_
  have h := C52_l2_convex.2 (vec (fun i => x i / (1 + ρ))) y
  have he : (1 / ρ) • (x - vec (fun i => x i / (1 + ρ))) = l2Grad (vec (fun i => x i / (1 + ρ))) := by
    ext i
    simp only [PiLp.smul_apply, PiLp.sub_apply, vec_apply, smul_eq_mul, l2Grad]
    field_simp
    ring
  rw [he]
  have := sq_nonneg ‖y - vec (fun i => x i / (1 + ρ))‖
  linarith

/-- **C53.** The regularizers reject penalties that are not positive. -/
theorem C53_penalty (x : Vec d) (ρ : ℝ) (hρ : ρ ≤ 0) (m : Nat) (tol : Option ℝ) :
    l1Prox x ρ = .error .valueError ∧ l2Prox x ρ = .error .valueError ∧ fracProx m tol x ρ = .error .valueError := by
  simp [l1Prox, l2Prox, fracProx, hρ]

/-- **C53.** `QuadraticCost.proximal`: for a convex quadratic (no symmetry required) the linear system is regular and its solution
is the proximal. -/
theorem C53_quadratic (A : Mat d) (b : Vec d) (c : ℝ) (hA : ∀ v, 0 ≤ dot v (app A v)) (x : Vec d) (ρ : ℝ) (hρ : 0 < ρ) :
    ∃ z, quadProx A b x ρ = some z ∧ IsProx (quadFn A b c) x ρ z := by
  have hpsd : ∀ v, 0 ≤ ⟪v, app (symPart A) v⟫_ℝ := by
    intro v; rw [inner_symPart, ← dot_eq_inner]; exact hA v
  have hdet : (ρ • symPart A + 1 : Mat d).det ≠ 0 := by
    refine det_ne_zero_of_ker fun v hv => ?_
    have h1 : ⟪v, app (ρ • symPart A + 1 : Mat d) v⟫_ℝ = ρ * ⟪v, app (symPart A) v⟫_ℝ + ⟪v, v⟫_ℝ := by
      rw [add_app, smul_app, one_app, inner_add_right, inner_smul_right]
    rw [hv, inner_zero_right] at h1
    have h2 := mul_nonneg hρ.le (hpsd v)
    have h3 := real_inner_self_nonneg (x := v)
    exact inner_self_eq_zero.1 (by linarith : ⟪v, v⟫_ℝ = 0)
  obtain ⟨z, hz, hs⟩ := solveLin_of hdet (x - ρ • b)
  refine ⟨z, hz, isProx_of_subgrad hρ fun y => ?_⟩
  rw [add_app, smul_app, one_app] at hs
  have he : (1 / ρ) • (x - z) = quadGrad A b z := by
    have : x - z = ρ • quadGrad A b z := by
      rw [quadGrad, smul_add]
      have h1 : x = ρ • app (symPart A) z + z + ρ • b := by rw [hs]; abel
      rw [h1]; abel
    rw [this, smul_smul, one_div, inv_mul_cancel₀ hρ.ne', one_smul]
  rw [he, quad_expand A b c z y]
  have := hpsd (y - z)
  linarith

example : ∀ v : Vec 2, 0 ≤ dot v (app (Matrix.of fun j k => if j = 0 ∧ k = 1 then (1 : ℝ) else if j = k then 1 else 0) v) := by
  intro v
  simp [dot, app, Fin.sum_univ_two]
  nlinarith [sq_nonneg (v 0 + v 1), sq_nonneg (v 0), sq_nonneg (v 1)]

/-- **C53 (refutation outside the convex case).** For a concave quadratic `proximal` returns a point although the proximal problem
is unbounded below: nothing is raised. -/
theorem C53_quadratic_nonconvex : ∃ z, quadProx ((-2 : ℝ) • (1 : Mat 1)) 0 0 1 = some z ∧
    ¬ IsProx (quadFn ((-2 : ℝ) • (1 : Mat 1)) 0 0) 0 1 z := by
  have hdet : ((1 : ℝ) • symPart ((-2 : ℝ) • (1 : Mat 1)) + 1 : Mat 1).det ≠ 0 := by
    rw [symPart_smul_one]
    simp [Matrix.det_fin_one]
    norm_num
  obtain ⟨z, hz, hs⟩ := solveLin_of hdet (0 - (1 : ℝ) • (0 : Vec 1))
  refine ⟨z, hz, fun h => ?_⟩
  rw [symPart_smul_one, add_app, smul_app, smul_app, one_app, one_smul, smul_zero, sub_zero] at hs
  have hz0 : z = 0 := by
    have h1 : (-2 : ℝ) • z + z = (-1 : ℝ) • z := by module
    rw [h1] at hs
    simpa using hs
  subst hz0
  have h1 := h (vec fun _ => 1) (by
    intro he
    have := congrArg (fun w : Vec 1 => w 0) he
    simp at this)
  have e0 : quadFn ((-2 : ℝ) • (1 : Mat 1)) 0 0 0 = 0 := by simp [quadFn, dot]
  have e2 : quadFn ((-2 : ℝ) • (1 : Mat 1)) 0 0 (vec fun _ => 1) = -1 := by
    rw [quadFn, smul_app, one_app, dot_eq_inner, inner_smul_right, ← dot_eq_inner]
    simp only [dot, vec_apply]
    norm_num
  have e3 : ‖(vec fun _ => (1 : ℝ) : Vec 1) - 0‖ ^ 2 = 1 := by
    rw [sub_zero, EuclideanSpace.norm_sq_eq]; simp
  rw [e0, e2, e3] at h1
  norm_num at h1

/-- **C53.** `LinearRegressionCost.proximal`, for every data set. -/
theorem C53_linear (S : List (Vec d × ℝ)) (x : Vec d) (ρ : ℝ) (hρ : 0 < ρ) :
    ∃ z, linProx S x ρ = some z ∧ IsProx (linFn S) x ρ z := by
  have hs0 : 0 ≤ ρ * (1 / (S.length : ℝ)) := by positivity
  have hpsd : ∀ v, 0 ≤ ⟪v, app (gram S) v⟫_ℝ := by
    intro v
    rw [inner_gram]
    exact List.sum_nonneg (by simp only [List.mem_map]; rintro _ ⟨s, _, rfl⟩; exact mul_self_nonneg _)
  have hdet : ((ρ * (1 / (S.length : ℝ))) • gram S + 1 : Mat d).det ≠ 0 := by
    refine det_ne_zero_of_ker fun v hv => ?_
    have h1 : ⟪v, app ((ρ * (1 / (S.length : ℝ))) • gram S + 1 : Mat d) v⟫_ℝ =
        ρ * (1 / (S.length : ℝ)) * ⟪v, app (gram S) v⟫_ℝ + ⟪v, v⟫_ℝ := by
      rw [add_app, smul_app, one_app, inner_add_right, inner_smul_right]
    rw [hv, inner_zero_right] at h1
    have h2 := mul_nonneg hs0 (hpsd v)
    have h3 := real_inner_self_nonneg (x := v)
    exact inner_self_eq_zero.1 (by linarith : ⟪v, v⟫_ℝ = 0)
  obtain ⟨z, hz, hs⟩ := solveLin_of hdet (x + (ρ * (1 / (S.length : ℝ))) • atb S)
  refine ⟨z, hz, isProx_of_subgrad hρ fun y => ?_⟩
  rw [add_app, smul_app, one_app] at hs
  have he : (1 / ρ) • (x - z) = linGrad S z := by
    have : x - z = ρ • linGrad S z := by
      rw [linGrad, smul_smul, smul_sub]
      have h1 : x = (ρ * (1 / (S.length : ℝ))) • app (gram S) z + z - (ρ * (1 / (S.length : ℝ))) • atb S := by rw [hs]; abel
      rw [h1]; abel
    rw [this, smul_smul, one_div, inv_mul_cancel₀ hρ.ne', one_smul]
  rw [he, lin_expand S z y]
  have h1 := hpsd (y - z)
  have h2 : (0 : ℝ) ≤ 1 / 2 * (1 / (S.length : ℝ)) := by positivity
  have := mul_nonneg h2 h1
  linarith

/-- the objective the fractional proximal descends on -/
noncomputable def proxObjective (f : Vec d → ℝ) (x : Vec d) (ρ : ℝ) (y : Vec d) : ℝ := f y + ‖y - x‖ ^ 2 / (2 * ρ)

/-- one step of the loop does not increase the objective -/
theorem fracProxStep_le (x y : Vec d) (ρ : ℝ) (hρ : 0 < ρ) :
    proxObjective fracFn x ρ (fracProxStep ρ x y) ≤ proxObjective fracFn x ρ y := by
  set L : ℝ := 2 + 1 / ρ with hL
  have hLpos : 0 < L := by positivity
  set g : Vec d := fracGrad y + (1 / ρ) • (y - x) with hg
  have hstep : fracProxStep ρ x y = y - (1 / L) • g := by
    rw [fracProxStep, hg]
    congr 3
    ext i
    simp only [vec_apply, PiLp.smul_apply, PiLp.sub_apply, smul_eq_mul]
    ring
  have h1 := descent_le C55_fractional C52_fractional_smooth.2.2 y (y - (1 / L) • g)
  have hsub : y - (1 / L) • g - y = -((1 / L) • g) := by abel
  rw [hsub, inner_neg_right, inner_smul_right, norm_neg, norm_smul, Real.norm_of_nonneg (by positivity)] at h1
  rw [hstep, proxObjective, proxObjective]
  have h2 : ‖y - (1 / L) • g - x‖ ^ 2 = ‖y - x‖ ^ 2 - 2 * (1 / L) * ⟪y - x, g⟫_ℝ + (1 / L * ‖g‖) ^ 2 := by
    have : y - (1 / L) • g - x = (y - x) - (1 / L) • g := by abel
    rw [this, norm_sub_sq_real, inner_smul_right, norm_smul, Real.norm_of_nonneg (by positivity)]
    ring
  have h3 : ⟪fracGrad y, g⟫_ℝ = ‖g‖ ^ 2 - 1 / ρ * ⟪y - x, g⟫_ℝ := by
    have : fracGrad y = g - (1 / ρ) • (y - x) := by rw [hg]; abel
    rw [this, inner_sub_left, inner_smul_left, conj_trivial, real_inner_self_eq_norm_sq]
  rw [h2]
  rw [h3] at h1
  have h4 : (‖y - x‖ ^ 2 - 2 * (1 / L) * ⟪y - x, g⟫_ℝ + (1 / L * ‖g‖) ^ 2) / (2 * ρ) =
      ‖y - x‖ ^ 2 / (2 * ρ) - 1 / L * (1 / ρ * ⟪y - x, g⟫_ℝ) + 1 / 2 * (1 / ρ) * (1 / L * ‖g‖) ^ 2 := by
    field_simp
  rw [h4]
  have h5 : 2 / 2 * (1 / L * ‖g‖) ^ 2 + 1 / 2 * (1 / ρ) * (1 / L * ‖g‖) ^ 2 = 1 / 2 * (1 / L) * ‖g‖ ^ 2 := by
    have h6 : 2 / 2 * (1 / L * ‖g‖) ^ 2 + 1 / 2 * (1 / ρ) * (1 / L * ‖g‖) ^ 2 = 1 / 2 * (L * (1 / L) ^ 2) * ‖g‖ ^ 2 := by
      rw [hL]; ring
    rw [h6]
    have : L * (1 / L) ^ 2 = 1 / L := by field_simp
    rw [this]
  have h7 : 0 ≤ 1 / 2 * (1 / L) * ‖g‖ ^ 2 := by positivity
  linarith

theorem fracProxLoop_le (tol : Option ℝ) (x : Vec d) (ρ : ℝ) (hρ : 0 < ρ) (m : Nat) (y : Vec d) :
    proxObjective fracFn x ρ (fracProxLoop tol ρ x m y) ≤ proxObjective fracFn x ρ y := by
  induction m generalizing y with
  | zero => exact le_rfl
  | succ m ih =>
    rw [fracProxLoop]
    split
    · exact fracProxStep_le x y ρ hρ
    · exact le_trans (ih _) (fracProxStep_le x y ρ hρ)

/-- **C53.** The iterative fractional proximal, for every iteration limit and tolerance: the returned point is at least as good for
the proximal objective as `x` itself.  (It is not claimed to be the minimiser: the cost is not convex.) -/
theorem C53_fractional_descent (maxIter : Nat) (tol : Option ℝ) (x : Vec d) (ρ : ℝ) (hρ : 0 < ρ) :
    ∃ z, fracProx maxIter tol x ρ = .ok z ∧ fracFn z + ‖z - x‖ ^ 2 / (2 * ρ) ≤ fracFn x := by
  refine ⟨_, by rw [fracProx, if_neg (not_le.2 hρ)], ?_⟩
  have := fracProxLoop_le tol x ρ hρ maxIter x
  simpa [proxObjective] using this

/-! ### C54 -/

/-- **C54.** For a symmetric positive definite `A` the direct branch of `solve` returns the unique minimiser. -/
theorem C54_quadratic (A : Mat d) (b : Vec d) (c : ℝ) (hs : A.transpose = A) (hpd : ∀ v, v ≠ 0 → 0 < dot v (app A v)) :
    ∃ x, solveQuadratic A b = some x ∧ ∀ y, y ≠ x → quadFn A b c x < quadFn A b c y := by
  have hdet : A.det ≠ 0 := by
    refine det_ne_zero_of_ker fun v hv => ?_
    by_contra hne
    have h1 := hpd v hne
    rw [hv, dot_eq_inner, inner_zero_right] at h1
    exact lt_irrefl _ h1
  obtain ⟨x, hx, hsol⟩ := solveLin_of hdet (-b)
  refine ⟨x, hx, fun y hy => ?_⟩
  have hsym : symPart A = A := by rw [symPart, hs]; ext i j; simp; ring
  have hg : quadGrad A b x = 0 := by rw [quadGrad, hsym, hsol]; abel
  rw [quad_expand A b c x y, hg, inner_zero_left, hsym]
  have := hpd (y - x) (sub_ne_zero.2 hy)
  rw [dot_eq_inner] at this
  linarith

example : (Matrix.of fun j k : Fin 2 => if j = k then (2 : ℝ) else 1).transpose = Matrix.of fun j k => if j = k then (2 : ℝ) else 1 := by
  ext i j; simp [eq_comm]
example (v : Vec 2) (h : v ≠ 0) : 0 < dot v (app (Matrix.of fun j k => if j = k then (2 : ℝ) else 1) v) := by
  have h0 : v 0 ≠ 0 ∨ v 1 ≠ 0 := by
    by_contra hc
    push Not at hc
    apply h
    ext i
    fin_cases i
    · exact hc.1
    · exact hc.2
  simp [dot, app, Fin.sum_univ_two]
  have e : v.ofLp 0 * (2 * v.ofLp 0 + v.ofLp 1) + v.ofLp 1 * (v.ofLp 0 + 2 * v.ofLp 1) =
    v.ofLp 0 ^ 2 + v.ofLp 1 ^ 2 + (v.ofLp 0 + v.ofLp 1) ^ 2 := by ring
  rw [e]
  rcases h0 with h0 | h0 <;> positivity

/-- **C54.** Whenever the direct branch returns for a symmetric `A`, the point is stationary. -/
theorem C54_quadratic_stationary (A : Mat d) (b x : Vec d) (hs : A.transpose = A) (h : solveQuadratic A b = some x) :
    quadGrad A b x = 0 := by
  have hsym : symPart A = A := by rw [symPart, hs]; ext i j; simp; ring
  rw [quadGrad, hsym, (solveLin_some h).2]
  abel

/-- a positive definite but non-symmetric matrix -/
def skewQuad : Mat 2 := Matrix.of fun j k => if j = k then 1 else if j = 0 then 1 else 0

/-- **C54 (refutation).** For a non-symmetric `A` (here positive definite, so a unique minimiser exists) `solve` returns a point
with non-zero gradient, which is not the minimiser. -/
theorem C54_nonsymmetric :
    (∀ v : Vec 2, v ≠ 0 → 0 < dot v (app skewQuad v)) ∧
    ∃ x, solveQuadratic skewQuad (vec ![0, 1]) = some x ∧ quadGrad skewQuad (vec ![0, 1]) x ≠ 0 ∧
      ∃ y, quadFn skewQuad (vec ![0, 1]) 0 y < quadFn skewQuad (vec ![0, 1]) 0 x := by
  constructor
  · intro v h
    have h0 : v 0 ≠ 0 ∨ v 1 ≠ 0 := by
      by_contra hc
      push Not at hc
      apply h
      ext i
      fin_cases i
      · exact hc.1
      · exact hc.2
    simp [dot, app, Fin.sum_univ_two, skewQuad]
    have e : v.ofLp 0 * (v.ofLp 0 + v.ofLp 1) + v.ofLp 1 * v.ofLp 1 =
      1 / 2 * v.ofLp 0 ^ 2 + 1 / 2 * v.ofLp 1 ^ 2 + 1 / 2 * (v.ofLp 0 + v.ofLp 1) ^ 2 := by ring
    rw [e]
    rcases h0 with h0 | h0 <;> positivity
  · have hdet : skewQuad.det ≠ 0 := by simp [skewQuad, Matrix.det_fin_two]
    obtain ⟨x, hx, hsol⟩ := solveLin_of hdet (-(vec ![(0 : ℝ), 1]))
    have e0 := congrArg (fun w : Vec 2 => w 0) hsol
    have e1 := congrArg (fun w : Vec 2 => w 1) hsol
    simp [app, Fin.sum_univ_two, skewQuad] at e0 e1
    have x1 : x 1 = -1 := e1
    have x0 : x 0 = 1 := by linarith
    refine ⟨x, hx, ?_, vec ![2 / 3, -4 / 3], ?_⟩
    · intro hz
      have := congrArg (fun w : Vec 2 => w 0) hz
      simp [quadGrad, symPart, app, Fin.sum_univ_two, skewQuad, x0, x1] at this
      norm_num at this
    · simp [quadFn, dot, app, Fin.sum_univ_two, skewQuad, x0, x1]
      norm_num

/-- the objective of a sum of linear regressions -/
noncomputable def sumLin (costs : List (List (Vec d × ℝ))) (x : Vec d) : ℝ := (costs.map (fun S => linFn S x)).sum

/-- **C54.** For a sum of linear regressions - any number of agents, any data, singular or not - the direct branch of `solve`
returns a global minimiser of the sum of the costs. -/
theorem C54_linear_regressions (lstsq : Mat d → Vec d → Vec d) (hl : ∀ Q v, IsLstsq Q v (lstsq Q v))
    (costs : List (List (Vec d × ℝ))) (y : Vec d) :
    sumLin costs (solveLinearRegressions lstsq costs) ≤ sumLin costs y := by
  set Q : Mat d := (costs.map linHess).sum with hQ
  set r : Vec d := (costs.map (fun S => linGrad S 0)).sum with hr
  -- the sum as a quadratic
  have hexp : ∀ x y : Vec d, sumLin costs y = sumLin costs x + ⟪app Q x + r, y - x⟫_ℝ + 1 / 2 * ⟪y - x, app Q (y - x)⟫_ℝ := by
    intro x y
    rw [hQ, hr]
    unfold sumLin
    clear hQ hr hl
    clear Q r
    induction costs with
    | nil => simp [zero_app]
    | cons S t ih =>
      simp only [List.map_cons, List.sum_cons, add_app]
      rw [lin_expand S x y, ih]
      have h1 : linGrad S x = app (linHess S) x + linGrad S 0 := by
        rw [linHess, smul_app, linGrad, linGrad, app_zero, zero_sub, smul_sub, smul_neg]
        abel
      have h2 : ⟪y - x, app (linHess S) (y - x)⟫_ℝ = 1 / (S.length : ℝ) * ⟪y - x, app (gram S) (y - x)⟫_ℝ := by
        rw [linHess, smul_app, inner_smul_right]
      rw [h1, inner_add_right (y - x), h2]
      simp only [inner_add_left]
      ring
  have hpsd : ∀ v, 0 ≤ ⟪v, app Q v⟫_ℝ := by
    intro v
    rw [hQ, list_sum_app, inner_list_sum, List.map_map, List.map_map]
    refine List.sum_nonneg ?_
    simp only [List.mem_map]
    rintro _ ⟨S, _, rfl⟩
    simp only [Function.comp_apply, linHess, smul_app, inner_smul_right, inner_gram]
    refine mul_nonneg (by positivity) (List.sum_nonneg ?_)
    simp only [List.mem_map]
    rintro _ ⟨s, _, rfl⟩
    exact mul_self_nonneg _
  have hker : ∀ v, ⟪v, app Q v⟫_ℝ = 0 → ⟪r, v⟫_ℝ = 0 := by
    -- every sample direction is orthogonal to v, and r is a combination of samples
    intro v hv
    rw [hQ, list_sum_app, inner_list_sum, List.map_map, List.map_map] at hv
    rw [hr]
    clear hexp hpsd
    clear hQ hr hl
    clear Q r
    have hnn : ∀ S : List (Vec d × ℝ), 0 ≤ ⟪v, app (linHess S) v⟫_ℝ := by
      intro S
      rw [linHess, smul_app, inner_smul_right, inner_gram]
      refine mul_nonneg (by positivity) (List.sum_nonneg ?_)
      simp only [List.mem_map]
      rintro _ ⟨s, _, rfl⟩
      exact mul_self_nonneg _
    induction costs with
    | nil => simp
    | cons S t ih =>
      simp only [List.map_cons, List.sum_cons, Function.comp_apply] at hv ih ⊢
      have ht : 0 ≤ (List.map (((fun y => ⟪v, y⟫_ℝ) ∘ fun A => app A v) ∘ linHess) t).sum := by
        refine List.sum_nonneg ?_
        simp only [List.mem_map]
        rintro _ ⟨S', _, rfl⟩
        exact hnn S'
      have h1 := hnn S
      have hS0 : ⟪v, app (linHess S) v⟫_ℝ = 0 := by linarith
      have ht0 : (List.map (((fun y => ⟪v, y⟫_ℝ) ∘ fun A => app A v) ∘ linHess) t).sum = 0 := by linarith
      rw [inner_add_left, ih ht0, add_zero]
      rcases Nat.eq_zero_or_pos S.length with hz | hz
      · rw [linGrad, hz]; simp
      · have hpos : (0 : ℝ) < S.length := by exact_mod_cast hz
        rw [linHess, smul_app, inner_smul_right, inner_gram] at hS0
        have hsum : (S.map (fun s => dot s.1 v * dot s.1 v)).sum = 0 := by
          rcases mul_eq_zero.1 hS0 with h | h
          · have : (1 : ℝ) / S.length ≠ 0 := by positivity
            exact absurd h this
          · exact h
        have hzero : ∀ s ∈ S, dot s.1 v = 0 := by
          clear hS0 hz hpos h1 ih ht0 hv ht
          induction S with
          | nil => simp
          | cons s l ih =>
            simp only [List.map_cons, List.sum_cons] at hsum
            have hl0 : 0 ≤ (l.map (fun s => dot s.1 v * dot s.1 v)).sum := List.sum_nonneg (by
              simp only [List.mem_map]; rintro _ ⟨s, _, rfl⟩; exact mul_self_nonneg _)
            have hs0 := mul_self_nonneg (dot s.1 v)
            intro s' hs'
            rcases List.mem_cons.1 hs' with rfl | hs'
            · exact mul_self_eq_zero.1 (by linarith)
            · exact ih (by linarith) s' hs'
        rw [linGrad, app_zero, zero_sub, inner_smul_left, inner_neg_left, atb_eq, real_inner_comm, inner_list_sum, List.map_map]
        have : (S.map ((fun y => ⟪v, y⟫_ℝ) ∘ fun s => s.2 • s.1)).sum = 0 := by
          refine List.sum_eq_zero ?_
          simp only [List.mem_map]
          rintro _ ⟨s, hs, rfl⟩
          simp only [Function.comp_apply, inner_smul_right]
          rw [real_inner_comm, ← dot_eq_inner, hzero s hs, mul_zero]
        rw [this]
        simp
  have hherm : Q.IsHermitian := by
    rw [hQ]
    clear hexp hpsd hker
    clear hQ hr hl
    clear Q r
    induction costs with
    | nil => simp
    | cons S t ih =>
      simp only [List.map_cons, List.sum_cons]
      refine Matrix.IsHermitian.add ?_ ih
      have := gram_herm S
      ext i j
      have h1 := congrFun (congrFun this.eq i) j
      simp [linHess, gram, mul_comm]
  -- the returned point is stationary
  have hstat : ∀ x, solveLinearRegressions lstsq costs = x → app Q x + r = 0 := by
    intro x hx
    have hx' : (match solveLin Q (-r) with | some x => x | none => lstsq Q (-r)) = x := by
      rw [← hx]; rfl
    cases hsol : solveLin Q (-r) with
    | some z =>
      rw [hsol] at hx'
      simp only at hx'
      subst hx'
      rw [(solveLin_some hsol).2]
      abel
    | none =>
      rw [hsol] at hx'
      simp only at hx'
      subst hx'
      -- normal equations of the least-squares problem
      set v : Vec d := app Q (lstsq Q (-r)) + r with hv
      have hmin := hl Q (-r)
      have hQv : app Q v = 0 := by
        by_contra hne
        have hpos : 0 < ⟪app Q v, app Q v⟫_ℝ := by
          rw [real_inner_self_eq_norm_sq]
          have := norm_pos_iff.2 hne
          positivity
        -- move along -Qv
        have hall : ∀ t : ℝ, 0 ≤ -(2 * t) * ⟪app Q v, app Q v⟫_ℝ + t ^ 2 * ‖app Q (app Q v)‖ ^ 2 := by
          intro t
          have h1 := hmin (lstsq Q (-r) - t • app Q v)
          have h2 : app Q (lstsq Q (-r)) - -r = v := by rw [hv]; abel
          have h3 : app Q (lstsq Q (-r) - t • app Q v) - -r = v - t • app Q (app Q v) := by
            rw [app_sub, app_smul, hv]; abel
          rw [h2, h3] at h1
          have h4 := pow_le_pow_left₀ (norm_nonneg _) h1 2
          rw [norm_sub_sq_real, inner_smul_right, norm_smul, mul_pow, Real.norm_eq_abs, sq_abs, inner_app_herm hherm] at h4
          linarith
        have hn : 0 ≤ ‖app Q (app Q v)‖ ^ 2 := sq_nonneg _
        set a := ⟪app Q v, app Q v⟫_ℝ
        set b := ‖app Q (app Q v)‖ ^ 2
        have h5 := hall (a / (b + 1))
        have hb1 : 0 < b + 1 := by linarith
        have h6 : -(2 * (a / (b + 1))) * a + (a / (b + 1)) ^ 2 * b = -(a ^ 2) * (b + 2) / (b + 1) ^ 2 := by
          field_simp; ring
        rw [h6] at h5
        have h7 : 0 < a ^ 2 * (b + 2) / (b + 1) ^ 2 := by positivity
        have h8 : -(a ^ 2) * (b + 2) / (b + 1) ^ 2 = -(a ^ 2 * (b + 2) / (b + 1) ^ 2) := by ring
        rw [h8] at h5
        linarith
      have h1 : ⟪r, v⟫_ℝ = 0 := hker v (by rw [hQv, inner_zero_right])
      have h2 : ⟪v, v⟫_ℝ = 0 := by
        conv_lhs => rw [hv]
        rw [← hv, inner_add_left, h1, add_zero, ← inner_app_herm hherm, hQv, inner_zero_right]
      exact inner_self_eq_zero.1 h2
  rw [hexp (solveLinearRegressions lstsq costs) y, hstat _ rfl, inner_zero_left]
  have := hpsd (y - solveLinearRegressions lstsq costs)
  linarith

/-- a least-squares routine exists for every matrix and right-hand side -/
theorem exists_lstsq : ∃ lstsq : Mat d → Vec d → Vec d, ∀ Q v, IsLstsq Q v (lstsq Q v) := by
  have : ∀ (Q : Mat d) (v : Vec d), ∃ x, IsLstsq Q v x := by
    intro Q v
    let K : Submodule ℝ (Vec d) := LinearMap.range (Matrix.toEuclideanLin Q)
    obtain ⟨w, hw, hmin⟩ := K.exists_norm_eq_iInf_of_complete_subspace
      (Submodule.complete_of_finiteDimensional K) v
    obtain ⟨x, rfl⟩ := hw
    refine ⟨x, fun y => ?_⟩
    rw [norm_sub_rev, norm_sub_rev _ v, app_eq, app_eq, hmin]
    exact ciInf_le ⟨0, by rintro _ ⟨_, rfl⟩; exact norm_nonneg _⟩ (⟨_, ⟨y, rfl⟩⟩ : K)
  choose f hf using this
  exact ⟨f, hf⟩

end Verif.Props
