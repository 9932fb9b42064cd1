import Verif.Lemmas.Convergence
import Mathlib.Analysis.InnerProductSpace.Spectrum
import Mathlib.Tactic.Module
set_option linter.unusedSectionVars false
/-! # Averaging operators in a Hilbert space, and the stacked space of the agents' vectors -/
namespace Verif.Consensus
open scoped InnerProductSpace
open Verif.Costs

section abstract_
variable {H : Type} [NormedAddCommGroup H] [InnerProductSpace ℝ H]

/-- a symmetric operator that does not expand -/
structure Averaging (W : H →ₗ[ℝ] H) : Prop where
  symm : ∀ u v, ⟪W u, v⟫_ℝ = ⟪u, W v⟫_ℝ
  le : ∀ v, ‖W v‖ ≤ ‖v‖

/-- `(I + W) / 2` -/
noncomputable def plus (W : H →ₗ[ℝ] H) (v : H) : H := (1 / 2 : ℝ) • (v + W v)
/-- `(I - W) / 2` -/
noncomputable def minus (W : H →ₗ[ℝ] H) : H →ₗ[ℝ] H := (1 / 2 : ℝ) • (LinearMap.id - W)

theorem minus_apply (W : H →ₗ[ℝ] H) (v : H) : minus W v = (1 / 2 : ℝ) • (v - W v) := by simp [minus]

theorem plus_add_minus (W : H →ₗ[ℝ] H) (v : H) : plus W v + minus W v = v := by
  rw [plus, minus_apply]; module

theorem minus_symm {W : H →ₗ[ℝ] H} (h : Averaging W) (u v : H) : ⟪minus W u, v⟫_ℝ = ⟪u, minus W v⟫_ℝ := by
  rw [minus_apply, minus_apply, inner_smul_left, inner_smul_right, inner_sub_left, inner_sub_right, h.symm]; rfl

theorem inner_W_le {W : H →ₗ[ℝ] H} (h : Averaging W) (v : H) : |⟪v, W v⟫_ℝ| ≤ ‖v‖ ^ 2 := by
  refine (abs_real_inner_le_norm v (W v)).trans ?_
  rw [sq]; exact mul_le_mul_of_nonneg_left (h.le v) (norm_nonneg _)

theorem minus_nonneg {W : H →ₗ[ℝ] H} (h : Averaging W) (v : H) : 0 ≤ ⟪v, minus W v⟫_ℝ := by
  have := (abs_le.1 (inner_W_le h v)).2
  rw [minus_apply, inner_smul_right, inner_sub_right, real_inner_self_eq_norm_sq]
  linarith

/-- `⟨v, W̃ v⟩ ≥ ‖W̃ v‖²` -/
theorem plus_firm {W : H →ₗ[ℝ] H} (h : Averaging W) (v : H) : ‖plus W v‖ ^ 2 ≤ ‖v‖ ^ 2 - ⟪v, minus W v⟫_ℝ := by
  have h1 : ‖W v‖ ^ 2 ≤ ‖v‖ ^ 2 := pow_le_pow_left₀ (norm_nonneg _) (h.le v) 2
  rw [plus, minus_apply, norm_smul, inner_smul_right, inner_sub_right, real_inner_self_eq_norm_sq, mul_pow, norm_add_sq_real]
  have : ‖(1 / 2 : ℝ)‖ ^ 2 = 1 / 4 := by norm_num
  rw [this]
  linarith

/-- one step of exact diffusion: the distance to the solution plus the dual distance does not grow -/
theorem diffusion_step {W : H →ₗ[ℝ] H} (h : Averaging W) (a e : H) :
    ‖plus W (a - minus W e)‖ ^ 2 + ⟪e + (a - minus W e), minus W (e + (a - minus W e))⟫_ℝ ≤
      ‖a‖ ^ 2 - ‖minus W e‖ ^ 2 + ⟪e, minus W e⟫_ℝ := by
  set v := a - minus W e with hv
  have ha : a = v + minus W e := by rw [hv]; abel
  have h1 := plus_firm h v
  have h2 : ⟪e + v, minus W (e + v)⟫_ℝ = ⟪e, minus W e⟫_ℝ + 2 * ⟪v, minus W e⟫_ℝ + ⟪v, minus W v⟫_ℝ := by
    rw [map_add, inner_add_left, inner_add_right, inner_add_right, ← minus_symm h e v, real_inner_comm v (minus W e)]
    ring
  have h3 : ‖a‖ ^ 2 = ‖v‖ ^ 2 + 2 * ⟪v, minus W e⟫_ℝ + ‖minus W e‖ ^ 2 := by rw [ha, norm_add_sq_real]
  rw [h2, h3]
  linarith

variable [FiniteDimensional ℝ H]

/-- the positive part of the spectrum of a positive operator is bounded away from 0 -/
theorem exists_gap (T : H →ₗ[ℝ] H) (hs : ∀ u v, ⟪T u, v⟫_ℝ = ⟪u, T v⟫_ℝ) (hp : ∀ v, 0 ≤ ⟪v, T v⟫_ℝ) :
    ∃ c : ℝ, 0 < c ∧ c ≤ 1 ∧ ∀ v, c * ⟪v, T v⟫_ℝ ≤ ‖T v‖ ^ 2 := by
  have hT : T.IsSymmetric := hs
  obtain ⟨n, hn⟩ : ∃ n, Module.finrank ℝ H = n := ⟨_, rfl⟩
  set ev := hT.eigenvalues hn with hev
  set b := hT.eigenvectorBasis hn with hb
  have hev0 : ∀ i, 0 ≤ ev i := by
    intro i
    have := hp (b i)
    have e : T (b i) = ev i • b i := hT.apply_eigenvectorBasis hn i
    rw [e, inner_smul_right, real_inner_self_eq_norm_sq, b.norm_eq_one] at this
    simpa using this
  obtain ⟨c, hc0, hc1, hc⟩ : ∃ c : ℝ, 0 < c ∧ c ≤ 1 ∧ ∀ i, ev i = 0 ∨ c ≤ ev i := by
    let S : Finset ℝ := insert 1 ((Finset.univ.image ev).filter (fun r => 0 < r))
    have hS : S.Nonempty := ⟨1, Finset.mem_insert_self _ _⟩
    refine ⟨S.min' hS, ?_, S.min'_le _ (Finset.mem_insert_self _ _), fun i => ?_⟩
    · have := S.min'_mem hS
      rcases Finset.mem_insert.1 this with h | h
      · rw [h]; exact one_pos
      · exact (Finset.mem_filter.1 h).2
    · rcases (hev0 i).eq_or_lt with h | h
      · exact Or.inl h.symm
      · exact Or.inr (S.min'_le _ (Finset.mem_insert_of_mem (Finset.mem_filter.2 ⟨Finset.mem_image_of_mem _ (Finset.mem_univ i), h⟩)))
  refine ⟨c, hc0, hc1, fun v => ?_⟩
  have hr : ∀ i, b.repr (T v) i = ev i * b.repr v i := by
    intro i
    have := hT.eigenvectorBasis_apply_self_apply hn v i
    simpa using this
  have e1 : ⟪v, T v⟫_ℝ = ∑ i, ev i * (b.repr v i) ^ 2 := by
    rw [← b.repr.inner_map_map, PiLp.inner_apply]
    apply Finset.sum_congr rfl
    intro i _
    rw [hr i]
    simp only [RCLike.inner_apply, conj_trivial]
    ring
  have e2 : ‖T v‖ ^ 2 = ∑ i, (ev i * b.repr v i) ^ 2 := by
    rw [← b.repr.norm_map, EuclideanSpace.norm_sq_eq]
    apply Finset.sum_congr rfl
    intro i _
    rw [hr i, Real.norm_eq_abs, sq_abs]
  rw [e1, e2, Finset.mul_sum]
  apply Finset.sum_le_sum
  intro i _
  rcases hc i with h | h
  · rw [h]; simp
  · have : c * (ev i * (b.repr v i) ^ 2) ≤ ev i * (ev i * (b.repr v i) ^ 2) :=
      mul_le_mul_of_nonneg_right h (mul_nonneg (hev0 i) (sq_nonneg _))
    refine this.trans (le_of_eq ?_)
    ring

/-- everything orthogonal to the kernel is in the range -/
theorem exists_preimage (T : H →ₗ[ℝ] H) (hs : ∀ u v, ⟪T u, v⟫_ℝ = ⟪u, T v⟫_ℝ) (g : H) (hg : ∀ v, T v = 0 → ⟪v, g⟫_ℝ = 0) : ∃ u, T u = g := by
  have hT : T.IsSymmetric := hs
  have h1 : g ∈ (LinearMap.ker T)ᗮ := fun v hv => hg v (LinearMap.mem_ker.1 hv)
  rw [← hT.orthogonal_range, Submodule.orthogonal_orthogonal] at h1
  exact h1

end abstract_

/-! ### the stacked space -/
section stack
variable {ι : Type} [Fintype ι] [DecidableEq ι] {d : Nat}

/-- one vector for each agent -/
abbrev Stack (ι : Type) [Fintype ι] (d : Nat) := PiLp 2 (fun _ : ι => Vec d)

/-- stack vectors -/
def stack (v : ι → Vec d) : Stack ι d := WithLp.toLp 2 v

@[simp] theorem stack_apply (v : ι → Vec d) (i : ι) : stack v i = v i := rfl

theorem stack_ext {u v : Stack ι d} (h : ∀ i, u i = v i) : u = v := by
  ext i : 1; exact h i

theorem stack_norm_sq (v : Stack ι d) : ‖v‖ ^ 2 = ∑ i, ‖v i‖ ^ 2 := PiLp.norm_sq_eq_of_L2 _ v
theorem stack_inner (u v : Stack ι d) : ⟪u, v⟫_ℝ = ∑ i, ⟪u i, v i⟫_ℝ := PiLp.inner_apply u v

/-- the matrix `W` acting on stacked vectors -/
noncomputable def mixOp (W : ι → ι → ℝ) : Stack ι d →ₗ[ℝ] Stack ι d where
  toFun v := stack (fun i => ∑ j, W i j • v j)
  map_add' u v := by
    apply stack_ext; intro i
    simp only [stack_apply, PiLp.add_apply, smul_add, Finset.sum_add_distrib]
  map_smul' c v := by
    apply stack_ext; intro i
    simp only [stack_apply, PiLp.smul_apply, RingHom.id_apply, Finset.smul_sum]
    exact Finset.sum_congr rfl fun j _ => smul_comm _ _ _

@[simp] theorem mixOp_apply (W : ι → ι → ℝ) (v : Stack ι d) (i : ι) : mixOp W v i = ∑ j, W i j • v j := rfl

/-- symmetric, non-negative, rows sum to 1 -/
structure Stochastic (W : ι → ι → ℝ) : Prop where
  symm : ∀ i j, W i j = W j i
  nonneg : ∀ i j, 0 ≤ W i j
  row : ∀ i, ∑ j, W i j = 1

/-- `Σ W_ij ‖v_i ± v_j‖²` -/
theorem sum_pairs {W : ι → ι → ℝ} (h : Stochastic W) (v : Stack ι d) (t : ℝ) :
    ∑ i, ∑ j, W i j * ‖v i + t • v j‖ ^ 2 = (1 + t ^ 2) * ‖v‖ ^ 2 + 2 * t * ⟪v, mixOp W v⟫_ℝ := by
  have e : ∀ i j, W i j * ‖v i + t • v j‖ ^ 2 = W i j * ‖v i‖ ^ 2 + (2 * t) * ⟪v i, W i j • v j⟫_ℝ + t ^ 2 * (W i j * ‖v j‖ ^ 2) := by
    intro i j
    rw [norm_add_sq_real, inner_smul_right, inner_smul_right, norm_smul, mul_pow, Real.norm_eq_abs, sq_abs]; ring
  simp only [e, Finset.sum_add_distrib, ← Finset.mul_sum]
  have e1 : ∑ i, ∑ j, W i j * ‖v i‖ ^ 2 = ‖v‖ ^ 2 := by
    rw [stack_norm_sq]
    refine Finset.sum_congr rfl fun i _ => ?_
    rw [← Finset.sum_mul, h.row i, one_mul]
  have e2 : ∑ i, ∑ j, W i j * ‖v j‖ ^ 2 = ‖v‖ ^ 2 := by
    rw [Finset.sum_comm, stack_norm_sq]
    refine Finset.sum_congr rfl fun j _ => ?_
    rw [← Finset.sum_mul, Finset.sum_congr rfl (fun i _ => h.symm i j), h.row j, one_mul]
  have e3 : ∑ i, ∑ j, ⟪v i, W i j • v j⟫_ℝ = ⟪v, mixOp W v⟫_ℝ := by
    rw [stack_inner]
    refine Finset.sum_congr rfl fun i _ => ?_
    rw [mixOp_apply, inner_sum]
  have e1' : ∑ i, ‖v i‖ ^ 2 * ∑ j, W i j = ‖v‖ ^ 2 := by
    rw [← e1]; refine Finset.sum_congr rfl fun i _ => ?_
    rw [← Finset.sum_mul]; ring
  rw [e1, e2, e3]
  ring

theorem averaging {W : ι → ι → ℝ} (h : Stochastic W) : Averaging (mixOp W : Stack ι d →ₗ[ℝ] Stack ι d) := by
  have hsym : ∀ u v : Stack ι d, ⟪mixOp W u, v⟫_ℝ = ⟪u, mixOp W v⟫_ℝ := by
    intro u v
    rw [stack_inner, stack_inner]
    simp only [mixOp_apply, sum_inner, inner_sum, inner_smul_left, inner_smul_right]
    rw [Finset.sum_comm]
    refine Finset.sum_congr rfl fun i _ => Finset.sum_congr rfl fun j _ => ?_
    rw [h.symm j i]; rfl
  refine ⟨hsym, fun v => ?_⟩
  -- quadratic form of W between -1 and 1, applied to v and W v
  have hq : ∀ v w : Stack ι d, 2 * ⟪v, mixOp W w⟫_ℝ ≤ ‖v‖ ^ 2 + ‖w‖ ^ 2 := by
    intro v w
    have e : ∀ i j, 2 * ⟪v i, W i j • w j⟫_ℝ ≤ W i j * ‖v i‖ ^ 2 + W i j * ‖w j‖ ^ 2 := by
      intro i j
      have h1 : 0 ≤ ‖v i - w j‖ ^ 2 := sq_nonneg _
      rw [norm_sub_sq_real] at h1
      rw [inner_smul_right]
      have := mul_le_mul_of_nonneg_left (show 2 * ⟪v i, w j⟫_ℝ ≤ ‖v i‖ ^ 2 + ‖w j‖ ^ 2 by linarith) (h.nonneg i j)
      linarith
    have e1 : ∑ i, ∑ j, W i j * ‖v i‖ ^ 2 = ‖v‖ ^ 2 := by
      rw [stack_norm_sq]
      refine Finset.sum_congr rfl fun i _ => ?_
      rw [← Finset.sum_mul, h.row i, one_mul]
    have e2 : ∑ i, ∑ j, W i j * ‖w j‖ ^ 2 = ‖w‖ ^ 2 := by
      rw [Finset.sum_comm, stack_norm_sq]
      refine Finset.sum_congr rfl fun j _ => ?_
      rw [← Finset.sum_mul, Finset.sum_congr rfl (fun i _ => h.symm i j), h.row j, one_mul]
    rw [← e1, ← e2, ← Finset.sum_add_distrib, stack_inner, Finset.mul_sum]
    refine Finset.sum_le_sum fun i _ => ?_
    rw [← Finset.sum_add_distrib, mixOp_apply, inner_sum, Finset.mul_sum]
    exact Finset.sum_le_sum fun j _ => e i j
  have := hq (mixOp W v) v
  rw [real_inner_self_eq_norm_sq] at this
  exact le_of_sq_le_sq (by linarith) (norm_nonneg _)
where
  le_of_sq_le_sq {a b : ℝ} (h : a ^ 2 ≤ b ^ 2) (hb : 0 ≤ b) : a ≤ b := (abs_le_of_sq_le_sq' h hb).2

/-- `⟨v, (I + W) v⟩ ≥ 2 δ ‖v‖²` if the diagonal is at least `δ` -/
theorem inner_plus_ge {W : ι → ι → ℝ} (h : Stochastic W) (δ : ℝ) (hδ : ∀ i, δ ≤ W i i) (v : Stack ι d) : δ * ‖v‖ ^ 2 ≤ ⟪v, plus (mixOp W) v⟫_ℝ := by
  have h1 := sum_pairs h v 1
  have h2 : ∑ i, W i i * ‖v i + (1 : ℝ) • v i‖ ^ 2 ≤ ∑ i, ∑ j, W i j * ‖v i + (1 : ℝ) • v j‖ ^ 2 := by
    refine Finset.sum_le_sum fun i _ => ?_
    exact Finset.single_le_sum (f := fun j => W i j * ‖v i + (1 : ℝ) • v j‖ ^ 2) (fun j _ => mul_nonneg (h.nonneg i j) (sq_nonneg _)) (Finset.mem_univ i)
  have h3 : δ * ‖v‖ ^ 2 * 4 ≤ ∑ i, W i i * ‖v i + (1 : ℝ) • v i‖ ^ 2 := by
    rw [stack_norm_sq, Finset.mul_sum, Finset.sum_mul]
    refine Finset.sum_le_sum fun i _ => ?_
    have : v i + (1 : ℝ) • v i = (2 : ℝ) • v i := by module
    rw [this, norm_smul, mul_pow]
    have e : ‖(2 : ℝ)‖ ^ 2 = 4 := by norm_num
    rw [e]
    have := mul_le_mul_of_nonneg_right (hδ i) (sq_nonneg ‖v i‖)
    linarith
  rw [plus, inner_smul_right, inner_add_right, real_inner_self_eq_norm_sq]
  linarith

/-- all agents hold the same vector -/
def Agree (v : Stack ι d) : Prop := ∀ i j, v i = v j

/-- the graph of the positive weights is connected -/
def Linked (W : ι → ι → ℝ) : Prop := ∀ i j, Relation.ReflTransGen (fun a b => 0 < W a b) i j

theorem minus_ker {W : ι → ι → ℝ} (h : Stochastic W) (hc : Linked W) (v : Stack ι d) (hv : minus (mixOp W) v = 0) : Agree v := by
  have h0 : ⟪v, minus (mixOp W) v⟫_ℝ = 0 := by rw [hv, inner_zero_right]
  rw [minus_apply, inner_smul_right, inner_sub_right, real_inner_self_eq_norm_sq] at h0
  have h1 := sum_pairs h v (-1)
  have hz : ∑ i, ∑ j, W i j * ‖v i + (-1 : ℝ) • v j‖ ^ 2 = 0 := by rw [h1]; linarith
  have edge : ∀ i j, 0 < W i j → v i = v j := by
    intro i j hij
    have a := (Finset.sum_eq_zero_iff_of_nonneg (fun i _ => Finset.sum_nonneg fun j _ => mul_nonneg (h.nonneg i j) (sq_nonneg _))).1 hz i (Finset.mem_univ i)
    have b := (Finset.sum_eq_zero_iff_of_nonneg (fun j _ => mul_nonneg (h.nonneg i j) (sq_nonneg _))).1 a j (Finset.mem_univ j)
    have c := (mul_eq_zero.1 b).resolve_left hij.ne'
    have e := norm_eq_zero.1 (pow_eq_zero_iff (two_ne_zero) |>.1 c)
    have : v i - v j = v i + (-1 : ℝ) • v j := by module
    exact sub_eq_zero.1 (by rw [this, e])
  intro i j
  have := hc i j
  induction this with
  | refl => rfl
  | tail _ hbc ih => exact ih.trans (edge _ _ hbc)

theorem agree_fixed {W : ι → ι → ℝ} (h : Stochastic W) (v : Stack ι d) (hv : Agree v) : mixOp W v = v := by
  apply stack_ext; intro i
  rw [mixOp_apply, Finset.sum_congr rfl (fun j _ => by rw [hv j i]), ← Finset.sum_smul, h.row, one_smul]

theorem plus_stack (W : ι → ι → ℝ) (v : Stack ι d) (i : ι) : plus (mixOp W) v i = (1 / 2 : ℝ) • (v i + ∑ j, W i j • v j) := rfl

/-- the stacked gradient -/
def gradAt (G : ι → Vec d → Vec d) (x : Stack ι d) : Stack ι d := stack fun i => G i (x i)

@[simp] theorem gradAt_apply (G : ι → Vec d → Vec d) (x : Stack ι d) (i : ι) : gradAt G x i = G i (x i) := rfl

/-- consequences of the parabola bounds for the stacked gradient -/
theorem stack_cocoercive {f : ι → Vec d → ℝ} {G : ι → Vec d → Vec d} {L : ℝ} (hL : 0 < L) (hu : ∀ i, Upper (f i) (G i) L) (hl : ∀ i, Lower (f i) (G i) 0)
    (x y : Stack ι d) : ‖gradAt G x - gradAt G y‖ ^ 2 ≤ L * ⟪gradAt G x - gradAt G y, x - y⟫_ℝ := by
  rw [stack_norm_sq, stack_inner, Finset.mul_sum]
  refine Finset.sum_le_sum fun i _ => ?_
  have := cocoercive hL (hu i) (hl i) (x i) (y i)
  rw [one_div, inv_mul_le_iff₀ hL] at this
  exact this

theorem strong_monotone {f : Vec d → ℝ} {g : Vec d → Vec d} {m : ℝ} (hl : Lower f g m) (x y : Vec d) : m * ‖x - y‖ ^ 2 ≤ ⟪g x - g y, x - y⟫_ℝ := by
  have h1 := hl x y
  have h2 := hl y x
  have e : ⟪g x, y - x⟫_ℝ = -⟪g x, x - y⟫_ℝ := by rw [← inner_neg_right, neg_sub]
  rw [e, norm_sub_rev] at h1
  rw [inner_sub_left]
  linarith

theorem stack_monotone {f : ι → Vec d → ℝ} {G : ι → Vec d → Vec d} {m : ℝ} (hl : ∀ i, Lower (f i) (G i) m)
    (x y : Stack ι d) : m * ‖x - y‖ ^ 2 ≤ ⟪gradAt G x - gradAt G y, x - y⟫_ℝ := by
  rw [stack_norm_sq, stack_inner, Finset.mul_sum]
  exact Finset.sum_le_sum fun i _ => strong_monotone (hl i) (x i) (y i)

/-- a gradient step contracts for every step size below `2 / L` -/
theorem grad_contract {f : ι → Vec d → ℝ} {G : ι → Vec d → Vec d} {L m ρ : ℝ} (hm : 0 < m) (hu : ∀ i, Upper (f i) (G i) L) (hl : ∀ i, Lower (f i) (G i) m)
    (hL : 0 < L) (hρ : 0 < ρ) (hρL : ρ * L ≤ 2) (x y : Stack ι d) :
    ‖(x - y) - ρ • (gradAt G x - gradAt G y)‖ ^ 2 ≤ (1 - ρ * m * (2 - ρ * L)) * ‖x - y‖ ^ 2 := by
  have h1 := stack_cocoercive hL hu (fun i => (hl i).mono hm.le) x y
  have h2 := stack_monotone hl x y
  set g := gradAt G x - gradAt G y
  set z := x - y
  rw [norm_sub_sq_real, inner_smul_right, norm_smul, mul_pow, Real.norm_eq_abs, sq_abs, real_inner_comm]
  have h3 := mul_le_mul_of_nonneg_left h1 (sq_nonneg ρ)
  have h4 := mul_le_mul_of_nonneg_left h2 (show 0 ≤ ρ * (2 - ρ * L) from mul_nonneg hρ.le (by linarith))
  nlinarith

end stack
end Verif.Consensus
