import Verif.Lemmas.Rates
import Mathlib.Analysis.InnerProductSpace.Projection.Basic
import Mathlib.Analysis.Normed.Module.FiniteDimension
import Mathlib.Tactic.Linarith
import Mathlib.Tactic.Positivity
import Mathlib.Tactic.Module
set_option linter.unusedSectionVars false
/-! # Relaxed Peaceman-Rachford splitting on the arcs of a graph: linear convergence -/
namespace Verif.Arcs
open Verif Costs Consensus
open scoped InnerProductSpace

section abstract
variable {H Y : Type} [NormedAddCommGroup H] [InnerProductSpace ℝ H] [FiniteDimensional ℝ H] [NormedAddCommGroup Y] [NormedSpace ℝ Y]

/-- a linear map is bounded below off its kernel -/
theorem bounded_below (T : H →ₗ[ℝ] Y) : ∃ K : ℝ, 0 < K ∧ ∀ v, (∀ k, T k = 0 → ⟪k, v⟫_ℝ = 0) → ‖v‖ ≤ K * ‖T v‖ := by
  set U := (LinearMap.ker T)ᗮ with hU
  have hker : LinearMap.ker (T.domRestrict U) = ⊥ := by
    rw [LinearMap.ker_eq_bot']
    intro v hv
    have h1 : (v : H) ∈ LinearMap.ker T := by rw [LinearMap.mem_ker]; exact hv
    have h2 := (Submodule.mem_orthogonal _ _).1 v.2 v h1
    exact Subtype.ext (inner_self_eq_zero.1 h2)
  obtain ⟨K, hK, ha⟩ := (T.domRestrict U).exists_antilipschitzWith hker
  refine ⟨K, hK, fun v hv => ?_⟩
  have hvU : v ∈ U := (Submodule.mem_orthogonal _ _).2 fun k hk => hv k (LinearMap.mem_ker.1 hk)
  have := ha.le_mul_dist ⟨v, hvU⟩ 0
  simpa [dist_eq_norm] using this

/-- If one step reduces the squared distance to every fixed point by a multiple of `D`, which controls `T`, and the step does
not move along `ker T`, the iterates converge linearly. -/
theorem rate_of_drop (T : H →ₗ[ℝ] Y) (S : H → H) (zs : H) (D : H → H → ℝ) (a b : ℝ) (ha : 0 < a) (hb : 0 < b)
    (hdrop : ∀ p, T (p - zs) = 0 → ∀ z, ‖S z - p‖ ^ 2 ≤ ‖z - p‖ ^ 2 - a * D z p)
    (hT : ∀ p, T (p - zs) = 0 → ∀ z, ‖T (z - p)‖ ^ 2 ≤ b * D z p)
    (horth : ∀ z k, T k = 0 → ⟪k, S z - z⟫_ℝ = 0) :
    ∃ r : ℝ, 0 < r ∧ r < 1 ∧ ∀ z0, ∃ p, T (p - zs) = 0 ∧ ∀ k : Nat, ‖S^[k] z0 - p‖ ^ 2 ≤ ‖z0 - p‖ ^ 2 * r ^ k := by
  obtain ⟨K, hK, hbd⟩ := bounded_below T
  have hq : 0 < a / (b * K ^ 2) := by positivity
  refine ⟨max (1 / 2) (1 - a / (b * K ^ 2)), lt_max_of_lt_left (by norm_num), max_lt (by norm_num) (by linarith), fun z0 => ?_⟩
  set r := max (1 / 2) (1 - a / (b * K ^ 2)) with hr
  have hr0 : 0 < r := lt_max_of_lt_left (by norm_num)
  obtain ⟨y, hy, z, hz, hyz⟩ := Submodule.exists_add_mem_mem_orthogonal (K := LinearMap.ker T) (z0 - zs)
  have hp : T (zs + y - zs) = 0 := by rw [add_sub_cancel_left]; exact LinearMap.mem_ker.1 hy
  have h0 : z0 - (zs + y) = z := by rw [← sub_sub, hyz, add_sub_cancel_left]
  refine ⟨zs + y, hp, ?_⟩
  have perp : ∀ k : Nat, ∀ v, T v = 0 → ⟪v, S^[k] z0 - (zs + y)⟫_ℝ = 0 := by
    intro k
    induction k with
    | zero =>
      intro v hv
      show ⟪v, z0 - (zs + y)⟫_ℝ = 0
      rw [h0]
      exact (Submodule.mem_orthogonal _ _).1 hz v (LinearMap.mem_ker.2 hv)
    | succ k ih =>
      intro v hv
      have e : S^[k + 1] z0 - (zs + y) = (S (S^[k] z0) - S^[k] z0) + (S^[k] z0 - (zs + y)) := by
        rw [Function.iterate_succ_apply']; abel
      rw [e, inner_add_right, horth _ v hv, ih v hv, add_zero]
  intro k
  induction k with
  | zero => simp
  | succ k ih =>
    rw [Function.iterate_succ_apply']
    have h1 := hdrop _ hp (S^[k] z0)
    have h2 := hT _ hp (S^[k] z0)
    have h3 := hbd _ (perp k)
    set v := S^[k] z0 - (zs + y)
    have h4 : ‖v‖ ^ 2 ≤ K ^ 2 * ‖T v‖ ^ 2 := by
      have := pow_le_pow_left₀ (norm_nonneg _) h3 2
      rwa [mul_pow] at this
    have h5 : ‖v‖ ^ 2 ≤ K ^ 2 * b * D (S^[k] z0) (zs + y) := by
      refine h4.trans ?_
      rw [mul_assoc]; exact mul_le_mul_of_nonneg_left h2 (by positivity)
    have h6 : a / (b * K ^ 2) * ‖v‖ ^ 2 ≤ a * D (S^[k] z0) (zs + y) := by
      have := mul_le_mul_of_nonneg_left h5 hq.le
      refine this.trans (le_of_eq ?_)
      field_simp
    have h7 : (1 - a / (b * K ^ 2)) * ‖v‖ ^ 2 ≤ r * ‖v‖ ^ 2 := mul_le_mul_of_nonneg_right (le_max_right _ _) (sq_nonneg _)
    have h8 := mul_le_mul_of_nonneg_left ih hr0.le
    rw [pow_succ r k]
    linarith

/-- `‖u + v‖² ≤ 2‖u‖² + 2‖v‖²` -/
theorem parallelogram_le {H : Type} [NormedAddCommGroup H] [InnerProductSpace ℝ H] (u v : H) : ‖u + v‖ ^ 2 ≤ 2 * ‖u‖ ^ 2 + 2 * ‖v‖ ^ 2 := by
  have h1 := norm_add_sq_real u v
  have h2 := norm_sub_sq_real u v
  have h3 := sq_nonneg ‖u - v‖
  linarith

theorem combo_sq (α : ℝ) (u v : H) : ‖(1 - α) • u + α • v‖ ^ 2 = (1 - α) * ‖u‖ ^ 2 + α * ‖v‖ ^ 2 - α * (1 - α) * ‖u - v‖ ^ 2 := by
  rw [norm_add_sq_real, norm_sub_sq_real, norm_smul, norm_smul, inner_smul_left, inner_smul_right, mul_pow, mul_pow,
    Real.norm_eq_abs, Real.norm_eq_abs, sq_abs, sq_abs]
  simp only [conj_trivial]
  ring

end abstract

/-! ### arcs -/
section graph
variable {ι κ : Type} [Fintype ι] [DecidableEq ι] [Fintype κ] [DecidableEq κ] {d : Nat}

/-- the sum over the arcs that leave `i` -/
noncomputable def outSum (src : κ → ι) : Stack κ d →ₗ[ℝ] Stack ι d where
  toFun z := stack fun i => ∑ a, if src a = i then z a else 0
  map_add' u v := by
    apply stack_ext; intro i
    show (∑ a, if src a = i then (u a + v a) else 0) = (∑ a, if src a = i then u a else 0) + ∑ a, if src a = i then v a else 0
    rw [← Finset.sum_add_distrib]; apply Finset.sum_congr rfl; intro a _; split <;> simp
  map_smul' c u := by
    apply stack_ext; intro i
    show (∑ a, if src a = i then (c • u a) else 0) = c • (∑ a, if src a = i then u a else 0)
    rw [Finset.smul_sum]; apply Finset.sum_congr rfl; intro a _; split <;> simp

/-- every arc copies the value of its source -/
noncomputable def spread (src : κ → ι) (x : Stack ι d) : Stack κ d := stack fun a => x (src a)

/-- `v + v reversed` -/
noncomputable def symPart (flip : κ → κ) : Stack κ d →ₗ[ℝ] Stack κ d where
  toFun z := stack fun a => z a + z (flip a)
  map_add' u v := by
    apply stack_ext; intro a
    show u a + v a + (u (flip a) + v (flip a)) = u a + u (flip a) + (v a + v (flip a))
    abel
  map_smul' c u := by
    apply stack_ext; intro a
    show c • u a + c • u (flip a) = c • (u a + u (flip a))
    rw [smul_add]

@[simp] theorem outSum_apply (src : κ → ι) (z : Stack κ d) (i : ι) : outSum src z i = ∑ a, if src a = i then z a else 0 := rfl
@[simp] theorem spread_apply (src : κ → ι) (x : Stack ι d) (a : κ) : spread src x a = x (src a) := rfl
@[simp] theorem symPart_apply (flip : κ → κ) (z : Stack κ d) (a : κ) : symPart flip z a = z a + z (flip a) := rfl

theorem inner_spread (src : κ → ι) (z : Stack κ d) (x : Stack ι d) : ⟪z, spread src x⟫_ℝ = ⟪outSum src z, x⟫_ℝ := by
  rw [stack_inner, stack_inner]
  have e : ∀ i, ⟪outSum src z i, x i⟫_ℝ = ∑ a, if src a = i then ⟪z a, x i⟫_ℝ else 0 := by
    intro i
    rw [outSum_apply, sum_inner]; apply Finset.sum_congr rfl; intro a _; split <;> simp
  rw [Finset.sum_congr rfl (fun i _ => e i), Finset.sum_comm]
  apply Finset.sum_congr rfl
  intro a _
  rw [Finset.sum_ite_eq]; simp

/-- number of arcs leaving `i` -/
noncomputable def deg (src : κ → ι) (i : ι) : ℝ := ∑ a, if src a = i then 1 else 0

theorem deg_nonneg (src : κ → ι) (i : ι) : 0 ≤ deg src i := Finset.sum_nonneg fun a _ => by split <;> norm_num
theorem deg_le (src : κ → ι) (i : ι) : deg src i ≤ Fintype.card κ := by
  unfold deg
  refine (Finset.sum_le_sum (g := fun _ => (1 : ℝ)) fun a _ => by split <;> norm_num).trans ?_
  simp

theorem outSum_spread (src : κ → ι) (x : Stack ι d) (i : ι) : outSum src (spread src x) i = deg src i • x i := by
  rw [outSum_apply, deg, Finset.sum_smul]
  apply Finset.sum_congr rfl
  intro a _
  split
  · rename_i h; rw [spread_apply, h, one_smul]
  · rw [zero_smul]

theorem spread_norm_le (src : κ → ι) (x : Stack ι d) : ‖spread src x‖ ^ 2 ≤ Fintype.card κ * ‖x‖ ^ 2 := by
  rw [← real_inner_self_eq_norm_sq, inner_spread, stack_inner, stack_norm_sq, Finset.mul_sum]
  apply Finset.sum_le_sum
  intro i _
  rw [outSum_spread, inner_smul_left, real_inner_self_eq_norm_sq]
  exact mul_le_mul_of_nonneg_right (deg_le src i) (sq_nonneg _)

theorem norm_flip (flip : κ → κ) (hf : ∀ a, flip (flip a) = a) (v : Stack κ d) : ‖(stack fun a => v (flip a) : Stack κ d)‖ ^ 2 = ‖v‖ ^ 2 := by
  rw [stack_norm_sq, stack_norm_sq]
  exact Equiv.sum_comp (⟨flip, flip, hf, hf⟩ : κ ≃ κ) (fun a => ‖v a‖ ^ 2)

theorem inner_flip (flip : κ → κ) (hf : ∀ a, flip (flip a) = a) (u v : Stack κ d) :
    ⟪u, (stack fun a => v (flip a) : Stack κ d)⟫_ℝ = ⟪(stack fun a => u (flip a) : Stack κ d), v⟫_ℝ := by
  rw [stack_inner, stack_inner]
  rw [← Equiv.sum_comp (⟨flip, flip, hf, hf⟩ : κ ≃ κ) (fun a => ⟪u a, (stack fun a => v (flip a) : Stack κ d) a⟫_ℝ)]
  apply Finset.sum_congr rfl
  intro a _
  show ⟪u (flip a), v (flip (flip a))⟫_ℝ = _
  rw [hf]; rfl

/-- the reflected step `z_ij ↦ -(z_ji - 2 ρ x_j)` -/
noncomputable def reflect (src : κ → ι) (flip : κ → κ) (ρ : ℝ) (ξ : Stack κ d → Stack ι d) (z : Stack κ d) : Stack κ d :=
  stack fun a => (2 * ρ) • ξ z (src (flip a)) - z (flip a)

/-- the relaxed step -/
noncomputable def relax (src : κ → ι) (flip : κ → κ) (ρ α : ℝ) (ξ : Stack κ d → Stack ι d) (z : Stack κ d) : Stack κ d :=
  (1 - α) • z + α • reflect src flip ρ ξ z

variable {src : κ → ι} {flip : κ → κ} {ρ α L m : ℝ} {ξ : Stack κ d → Stack ι d} {f : ι → Vec d → ℝ} {G : ι → Vec d → Vec d}

/-- `ξ` solves the local problems -/
def Resolves (src : κ → ι) (ρ : ℝ) (G : ι → Vec d → Vec d) (ξ : Stack κ d → Stack ι d) : Prop :=
  ∀ z i, (ρ * deg src i) • ξ z i + G i (ξ z i) = outSum src z i

theorem resolves_inner (hξ : Resolves src ρ G ξ) (z p : Stack κ d) :
    ⟪z - p, spread src (ξ z - ξ p)⟫_ℝ = ρ * ‖spread src (ξ z - ξ p)‖ ^ 2 + ⟪gradAt G (ξ z) - gradAt G (ξ p), ξ z - ξ p⟫_ℝ := by
  rw [inner_spread, ← real_inner_self_eq_norm_sq (spread src (ξ z - ξ p)), inner_spread, stack_inner, stack_inner, stack_inner,
    Finset.mul_sum, ← Finset.sum_add_distrib]
  apply Finset.sum_congr rfl
  intro i _
  rw [outSum_spread, map_sub]
  have e : (outSum src z - outSum src p) i = (ρ * deg src i) • (ξ z - ξ p) i + (gradAt G (ξ z) - gradAt G (ξ p)) i := by
    show outSum src z i - outSum src p i = (ρ * deg src i) • (ξ z i - ξ p i) + (G i (ξ z i) - G i (ξ p i))
    rw [← hξ z i, ← hξ p i]; module
  rw [e, inner_add_left, inner_smul_left, inner_smul_left]
  simp only [conj_trivial]
  ring

theorem reflect_sq (hf : ∀ a, flip (flip a) = a) (hξ : Resolves src ρ G ξ) (z p : Stack κ d) :
    ‖reflect src flip ρ ξ z - reflect src flip ρ ξ p‖ ^ 2 =
      ‖z - p‖ ^ 2 - 4 * ρ * ⟪gradAt G (ξ z) - gradAt G (ξ p), ξ z - ξ p⟫_ℝ := by
  have e : reflect src flip ρ ξ z - reflect src flip ρ ξ p =
      stack (fun a => ((2 * ρ) • spread src (ξ z - ξ p) - (z - p)) (flip a)) := by
    apply stack_ext; intro a
    show (2 * ρ) • ξ z (src (flip a)) - z (flip a) - ((2 * ρ) • ξ p (src (flip a)) - p (flip a)) =
      (2 * ρ) • (ξ z (src (flip a)) - ξ p (src (flip a))) - (z (flip a) - p (flip a))
    module
  rw [e, norm_flip flip hf, norm_sub_sq_real, norm_smul, inner_smul_left, real_inner_comm, resolves_inner hξ, mul_pow,
    Real.norm_eq_abs, sq_abs]
  simp only [conj_trivial]
  ring

/-- the linear map whose kernel contains the directions in which the dual variables are not determined -/
noncomputable def probe (src : κ → ι) (flip : κ → κ) : Stack κ d →ₗ[ℝ] Stack κ d × Stack ι d := (symPart flip).prod (outSum src)

theorem probe_zero {src : κ → ι} {flip : κ → κ} {v : Stack κ d} : probe src flip v = 0 ↔ symPart flip v = 0 ∧ outSum src v = 0 := by
  rw [probe, LinearMap.prod_apply]; exact Prod.mk_eq_zero

/-- linear convergence of the relaxed splitting, for every penalty and relaxation -/
theorem relax_rate [Nonempty κ] (hf : ∀ a, flip (flip a) = a) (hρ : 0 < ρ) (hα0 : 0 < α) (hα1 : α < 1) (hm : 0 < m) (hL : 0 < L)
    (hu : ∀ i, Upper (f i) (G i) L) (hl : ∀ i, Lower (f i) (G i) m) (hξ : Resolves src ρ G ξ)
    (hinj : ∀ z p, outSum src z = outSum src p → ξ z = ξ p) (zs : Stack κ d) (hzs : reflect src flip ρ ξ zs = zs) :
    ∃ r : ℝ, 0 < r ∧ r < 1 ∧ ∀ z0, ∃ C : ℝ, 0 ≤ C ∧ ∀ k : Nat,
      ‖ξ ((relax src flip ρ α ξ)^[k] z0) - ξ zs‖ ^ 2 ≤ C * r ^ k := by
  set N : ℝ := (Fintype.card κ : ℝ) with hN
  have hN1 : 1 ≤ N := by rw [hN]; exact_mod_cast Fintype.card_pos
  set D : Stack κ d → Stack κ d → ℝ := fun z p => 4 * ρ * ⟪gradAt G (ξ z) - gradAt G (ξ p), ξ z - ξ p⟫_ℝ + (1 - α) * ‖z - reflect src flip ρ ξ z‖ ^ 2 with hD
  -- fixed points
  have hfix : ∀ p, probe src flip (p - zs) = 0 → ξ p = ξ zs ∧ reflect src flip ρ ξ p = p := by
    intro p hp
    obtain ⟨h1, h2⟩ := probe_zero.1 hp
    have hx : ξ p = ξ zs := hinj _ _ (by rw [map_sub, sub_eq_zero] at h2; exact h2)
    refine ⟨hx, ?_⟩
    apply stack_ext; intro a
    have h3 : (p a - zs a) + (p (flip a) - zs (flip a)) = 0 := by
      have := congrArg (fun v : Stack κ d => v a) h1
      exact this
    have h4 : (2 * ρ) • ξ zs (src (flip a)) - zs (flip a) = zs a := by
      have := congrArg (fun v : Stack κ d => v a) hzs
      exact this
    show (2 * ρ) • ξ p (src (flip a)) - p (flip a) = p a
    rw [hx]
    have e : (2 * ρ) • ξ zs (src (flip a)) - p (flip a) = ((2 * ρ) • ξ zs (src (flip a)) - zs (flip a)) - zs a + p a - ((p a - zs a) + (p (flip a) - zs (flip a))) := by module
    rw [e, h3, h4]; module
  have hdrop : ∀ p, probe src flip (p - zs) = 0 → ∀ z, ‖relax src flip ρ α ξ z - p‖ ^ 2 ≤ ‖z - p‖ ^ 2 - α * D z p := by
    intro p hp z
    obtain ⟨hx, hr⟩ := hfix p hp
    have e : relax src flip ρ α ξ z - p = (1 - α) • (z - p) + α • (reflect src flip ρ ξ z - reflect src flip ρ ξ p) := by
      rw [relax]; rw [hr]; module
    have e2 : (z - p) - (reflect src flip ρ ξ z - reflect src flip ρ ξ p) = z - reflect src flip ρ ξ z := by
      rw [hr]; abel
    rw [e, combo_sq, reflect_sq hf hξ, e2, hD]
    simp only
    apply le_of_eq; ring
  have hT : ∀ p, probe src flip (p - zs) = 0 → ∀ z, ‖probe src flip (z - p)‖ ^ 2 ≤
      (2 / (1 - α) + (2 * ρ * N / m + (ρ * N ^ 2 / (2 * m) + L / (2 * ρ)))) * D z p := by
    intro p hp z
    obtain ⟨hx, hr⟩ := hfix p hp
    set Q := ⟪gradAt G (ξ z) - gradAt G (ξ p), ξ z - ξ p⟫_ℝ with hQ
    have hmono : m * ‖ξ z - ξ p‖ ^ 2 ≤ Q := stack_monotone hl _ _
    have hΔ : ‖ξ z - ξ p‖ ^ 2 ≤ Q / m := by rw [le_div_iff₀ hm]; linarith
    have hg : ‖gradAt G (ξ z) - gradAt G (ξ p)‖ ^ 2 ≤ L * Q := stack_cocoercive hL hu (fun i => (hl i).mono hm.le) _ _
    have hQ0 : 0 ≤ Q := le_trans (by positivity) hmono
    have h1 : ‖symPart flip (z - p)‖ ^ 2 ≤ 2 * ‖z - reflect src flip ρ ξ z‖ ^ 2 + 8 * ρ ^ 2 * (N * ‖ξ z - ξ p‖ ^ 2) := by
      have e : symPart flip (z - p) = (z - reflect src flip ρ ξ z) + (2 * ρ) • (stack fun a => spread src (ξ z - ξ p) (flip a)) := by
        apply stack_ext; intro a
        have h4 : p a = (2 * ρ) • ξ p (src (flip a)) - p (flip a) := by
          have := congrArg (fun v : Stack κ d => v a) hr
          exact this.symm
        show (z a - p a) + (z (flip a) - p (flip a)) = (z a - ((2 * ρ) • ξ z (src (flip a)) - z (flip a))) + (2 * ρ) • (ξ z (src (flip a)) - ξ p (src (flip a)))
        rw [h4]; module
      rw [e]
      have t := parallelogram_le (z - reflect src flip ρ ξ z) ((2 * ρ) • (stack fun a => spread src (ξ z - ξ p) (flip a)))
      have t2 : ‖(2 * ρ) • (stack fun a => spread src (ξ z - ξ p) (flip a) : Stack κ d)‖ ^ 2 = 4 * ρ ^ 2 * ‖spread src (ξ z - ξ p)‖ ^ 2 := by
        rw [norm_smul, mul_pow, norm_flip flip hf, Real.norm_eq_abs, sq_abs]; ring
      have t3 := spread_norm_le src (ξ z - ξ p)
      have t4 := mul_le_mul_of_nonneg_left t3 (show 0 ≤ 8 * ρ ^ 2 by positivity)
      rw [t2] at t
      linarith
    have h2 : ‖outSum src (z - p)‖ ^ 2 ≤ 2 * ρ ^ 2 * (N ^ 2 * ‖ξ z - ξ p‖ ^ 2) + 2 * ‖gradAt G (ξ z) - gradAt G (ξ p)‖ ^ 2 := by
      rw [stack_norm_sq, stack_norm_sq, stack_norm_sq, Finset.mul_sum, Finset.mul_sum, Finset.mul_sum, ← Finset.sum_add_distrib]
      apply Finset.sum_le_sum
      intro i _
      have e : outSum src (z - p) i = (ρ * deg src i) • (ξ z - ξ p) i + (gradAt G (ξ z) - gradAt G (ξ p)) i := by
        rw [map_sub]
        show outSum src z i - outSum src p i = (ρ * deg src i) • (ξ z i - ξ p i) + (G i (ξ z i) - G i (ξ p i))
        rw [← hξ z i, ← hξ p i]; module
      rw [e]
      have t := parallelogram_le ((ρ * deg src i) • (ξ z - ξ p) i) ((gradAt G (ξ z) - gradAt G (ξ p)) i)
      have t2 : ‖(ρ * deg src i) • (ξ z - ξ p) i‖ ^ 2 = ρ ^ 2 * (deg src i ^ 2 * ‖(ξ z - ξ p) i‖ ^ 2) := by
        rw [norm_smul, mul_pow, Real.norm_eq_abs, sq_abs]; ring
      have t3 : deg src i ^ 2 * ‖(ξ z - ξ p) i‖ ^ 2 ≤ N ^ 2 * ‖(ξ z - ξ p) i‖ ^ 2 :=
        mul_le_mul_of_nonneg_right (pow_le_pow_left₀ (deg_nonneg src i) (deg_le src i) 2) (sq_nonneg _)
      have t4 := mul_le_mul_of_nonneg_left t3 (show 0 ≤ 2 * ρ ^ 2 by positivity)
      rw [t2] at t
      linarith
    have h3 : ‖probe src flip (z - p)‖ ^ 2 ≤ ‖symPart flip (z - p)‖ ^ 2 + ‖outSum src (z - p)‖ ^ 2 := by
      have : probe src flip (z - p) = (symPart flip (z - p), outSum src (z - p)) := rfl
      rw [this, Prod.norm_def]
      rcases max_choice ‖symPart flip (z - p)‖ ‖outSum src (z - p)‖ with e | e
      · simp only; rw [e]; nlinarith [sq_nonneg ‖outSum src (z - p)‖]
      · simp only; rw [e]; nlinarith [sq_nonneg ‖symPart flip (z - p)‖]
    have h1α : 0 < 1 - α := by linarith
    set Rz := ‖z - reflect src flip ρ ξ z‖ ^ 2 with hRz
    have hRz0 : 0 ≤ Rz := sq_nonneg _
    have k1 : 8 * ρ ^ 2 * (N * ‖ξ z - ξ p‖ ^ 2) ≤ 2 * ρ * N / m * (4 * ρ * Q) := by
      have := mul_le_mul_of_nonneg_left hΔ (show 0 ≤ 8 * ρ ^ 2 * N by positivity)
      have e : 8 * ρ ^ 2 * N * (Q / m) = 2 * ρ * N / m * (4 * ρ * Q) := by field_simp; ring
      linarith
    have k2 : 2 * ρ ^ 2 * (N ^ 2 * ‖ξ z - ξ p‖ ^ 2) ≤ ρ * N ^ 2 / (2 * m) * (4 * ρ * Q) := by
      have := mul_le_mul_of_nonneg_left hΔ (show 0 ≤ 2 * ρ ^ 2 * N ^ 2 by positivity)
      have e : 2 * ρ ^ 2 * N ^ 2 * (Q / m) = ρ * N ^ 2 / (2 * m) * (4 * ρ * Q) := by field_simp; ring
      linarith
    have k3 : 2 * ‖gradAt G (ξ z) - gradAt G (ξ p)‖ ^ 2 ≤ L / (2 * ρ) * (4 * ρ * Q) := by
      have e : L / (2 * ρ) * (4 * ρ * Q) = 2 * (L * Q) := by field_simp; ring
      linarith
    have k4 : 2 * Rz = 2 / (1 - α) * ((1 - α) * Rz) := by field_simp
    have p1 : 0 ≤ 2 / (1 - α) * (4 * ρ * Q) := by positivity
    have p2 : 0 ≤ (2 * ρ * N / m + (ρ * N ^ 2 / (2 * m) + L / (2 * ρ))) * ((1 - α) * Rz) := by positivity
    have expand : (2 / (1 - α) + (2 * ρ * N / m + (ρ * N ^ 2 / (2 * m) + L / (2 * ρ)))) * (4 * ρ * Q + (1 - α) * Rz) =
        2 / (1 - α) * ((1 - α) * Rz) + (2 * ρ * N / m * (4 * ρ * Q) + ρ * N ^ 2 / (2 * m) * (4 * ρ * Q) + L / (2 * ρ) * (4 * ρ * Q)) +
        2 / (1 - α) * (4 * ρ * Q) + (2 * ρ * N / m + (ρ * N ^ 2 / (2 * m) + L / (2 * ρ))) * ((1 - α) * Rz) := by ring
    show _ ≤ (2 / (1 - α) + (2 * ρ * N / m + (ρ * N ^ 2 / (2 * m) + L / (2 * ρ)))) * (4 * ρ * Q + (1 - α) * Rz)
    rw [expand]
    linarith
  have horth : ∀ z k, probe src flip k = 0 → ⟪k, relax src flip ρ α ξ z - z⟫_ℝ = 0 := by
    intro z k hk
    obtain ⟨h1, h2⟩ := probe_zero.1 hk
    have hneg : ∀ a, k (flip a) = - k a := by
      intro a
      have : k a + k (flip a) = 0 := congrArg (fun v : Stack κ d => v a) h1
      exact (neg_eq_of_add_eq_zero_right this).symm
    have hk' : (stack fun a => k (flip a) : Stack κ d) = -k := by
      apply stack_ext; intro a; exact hneg a
    have e : relax src flip ρ α ξ z - z = α • ((stack fun a => ((2 * ρ) • spread src (ξ z) - z) (flip a)) - z) := by
      apply stack_ext; intro a
      show (1 - α) • z a + α • ((2 * ρ) • ξ z (src (flip a)) - z (flip a)) - z a = α • (((2 * ρ) • ξ z (src (flip a)) - z (flip a)) - z a)
      module
    rw [e, inner_smul_right, inner_sub_right, inner_flip flip hf, hk', inner_neg_left, inner_sub_right, inner_smul_right, inner_spread, h2,
      inner_zero_left]
    ring
  have h1α : 0 < 1 - α := by linarith
  obtain ⟨r, hr0, hr1, hr⟩ := rate_of_drop (probe src flip) (relax src flip ρ α ξ) zs D α
    (2 / (1 - α) + (2 * ρ * N / m + (ρ * N ^ 2 / (2 * m) + L / (2 * ρ)))) hα0 (by positivity) hdrop hT horth
  refine ⟨r, hr0, hr1, fun z0 => ?_⟩
  obtain ⟨p, hp, hk⟩ := hr z0
  refine ⟨‖z0 - p‖ ^ 2 / (4 * α * ρ * m), by positivity, fun k => ?_⟩
  have h1 := hdrop p hp ((relax src flip ρ α ξ)^[k] z0)
  have h2 := hk k
  have h3 : m * ‖ξ ((relax src flip ρ α ξ)^[k] z0) - ξ p‖ ^ 2 ≤ _ := stack_monotone hl _ _
  rw [← (hfix p hp).1]
  set zk := (relax src flip ρ α ξ)^[k] z0
  have h4 : α * (4 * ρ * (m * ‖ξ zk - ξ p‖ ^ 2)) ≤ α * D zk p := by
    apply mul_le_mul_of_nonneg_left _ hα0.le
    show _ ≤ 4 * ρ * _ + _
    have := mul_le_mul_of_nonneg_left h3 (show 0 ≤ 4 * ρ by positivity)
    have : 0 ≤ (1 - α) * ‖zk - reflect src flip ρ ξ zk‖ ^ 2 := by positivity
    linarith
  have h5 := sq_nonneg ‖relax src flip ρ α ξ zk - p‖
  rw [div_mul_eq_mul_div, le_div_iff₀ (by positivity)]
  have e : ‖ξ zk - ξ p‖ ^ 2 * (4 * α * ρ * m) = α * (4 * ρ * (m * ‖ξ zk - ξ p‖ ^ 2)) := by ring
  rw [e]
  linarith

end graph
end Verif.Arcs
