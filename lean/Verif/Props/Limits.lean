import Verif.Props.PrimalDual
import Verif.Props.FedRest
set_option linter.unusedSectionVars false
/-!
# C107: what a run that converges has converged to

No convexity: the gradients `G i` are only assumed continuous, the step size only non-zero. If the agents' states converge along a run,
then to a common value at which the gradients sum to zero.
-/
namespace Verif.Props
open Verif P2P Sys Consensus Costs Filter Topology
open scoped InnerProductSpace

section
variable {A Ω : Type} [DecidableEq A] {d : Nat}

/-- SPEC: whenever the agents' states converge along a run, the limits agree and the gradients there sum to zero -/
def LimitsSolve {α : Type} (alg : P2PAlg A (Vec d) Ω α) (x : α → Vec d) (w : World A (Vec d) Ω) (n : Net A) (G : A → Vec d → Vec d) : Prop :=
  ∀ (x0 : A → Vec d) (s0 : Sys A (Vec d) Ω α) (S : Nat → Sys A (Vec d) Ω α) (xb : A → Vec d), (∀ k, alg.after w n x0 s0 k = .ok (S k)) →
    (∀ i ∈ n.nodes, Tendsto (fun k => x ((S k).loc i)) atTop (𝓝 (xb i))) →
    (∀ i ∈ n.nodes, ∀ j ∈ n.nodes, xb i = xb j) ∧ (n.nodes.map fun i => G i (xb i)).sum = 0

/-! ## stacks -/

theorem tendsto_stack {n : Net A} {X : Nat → A → Vec d} {xb : A → Vec d} (h : ∀ i ∈ n.nodes, Tendsto (fun k => X k i) atTop (𝓝 (xb i))) :
    Tendsto (fun k => gather n (X k)) atTop (𝓝 (gather n xb)) := by
  have h1 : Tendsto (fun k => (fun i : Node n => X k i.1)) atTop (𝓝 (fun i : Node n => xb i.1)) := tendsto_pi_nhds.2 (fun i => h i.1 i.mem)
  exact ((PiLp.continuous_toLp 2 (fun _ : Node n => Vec d)).tendsto _).comp h1

theorem continuous_gradAt {ι : Type} [Fintype ι] {G : ι → Vec d → Vec d} (hG : ∀ i, Continuous (G i)) : Continuous (gradAt G) := by
  refine (PiLp.continuous_toLp 2 (fun _ : ι => Vec d)).comp (continuous_pi fun i => (hG i).comp ?_)
  exact (continuous_apply i).comp (PiLp.continuous_ofLp 2 (fun _ : ι => Vec d))

section hilbert
variable {H : Type} [NormedAddCommGroup H] [InnerProductSpace ℝ H] [FiniteDimensional ℝ H]

/-- `x_{k+2} = T(2 x_{k+1} - x_k - ρ (g x_{k+1} - g x_k))` -/
theorem limit_two (T : H →ₗ[ℝ] H) {g : H → H} (hg : Continuous g) (ρ : ℝ) (X : Nat → H) (x : H) (hX : Tendsto X atTop (𝓝 x))
    (h : ∀ k, X (k + 2) = T ((2 : ℝ) • X (k + 1) - X k - ρ • (g (X (k + 1)) - g (X k)))) : T x = x := by
  have hT : Continuous T := T.continuous_of_finiteDimensional
  have h1 : Tendsto (fun k => X (k + 1)) atTop (𝓝 x) := (tendsto_add_atTop_iff_nat 1).2 hX
  have h2 : Tendsto (fun k => X (k + 2)) atTop (𝓝 x) := (tendsto_add_atTop_iff_nat 2).2 hX
  have g0 : Tendsto (fun k => g (X k)) atTop (𝓝 (g x)) := (hg.tendsto x).comp hX
  have g1 : Tendsto (fun k => g (X (k + 1))) atTop (𝓝 (g x)) := (hg.tendsto x).comp h1
  have h3 : Tendsto (fun k => X (k + 2)) atTop (𝓝 (T ((2 : ℝ) • x - x - ρ • (g x - g x)))) := by
    have := (hT.tendsto _).comp (((h1.const_smul (2 : ℝ)).sub hX).sub ((g1.sub g0).const_smul ρ))
    refine this.congr (fun k => (h k).symm)
  have e := tendsto_nhds_unique h2 h3
  rw [sub_self, smul_zero, sub_zero, two_smul, add_sub_cancel_right] at e
  exact e.symm

/-- `x_{k+2} = A x_{k+1} - B x_k - ρ (g x_{k+1} - g x_k)` -/
theorem limit_three (A' B : H →ₗ[ℝ] H) {g : H → H} (hg : Continuous g) (ρ : ℝ) (X : Nat → H) (x : H) (hX : Tendsto X atTop (𝓝 x))
    (h : ∀ k, X (k + 2) = A' (X (k + 1)) - B (X k) - ρ • (g (X (k + 1)) - g (X k))) : x = A' x - B x := by
  have hA : Continuous A' := A'.continuous_of_finiteDimensional
  have hB : Continuous B := B.continuous_of_finiteDimensional
  have h1 : Tendsto (fun k => X (k + 1)) atTop (𝓝 x) := (tendsto_add_atTop_iff_nat 1).2 hX
  have h2 : Tendsto (fun k => X (k + 2)) atTop (𝓝 x) := (tendsto_add_atTop_iff_nat 2).2 hX
  have g0 : Tendsto (fun k => g (X k)) atTop (𝓝 (g x)) := (hg.tendsto x).comp hX
  have g1 : Tendsto (fun k => g (X (k + 1))) atTop (𝓝 (g x)) := (hg.tendsto x).comp h1
  have h3 : Tendsto (fun k => X (k + 2)) atTop (𝓝 (A' x - B x - ρ • (g x - g x))) := by
    have := ((((hA.tendsto _).comp h1).sub ((hB.tendsto _).comp hX)).sub ((g1.sub g0).const_smul ρ))
    exact this.congr (fun k => (h k).symm)
  have e := tendsto_nhds_unique h2 h3
  rwa [sub_self, smul_zero, sub_zero] at e

/-- `x⁺ = x - K (x + z) - ρ g x`, `z⁺ = z + K x` -/
theorem limit_dual (K : H →ₗ[ℝ] H) (hs : ∀ u v, ⟪K u, v⟫_ℝ = ⟪u, K v⟫_ℝ) {g : H → H} (hg : Continuous g) (ρ : ℝ) (X Z : Nat → H) (x : H) (hX : Tendsto X atTop (𝓝 x))
    (h : ∀ k, X (k + 1) = X k - K (X k + Z k) - ρ • g (X k)) (hz : ∀ k, Z (k + 1) = Z k + K (X k)) : K x = 0 := by
  have hK : Continuous K := K.continuous_of_finiteDimensional
  have h1 : Tendsto (fun k => X (k + 1)) atTop (𝓝 x) := (tendsto_add_atTop_iff_nat 1).2 hX
  have g0 : Tendsto (fun k => g (X k)) atTop (𝓝 (g x)) := (hg.tendsto x).comp hX
  have hKX : Tendsto (fun k => K (X k)) atTop (𝓝 (K x)) := (hK.tendsto x).comp hX
  have hKZ : Tendsto (fun k => K (Z k)) atTop (𝓝 (x - x - K x - ρ • g x)) := by
    have := ((hX.sub h1).sub hKX).sub (g0.const_smul ρ)
    refine this.congr (fun k => ?_)
    rw [h k, map_add]; abel
  have hKZ1 : Tendsto (fun k => K (Z (k + 1))) atTop (𝓝 (x - x - K x - ρ • g x)) := (tendsto_add_atTop_iff_nat 1).2 hKZ
  have hKK : Tendsto (fun k => K (K (X k))) atTop (𝓝 0) := by
    have := hKZ1.sub hKZ
    rw [sub_self] at this
    refine this.congr (fun k => ?_)
    rw [hz k, map_add]; abel
  have e : K (K x) = 0 := tendsto_nhds_unique ((hK.tendsto _).comp hKX) hKK
  have : ⟪K x, K x⟫_ℝ = 0 := by rw [hs, e, inner_zero_right]
  exact inner_self_eq_zero.1 this

/-- tracking: `x⁺ = W (x - ρ y)`, `y⁺ = W (y + g x⁺ - g x)` or `y⁺ = W y + g x⁺ - g x` (`R = W` or `R = 1`) -/
theorem limit_tracking (P W R : H →ₗ[ℝ] H) (hP : ∀ v, P (W v) = P v) (hfix : ∀ v, W v = v → P v = v) {g : H → H} (hg : Continuous g) (ρ : ℝ) (hρ : ρ ≠ 0) (X Y : Nat → H) (x : H)
    (hX : Tendsto X atTop (𝓝 x)) (h : ∀ k, X (k + 1) = W (X k - ρ • Y k)) (hy : ∀ k, Y (k + 1) = W (Y k) + R (g (X (k + 1)) - g (X k))) : W x = x := by
  have hW : Continuous W := W.continuous_of_finiteDimensional
  have hR : Continuous R := R.continuous_of_finiteDimensional
  have h1 : Tendsto (fun k => X (k + 1)) atTop (𝓝 x) := (tendsto_add_atTop_iff_nat 1).2 hX
  have g0 : Tendsto (fun k => g (X k)) atTop (𝓝 (g x)) := (hg.tendsto x).comp hX
  have g1 : Tendsto (fun k => g (X (k + 1))) atTop (𝓝 (g x)) := (hg.tendsto x).comp h1
  have hWX : Tendsto (fun k => W (X k)) atTop (𝓝 (W x)) := (hW.tendsto x).comp hX
  obtain ⟨y, hyd⟩ : ∃ y, y = ρ⁻¹ • (W x - x) := ⟨_, rfl⟩
  have hWY : Tendsto (fun k => W (Y k)) atTop (𝓝 y) := by
    rw [hyd]
    refine ((hWX.sub h1).const_smul ρ⁻¹).congr (fun k => ?_)
    rw [h k, map_sub, map_smul, sub_sub_cancel, smul_smul, inv_mul_cancel₀ hρ, one_smul]
  have hY : Tendsto (fun k => Y (k + 1)) atTop (𝓝 y) := by
    have := hWY.add ((hR.tendsto _).comp (g1.sub g0))
    rw [sub_self, map_zero, add_zero] at this
    exact this.congr (fun k => (hy k).symm)
  have hWY1 : Tendsto (fun k => W (Y (k + 1))) atTop (𝓝 y) := (tendsto_add_atTop_iff_nat 1).2 hWY
  have e1 : W y = y := tendsto_nhds_unique ((hW.tendsto _).comp hY) hWY1
  have e2 : P y = 0 := by rw [hyd, map_smul, map_sub, hP, sub_self, smul_zero]
  have e3 : y = 0 := by rw [← hfix y e1, e2]
  rw [hyd] at e3
  have := (smul_eq_zero.1 e3).resolve_left (inv_ne_zero hρ)
  exact sub_eq_zero.1 this

end hilbert

/-! ## from the recursions to the runs -/

section
variable {α : Type} {alg : P2PAlg A (Vec d) Ω α} {x : α → Vec d} {w : World A (Vec d) Ω} {n : Net A} {W : A → A → ℝ} {G : A → Vec d → Vec d}

theorem limits_solve (hw : n.WF) (hc : JoinedUp n) (hW : GoodWeights n W) (hcont : ∀ i, Continuous (G i)) (ρ : ℝ) (hρ : ρ ≠ 0)
    (havg : AverageDescends alg x w n G ρ) (X : (A → Vec d) → Nat → A → Vec d) (hX : ∀ x0, Computes alg x w n x0 (X x0))
    (hb : ∀ x0 (xb : Stack (Node n) d), Tendsto (fun k => gather n (X x0 k)) atTop (𝓝 xb) → minus (mixOp (nodeW n W)) xb = 0) : LimitsSolve alg x w n G := by
  intro x0 s0 S xb hS hlim
  have hX' : ∀ k, ∀ i ∈ n.nodes, x ((S k).loc i) = X x0 k i := by
    intro k i hi
    obtain ⟨s, h1, h2⟩ := hX x0 s0 k
    rw [hS k] at h1
    injection h1 with h1
    rw [h1]; exact h2 i hi
  have ht : Tendsto (fun k => gather n (X x0 k)) atTop (𝓝 (gather n xb)) :=
    tendsto_stack (fun i hi => (hlim i hi).congr (fun k => hX' k i hi))
  have hag := minus_ker (hW.stochastic hw.nodup) (hW.linked hw hc) _ (hb x0 _ ht)
  refine ⟨fun i hi j hj => hag ⟨i, by simpa using hi⟩ ⟨j, by simpa using hj⟩, ?_⟩
  have htot : ∀ {F : A → Nat → Vec d} {v : A → Vec d}, (∀ i ∈ n.nodes, Tendsto (F i) atTop (𝓝 (v i))) → Tendsto (fun k => netAvg n (fun i => F i k)) atTop (𝓝 (netAvg n v)) := by
    intro F v hF
    unfold netAvg total
    exact (tendsto_list_sum n.nodes hF).const_smul _
  have h0 := htot hlim
  have h1 : Tendsto (fun k => netAvg n (fun i => x ((S (k + 1)).loc i))) atTop (𝓝 (netAvg n xb)) := (tendsto_add_atTop_iff_nat 1).2 h0
  have h2 := htot (F := fun i k => G i (x ((S k).loc i))) (v := fun i => G i (xb i)) (fun i hi => ((hcont i).tendsto _).comp (hlim i hi))
  have h3 : Tendsto (fun k => netAvg n (fun i => x ((S (k + 1)).loc i))) atTop (𝓝 (netAvg n xb - ρ • netAvg n (fun i => G i (xb i)))) := by
    refine (h0.sub (h2.const_smul ρ)).congr (fun k => ?_)
    obtain ⟨s, s', a1, a2, a3⟩ := havg x0 s0 k
    rw [hS k] at a1
    rw [hS (k + 1)] at a2
    injection a1 with a1
    injection a2 with a2
    rw [a1, a2]; exact a3.symm
  have e := tendsto_nhds_unique h1 h3
  have e1 : ρ • netAvg n (fun i => G i (xb i)) = 0 := by
    have := sub_eq_self.1 e.symm
    exact this
  have e2 : netAvg n (fun i => G i (xb i)) = 0 := (smul_eq_zero.1 e1).resolve_left hρ
  unfold netAvg at e2
  rcases smul_eq_zero.1 e2 with h | h
  · have : n.nodes.length = 0 := by
      by_contra hne
      have : (0 : ℝ) < n.nodes.length := by exact_mod_cast Nat.pos_of_ne_zero hne
      rw [one_div, inv_eq_zero] at h
      linarith
    rw [List.length_eq_zero_iff.1 this]; rfl
  · exact h

theorem minus_of_fixed {n : Net A} {v : Stack (Node n) d} (h : mixOp (nodeW n W) v = v) : minus (mixOp (nodeW n W)) v = 0 := by
  rw [minus_apply, h, sub_self, smul_zero]

theorem minus_of_plus {n : Net A} {v : Stack (Node n) d} (h : plus (mixOp (nodeW n W)) v = v) : minus (mixOp (nodeW n W)) v = 0 := by
  have := plus_add_minus (mixOp (nodeW n W)) v
  rw [h] at this
  exact add_eq_left.1 this

/-- `(I + W) / 2` as a linear map -/
noncomputable def plusMap (n : Net A) (W : A → A → ℝ) : Stack (Node n) d →ₗ[ℝ] Stack (Node n) d := (1 / 2 : ℝ) • (LinearMap.id + mixOp (nodeW n W))

theorem plusMap_apply (n : Net A) (W : A → A → ℝ) (v : Stack (Node n) d) : plusMap n W v = plus (mixOp (nodeW n W)) v := rfl

section
variable (h : Lossless w n) (hc : JoinedUp n) (hW : GoodWeights n W) (hcont : ∀ i, Continuous (G i)) (ρ : ℝ) (hρ : ρ ≠ 0) (grad : Grad A (Vec d) Ω) (hG : Exactly grad G)
include h hc hW hcont hρ hG

/-- C107 for SimpleGT -/
theorem C107_simple_gt : LimitsSolve (simpleGt grad W ρ) (fun a => a.x) w n G := by
  refine limits_solve h.wf hc hW hcont ρ hρ (C23_simple_gt h hW.mixing ρ grad G hG) _ (fun x0 => C65_simple_gt h hW.mixing ρ grad G hG x0) fun x0 xb hx => ?_
  have e := limit_three (LinearMap.id + mixOp (nodeW n W)) LinearMap.id (continuous_gradAt (fun i => hcont i.1) : Continuous (gradAt (nodeG n G))) ρ _ xb hx (fun k => ?_)
  · refine minus_of_fixed ?_
    have e' : xb = xb + mixOp (nodeW n W) xb - xb := e
    rw [add_sub_cancel_left] at e'
    exact e'.symm
  · have e2 : (LinearMap.id + mixOp (nodeW n W) : Stack (Node n) d →ₗ[ℝ] Stack (Node n) d) (gather n (simpleGtDoc n W ρ G x0 (k + 1)).1) =
        gather n (simpleGtDoc n W ρ G x0 (k + 1)).1 + gather n (matVec n W (simpleGtDoc n W ρ G x0 (k + 1)).1) := by
      rw [gather_matVec h.wf.nodup]; rfl
    rw [e2]
    have al : ∀ a b c e f : Vec d, (a - ρ • b) - (c - ρ • e) + f = a + f - c - ρ • (b - e) := by intros; module
    apply stack_ext; intro i
    exact al _ _ _ _ _

/-- C107 for ED -/
theorem C107_ed : LimitsSolve (ed grad W ρ) (fun a => a.x) w n G := by
  refine limits_solve h.wf hc hW hcont ρ hρ (C23_ed h hW.mixing ρ grad G hG) _ (fun x0 => C65_ed h hW.mixing ρ grad G hG x0) fun x0 xb hx => ?_
  refine minus_of_plus (limit_two (plusMap n W) (continuous_gradAt (fun i => hcont i.1) : Continuous (gradAt (nodeG n G))) ρ _ xb hx (fun k => ?_))
  rw [plusMap_apply]
  refine (gather_tilde h.wf.nodup W _).trans (congrArg _ ?_)
  apply stack_ext; intro i
  have al : ∀ a b c e : Vec d, a + (a - ρ • b) - (c - ρ • e) = (2 : ℝ) • a - c - ρ • (b - e) := by intros; module
  exact al _ _ _ _

/-- C107 for NIDS -/
theorem C107_nids : LimitsSolve (nids grad W ρ) (fun a => a.x) w n G := by
  refine limits_solve h.wf hc hW hcont ρ hρ (C23_nids h hW.mixing ρ grad G hG) _ (fun x0 => C65_nids h hW.mixing ρ grad G hG x0) fun x0 xb hx => ?_
  refine minus_of_plus (limit_two (plusMap n W) (continuous_gradAt (fun i => hcont i.1) : Continuous (gradAt (nodeG n G))) ρ _ xb hx (fun k => ?_))
  rw [plusMap_apply]
  refine (gather_tilde h.wf.nodup W _).trans (congrArg _ ?_)
  have e : (nidsDoc n W ρ G x0 (k + 1)).2 = (nidsDoc n W ρ G x0 k).1 := by cases k <;> rfl
  apply stack_ext; intro i
  show (2 : ℝ) • (nidsDoc n W ρ G x0 (k + 1)).1 i.1 - (nidsDoc n W ρ G x0 (k + 1)).2 i.1 - ρ • G i.1 ((nidsDoc n W ρ G x0 (k + 1)).1 i.1) + ρ • G i.1 ((nidsDoc n W ρ G x0 (k + 1)).2 i.1) =
    (2 : ℝ) • (nidsDoc n W ρ G x0 (k + 1)).1 i.1 - (nidsDoc n W ρ G x0 k).1 i.1 - ρ • (G i.1 ((nidsDoc n W ρ G x0 (k + 1)).1 i.1) - G i.1 ((nidsDoc n W ρ G x0 k).1 i.1))
  rw [e]
  module

/-- C107 for EXTRA -/
theorem C107_extra : LimitsSolve (extra grad W ρ) (fun a => a.x) w n G := by
  refine limits_solve h.wf hc hW hcont ρ hρ (C23_extra h hW.mixing ρ grad G hG) _ (fun x0 => C65_extra h hW.mixing ρ grad G hG x0) fun x0 xb hx => ?_
  have e := limit_three (LinearMap.id + mixOp (nodeW n W)) (plusMap n W) (continuous_gradAt (fun i => hcont i.1) : Continuous (gradAt (nodeG n G))) ρ _ xb hx (fun k => ?_)
  · have e' : xb = xb + mixOp (nodeW n W) xb - plus (mixOp (nodeW n W)) xb := e
    have hp : plus (mixOp (nodeW n W)) xb = (1 / 2 : ℝ) • (xb + mixOp (nodeW n W) xb) := rfl
    rw [minus_apply]
    rw [hp] at e'
    have : (1 / 2 : ℝ) • (xb - mixOp (nodeW n W) xb) = xb - (xb + mixOp (nodeW n W) xb - (1 / 2 : ℝ) • (xb + mixOp (nodeW n W) xb)) := by module
    rw [this, ← e', sub_self]
  · have e : (extraDoc n W ρ G x0 (k + 1)).2 = (extraDoc n W ρ G x0 k).1 := by cases k <;> rfl
    have e2 : (LinearMap.id + mixOp (nodeW n W) : Stack (Node n) d →ₗ[ℝ] Stack (Node n) d) (gather n (extraDoc n W ρ G x0 (k + 1)).1) - plusMap n W (gather n (extraDoc n W ρ G x0 k).1) =
        gather n (extraDoc n W ρ G x0 (k + 1)).1 + gather n (matVec n W (extraDoc n W ρ G x0 (k + 1)).1) - gather n (matVec n (tilde W) (extraDoc n W ρ G x0 k).1) := by
      rw [gather_tilde h.wf.nodup, gather_matVec h.wf.nodup]; rfl
    rw [e2, ← e]
    rfl

/-- C107 for Wang-Elia -/
theorem C107_wang_elia : LimitsSolve (wangElia grad W ρ) (fun a => a.x) w n G := by
  refine limits_solve h.wf hc hW hcont ρ hρ (C23_wang_elia h hW.mixing ρ grad G hG) _ (fun x0 => C65_wang_elia h hW.mixing ρ grad G hG x0) fun x0 xb hx => ?_
  have hA : Averaging (mixOp (nodeW n W) : Stack (Node n) d →ₗ[ℝ] Stack (Node n) d) := averaging (hW.stochastic h.wf.nodup)
  refine limit_dual _ (minus_symm hA) (continuous_gradAt (fun i => hcont i.1) : Continuous (gradAt (nodeG n G))) ρ _ (fun k => gather n (wangEliaDoc n W ρ G x0 k).2) xb hx (fun k => ?_) (fun k => ?_)
  · rw [← gather_add, ← gather_laplace h.wf.nodup]; rfl
  · rw [← gather_laplace h.wf.nodup]; rfl

theorem mean_fixed_ (xb : Stack (Node n) d) (hx : mixOp (nodeW n W) xb = xb) : meanOp xb = xb :=
  mean_of_agree (minus_ker (hW.stochastic h.wf.nodup) (hW.linked h.wf hc) xb (minus_of_fixed hx))

/-- C107 for Aug-DGM -/
theorem C107_aug_dgm : LimitsSolve (augDgm grad W ρ) (fun a => a.x) w n G := by
  refine limits_solve h.wf hc hW hcont ρ hρ (C23_aug_dgm h hW.mixing ρ grad G hG) _ (fun x0 => C65_aug_dgm h hW.mixing ρ grad G hG x0) fun x0 xb hx => ?_
  refine minus_of_fixed (limit_tracking meanOp (mixOp (nodeW n W)) (mixOp (nodeW n W)) (mean_even (hW.stochastic h.wf.nodup)).mean
    (mean_fixed_ h hc hW hcont ρ hρ grad hG) (continuous_gradAt (fun i => hcont i.1) : Continuous (gradAt (nodeG n G))) ρ hρ _ (fun k => gather n (augDgmDoc n W ρ G x0 k).2) xb hx (fun k => ?_) (fun k => ?_))
  · exact gather_matVec h.wf.nodup W _
  · refine (gather_matVec h.wf.nodup W _).trans ?_
    rw [← map_add]
    refine congrArg _ ?_
    apply stack_ext; intro i
    exact add_sub_assoc (_ : Vec d) _ _

/-- C107 for ATC-Tracking -/
theorem C107_atc_tracking : LimitsSolve (atcTracking grad W ρ) (fun a => a.x) w n G := by
  refine limits_solve h.wf hc hW hcont ρ hρ (C23_atc_tracking h hW.mixing ρ grad G hG) _ (fun x0 => C65_atc_tracking h hW.mixing ρ grad G hG x0) fun x0 xb hx => ?_
  refine minus_of_fixed (limit_tracking meanOp (mixOp (nodeW n W)) LinearMap.id (mean_even (hW.stochastic h.wf.nodup)).mean
    (mean_fixed_ h hc hW hcont ρ hρ grad hG) (continuous_gradAt (fun i => hcont i.1) : Continuous (gradAt (nodeG n G))) ρ hρ _ (fun k => gather n (atcTrackingDoc n W ρ G x0 k).2) xb hx (fun k => ?_) (fun k => ?_))
  · exact gather_matVec h.wf.nodup W _
  · rw [← gather_matVec h.wf.nodup]
    apply stack_ext; intro i
    exact add_sub_assoc (_ : Vec d) _ _

end

/-- C107 for DGD: a run that converges converges to a rest point of DGD (which is a consensual optimum only in the cases of C82) -/
theorem C107_dgd (h : Lossless w n) (hW : Mixing n W) (hcont : ∀ i, Continuous (G i)) (ρ : ℝ) (grad : Grad A (Vec d) Ω) (hG : Exactly grad G)
    (x0 : A → Vec d) (s0 : Sys A (Vec d) Ω _) (S : Nat → Sys A (Vec d) Ω _) (xb : A → Vec d) (hS : ∀ k, (dgd grad W ρ).after w n x0 s0 k = .ok (S k))
    (hlim : ∀ i ∈ n.nodes, Tendsto (fun k => ((S k).loc i).x) atTop (𝓝 (xb i))) : DgdStationary n W ρ G xb := by
  have hX : ∀ k, ∀ i ∈ n.nodes, ((S k).loc i).x = dgdDoc n W ρ G x0 k i := by
    intro k i hi
    obtain ⟨s, h1, h2⟩ := C65_dgd h hW ρ grad G hG x0 s0 k
    rw [hS k] at h1
    injection h1 with h1
    rw [h1]; exact h2 i hi
  intro i hi
  have hl : ∀ i ∈ n.nodes, Tendsto (fun k => dgdDoc n W ρ G x0 k i) atTop (𝓝 (xb i)) := fun i hi => (hlim i hi).congr (fun k => hX k i hi)
  have h1 : Tendsto (fun k => dgdDoc n W ρ G x0 (k + 1) i) atTop (𝓝 (xb i)) := (tendsto_add_atTop_iff_nat 1).2 (hl i hi)
  have h2 : Tendsto (fun k => dgdDoc n W ρ G x0 (k + 1) i) atTop (𝓝 ((n.nodes.map (fun j => W i j • xb j)).sum - ρ • G i (xb i))) := by
    have a1 : Tendsto (fun k => (n.nodes.map (fun j => W i j • dgdDoc n W ρ G x0 k j)).sum) atTop (𝓝 ((n.nodes.map (fun j => W i j • xb j)).sum)) :=
      tendsto_list_sum n.nodes (fun j hj => (hl j hj).const_smul (W i j))
    exact a1.sub ((((hcont i).tendsto _).comp (hl i hi)).const_smul ρ)
  exact tendsto_nhds_unique h1 h2

theorem continuous_kgtSteps {g : Vec d → Vec d} (hg : Continuous g) (ρ : ℝ) (K : Nat) : Continuous (fun p : Vec d × Vec d => kgtSteps g ρ p.1 K p.2) := by
  induction K with
  | zero => exact continuous_snd
  | succ K ih =>
    have : (fun p : Vec d × Vec d => kgtSteps g ρ p.1 (K + 1) p.2) = (fun p : Vec d × Vec d => kgtSteps g ρ p.1 K p.2) ∘ (fun p => (p.1, p.2 - ρ • (g p.2 + p.1))) := rfl
    rw [this]
    exact ih.comp (continuous_fst.prodMk (continuous_snd.sub (((hg.comp continuous_snd).add continuous_fst).const_smul ρ)))

theorem continuous_ledSteps {g : Vec d → Vec d} (hg : Continuous g) (ρ β : ℝ) (K : Nat) : Continuous (fun p : Vec d × Vec d => ledSteps g ρ β p.1 K p.2) := by
  induction K with
  | zero => exact continuous_snd
  | succ K ih =>
    have : (fun p : Vec d × Vec d => ledSteps g ρ β p.1 (K + 1) p.2) = (fun p : Vec d × Vec d => ledSteps g ρ β p.1 K p.2) ∘ (fun p => (p.1, p.2 - (ρ • g p.2 + β • p.1))) := rfl
    rw [this]
    exact ih.comp (continuous_fst.prodMk (continuous_snd.sub (((hg.comp continuous_snd).const_smul ρ).add (continuous_fst.const_smul β))))

theorem kgtSteps_iterate (g : Vec d → Vec d) (ρ : ℝ) (c : Vec d) (K : Nat) : ∀ x, kgtSteps g ρ c K x = (fun y => y - ρ • (g y + c))^[K] x := by
  induction K with
  | zero => intro x; rfl
  | succ K ih => intro x; rw [kgtSteps, ih, Function.iterate_succ_apply]

/-- local steps that return to their start: the gradient there is the opposite of the correction -/
theorem kgtSteps_return {f : Vec d → ℝ} {g : Vec d → Vec d} {L ρ : ℝ} (hu : Upper f g L) (hρ : 0 < ρ) (hρL : ρ * L < 2) (K : Nat) (hK : 0 < K) (c x : Vec d)
    (hx : kgtSteps g ρ c K x = x) : g x + c = 0 := by
  have ht := tilt_upper hu c 0 0
  rw [add_zero] at ht
  have e : ∀ y : Vec d, g y + c + (0 : ℝ) • (y - 0) = g y + c := fun y => by rw [zero_smul, add_zero]
  have := gd_return ht hρ hρL K hK x (by
    rw [kgtSteps_iterate] at hx
    simp only [e]
    exact hx)
  rwa [e] at this

theorem sum_tendsto {l : List A} {F : Nat → A → Vec d} {v : A → Vec d} (h : ∀ i ∈ l, Tendsto (fun k => F k i) atTop (𝓝 (v i))) :
    Tendsto (fun k => (l.map (F k)).sum) atTop (𝓝 ((l.map v).sum)) := tendsto_list_sum l h

/-- C107 for LED, for `L`-smooth costs (convex or not) and `ρ < 2 / L`: if states and dual variables converge, the states' limits agree and solve the problem. -/
theorem C107_led (h : Lossless w n) (hc : JoinedUp n) (hW : GoodWeights n W) (hcont : ∀ i, Continuous (G i)) {f : A → Vec d → ℝ} {L : ℝ} (hup : ∀ i ∈ n.nodes, Upper (f i) (G i) L)
    (ρ β : ℝ) (hρ : 0 < ρ) (hρL : ρ * L < 2) (τ : Nat) (hτ : 0 < τ) (grad : Grad A (Vec d) Ω) (hG : Exactly grad G)
    (x0 : A → Vec d) (s0 : Sys A (Vec d) Ω (Led (Vec d))) (S : Nat → Sys A (Vec d) Ω (Led (Vec d))) (xb yb : A → Vec d) (hS : ∀ k, (led grad W ρ β τ).after w n x0 s0 k = .ok (S k))
    (hx : ∀ i ∈ n.nodes, Tendsto (fun k => ((S k).loc i).x) atTop (𝓝 (xb i))) (hy : ∀ i ∈ n.nodes, Tendsto (fun k => ((S k).loc i).y) atTop (𝓝 (yb i))) :
    (∀ i ∈ n.nodes, ∀ j ∈ n.nodes, xb i = xb j) ∧ (n.nodes.map fun i => G i (xb i)).sum = 0 := by
  have hw := h.wf
  have hrun : ∀ k, ∀ i ∈ n.nodes, ((S k).loc i).x = (ledDoc n W ρ β τ G x0 k).1 i ∧ ((S k).loc i).y = (ledDoc n W ρ β τ G x0 k).2 i := by
    intro k i hi
    obtain ⟨s, h1, h2⟩ := led_both h hW.mixing ρ β τ grad G hG x0 s0 k
    rw [hS k] at h1
    injection h1 with h1
    rw [h1]; exact h2 i hi
  obtain ⟨X, hX⟩ : ∃ X : Nat → A → Vec d, X = fun k => (ledDoc n W ρ β τ G x0 k).1 := ⟨_, rfl⟩
  obtain ⟨Y, hY⟩ : ∃ Y : Nat → A → Vec d, Y = fun k => (ledDoc n W ρ β τ G x0 k).2 := ⟨_, rfl⟩
  obtain ⟨Φ, hΦ⟩ : ∃ Φ : Nat → A → Vec d, Φ = fun k i => ledSteps (G i) ρ β (Y k i) τ (X k i) := ⟨_, rfl⟩
  have sx : ∀ k, X (k + 1) = matVec n W (Φ k) := by intro k; rw [hΦ, hX, hY]; rfl
  have sy : ∀ k i, Y (k + 1) i = Y k i + (Φ k i - matVec n W (Φ k) i) := by intro k i; rw [hΦ, hX, hY]; rfl
  have lx : ∀ i ∈ n.nodes, Tendsto (fun k => X k i) atTop (𝓝 (xb i)) := fun i hi => (hx i hi).congr (fun k => by rw [hX]; exact (hrun k i hi).1)
  have ly : ∀ i ∈ n.nodes, Tendsto (fun k => Y k i) atTop (𝓝 (yb i)) := fun i hi => (hy i hi).congr (fun k => by rw [hY]; exact (hrun k i hi).2)
  obtain ⟨φ, hφ⟩ : ∃ φ : A → Vec d, φ = fun i => ledSteps (G i) ρ β (yb i) τ (xb i) := ⟨_, rfl⟩
  have lΦ : ∀ i ∈ n.nodes, Tendsto (fun k => Φ k i) atTop (𝓝 (φ i)) := by
    intro i hi
    rw [hΦ, hφ]
    exact ((continuous_ledSteps (hcont i) ρ β τ).tendsto (yb i, xb i)).comp ((ly i hi).prodMk_nhds (lx i hi))
  have lm : ∀ i ∈ n.nodes, Tendsto (fun k => matVec n W (Φ k) i) atTop (𝓝 (matVec n W φ i)) := fun i _ => tendsto_list_sum n.nodes (fun j hj => (lΦ j hj).const_smul (W i j))
  have e1 : ∀ i ∈ n.nodes, xb i = matVec n W φ i := by
    intro i hi
    have a1 : Tendsto (fun k => X (k + 1) i) atTop (𝓝 (xb i)) := (tendsto_add_atTop_iff_nat 1).2 (lx i hi)
    exact tendsto_nhds_unique a1 ((lm i hi).congr (fun k => by rw [sx k]))
  have e2 : ∀ i ∈ n.nodes, φ i = xb i := by
    intro i hi
    have a1 : Tendsto (fun k => Y (k + 1) i) atTop (𝓝 (yb i)) := (tendsto_add_atTop_iff_nat 1).2 (ly i hi)
    have a2 := ((ly i hi).add ((lΦ i hi).sub (lm i hi))).congr (fun k => (sy k i).symm)
    have a3 := tendsto_nhds_unique a1 a2
    have a4 : φ i - matVec n W φ i = 0 := by
      have := add_eq_left.1 a3.symm
      exact this
    rw [sub_eq_zero.1 a4, e1 i hi]
  have hfix : mixOp (nodeW n W) (gather n xb) = gather n xb := by
    rw [← gather_matVec hw.nodup]
    apply stack_ext; intro i
    show matVec n W xb i.1 = xb i.1
    rw [e1 i.1 i.mem]
    unfold matVec
    refine congrArg List.sum (List.map_congr_left fun j hj => ?_)
    exact congrArg (W i.1 j • ·) (e2 j hj).symm
  have hag := minus_ker (hW.stochastic hw.nodup) (hW.linked hw hc) _ (minus_of_fixed hfix)
  refine ⟨fun i hi j hj => hag ⟨i, by simpa using hi⟩ ⟨j, by simpa using hj⟩, ?_⟩
  have hret : ∀ i ∈ n.nodes, G i (xb i) = -((β / ρ) • yb i) := by
    intro i hi
    have a1 := e2 i hi
    rw [hφ] at a1
    dsimp only at a1
    rw [ledSteps_eq _ _ _ hρ.ne'] at a1
    exact eq_neg_of_add_eq_zero_left (kgtSteps_return (hup i hi) hρ hρL τ hτ _ _ a1)
  have hsum0 : (n.nodes.map yb).sum = 0 := by
    have a1 := sum_tendsto (F := fun k i => ((S k).loc i).y) (v := yb) hy
    refine tendsto_nhds_unique a1 (tendsto_const_nhds.congr (fun k => ?_))
    obtain ⟨s, b1, b2⟩ := C25_led h hW.mixing ρ β τ grad x0 s0 k
    rw [hS k] at b1
    injection b1 with b1
    rw [← b1] at b2
    exact b2.symm
  have e3 : (n.nodes.map fun i => G i (xb i)) = n.nodes.map fun i => (-(β / ρ)) • yb i := List.map_congr_left fun i hi => by rw [hret i hi, neg_smul]
  rw [e3, listSum_smul, hsum0, smul_zero]

/-- C107 for K-GT, likewise -/
theorem C107_kgt (h : Lossless w n) (hc : JoinedUp n) (hW : GoodWeights n W) (hcont : ∀ i, Continuous (G i)) {f : A → Vec d → ℝ} {L : ℝ} (hup : ∀ i ∈ n.nodes, Upper (f i) (G i) L)
    (ρ β : ℝ) (hρ : 0 < ρ) (hρL : ρ * L < 2) (hβ : β ≠ 0) (K : Nat) (hK : 0 < K) (grad : Grad A (Vec d) Ω) (hG : Exactly grad G)
    (x0 : A → Vec d) (s0 : Sys A (Vec d) Ω (Kgt (Vec d))) (S : Nat → Sys A (Vec d) Ω (Kgt (Vec d))) (xb cb : A → Vec d) (hS : ∀ k, (kgt grad W ρ β K).after w n x0 s0 k = .ok (S k))
    (hx : ∀ i ∈ n.nodes, Tendsto (fun k => ((S k).loc i).x) atTop (𝓝 (xb i))) (hy : ∀ i ∈ n.nodes, Tendsto (fun k => ((S k).loc i).c) atTop (𝓝 (cb i))) :
    (∀ i ∈ n.nodes, ∀ j ∈ n.nodes, xb i = xb j) ∧ (n.nodes.map fun i => G i (xb i)).sum = 0 := by
  have hw := h.wf
  have hSt := hW.stochastic hw.nodup
  have hK' : (0 : ℝ) < K := by exact_mod_cast hK
  have hrun : ∀ k, ∀ i ∈ n.nodes, ((S k).loc i).x = (kgtDoc n W ρ β K G x0 k).1 i ∧ ((S k).loc i).c = (kgtDoc n W ρ β K G x0 k).2 i := by
    intro k i hi
    obtain ⟨s, h1, h2⟩ := kgt_both h hW.mixing ρ β K grad G hG x0 s0 k
    rw [hS k] at h1
    injection h1 with h1
    rw [h1]; exact h2 i hi
  obtain ⟨X, hX⟩ : ∃ X : Nat → A → Vec d, X = fun k => (kgtDoc n W ρ β K G x0 k).1 := ⟨_, rfl⟩
  obtain ⟨C, hC⟩ : ∃ C : Nat → A → Vec d, C = fun k => (kgtDoc n W ρ β K G x0 k).2 := ⟨_, rfl⟩
  obtain ⟨Z, hZ⟩ : ∃ Z : Nat → A → Vec d, Z = fun k i => localMean (G i) ρ (C k i) K (X k i) := ⟨_, rfl⟩
  have sx : ∀ k, X (k + 1) = matVec n W (fun i => X k i - ((K : ℝ) * β * ρ) • Z k i) := by intro k; rw [hZ, hX, hC]; rfl
  have sc : ∀ k i, C (k + 1) i = C k i - Z k i + matVec n W (Z k) i := by intro k i; rw [hZ, hX, hC]; rfl
  have lx : ∀ i ∈ n.nodes, Tendsto (fun k => X k i) atTop (𝓝 (xb i)) := fun i hi => (hx i hi).congr (fun k => by rw [hX]; exact (hrun k i hi).1)
  have lc : ∀ i ∈ n.nodes, Tendsto (fun k => C k i) atTop (𝓝 (cb i)) := fun i hi => (hy i hi).congr (fun k => by rw [hC]; exact (hrun k i hi).2)
  obtain ⟨z, hz⟩ : ∃ z : A → Vec d, z = fun i => localMean (G i) ρ (cb i) K (xb i) := ⟨_, rfl⟩
  have lz : ∀ i ∈ n.nodes, Tendsto (fun k => Z k i) atTop (𝓝 (z i)) := by
    intro i hi
    rw [hZ, hz]
    unfold localMean
    exact ((lx i hi).sub (((continuous_kgtSteps (hcont i) ρ K).tendsto (cb i, xb i)).comp ((lc i hi).prodMk_nhds (lx i hi)))).const_smul _
  have lm : ∀ i ∈ n.nodes, Tendsto (fun k => matVec n W (Z k) i) atTop (𝓝 (matVec n W z i)) := fun i _ => tendsto_list_sum n.nodes (fun j hj => (lz j hj).const_smul (W i j))
  have e1 : ∀ i ∈ n.nodes, z i = matVec n W z i := by
    intro i hi
    have a1 : Tendsto (fun k => C (k + 1) i) atTop (𝓝 (cb i)) := (tendsto_add_atTop_iff_nat 1).2 (lc i hi)
    have a2 := (((lc i hi).sub (lz i hi)).add (lm i hi)).congr (fun k => (sc k i).symm)
    have a3 := tendsto_nhds_unique a1 a2
    have a4 : z i - matVec n W z i = cb i - (cb i - z i + matVec n W z i) := by abel
    rw [← a3, sub_self] at a4
    exact sub_eq_zero.1 a4
  have e2 : ∀ i ∈ n.nodes, xb i = matVec n W (fun i => xb i - ((K : ℝ) * β * ρ) • z i) i := by
    intro i hi
    have a1 : Tendsto (fun k => X (k + 1) i) atTop (𝓝 (xb i)) := (tendsto_add_atTop_iff_nat 1).2 (lx i hi)
    have a2 : Tendsto (fun k => matVec n W (fun i => X k i - ((K : ℝ) * β * ρ) • Z k i) i) atTop (𝓝 (matVec n W (fun i => xb i - ((K : ℝ) * β * ρ) • z i) i)) :=
      tendsto_list_sum n.nodes (fun j hj => ((lx j hj).sub ((lz j hj).const_smul _)).const_smul (W i j))
    exact tendsto_nhds_unique a1 (a2.congr (fun k => by rw [sx k]))
  have f1 : mixOp (nodeW n W) (gather n z) = gather n z := by
    rw [← gather_matVec hw.nodup]
    apply stack_ext; intro i; exact (e1 i.1 i.mem).symm
  have f2 : mixOp (nodeW n W) (gather n xb - ((K : ℝ) * β * ρ) • gather n z) = gather n xb := by
    rw [← gather_smul, ← gather_sub, ← gather_matVec hw.nodup]
    apply stack_ext; intro i; exact (e2 i.1 i.mem).symm
  have f3 : meanOp (gather n z) = gather n z := mean_of_agree (minus_ker hSt (hW.linked hw hc) _ (minus_of_fixed f1))
  have f4 : gather n z = 0 := by
    have a1 := congrArg meanOp f2
    rw [(mean_even hSt).mean, map_sub, map_smul, f3] at a1
    have a2 := sub_eq_self.1 a1
    refine (smul_eq_zero.1 a2).resolve_left ?_
    exact mul_ne_zero (mul_ne_zero hK'.ne' hβ) hρ.ne'
  have hfix : mixOp (nodeW n W) (gather n xb) = gather n xb := by
    rw [f4, smul_zero, sub_zero] at f2; exact f2
  have hag := minus_ker hSt (hW.linked hw hc) _ (minus_of_fixed hfix)
  refine ⟨fun i hi j hj => hag ⟨i, by simpa using hi⟩ ⟨j, by simpa using hj⟩, ?_⟩
  have hret : ∀ i ∈ n.nodes, G i (xb i) = -cb i := by
    intro i hi
    have a0 : z i = 0 := congrArg (fun v : Stack (Node n) d => v ⟨i, by simpa using hi⟩) f4
    rw [hz] at a0
    dsimp only [localMean] at a0
    have a1 := (smul_eq_zero.1 a0).resolve_left (one_div_ne_zero (mul_ne_zero hK'.ne' hρ.ne'))
    exact eq_neg_of_add_eq_zero_left (kgtSteps_return (hup i hi) hρ hρL K hK _ _ (sub_eq_zero.1 a1).symm)
  have hsum0 : (n.nodes.map cb).sum = 0 := by
    have a1 := sum_tendsto (F := fun k i => ((S k).loc i).c) (v := cb) hy
    refine tendsto_nhds_unique a1 (tendsto_const_nhds.congr (fun k => ?_))
    obtain ⟨s, b1, b2⟩ := C25_kgt h hW.mixing ρ β K grad x0 s0 k
    rw [hS k] at b1
    injection b1 with b1
    rw [← b1] at b2
    exact b2.symm
  have e3 : (n.nodes.map fun i => G i (xb i)) = n.nodes.map fun i => (-1 : ℝ) • cb i := List.map_congr_left fun i hi => by rw [hret i hi, neg_one_smul]
  rw [e3, listSum_smul, hsum0, smul_zero]

end

/-! ## concrete cases -/

/-- double wells `‖x - b i‖⁴/4 - ‖x - b i‖²/2`: gradients that are continuous but not monotone -/
noncomputable def wellGrad (b : Nat → Vec d) (i : Nat) (x : Vec d) : Vec d := (‖x - b i‖ ^ 2 - 1) • (x - b i)

theorem wellGrad_continuous (b : Nat → Vec d) (i : Nat) : Continuous (wellGrad b i) := by
  unfold wellGrad
  fun_prop

-- three agents on a path, double-well costs, a negative step: ED, NIDS, EXTRA, SimpleGT and the tracking methods can only converge to a stationary consensus
example (b : Nat → Vec d) : LimitsSolve (ed (fun i x (_ : Unit) => (wellGrad b i x, ())) (weights path3) (-3)) (fun a => a.x) (calmWorld d) path3 (wellGrad b) :=
  C107_ed calm_lossless path3_joined (metropolis_good path3 path3_wf path3_loopless) (wellGrad_continuous b) (-3) (by norm_num) _ (fun _ _ _ => rfl)

-- the hypotheses of `LimitsSolve` are met: with springs, every ED run with step 1.9 converges
example (b x0 : Nat → Vec d) (s0) : ∃ S : Nat → Sys Nat (Vec d) Unit _, (∀ k, (ed (springGrad b) (weights path3) 1.9).after (calmWorld d) path3 x0 s0 k = .ok (S k)) ∧
    ∀ i ∈ path3.nodes, Tendsto (fun k => ((S k).loc i).x) atTop (𝓝 ((1 / 3 : ℝ) • (b 0 + b 1 + b 2))) := by
  obtain ⟨r, h0, h1, h⟩ := (C80_default calm_lossless path3_joined (springs_smooth b) (springGrad b) (fun _ _ _ => rfl) 1.9 (by norm_num) (by norm_num) _ (springs_solves b)).1
  obtain ⟨C, hC⟩ := h x0
  choose S hS hb using hC s0
  refine ⟨S, hS, fun i hi => ?_⟩
  have h2 : Tendsto (fun k => C * r ^ k) atTop (𝓝 0) := by simpa using (tendsto_pow_atTop_nhds_zero_of_lt_one h0 h1).const_mul C
  have h3 := squeeze_zero (fun k => sq_nonneg _) (fun k => hb k i hi) h2
  have h4 : Tendsto (fun k => ‖((S k).loc i).x - (1 / 3 : ℝ) • (b 0 + b 1 + b 2)‖) atTop (𝓝 0) := by
    have := (Real.continuous_sqrt.tendsto 0).comp h3
    rw [Real.sqrt_zero] at this
    exact this.congr (fun k => Real.sqrt_sq (norm_nonneg _))
  exact tendsto_iff_norm_sub_tendsto_zero.2 h4

-- LED and K-GT on the same network
example (b x0 : Nat → Vec d) (s0) (S : Nat → Sys Nat (Vec d) Unit (Led (Vec d))) (xb yb : Nat → Vec d) :=
  C107_led calm_lossless path3_joined (metropolis_good path3 path3_wf path3_loopless) (fun i => (continuous_id.sub continuous_const : Continuous fun x : Vec d => x - b i)) (fun i hi => (springs_smooth b).upper i hi)
    1.5 7 (by norm_num) (by norm_num) 4 (by norm_num) (springGrad b) (fun _ _ _ => rfl) x0 s0 S xb yb

example (b x0 : Nat → Vec d) (s0) (S : Nat → Sys Nat (Vec d) Unit (Kgt (Vec d))) (xb cb : Nat → Vec d) :=
  C107_kgt calm_lossless path3_joined (metropolis_good path3 path3_wf path3_loopless) (fun i => (continuous_id.sub continuous_const : Continuous fun x : Vec d => x - b i)) (fun i hi => (springs_smooth b).upper i hi)
    1.5 7 (by norm_num) (by norm_num) (by norm_num) 4 (by norm_num) (springGrad b) (fun _ _ _ => rfl) x0 s0 S xb cb

end
end Verif.Props
