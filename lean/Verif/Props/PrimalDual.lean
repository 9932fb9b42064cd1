import Verif.Props.Tracking
import Verif.Lemmas.SmallStep2
set_option linter.unusedSectionVars false
/-!
# C105: the primal-dual methods Wang-Elia and LED for small step sizes

Setting of C104. Wang-Elia converges linearly to the optimum for all small step sizes; so does LED if `τ β` (number of local steps
times the dual step size) is below twice the smallest self-weight. The condition on `τ β` cannot be dropped: with `τ β = 1` there is a
network and a strongly convex problem on which LED diverges for every small step size.
-/
namespace Verif.Props
open Verif P2P Sys Consensus Costs
open scoped InnerProductSpace

section
variable {A Ω : Type} [DecidableEq A] {d : Nat}

theorem gather_laplace {n : Net A} (hn : n.nodes.Nodup) (W : A → A → ℝ) (v : A → Vec d) :
    gather n (matVec n (laplace W) v) = minus (mixOp (nodeW n W)) (gather n v) := by
  have h1 := plus_add_minus (mixOp (nodeW n W)) (gather n v)
  rw [← gather_tilde hn] at h1
  have h2 : gather n (matVec n (laplace W) v) = gather n v - gather n (matVec n (tilde W) v) := by
    apply stack_ext; intro i
    show matVec n (laplace W) v i.1 = v i.1 - matVec n (tilde W) v i.1
    have e : matVec n (laplace W) v i.1 + matVec n (tilde W) v i.1 = v i.1 := by
      unfold matVec
      rw [← List.sum_map_add]
      have : (n.nodes.map fun j => laplace W i.1 j • v j + tilde W i.1 j • v j) = n.nodes.map fun j => if j = i.1 then v j else 0 := by
        refine List.map_congr_left fun j _ => ?_
        rw [← add_smul, laplace, tilde]
        by_cases hij : i.1 = j
        · rw [if_pos hij, if_pos hij.symm]
          have : (1 - W i.1 j) / 2 + (1 + W i.1 j) / 2 = 1 := by ring
          rw [this, one_smul]
        · rw [if_neg hij, if_neg (Ne.symm hij)]
          have : (0 - W i.1 j) / 2 + (0 + W i.1 j) / 2 = 0 := by ring
          rw [this, zero_smul]
      rw [this, ← nodeSum hn (fun j => if j = i.1 then v j else 0)]
      rw [Finset.sum_eq_single i]
      · simp
      · intro j _ hj
        exact if_neg (fun hc => hj (Subtype.ext hc))
      · intro hc; exact absurd (Finset.mem_univ i) hc
    exact eq_sub_of_add_eq e
  rw [h2]
  exact sub_eq_of_eq_add' h1.symm

section
variable {n : Net A} (hw : n.WF) (hc : JoinedUp n) {W : A → A → ℝ} (hW : GoodWeights n W)
include hw hc hW

/-- the gap of the network, in both forms -/
theorem network_gap : ∃ c : ℝ, 0 < c ∧ c ≤ 1 ∧ (∀ v : Stack (Node n) d, c * ⟪v, minus (mixOp (nodeW n W)) v⟫_ℝ ≤ ‖minus (mixOp (nodeW n W)) v‖ ^ 2) ∧
    ∀ v : Stack (Node n) d, meanOp v = 0 → c * ‖v‖ ^ 2 ≤ ⟪v, minus (mixOp (nodeW n W)) v⟫_ℝ := by
  have hS := hW.stochastic hw.nodup
  have hA : Averaging (mixOp (nodeW n W) : Stack (Node n) d →ₗ[ℝ] Stack (Node n) d) := averaging hS
  obtain ⟨c1, h1, h1', hg1⟩ := exists_gap (minus (mixOp (nodeW n W) : Stack (Node n) d →ₗ[ℝ] Stack (Node n) d)) (minus_symm hA) (minus_nonneg hA)
  obtain ⟨c2, h2, h2', hg2⟩ := exists_disagreement (d := d) hS (hW.linked hw hc)
  refine ⟨min c1 c2, lt_min h1 h2, (min_le_left _ _).trans h1', fun v => ?_, fun v hv => ?_⟩
  · exact (mul_le_mul_of_nonneg_right (min_le_left _ _) (minus_nonneg hA v)).trans (hg1 v)
  · have := hg2 v
    rw [hv, sub_zero] at this
    exact (mul_le_mul_of_nonneg_right (min_le_right _ _) (sq_nonneg _)).trans this

/-- a dual certificate without a mean -/
theorem exists_dual_mean (G : A → Vec d → Vec d) (xs : Vec d) (hxs : (n.nodes.map (fun i => G i xs)).sum = 0) (ρ : ℝ) :
    ∃ us, meanOp us = 0 ∧ minus (mixOp (nodeW n W)) us = -(ρ • gradAt (nodeG n G) (gather n (fun _ => xs))) := by
  obtain ⟨us, hus⟩ := exists_dual hw hW hc G xs hxs ρ
  have hS := hW.stochastic hw.nodup
  refine ⟨us - meanOp us, by rw [map_sub, mean_proj.idem, sub_self], ?_⟩
  rw [map_sub, hus, minus_apply _ (meanOp us), (mean_even hS).keeps, sub_self, smul_zero, sub_zero]

/-- C105 for Wang-Elia -/
theorem C105_wang_elia (hlazy : LazyWeights n W) {L m : ℝ} (hL : 0 < L) (hm : 0 < m) : SmallStepsConverge Ω n d (fun grad ρ => wangElia grad W ρ) (fun a => a.x) L m := by
  obtain ⟨δ, hδ, hdiag⟩ := hlazy
  have hS := hW.stochastic hw.nodup
  have hA : Averaging (mixOp (nodeW n W) : Stack (Node n) d →ₗ[ℝ] Stack (Node n) d) := averaging hS
  obtain ⟨c, hc0, hc1, hg1, hg2⟩ := network_gap (d := d) hw hc hW
  have hδ' : 0 < min δ 1 := lt_min hδ one_pos
  obtain ⟨ρ0, h0, hr⟩ := wang_elia_rate (H := Stack (Node n) d) L m (min δ 1) c hL hm hδ' (min_le_right _ _) hc0 hc1
  refine ⟨ρ0, h0, fun ρ hρ hρ0 w f G grad xs hl hf hG hxs => ?_⟩
  obtain ⟨r, hr0, hr1, hb⟩ := hr ρ hρ hρ0
  refine linear_of_stack (fun x0 k => (wangEliaDoc n W ρ G x0 k).1) (fun x0 => C65_wang_elia hl hW.mixing ρ grad G hG x0) r hr0 hr1 fun x0 => ?_
  obtain ⟨zs, hPz, hz⟩ := exists_dual_mean (d := d) hw hc hW G xs ((solves_iff hf xs).1 hxs) ρ
  refine hb meanOp (mixOp (nodeW n W)) mean_proj hA (mean_even hS) (inner_plus_ge hS (min δ 1) (fun i => (min_le_left _ _).trans (hdiag i.1 i.mem))) hg2
    (gradAt (nodeG n G)) (gradLike_nodes hf) (gather n (fun _ => xs)) zs (mean_of_agree (fun _ _ => rfl)) (optimum_mean hw.nodup hf hxs) hPz hz
    (fun k => gather n (wangEliaDoc n W ρ G x0 k).1) (fun k => gather n (wangEliaDoc n W ρ G x0 k).2) ?_ (fun k => ?_) (fun k => ?_)
  · exact map_zero _
  · rw [← gather_add, ← gather_laplace hw.nodup]; rfl
  · rw [← gather_laplace hw.nodup]; rfl

end

/-! ### LED -/

/-- `τ` local steps of LED with the dual variable `y` -/
def ledSteps {E : Type} [AddCommGroup E] [Module ℝ E] (g : E → E) (ρ β : ℝ) (y : E) : Nat → E → E
  | 0, φ => φ
  | τ + 1, φ => ledSteps g ρ β y τ (φ - (ρ • g φ + β • y))

/-- LED: `(x_k, y_k)` -/
noncomputable def ledDoc (n : Net A) (W : A → A → ℝ) (ρ β : ℝ) (τ : Nat) (G : A → Vec d → Vec d) (x0 : A → Vec d) : Nat → (A → Vec d) × (A → Vec d)
  | 0 => (x0, fun _ => 0)
  | k + 1 =>
    let p := ledDoc n W ρ β τ G x0 k
    let φ := fun i => ledSteps (G i) ρ β (p.2 i) τ (p.1 i)
    (matVec n W φ, fun i => p.2 i + (φ i - matVec n W φ i))

theorem led_both {w : World A (Vec d) Ω} {n : Net A} (h : Lossless w n) {W : A → A → ℝ} (hW : Mixing n W) (ρ β : ℝ) (τ : Nat)
    (grad : Grad A (Vec d) Ω) (G : A → Vec d → Vec d) (hG : Exactly grad G) (x0 : A → Vec d) :
    ∀ (s0 : Sys A (Vec d) Ω (Led (Vec d))) (k : Nat), ∃ s, (led grad W ρ β τ).after w n x0 s0 k = .ok s ∧
      ∀ i ∈ n.nodes, (s.loc i).x = (ledDoc n W ρ β τ G x0 k).1 i ∧ (s.loc i).y = (ledDoc n W ρ β τ G x0 k).2 i := by
  have hrep : ∀ (i : A) (y : Vec d) (τ : Nat) (x : Vec d) (ω : Ω),
      (repeatN (fun phi ω => let g := grad i phi ω; (phi - (ρ • g.1 + β • y), g.2)) τ x ω).1 = ledSteps (G i) ρ β y τ x := by
    intro i y τ
    induction τ with
    | zero => intro x ω; rfl
    | succ τ ih =>
      intro x ω
      rw [repeatN]
      dsimp only
      rw [ih, hG]; rfl
  intro s0 k
  obtain ⟨s, hs, hP⟩ := after_induction (led grad W ρ β τ) w n x0 s0 (fun k s => ∀ i ∈ n.nodes, (s.loc i).x = (ledDoc n W ρ β τ G x0 k).1 i ∧
    (s.loc i).y = (ledDoc n W ρ β τ G x0 k).2 i) (by
      obtain ⟨ωs, hi⟩ := init_spec (led grad W ρ β τ) n h.wf x0 s0
      intro i hi'; rw [hi i hi']; exact ⟨rfl, rfl⟩) (by
      intro k s hk
      obtain ⟨s', ωs, h1, h2⟩ := led_step h grad W hW.supported ρ β τ k s
      have eφ : ∀ i ∈ n.nodes, (s'.loc i).phi = ledSteps (G i) ρ β ((ledDoc n W ρ β τ G x0 k).2 i) τ ((ledDoc n W ρ β τ G x0 k).1 i) := by
        intro i hi
        rw [(h2 i hi).1, hrep, (hk i hi).1, (hk i hi).2]
      have ex : ∀ i ∈ n.nodes, (s'.loc i).x = (ledDoc n W ρ β τ G x0 (k + 1)).1 i := by
        intro i hi
        rw [(h2 i hi).2.1, applyW_congr n W (fun j hj => eφ j hj) i]; rfl
      refine ⟨s', h1, fun i hi => ⟨ex i hi, ?_⟩⟩
      rw [(h2 i hi).2.2, ex i hi, eφ i hi, (hk i hi).2]; rfl) k
  exact ⟨s, hs, hP⟩

/-- The run of LED with exact gradients is `ledDoc`. -/
theorem C105_led_recursion {w : World A (Vec d) Ω} {n : Net A} (h : Lossless w n) {W : A → A → ℝ} (hW : Mixing n W) (ρ β : ℝ) (τ : Nat)
    (grad : Grad A (Vec d) Ω) (G : A → Vec d → Vec d) (hG : Exactly grad G) (x0 : A → Vec d) :
    Computes (led grad W ρ β τ) (fun a => a.x) w n x0 (fun k => (ledDoc n W ρ β τ G x0 k).1) := by
  intro s0 k
  obtain ⟨s, hs, hP⟩ := led_both h hW ρ β τ grad G hG x0 s0 k
  exact ⟨s, hs, fun i hi => (hP i hi).1⟩

theorem ledSteps_eq {E : Type} [AddCommGroup E] [Module ℝ E] (g : E → E) (ρ β : ℝ) (hρ : ρ ≠ 0) (y : E) (τ : Nat) : ∀ φ, ledSteps g ρ β y τ φ = kgtSteps g ρ ((β / ρ) • y) τ φ := by
  induction τ with
  | zero => intro φ; rfl
  | succ τ ih =>
    intro φ
    have e : ρ • (g φ + (β / ρ) • y) = ρ • g φ + β • y := by rw [smul_add, smul_smul, mul_div_cancel₀ _ hρ]
    rw [ledSteps, kgtSteps, ih, e]

/-- C105 for LED: `τ ≥ 1` local steps, dual step size `β` with `τ β` below twice the smallest self-weight -/
theorem C105_led {n : Net A} (hw : n.WF) (hc : JoinedUp n) {W : A → A → ℝ} (hW : GoodWeights n W) (τ : Nat) (hτ : 0 < τ) (β δ : ℝ) (hβ : 0 < β)
    (hdiag : ∀ i ∈ n.nodes, δ ≤ W i i) (hβδ : τ * β < 2 * δ) {L m : ℝ} (hL : 0 < L) (hm : 0 < m) :
    SmallStepsConverge Ω n d (fun grad ρ => led grad W ρ β τ) (fun a => a.x) L m := by
  have hS := hW.stochastic hw.nodup
  have hA : Averaging (mixOp (nodeW n W) : Stack (Node n) d →ₗ[ℝ] Stack (Node n) d) := averaging hS
  have hτ' : 0 < (τ : ℝ) := by exact_mod_cast hτ
  obtain ⟨c, hc0, hc1, hg1, hg2⟩ := network_gap (d := d) hw hc hW
  set q : ℝ := (τ : ℝ) * L * 2 ^ τ * (L + β) with hq
  obtain ⟨ρ0, h0, hr⟩ := led_rate hA (P := meanOp) mean_proj (mean_even hS) L m δ c ((τ : ℝ) * β) τ q hL hm hc0 (by positivity) hβδ hτ' (by positivity)
    (inner_plus_ge hS δ (fun i => hdiag i.1 i.mem)) hg1 hg2
  refine ⟨min ρ0 (1 / L), by positivity, fun ρ hρ hlt w f G grad xs hl hf hG hxs => ?_⟩
  have hρL : ρ * L ≤ 1 := by
    have := hlt.le.trans (min_le_right _ _)
    rwa [le_div_iff₀ hL] at this
  obtain ⟨r, hr0, hr1, hb⟩ := hr ρ hρ (hlt.trans_le (min_le_left _ _))
  refine linear_of_stack (fun x0 k => (ledDoc n W ρ β τ G x0 k).1) (fun x0 => C105_led_recursion hl hW.mixing ρ β τ grad G hG x0) r hr0 hr1 fun x0 => ?_
  set g := gradAt (nodeG n G) with hg
  set S : Stack (Node n) d := gather n (fun _ => xs) with hSd
  have hgl : GradLike g L m := gradLike_nodes hf
  set X : Nat → Stack (Node n) d := fun k => gather n (ledDoc n W ρ β τ G x0 k).1 with hX
  set Y : Nat → Stack (Node n) d := fun k => gather n (ledDoc n W ρ β τ G x0 k).2 with hY
  set Φ : Nat → Stack (Node n) d := fun k => gather n (fun i => ledSteps (G i) ρ β ((ledDoc n W ρ β τ G x0 k).2 i) τ ((ledDoc n W ρ β τ G x0 k).1 i)) with hΦ
  have eΦ : ∀ k, Φ k = stackSteps g ρ ((β / ρ) • Y k) τ (X k) := by
    intro k
    apply stack_ext; intro i
    show ledSteps (G i.1) ρ β ((ledDoc n W ρ β τ G x0 k).2 i.1) τ ((ledDoc n W ρ β τ G x0 k).1 i.1) = _
    rw [stackSteps_apply, ledSteps_eq _ _ _ hρ.ne']; rfl
  set ys : Stack (Node n) d := -((ρ / β) • g S) with hys
  obtain ⟨ss, hss⟩ := exists_dual hw hW hc G xs ((solves_iff hf xs).1 hxs) (ρ / β / 2)
  have hss' : (2 : ℝ) • minus (mixOp (nodeW n W)) ss = ys := by
    rw [hss, hys, hg, hSd, smul_neg, smul_smul]; congr 2; ring
  refine hb g hgl S ys ss (mean_of_agree (fun _ _ => rfl)) (optimum_mean hw.nodup hf hxs) ?_ hss' X Y Φ
    (fun k => Φ k - (X k - (ρ * τ) • g (X k) - ((τ : ℝ) * β) • Y k)) rfl (fun k => by abel) (fun k => ?_) (fun k => ?_) (fun k => ?_)
  · rw [hys, smul_neg, smul_smul]; congr 2; field_simp
  · rw [hΦ, ← gather_matVec hw.nodup]; rfl
  · rw [hΦ, ← gather_matVec hw.nodup]; rfl
  · have h1 := steps_drift hgl hρ hρL ((β / ρ) • Y k) (X k) τ
    have e1 : Φ k - (X k - (ρ * τ) • g (X k) - ((τ : ℝ) * β) • Y k) = -((X k - stackSteps g ρ ((β / ρ) • Y k) τ (X k)) - ((τ : ℝ) * ρ) • (g (X k) + (β / ρ) • Y k)) := by
      have : ((τ : ℝ) * ρ) • (g (X k) + (β / ρ) • Y k) = (ρ * τ) • g (X k) + ((τ : ℝ) * β) • Y k := by
        rw [smul_add, smul_smul, mul_comm (τ : ℝ) ρ]; congr 2; field_simp
      rw [this, eΦ]; abel
    rw [e1, norm_neg]
    refine h1.trans ?_
    have h2 : ρ * ‖g (X k) + (β / ρ) • Y k‖ ≤ (L + β) * (ρ * ‖X k - S‖ + ‖Y k - ys‖) := by
      have e2 : g (X k) + (β / ρ) • Y k = (g (X k) - g S) + (β / ρ) • (Y k - ys) := by
        have : (β / ρ) • ys = -(g S) := by rw [hys, smul_neg, smul_smul]; congr 1; rw [show β / ρ * (ρ / β) = 1 by field_simp, one_smul]
        rw [smul_sub, this]; abel
      have h3 : ‖g (X k) + (β / ρ) • Y k‖ ≤ L * ‖X k - S‖ + β / ρ * ‖Y k - ys‖ := by
        rw [e2]
        refine (norm_add_le _ _).trans (add_le_add (hgl.lip _ _) (le_of_eq ?_))
        rw [norm_smul, Real.norm_of_nonneg (by positivity)]
      have h4 := mul_le_mul_of_nonneg_left h3 hρ.le
      have e3 : ρ * (L * ‖X k - S‖ + β / ρ * ‖Y k - ys‖) = L * (ρ * ‖X k - S‖) + β * ‖Y k - ys‖ := by field_simp
      have h5 : 0 ≤ β * (ρ * ‖X k - S‖) := by positivity
      have h6 : 0 ≤ L * ‖Y k - ys‖ := by positivity
      have e4 : (L + β) * (ρ * ‖X k - S‖ + ‖Y k - ys‖) = L * (ρ * ‖X k - S‖) + β * ‖Y k - ys‖ + β * (ρ * ‖X k - S‖) + L * ‖Y k - ys‖ := by ring
      linarith
    have h3 := mul_le_mul_of_nonneg_left h2 (show 0 ≤ (τ : ℝ) * (ρ * L * 2 ^ τ) by positivity)
    have e5 : (τ : ℝ) * (ρ * L * (2 ^ τ * (ρ * ‖g (X k) + (β / ρ) • Y k‖))) = (τ : ℝ) * (ρ * L * 2 ^ τ) * (ρ * ‖g (X k) + (β / ρ) • Y k‖) := by ring
    have e6 : ρ * q * (ρ * ‖X k - S‖ + ‖Y k - ys‖) = (τ : ℝ) * (ρ * L * 2 ^ τ) * ((L + β) * (ρ * ‖X k - S‖ + ‖Y k - ys‖)) := by rw [hq]; ring
    rw [e5, e6]
    exact h3

/-- C105 with the network's default weights: `τ β < 2 / (1 + D)` suffices for LED, `D` the largest number of neighbours -/
theorem C105_default {n : Net A} (hw : n.WF) (hl : Loopless n) (hc : JoinedUp n) (D : Nat) (hD : ∀ i ∈ n.nodes, (n.nbrs i).length ≤ D) (τ : Nat) (hτ : 0 < τ) (β : ℝ)
    (hβ : 0 < β) (hβD : τ * β < 2 / (1 + D)) {L m : ℝ} (hL : 0 < L) (hm : 0 < m) :
    SmallStepsConverge Ω n d (fun grad ρ => wangElia grad (weights n) ρ) (fun a => a.x) L m ∧
    SmallStepsConverge Ω n d (fun grad ρ => led grad (weights n) ρ β τ) (fun a => a.x) L m := by
  refine ⟨C105_wang_elia hw hc (metropolis_good n hw hl) (lazy_default n hw hl) hL hm,
    C105_led hw hc (metropolis_good n hw hl) τ hτ β (1 / (1 + (D : ℝ))) hβ (fun i hi => ?_) (by rw [mul_one_div]; exact hβD) hL hm⟩
  refine le_trans ?_ (metropolis_diag n hw hl i hi)
  have hd : degree n i = (n.nbrs i).length := by unfold degree; rw [if_neg (hl i)]; simp
  have : (degree n i : ℝ) ≤ D := by rw [hd]; exact_mod_cast hD i hi
  exact one_div_le_one_div_of_le (by positivity) (by linarith)

/-! ### the condition on `τ β` cannot be dropped -/

/-- six agents; every even one is linked to every odd one -/
def k33 : Net Nat := ⟨[0, 1, 2, 3, 4, 5], fun a => if a < 6 then (if a % 2 = 0 then [1, 3, 5] else [0, 2, 4]) else [], [0, 1, 2, 3, 4, 5]⟩

theorem k33_mem (a b : Nat) : b ∈ k33.nbrs a ↔ a < 6 ∧ b < 6 ∧ a % 2 ≠ b % 2 := by
  unfold k33
  by_cases h : a < 6
  · by_cases h2 : a % 2 = 0
    · simp [h, h2]; omega
    · simp [h, h2]; omega
  · simp [h]

theorem k33_nodes (a : Nat) : a ∈ k33.nodes ↔ a < 6 := by
  simp [k33]; omega

theorem k33_wf : k33.WF where
  nodup := by decide
  nbrs_nodup := by
    intro a; unfold k33; dsimp only; split
    · split <;> decide
    · exact List.nodup_nil
  nbrs_mem := by
    intro a b h; rw [k33_mem] at h; exact (k33_nodes b).2 h.2.1
  symm := by
    intro a b h; rw [k33_mem] at *; exact ⟨h.2.1, h.1, fun e => h.2.2 e.symm⟩
  query := fun a h => h
  query_nodup := by decide

theorem k33_loopless : Loopless k33 := fun a h => ((k33_mem a a).1 h).2.2 rfl

theorem k33_joined : JoinedUp k33 := by
  have s : ∀ a b, a < 6 → b < 6 → a % 2 ≠ b % 2 → Relation.ReflTransGen (fun a b => b ∈ k33.nbrs a) a b :=
    fun a b h1 h2 h3 => Relation.ReflTransGen.single ((k33_mem a b).2 ⟨h1, h2, h3⟩)
  intro i hi j hj
  rw [k33_nodes] at hi hj
  by_cases h : i % 2 = j % 2
  · by_cases h0 : i % 2 = 0
    · exact (s i 1 hi (by omega) (by omega)).trans (s 1 j (by omega) hj (by omega))
    · exact (s i 0 hi (by omega) (by omega)).trans (s 0 j (by omega) hj (by omega))
  · exact s i j hi hj h

theorem k33_calm : Lossless (calmWorld d) k33 :=
  ⟨⟨fun _ _ _ => rfl, fun _ _ => rfl, fun _ _ _ => rfl, fun _ _ _ _ => rfl, rfl⟩, k33_wf, k33_loopless⟩

theorem k33_degree (i : Nat) (hi : i < 6) : degree k33 i = 3 := by
  unfold degree
  rw [if_neg (k33_loopless i)]
  unfold k33
  by_cases h : i % 2 = 0 <;> simp [hi, h]

theorem k33_weights (i j : Nat) (hi : i < 6) (hj : j < 6) : weights k33 i j = if j = i then 1 / 4 else if j % 2 = i % 2 then 0 else 1 / 4 := by
  have hm : ∀ b, b < 6 → metro k33 i b = 1 / 4 := by
    intro b hb
    unfold metro
    rw [k33_degree i hi, k33_degree b hb]; norm_num
  rw [weights_apply k33 k33_wf i j ((k33_nodes i).2 hi)]
  have hs : nbrSum k33 i = 3 / 4 := by
    unfold nbrSum
    have : (k33.nbrs i).map (metro k33 i) = (k33.nbrs i).map (fun _ => (1 / 4 : ℝ)) := List.map_congr_left fun b hb => hm b ((k33_mem i b).1 hb).2.1
    rw [this, List.map_const', List.sum_replicate]
    have : (k33.nbrs i).length = 3 := by unfold k33; by_cases h : i % 2 = 0 <;> simp [hi, h]
    rw [this]; norm_num
  rw [hs, hm j hj]
  have hmem : j ∈ k33.nbrs i ↔ ¬ (j % 2 = i % 2) := by
    rw [k33_mem]
    exact ⟨fun h e => h.2.2 e.symm, fun h => ⟨hi, hj, fun e => h e.symm⟩⟩
  by_cases h1 : j = i
  · rw [if_pos h1, if_pos h1]; norm_num
  · rw [if_neg h1, if_neg h1]
    by_cases h2 : j % 2 = i % 2
    · rw [if_pos h2, if_neg (fun h => hmem.1 h h2)]
    · rw [if_neg h2, if_pos (hmem.2 h2)]

/-- `v` at the even agents, `-v` at the odd ones -/
def plusMinus (v : Vec d) (i : Nat) : Vec d := if i % 2 = 0 then v else -v

/-- the default weights turn the alternating state around and halve it -/
theorem k33_turn (v : Vec d) (i : Nat) (hi : i < 6) : matVec k33 (weights k33) (plusMinus v) i = (-(1 / 2) : ℝ) • plusMinus v i := by
  have e : matVec k33 (weights k33) (plusMinus v) i = weights k33 i 0 • v + (weights k33 i 1 • (-v) + (weights k33 i 2 • v +
      (weights k33 i 3 • (-v) + (weights k33 i 4 • v + (weights k33 i 5 • (-v) + 0))))) := rfl
  rw [e, k33_weights i 0 hi (by omega), k33_weights i 1 hi (by omega), k33_weights i 2 hi (by omega), k33_weights i 3 hi (by omega),
    k33_weights i 4 hi (by omega), k33_weights i 5 hi (by omega)]
  have : i = 0 ∨ i = 1 ∨ i = 2 ∨ i = 3 ∨ i = 4 ∨ i = 5 := by omega
  rcases this with rfl | rfl | rfl | rfl | rfl | rfl <;> (simp [plusMinus]; try module)

/-- the size of the last mixed state, of the state and of the dual variable along the alternating direction -/
noncomputable def ledSize (ρ : ℝ) : Nat → ℝ × ℝ
  | 0 => (1, 0)
  | k + 1 => (-(1 / 2) * ((1 - ρ) * (ledSize ρ k).1 - (ledSize ρ k).2), (ledSize ρ k).2 + 3 / 2 * ((1 - ρ) * (ledSize ρ k).1 - (ledSize ρ k).2))

theorem led_alternates (ρ : ℝ) (v : Vec d) (k : Nat) : ∀ i, i < 6 →
    (ledDoc k33 (weights k33) ρ 1 1 (fun _ x => x) (plusMinus v) k).1 i = (ledSize ρ k).1 • plusMinus v i ∧
    (ledDoc k33 (weights k33) ρ 1 1 (fun _ x => x) (plusMinus v) k).2 i = (ledSize ρ k).2 • plusMinus v i := by
  induction k with
  | zero => intro i _; exact ⟨(one_smul _ _).symm, (zero_smul _ _).symm⟩
  | succ k ih =>
    obtain ⟨t, ht⟩ : ∃ t, t = (1 - ρ) * (ledSize ρ k).1 - (ledSize ρ k).2 := ⟨_, rfl⟩
    have eφ : ∀ i, i < 6 → ledSteps (fun x : Vec d => x) ρ 1 ((ledDoc k33 (weights k33) ρ 1 1 (fun _ x => x) (plusMinus v) k).2 i) 1
        ((ledDoc k33 (weights k33) ρ 1 1 (fun _ x => x) (plusMinus v) k).1 i) = t • plusMinus v i := by
      intro i hi
      rw [(ih i hi).1, (ih i hi).2, ledSteps, ledSteps, ht]; module
    have em : ∀ i, i < 6 → matVec k33 (weights k33) (fun i => ledSteps (fun x : Vec d => x) ρ 1 ((ledDoc k33 (weights k33) ρ 1 1 (fun _ x => x) (plusMinus v) k).2 i) 1
        ((ledDoc k33 (weights k33) ρ 1 1 (fun _ x => x) (plusMinus v) k).1 i)) i = (-(1 / 2) * t) • plusMinus v i := by
      intro i hi
      have e1 : matVec k33 (weights k33) (fun i => ledSteps (fun x : Vec d => x) ρ 1 ((ledDoc k33 (weights k33) ρ 1 1 (fun _ x => x) (plusMinus v) k).2 i) 1
        ((ledDoc k33 (weights k33) ρ 1 1 (fun _ x => x) (plusMinus v) k).1 i)) i = matVec k33 (weights k33) (plusMinus (t • v)) i := by
        unfold matVec
        refine congrArg List.sum (List.map_congr_left fun j hj => ?_)
        dsimp only
        rw [eφ j ((k33_nodes j).1 hj)]
        congr 1
        unfold plusMinus; split
        · rfl
        · rw [smul_neg]
      rw [e1, k33_turn _ i hi]
      unfold plusMinus; split <;> module
    intro i hi
    refine ⟨?_, ?_⟩
    · rw [ledDoc]; dsimp only
      rw [em i hi, ledSize, ← ht]
    · rw [ledDoc]; dsimp only
      rw [em i hi, eφ i hi, (ih i hi).2, ledSize, ← ht]; module

/-- `ψ k = (-1)^k ((1 - ρ) s_k - r_k)` grows geometrically -/
theorem ledSize_grows (ρ : ℝ) (hρ : 0 < ρ) (hρ4 : ρ ≤ 1 / 4) (k : Nat) : (3 / 8 : ℝ) * (17 / 16) ^ k ≤ |(ledSize ρ (k + 1)).1| := by
  obtain ⟨ψ, hψ⟩ : ∃ ψ : Nat → ℝ, ∀ k, ψ k = (-1) ^ k * ((1 - ρ) * (ledSize ρ k).1 - (ledSize ρ k).2) := ⟨_, fun _ => rfl⟩
  have h0 : ψ 0 = 1 - ρ := by rw [hψ]; simp [ledSize]
  have h1 : ψ 1 = (1 - ρ) * (2 - ρ / 2) := by rw [hψ]; simp [ledSize]; ring
  have hs : ∀ k, ψ (k + 2) = (1 - ρ / 2) * ψ (k + 1) + 1 / 2 * (1 - ρ) * ψ k := by
    intro k
    rw [hψ, hψ, hψ]
    have e2 : ledSize ρ (k + 2) = (-(1 / 2) * ((1 - ρ) * (ledSize ρ (k + 1)).1 - (ledSize ρ (k + 1)).2), (ledSize ρ (k + 1)).2 + 3 / 2 * ((1 - ρ) * (ledSize ρ (k + 1)).1 - (ledSize ρ (k + 1)).2)) := rfl
    have e1 : ledSize ρ (k + 1) = (-(1 / 2) * ((1 - ρ) * (ledSize ρ k).1 - (ledSize ρ k).2), (ledSize ρ k).2 + 3 / 2 * ((1 - ρ) * (ledSize ρ k).1 - (ledSize ρ k).2)) := rfl
    rw [e2]; dsimp only; rw [e1]; dsimp only
    rw [pow_succ (-1 : ℝ) (k + 1), pow_succ (-1 : ℝ) k]; ring
  have hb : ∀ k, 0 < ψ k ∧ 17 / 16 * ψ k ≤ ψ (k + 1) ∧ ψ (k + 1) ≤ 2 * ψ k := by
    intro k
    induction k with
    | zero =>
      have p0 : 0 < 1 - ρ := by linarith
      rw [h0, h1]
      refine ⟨p0, ?_, ?_⟩ <;> nlinarith
    | succ k ih =>
      obtain ⟨i1, i2, i3⟩ := ih
      have q1 : 0 < ψ (k + 1) := by linarith
      have q2 := mul_le_mul_of_nonneg_left i3 (show 0 ≤ 1 / 4 * (1 - ρ) by linarith)
      have q3 : ρ * ψ (k + 1) ≤ 1 / 4 * ψ (k + 1) := mul_le_mul_of_nonneg_right hρ4 q1.le
      have q4 : 0 ≤ ρ * ψ (k + 1) := by positivity
      have q5 : 0 ≤ ρ * ψ k := by positivity
      rw [hs k]
      refine ⟨q1, ?_, ?_⟩ <;> nlinarith
  have hg : ∀ k, (3 / 4 : ℝ) * (17 / 16) ^ k ≤ ψ k := by
    intro k
    induction k with
    | zero => rw [h0, pow_zero]; linarith
    | succ k ih => rw [pow_succ (17 / 16 : ℝ) k]; have := (hb k).2.1; linarith
  have e : |(ledSize ρ (k + 1)).1| = 1 / 2 * ψ k := by
    have e1 : (ledSize ρ (k + 1)).1 = -(1 / 2) * ((1 - ρ) * (ledSize ρ k).1 - (ledSize ρ k).2) := rfl
    rw [← abs_of_pos (hb k).1, hψ, e1, abs_mul, abs_mul, abs_pow, abs_neg, abs_neg, abs_one, one_pow, one_mul]
    norm_num
  rw [e]
  have := hg k
  linarith

/-- With one local step and `β = 1` (so `τ β = 1`), the default weights of `k33` and the costs `½‖x‖²` at every agent (`L = m = 1`, optimum 0), LED runs away from the
optimum for every step size up to 1/4: no condition on the step size alone makes it converge. -/
theorem C105_led_diverges : JoinedUp k33 ∧ Lossless (calmWorld d) k33 ∧ GoodWeights k33 (weights k33) ∧
    Smooth k33 (springs (fun _ => (0 : Vec d))) (fun _ x => x) 1 1 ∧ SolvesSum k33 (springs (fun _ => (0 : Vec d))) 0 ∧
    ∀ (ρ : ℝ), 0 < ρ → ρ ≤ 1 / 4 → ∀ (v : Vec d) s0 (k : Nat), ∃ s, (led (fun _ x _ => (x, ())) (weights k33) ρ 1 1).after (calmWorld d) k33 (plusMinus v) s0 (k + 1) = .ok s ∧
      ∀ i ∈ k33.nodes, 3 / 8 * (17 / 16) ^ k * ‖v‖ ≤ ‖(s.loc i).x‖ := by
  have hsm : Smooth k33 (springs (fun _ => (0 : Vec d))) (fun _ x => x) 1 1 := by
    have e : ∀ (i : Nat) (x y : Vec d), springs (fun _ => (0 : Vec d)) i y = springs (fun _ => (0 : Vec d)) i x + ⟪x, y - x⟫_ℝ + 1 / 2 * ‖y - x‖ ^ 2 := by
      intro i x y
      have : y - 0 = (x - 0) + (y - x) := by abel
      unfold springs
      rw [this, norm_add_sq_real, sub_zero]; ring
    exact ⟨one_pos, one_pos, fun i _ x y => (e i x y).le, fun i _ x y => (e i x y).ge⟩
  have hgood := metropolis_good k33 k33_wf k33_loopless
  refine ⟨k33_joined, k33_calm, hgood, hsm, ?_, ?_⟩
  · rw [solves_iff hsm]
    show ((0 : Vec d) + ((0 : Vec d) + ((0 : Vec d) + ((0 : Vec d) + ((0 : Vec d) + ((0 : Vec d) + 0)))))) = 0
    simp
  · intro ρ hρ hρ4 v s0 k
    obtain ⟨s, h1, h2⟩ := C105_led_recursion k33_calm hgood.mixing ρ 1 1 (fun _ x _ => (x, ())) (fun _ x => x) (fun _ _ _ => rfl) (plusMinus v) s0 (k + 1)
    refine ⟨s, h1, fun i hi => ?_⟩
    have h3 := h2 i hi
    dsimp only at h3
    rw [h3, (led_alternates ρ v (k + 1) i ((k33_nodes i).1 hi)).1, norm_smul]
    have : ‖plusMinus v i‖ = ‖v‖ := by unfold plusMinus; split; · rfl
                                       · exact norm_neg v
    rw [this]
    exact mul_le_mul_of_nonneg_right (ledSize_grows ρ hρ hρ4 k) (norm_nonneg _)

-- three agents averaging their vectors: LED with its default five local steps and dual step size 0.01
example (b : Nat → Vec d) : ∃ ρ0 : ℝ, 0 < ρ0 ∧ ∀ ρ, 0 < ρ → ρ < ρ0 →
    LinearTo (led (springGrad b) (weights path3) ρ 0.01 5) (fun a => a.x) (calmWorld d) path3 (fun _ => (1 / 3 : ℝ) • (b 0 + b 1 + b 2)) := by
  obtain ⟨ρ0, h0, h⟩ := (C105_default (d := d) (Ω := Unit) path3_wf path3_loopless path3_joined 2
    (by intro i hi; have : i = 0 ∨ i = 1 ∨ i = 2 := by simpa [path3] using hi
        rcases this with rfl | rfl | rfl <;> decide) 5 (by norm_num) 0.01 (by norm_num) (by norm_num) one_pos one_pos).2
  exact ⟨ρ0, h0, fun ρ hρ hlt => h ρ hρ hlt _ _ _ _ _ calm_lossless (springs_smooth b) (fun _ _ _ => rfl) (springs_solves b)⟩

end
end Verif.Props
