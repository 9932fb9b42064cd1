import Verif.Props.Variance
import Verif.Props.Rates
import Verif.Lemmas.SmallStep
set_option linter.unusedSectionVars false
/-!
# C104: gradient tracking converges to the optimum for every small step size

Setting of C80-C82: every cost `m`-strongly convex and `L`-smooth, a connected network, all agents active, no message lost. For
every network, weights, `L` and `m` there is a step size `ρ0 > 0` below which the method converges linearly to the minimiser of
the sum, for all costs with these constants and all initial states. The bound does not depend on the costs or on the start.
-/
namespace Verif.Props
open Verif P2P Sys Consensus Costs
open scoped InnerProductSpace

section
variable {A Ω : Type} [DecidableEq A] {d : Nat}

/-- positive self-weights -/
def LazyWeights (n : Net A) (W : A → A → ℝ) : Prop := ∃ δ : ℝ, 0 < δ ∧ ∀ i ∈ n.nodes, δ ≤ W i i

theorem lazy_default (n : Net A) (hw : n.WF) (hl : Loopless n) : LazyWeights n (weights n) := by
  have key : ∀ l : List A, (∀ i ∈ l, i ∈ n.nodes) → ∃ δ : ℝ, 0 < δ ∧ ∀ i ∈ l, δ ≤ weights n i i := by
    intro l
    induction l with
    | nil => intro _; exact ⟨1, one_pos, fun i hi => absurd hi List.not_mem_nil⟩
    | cons a t ih =>
      intro h
      obtain ⟨δ, h0, h1⟩ := ih (fun i hi => h i (List.mem_cons_of_mem _ hi))
      have h2 := metropolis_diag n hw hl a (h a List.mem_cons_self)
      have h3 : 0 < 1 / (1 + (degree n a : ℝ)) := by positivity
      refine ⟨min δ (1 / (1 + (degree n a : ℝ))), lt_min h0 h3, fun i hi => ?_⟩
      rcases List.mem_cons.1 hi with rfl | hi
      · exact (min_le_right _ _).trans h2
      · exact (min_le_left _ _).trans (h1 i hi)
  exact key n.nodes (fun _ h => h)

/-- SPEC: for every small enough step size, on every problem with the constants `L` and `m`, with every world in which no message is
lost, every agent converges linearly to the minimiser of the sum -/
def SmallStepsConverge {α : Type} (Ω : Type) (n : Net A) (d : Nat) (alg : Grad A (Vec d) Ω → ℝ → P2PAlg A (Vec d) Ω α) (x : α → Vec d) (L m : ℝ) : Prop :=
  ∃ ρ0 : ℝ, 0 < ρ0 ∧ ∀ ρ, 0 < ρ → ρ < ρ0 → ∀ (w : World A (Vec d) Ω) (f : A → Vec d → ℝ) (G : A → Vec d → Vec d) (grad : Grad A (Vec d) Ω) (xs : Vec d),
    Lossless w n → Smooth n f G L m → Exactly grad G → SolvesSum n f xs → LinearTo (alg grad ρ) x w n (fun _ => xs)

theorem gradLike_nodes {n : Net A} {f : A → Vec d → ℝ} {G : A → Vec d → Vec d} {L m : ℝ} (hf : Smooth n f G L m) : GradLike (gradAt (nodeG n G)) L m where
  Lpos := hf.Lpos
  mpos := hf.mpos
  coco x y := stack_cocoercive hf.Lpos hf.nodes.1 (fun i => (hf.nodes.2 i).mono hf.mpos.le) x y
  mono x y := stack_monotone hf.nodes.2 x y

theorem optimum_mean {n : Net A} (hn : n.nodes.Nodup) {f : A → Vec d → ℝ} {G : A → Vec d → Vec d} {L m : ℝ} (hf : Smooth n f G L m) {xs : Vec d} (hxs : SolvesSum n f xs) :
    meanOp (gradAt (nodeG n G) (gather n (fun _ => xs))) = 0 := by
  rw [mean_eq_zero, ← (solves_iff hf xs).1 hxs]
  exact nodeSum hn (fun i => G i xs)

/-- the stacked recursion behind all tracking methods -/
theorem tracking_core {n : Net A} (hw : n.WF) (hc : JoinedUp n) {W : A → A → ℝ} (hW : GoodWeights n W) (hlazy : LazyWeights n W) (L m κ : ℝ)
    (hL : 0 < L) (hm : 0 < m) (hκ : 0 ≤ κ) : ∃ ρ0 : ℝ, 0 < ρ0 ∧ ∀ ρ, 0 < ρ → ρ < ρ0 → ∃ r : ℝ, 0 ≤ r ∧ r < 1 ∧
      ∀ (T2 T3 : Stack (Node n) d →ₗ[ℝ] Stack (Node n) d), Even meanOp T2 → Even meanOp T3 → ∀ (f : A → Vec d → ℝ) (G : A → Vec d → Vec d) (xs : Vec d),
      Smooth n f G L m → SolvesSum n f xs → ∀ (X Y E1 E2 : Nat → Stack (Node n) d), meanOp (Y 0) = meanOp (gradAt (nodeG n G) (X 0)) →
        (∀ k, X (k + 1) = mixOp (nodeW n W) (X k) - ρ • T2 (Y k + E1 k)) →
        (∀ k, Y (k + 1) = mixOp (nodeW n W) (Y k) + T3 (gradAt (nodeG n G) (X (k + 1)) - gradAt (nodeG n G) (X k)) + E2 k) →
        (∀ k, meanOp (E2 k) = 0) → (∀ k, ‖E1 k‖ ≤ κ * ρ * ‖Y k‖ ∧ ‖E2 k‖ ≤ κ * ρ * ‖Y k‖) →
        ∃ C : ℝ, ∀ k, ‖X k - gather n (fun _ => xs)‖ ^ 2 ≤ C * r ^ k := by
  obtain ⟨δ, hδ, hdiag⟩ := hlazy
  obtain ⟨s, hs0, hs1, hs⟩ := exists_shrinks (d := d) (hW.stochastic hw.nodup) (hW.linked hw hc) hδ (fun i => hdiag i.1 i.mem)
  obtain ⟨ρ0, h0, hr⟩ := tracking_rate (H := Stack (Node n) d) L m s κ hL hm hs0 hs1 hκ
  refine ⟨ρ0, h0, fun ρ hρ hρ0 => ?_⟩
  obtain ⟨r, hr0, hr1, hb⟩ := hr ρ hρ hρ0
  refine ⟨r, hr0, hr1, fun T2 T3 h2 h3 f G xs hf hxs X Y E1 E2 hY0 hX hY hE2 hE => ?_⟩
  exact hb meanOp (mixOp (nodeW n W)) T2 T3 mean_proj hs h2 h3 _ (gradLike_nodes hf) _ (mean_of_agree (fun _ _ => rfl)) (optimum_mean hw.nodup hf hxs)
    X Y E1 E2 hY0 hX hY hE2 (fun k _ => hE k)

/-! ### whole batches -/

/-- GT-VR with whole batches is Aug-DGM with full gradients, whatever the coin shows. -/
theorem gtVr_whole_batch {w : World A (Vec d) Ω} {n : Net A} (h : Lossless w n) {W : A → A → ℝ} (hW : Mixing n W) (ρ : ℝ) (c : Emp A (Vec d) Ω) (G : A → Vec d → Vec d)
    (hc : SampleMeans c G) (coin : Ω → Bool × Ω) (hwh : WholeBatch c G) (x0 : A → Vec d) :
    Computes (gtVr c coin W ρ) (fun a => a.x) w n x0 (fun k => (augDgmDoc n W ρ G x0 k).1) := by
  intro s0 k
  obtain ⟨s, hs, hP⟩ := after_induction (gtVr c coin W ρ) w n x0 s0 (fun k s =>
    (∀ i ∈ n.nodes, (s.loc i).x = (augDgmDoc n W ρ G x0 k).1 i) ∧
    (∀ i ∈ n.nodes, (s.loc i).y = (augDgmDoc n W ρ G x0 k).2 i) ∧
    (∀ i ∈ n.nodes, (s.loc i).v = G i (s.loc i).x) ∧ (∀ i ∈ n.nodes, (s.loc i).fullTau = G i (s.loc i).tau)) (by
      obtain ⟨ωs, hi⟩ := init_spec (gtVr c coin W ρ) n h.wf x0 s0
      refine ⟨fun i hi' => by rw [hi i hi']; rfl, fun i hi' => ?_, fun i hi' => ?_, fun i hi' => ?_⟩
      · rw [hi i hi']; exact hc.all _ _
      · rw [hi i hi']; exact hc.all _ _
      · rw [hi i hi']; exact hc.all _ _) (by
      intro k s ⟨hx, hy, hv, hτ⟩
      obtain ⟨s', ωs, ωc, h1, h2⟩ := gtVr_step_coin h c coin W hW.supported ρ k s
      have ex : ∀ i ∈ n.nodes, (s'.loc i).x = (augDgmDoc n W ρ G x0 (k + 1)).1 i := by
        intro i hi
        rw [(h2 i hi).1, applyW_congr n W (fun j hj => by rw [hx j hj, hy j hj]) i]; rfl
      have eτ : ∀ i ∈ n.nodes, (s'.loc i).fullTau = G i (s'.loc i).tau := by
        intro i hi
        obtain ⟨_, a2, _, _⟩ := h2 i hi
        rcases a2 with ⟨_, t1, t2⟩ | ⟨_, t1, t2⟩
        · rw [t1, t2, hc.all]
        · rw [t1, t2, hτ i hi]
      have ev : ∀ i ∈ n.nodes, (s'.loc i).v = G i (s'.loc i).x := by
        intro i hi
        rw [(h2 i hi).2.2.1, hwh.grad, hwh.used, hc.some_, ← hc.full, eτ i hi]; abel
      refine ⟨s', h1, ex, fun i hi => ?_, ev, eτ⟩
      rw [(h2 i hi).2.2.2, applyW_congr n W (fun j hj => by rw [hy j hj, ev j hj, hv j hj, ex j hj, hx j hj]) i]; rfl) k
  exact ⟨s, hs, hP.1⟩

/-- GT-SAGA with exact gradients: `(x_k, y_k, g_k)` -/
noncomputable def sagaDoc (n : Net A) (W : A → A → ℝ) (ρ : ℝ) (G : A → Vec d → Vec d) (x0 : A → Vec d) : Nat → (A → Vec d) × (A → Vec d) × (A → Vec d)
  | 0 => (x0, (fun _ => 0), (fun _ => 0))
  | k + 1 =>
    let p := sagaDoc n W ρ G x0 k
    let g := fun i => G i (p.1 i)
    let y := matVec n W (fun i => p.2.1 i + g i - p.2.2 i)
    (matVec n W (fun i => p.1 i - ρ • y i), y, g)

theorem saga_whole_batch {w : World A (Vec d) Ω} {n : Net A} (h : Lossless w n) {W : A → A → ℝ} (hW : Mixing n W) (ρ : ℝ) (c : Emp A (Vec d) Ω) (G : A → Vec d → Vec d)
    (hwh : WholeBatch c G) (x0 : A → Vec d) :
    Computes (gtSaga c W ρ) (fun a => a.x) w n x0 (fun k => (sagaDoc n W ρ G x0 k).1) := by
  intro s0 k
  obtain ⟨s, hs, hP⟩ := after_induction (gtSaga c W ρ) w n x0 s0 (fun k s => ∀ i ∈ n.nodes, (s.loc i).x = (sagaDoc n W ρ G x0 k).1 i ∧
    (s.loc i).y = (sagaDoc n W ρ G x0 k).2.1 i ∧ (s.loc i).g = (sagaDoc n W ρ G x0 k).2.2 i) (by
      obtain ⟨ωs, hi⟩ := init_spec (gtSaga c W ρ) n h.wf x0 s0
      intro i hi'; rw [hi i hi']; exact ⟨rfl, rfl, rfl⟩) (by
      intro k s hk
      obtain ⟨s', ωs, ωs', h1, h2⟩ := gtSaga_step h c W hW.supported ρ k s
      have eg : ∀ i ∈ n.nodes, (s'.loc i).g = G i ((sagaDoc n W ρ G x0 k).1 i) := by
        intro i hi
        rw [(h2 i hi).1, hwh.grad, hwh.used, (hk i hi).1]; abel
      have ey : ∀ i ∈ n.nodes, (s'.loc i).y = (sagaDoc n W ρ G x0 (k + 1)).2.1 i := by
        intro i hi
        rw [(h2 i hi).2.1, applyW_congr n W (fun j hj => by rw [eg j hj, (hk j hj).2.1, (hk j hj).2.2]) i]; rfl
      refine ⟨s', h1, fun i hi => ⟨?_, ey i hi, eg i hi⟩⟩
      rw [(h2 i hi).2.2.1, applyW_congr n W (fun j hj => by rw [ey j hj, (hk j hj).1]) i]; rfl) k
  exact ⟨s, hs, fun i hi => (hP i hi).1⟩

/-! ### K-GT -/

/-- `K` local steps of K-GT with the correction `c` -/
def kgtSteps {E : Type} [AddCommGroup E] [Module ℝ E] (g : E → E) (ρ : ℝ) (c : E) : Nat → E → E
  | 0, x => x
  | K + 1, x => kgtSteps g ρ c K (x - ρ • (g x + c))

/-- the average direction of the local steps -/
noncomputable def localMean {E : Type} [AddCommGroup E] [Module ℝ E] (g : E → E) (ρ : ℝ) (c : E) (K : Nat) (x : E) : E := (1 / ((K : ℝ) * ρ)) • (x - kgtSteps g ρ c K x)

/-- K-GT: `(x_k, c_k)` -/
noncomputable def kgtDoc (n : Net A) (W : A → A → ℝ) (ρ β : ℝ) (K : Nat) (G : A → Vec d → Vec d) (x0 : A → Vec d) : Nat → (A → Vec d) × (A → Vec d)
  | 0 => (x0, fun _ => 0)
  | k + 1 =>
    let p := kgtDoc n W ρ β K G x0 k
    let z := fun i => localMean (G i) ρ (p.2 i) K (p.1 i)
    (matVec n W (fun i => p.1 i - ((K : ℝ) * β * ρ) • z i), fun i => p.2 i - z i + matVec n W z i)

theorem kgt_both {w : World A (Vec d) Ω} {n : Net A} (h : Lossless w n) {W : A → A → ℝ} (hW : Mixing n W) (ρ β : ℝ) (K : Nat)
    (grad : Grad A (Vec d) Ω) (G : A → Vec d → Vec d) (hG : Exactly grad G) (x0 : A → Vec d) :
    ∀ (s0 : Sys A (Vec d) Ω (Kgt (Vec d))) (k : Nat), ∃ s, (kgt grad W ρ β K).after w n x0 s0 k = .ok s ∧
      ∀ i ∈ n.nodes, (s.loc i).x = (kgtDoc n W ρ β K G x0 k).1 i ∧ (s.loc i).c = (kgtDoc n W ρ β K G x0 k).2 i := by
  have hrep : ∀ (i : A) (c : Vec d) (K : Nat) (x : Vec d) (ω : Ω),
      (repeatN (fun x ω => let g := grad i x ω; (x - ρ • (g.1 + c), g.2)) K x ω).1 = kgtSteps (G i) ρ c K x := by
    intro i c K
    induction K with
    | zero => intro x ω; rfl
    | succ K ih =>
      intro x ω
      rw [repeatN]
      dsimp only
      rw [ih, hG]; rfl
  intro s0 k
  obtain ⟨s, hs, hP⟩ := after_induction (kgt grad W ρ β K) w n x0 s0 (fun k s => ∀ i ∈ n.nodes, (s.loc i).x = (kgtDoc n W ρ β K G x0 k).1 i ∧
    (s.loc i).c = (kgtDoc n W ρ β K G x0 k).2 i) (by
      obtain ⟨ωs, hi⟩ := init_spec (kgt grad W ρ β K) n h.wf x0 s0
      intro i hi'; rw [hi i hi']; exact ⟨rfl, rfl⟩) (by
      intro k s hk
      obtain ⟨s', ωs, h1, h2⟩ := kgt_step h grad W hW.supported ρ β K k s
      have ez : ∀ i ∈ n.nodes, (s'.loc i).z = localMean (G i) ρ ((kgtDoc n W ρ β K G x0 k).2 i) K ((kgtDoc n W ρ β K G x0 k).1 i) := by
        intro i hi
        rw [(h2 i hi).1, hrep, (hk i hi).1, (hk i hi).2]; rfl
      refine ⟨s', h1, fun i hi => ⟨?_, ?_⟩⟩
      · rw [(h2 i hi).2.2, applyW_congr n W (fun j hj => by rw [ez j hj, (hk j hj).1]) i]; rfl
      · rw [(h2 i hi).2.1, applyW_congr n W (fun j hj => ez j hj) i, ez i hi, (hk i hi).2]; rfl) k
  exact ⟨s, hs, hP⟩

theorem kgt_doc {w : World A (Vec d) Ω} {n : Net A} (h : Lossless w n) {W : A → A → ℝ} (hW : Mixing n W) (ρ β : ℝ) (K : Nat)
    (grad : Grad A (Vec d) Ω) (G : A → Vec d → Vec d) (hG : Exactly grad G) (x0 : A → Vec d) :
    Computes (kgt grad W ρ β K) (fun a => a.x) w n x0 (fun k => (kgtDoc n W ρ β K G x0 k).1) := by
  intro s0 k
  obtain ⟨s, hs, hP⟩ := kgt_both h hW ρ β K grad G hG x0 s0 k
  exact ⟨s, hs, fun i hi => (hP i hi).1⟩

/-- the local steps of all agents at once -/
noncomputable def stackSteps {H : Type} [AddCommGroup H] [Module ℝ H] (g : H → H) (ρ : ℝ) (c : H) (K : Nat) (x : H) : H := kgtSteps g ρ c K x

theorem stackSteps_apply (n : Net A) (G : A → Vec d → Vec d) (ρ : ℝ) (c : Stack (Node n) d) (K : Nat) : ∀ (x : Stack (Node n) d) (i : Node n),
    stackSteps (gradAt (nodeG n G)) ρ c K x i = kgtSteps (G i.1) ρ (c i) K (x i) := by
  induction K with
  | zero => intro x i; rfl
  | succ K ih => intro x i; exact ih (x - ρ • (gradAt (nodeG n G) x + c)) i

/-- a few short steps do not move far -/
theorem steps_drift {H : Type} [NormedAddCommGroup H] [InnerProductSpace ℝ H] {g : H → H} {L m : ℝ} (hg : GradLike g L m) {ρ : ℝ} (hρ : 0 < ρ) (hρL : ρ * L ≤ 1)
    (c x : H) (K : Nat) :
    ‖(x - stackSteps g ρ c K x) - ((K : ℝ) * ρ) • (g x + c)‖ ≤ (K : ℝ) * (ρ * L * (2 ^ K * (ρ * ‖g x + c‖))) := by
  set y := g x + c with hy
  have hL := hg.Lpos
  -- from a point `z` near `x`, `j` more steps
  have key : ∀ (j : Nat) (t : ℝ) (z : H), 0 ≤ t → ‖z - x‖ ≤ t → ‖(z - stackSteps g ρ c j z) - ((j : ℝ) * ρ) • y‖ ≤ (j : ℝ) * (ρ * L * (2 ^ j * (t + ρ * ‖y‖))) := by
    intro j
    induction j with
    | zero => intro t z _ _; simp [stackSteps, kgtSteps]
    | succ j ih =>
      intro t z ht hz
      set z' := z - ρ • (g z + c) with hz'
      have e : (z - stackSteps g ρ c (j + 1) z) - (((j + 1 : Nat) : ℝ) * ρ) • y =
          ((z' - stackSteps g ρ c j z') - ((j : ℝ) * ρ) • y) + ρ • (g z - g x) := by
        have : stackSteps g ρ c (j + 1) z = stackSteps g ρ c j z' := rfl
        rw [this, hz', hy]; push_cast; module
      have h1 : ‖ρ • (g z - g x)‖ ≤ ρ * L * t := by
        rw [norm_smul, Real.norm_of_nonneg hρ.le, mul_assoc]
        exact mul_le_mul_of_nonneg_left ((hg.lip z x).trans (mul_le_mul_of_nonneg_left hz hL.le)) hρ.le
      have hyn : 0 ≤ ρ * ‖y‖ := mul_nonneg hρ.le (norm_nonneg _)
      have h2 : ‖z' - x‖ ≤ 2 * t + ρ * ‖y‖ := by
        have e2 : z' - x = (z - x) - ρ • (g z - g x) - ρ • y := by rw [hz', hy]; module
        rw [e2]
        refine (norm_sub_le _ _).trans ?_
        have h3 := norm_sub_le (z - x) (ρ • (g z - g x))
        have h4 : ‖ρ • y‖ = ρ * ‖y‖ := by rw [norm_smul, Real.norm_of_nonneg hρ.le]
        have h5 : ρ * L * t ≤ t := by have := mul_le_mul_of_nonneg_right hρL ht; linarith
        linarith
      have h3 := ih (2 * t + ρ * ‖y‖) z' (by linarith) h2
      rw [e]
      refine (norm_add_le _ _).trans ((add_le_add h3 h1).trans ?_)
      have hpow : (1 : ℝ) ≤ 2 ^ j := one_le_pow₀ (by norm_num)
      have e3 : 2 ^ j * (2 * t + ρ * ‖y‖ + ρ * ‖y‖) = (2 : ℝ) ^ (j + 1) * (t + ρ * ‖y‖) := by rw [pow_succ (2 : ℝ) j]; ring
      rw [e3]
      have h6 : t ≤ 2 ^ (j + 1) * (t + ρ * ‖y‖) := by
        have : (1 : ℝ) ≤ 2 ^ (j + 1) := one_le_pow₀ (by norm_num)
        nlinarith
      have h7 := mul_le_mul_of_nonneg_left h6 (mul_nonneg hρ.le hL.le)
      push_cast
      linarith
  have h0 := key K 0 x (le_refl _) (by simp)
  rwa [zero_add] at h0

/-- ... so their average direction is close to the first one -/
theorem local_error {H : Type} [NormedAddCommGroup H] [InnerProductSpace ℝ H] {g : H → H} {L m : ℝ} (hg : GradLike g L m) {ρ : ℝ} (hρ : 0 < ρ) (hρL : ρ * L ≤ 1)
    (c x : H) (K : Nat) (hK : 0 < K) :
    ‖(1 / ((K : ℝ) * ρ)) • (x - stackSteps g ρ c K x) - (g x + c)‖ ≤ L * (ρ * 2 ^ K * ‖g x + c‖) := by
  have hK' : 0 < (K : ℝ) := by exact_mod_cast hK
  have h0 := steps_drift hg hρ hρL c x K
  set y := g x + c with hy
  have e : (1 / ((K : ℝ) * ρ)) • (x - stackSteps g ρ c K x) - y = (1 / ((K : ℝ) * ρ)) • ((x - stackSteps g ρ c K x) - ((K : ℝ) * ρ) • y) := by
    rw [smul_sub (1 / ((K : ℝ) * ρ)) (x - stackSteps g ρ c K x) (((K : ℝ) * ρ) • y), smul_smul, one_div, inv_mul_cancel₀ (by positivity), one_smul]
  rw [e, norm_smul, Real.norm_of_nonneg (by positivity)]
  refine (mul_le_mul_of_nonneg_left h0 (by positivity)).trans (le_of_eq ?_)
  field_simp

section
variable {n : Net A} (hw : n.WF) (hc : JoinedUp n) {W : A → A → ℝ} (hW : GoodWeights n W) (hlazy : LazyWeights n W) {L m : ℝ} (hL : 0 < L) (hm : 0 < m)
include hw hc hW hlazy hL hm

/-- undisturbed tracking -/
theorem tracking_clean : ∃ ρ0 : ℝ, 0 < ρ0 ∧ ∀ ρ, 0 < ρ → ρ < ρ0 → ∃ r : ℝ, 0 ≤ r ∧ r < 1 ∧
      ∀ (T2 T3 : Stack (Node n) d →ₗ[ℝ] Stack (Node n) d), Even meanOp T2 → Even meanOp T3 → ∀ (f : A → Vec d → ℝ) (G : A → Vec d → Vec d) (xs : Vec d),
      Smooth n f G L m → SolvesSum n f xs → ∀ (X Y : Nat → Stack (Node n) d), meanOp (Y 0) = meanOp (gradAt (nodeG n G) (X 0)) →
        (∀ k, X (k + 1) = mixOp (nodeW n W) (X k) - ρ • T2 (Y k)) →
        (∀ k, Y (k + 1) = mixOp (nodeW n W) (Y k) + T3 (gradAt (nodeG n G) (X (k + 1)) - gradAt (nodeG n G) (X k))) →
        ∃ C : ℝ, ∀ k, ‖X k - gather n (fun _ => xs)‖ ^ 2 ≤ C * r ^ k := by
  obtain ⟨ρ0, h0, h⟩ := tracking_core (d := d) hw hc hW hlazy L m 0 hL hm (le_refl 0)
  refine ⟨ρ0, h0, fun ρ hρ hρ0 => ?_⟩
  obtain ⟨r, hr0, hr1, hb⟩ := h ρ hρ hρ0
  refine ⟨r, hr0, hr1, fun T2 T3 h2 h3 f G xs hf hxs X Y hY0 hX hY => ?_⟩
  refine hb T2 T3 h2 h3 f G xs hf hxs X Y (fun _ => 0) (fun _ => 0) hY0 (fun k => by rw [add_zero]; exact hX k) (fun k => by rw [add_zero]; exact hY k)
    (fun _ => map_zero _) (fun k => ?_)
  rw [norm_zero, zero_mul, zero_mul]; exact ⟨le_refl _, le_refl _⟩

theorem augDgm_stack (ρ : ℝ) (G : A → Vec d → Vec d) (x0 : A → Vec d) (k : Nat) :
    gather n (augDgmDoc n W ρ G x0 (k + 1)).1 = mixOp (nodeW n W) (gather n (augDgmDoc n W ρ G x0 k).1) - ρ • mixOp (nodeW n W) (gather n (augDgmDoc n W ρ G x0 k).2) ∧
    gather n (augDgmDoc n W ρ G x0 (k + 1)).2 = mixOp (nodeW n W) (gather n (augDgmDoc n W ρ G x0 k).2)
      + mixOp (nodeW n W) (gradAt (nodeG n G) (gather n (augDgmDoc n W ρ G x0 (k + 1)).1) - gradAt (nodeG n G) (gather n (augDgmDoc n W ρ G x0 k).1)) := by
  constructor
  · refine (gather_matVec hw.nodup W _).trans ?_
    rw [gather_sub, gather_smul, map_sub, map_smul]
  · refine (gather_matVec hw.nodup W _).trans ?_
    rw [← map_add]
    congr 1
    rw [gather_sub, gather_add]
    rw [add_sub_assoc]; rfl

/-- C104 for Aug-DGM -/
theorem C104_aug_dgm : SmallStepsConverge Ω n d (fun grad ρ => augDgm grad W ρ) (fun a => a.x) L m := by
  obtain ⟨ρ0, h0, h⟩ := tracking_clean (d := d) hw hc hW hlazy hL hm
  refine ⟨ρ0, h0, fun ρ hρ hρ0 w f G grad xs hl hf hG hxs => ?_⟩
  obtain ⟨r, hr0, hr1, hb⟩ := h ρ hρ hρ0
  have hS := hW.stochastic hw.nodup
  refine linear_of_stack (fun x0 k => (augDgmDoc n W ρ G x0 k).1) (fun x0 => C65_aug_dgm hl hW.mixing ρ grad G hG x0) r hr0 hr1 fun x0 => ?_
  exact hb (mixOp (nodeW n W)) (mixOp (nodeW n W)) (mean_even hS) (mean_even hS) f G xs hf hxs (fun k => gather n (augDgmDoc n W ρ G x0 k).1)
    (fun k => gather n (augDgmDoc n W ρ G x0 k).2) rfl (fun k => (augDgm_stack hw hc hW hlazy hL hm ρ G x0 k).1) (fun k => (augDgm_stack hw hc hW hlazy hL hm ρ G x0 k).2)

/-- C104 for ATC-Tracking -/
theorem C104_atc_tracking : SmallStepsConverge Ω n d (fun grad ρ => atcTracking grad W ρ) (fun a => a.x) L m := by
  obtain ⟨ρ0, h0, h⟩ := tracking_clean (d := d) hw hc hW hlazy hL hm
  refine ⟨ρ0, h0, fun ρ hρ hρ0 w f G grad xs hl hf hG hxs => ?_⟩
  obtain ⟨r, hr0, hr1, hb⟩ := h ρ hρ hρ0
  have hS := hW.stochastic hw.nodup
  refine linear_of_stack (fun x0 k => (atcTrackingDoc n W ρ G x0 k).1) (fun x0 => C65_atc_tracking hl hW.mixing ρ grad G hG x0) r hr0 hr1 fun x0 => ?_
  refine hb (mixOp (nodeW n W)) LinearMap.id (mean_even hS) (Even.id _) f G xs hf hxs (fun k => gather n (atcTrackingDoc n W ρ G x0 k).1)
    (fun k => gather n (atcTrackingDoc n W ρ G x0 k).2) rfl (fun k => ?_) (fun k => ?_)
  · refine (gather_matVec hw.nodup W _).trans ?_
    rw [gather_sub, gather_smul, map_sub, map_smul]
  · have e : gather n (atcTrackingDoc n W ρ G x0 (k + 1)).2 = gather n (matVec n W (atcTrackingDoc n W ρ G x0 k).2)
        + (gather n fun i => G i ((atcTrackingDoc n W ρ G x0 (k + 1)).1 i)) - (gather n fun i => G i ((atcTrackingDoc n W ρ G x0 k).1 i)) := rfl
    show gather n (atcTrackingDoc n W ρ G x0 (k + 1)).2 = _
    rw [e, gather_matVec hw.nodup, add_sub_assoc]; rfl

/-- C104 for the tracking form of GT-SARAH: whole batches, or no inner steps -/
theorem C104_sarah (K : Nat) : ∃ ρ0 : ℝ, 0 < ρ0 ∧ ∀ ρ, 0 < ρ → ρ < ρ0 → ∀ (w : World A (Vec d) Ω) (f : A → Vec d → ℝ) (G : A → Vec d → Vec d) (c : Emp A (Vec d) Ω) (xs : Vec d),
    Lossless w n → Smooth n f G L m → SampleMeans c G → (K = 0 ∨ WholeBatch c G) → SolvesSum n f xs → LinearTo (gtSarah c W ρ K) (fun a => a.x) w n (fun _ => xs) := by
  obtain ⟨ρ0, h0, h⟩ := tracking_clean (d := d) hw hc hW hlazy hL hm
  refine ⟨ρ0, h0, fun ρ hρ hρ0 w f G c xs hl hf hs hK hxs => ?_⟩
  obtain ⟨r, hr0, hr1, hb⟩ := h ρ hρ hρ0
  refine linear_of_stack (fun x0 k => (digingDoc n W ρ G x0 (k * (K + 1))).1) (fun x0 => C87_sarah hl hW.mixing ρ c G hs K hK x0) (r ^ (K + 1)) (pow_nonneg hr0 _)
    (pow_lt_one₀ hr0 hr1 (by omega)) fun x0 => ?_
  obtain ⟨C, hC⟩ := hb LinearMap.id LinearMap.id (Even.id _) (Even.id _) f G xs hf hxs (fun k => gather n (digingDoc n W ρ G x0 k).1)
    (fun k => gather n (digingDoc n W ρ G x0 (k + 1)).2.1) (by
      have e : gather n (digingDoc n W ρ G x0 (0 + 1)).2.1 = gather n (matVec n W (fun _ => (0 : Vec d))) + (gather n fun i => G i (x0 i)) - gather n (fun _ => (0 : Vec d)) := rfl
      have e0 : gather n (fun _ => (0 : Vec d)) = 0 := rfl
      show meanOp (gather n (digingDoc n W ρ G x0 (0 + 1)).2.1) = _
      rw [e, gather_matVec hw.nodup, e0, map_zero, zero_add, sub_zero]; rfl) (fun k => by
      have e : gather n (digingDoc n W ρ G x0 (k + 1)).1 = gather n (matVec n W (digingDoc n W ρ G x0 k).1) - ρ • gather n (digingDoc n W ρ G x0 (k + 1)).2.1 := rfl
      show gather n (digingDoc n W ρ G x0 (k + 1)).1 = _
      rw [e, gather_matVec hw.nodup]; rfl) (fun k => by
      have e : gather n (digingDoc n W ρ G x0 (k + 1 + 1)).2.1 = gather n (matVec n W (digingDoc n W ρ G x0 (k + 1)).2.1)
          + (gather n fun i => G i ((digingDoc n W ρ G x0 (k + 1)).1 i)) - (gather n fun i => G i ((digingDoc n W ρ G x0 k).1 i)) := rfl
      show gather n (digingDoc n W ρ G x0 (k + 1 + 1)).2.1 = _
      rw [e, gather_matVec hw.nodup, add_sub_assoc]; rfl)
  refine ⟨C, fun k => ?_⟩
  have := hC (k * (K + 1))
  rw [Nat.mul_comm k (K + 1), pow_mul] at this
  rw [Nat.mul_comm k (K + 1)]
  exact this

/-- C104 for GT-VR: a snapshot in every iteration (snapshot probability one) or whole batches -/
theorem C104_gt_vr : ∃ ρ0 : ℝ, 0 < ρ0 ∧ ∀ ρ, 0 < ρ → ρ < ρ0 → ∀ (w : World A (Vec d) Ω) (f : A → Vec d → ℝ) (G : A → Vec d → Vec d) (c : Emp A (Vec d) Ω)
    (coin : Ω → Bool × Ω) (xs : Vec d), Lossless w n → Smooth n f G L m → SampleMeans c G → ((∀ ω, (coin ω).1 = true) ∨ WholeBatch c G) → SolvesSum n f xs →
    LinearTo (gtVr c coin W ρ) (fun a => a.x) w n (fun _ => xs) := by
  obtain ⟨ρ0, h0, h⟩ := tracking_clean (d := d) hw hc hW hlazy hL hm
  refine ⟨ρ0, h0, fun ρ hρ hρ0 w f G c coin xs hl hf hs hor hxs => ?_⟩
  obtain ⟨r, hr0, hr1, hb⟩ := h ρ hρ hρ0
  have hS := hW.stochastic hw.nodup
  refine linear_of_stack (fun x0 k => (augDgmDoc n W ρ G x0 k).1) (fun x0 => ?_) r hr0 hr1 fun x0 => ?_
  · rcases hor with hor | hor
    · exact C87_gt_vr_always_snapshot hl hW.mixing ρ c G hs coin hor x0
    · exact gtVr_whole_batch hl hW.mixing ρ c G hs coin hor x0
  · exact hb (mixOp (nodeW n W)) (mixOp (nodeW n W)) (mean_even hS) (mean_even hS) f G xs hf hxs (fun k => gather n (augDgmDoc n W ρ G x0 k).1)
      (fun k => gather n (augDgmDoc n W ρ G x0 k).2) rfl (fun k => (augDgm_stack hw hc hW hlazy hL hm ρ G x0 k).1) (fun k => (augDgm_stack hw hc hW hlazy hL hm ρ G x0 k).2)

/-- C104 for GT-SAGA with whole batches -/
theorem C104_gt_saga : ∃ ρ0 : ℝ, 0 < ρ0 ∧ ∀ ρ, 0 < ρ → ρ < ρ0 → ∀ (w : World A (Vec d) Ω) (f : A → Vec d → ℝ) (G : A → Vec d → Vec d) (c : Emp A (Vec d) Ω)
    (xs : Vec d), Lossless w n → Smooth n f G L m → WholeBatch c G → SolvesSum n f xs →
    LinearTo (gtSaga c W ρ) (fun a => a.x) w n (fun _ => xs) := by
  obtain ⟨ρ0, h0, h⟩ := tracking_clean (d := d) hw hc hW hlazy hL hm
  refine ⟨ρ0, h0, fun ρ hρ hρ0 w f G c xs hl hf hor hxs => ?_⟩
  obtain ⟨r, hr0, hr1, hb⟩ := h ρ hρ hρ0
  have hS := hW.stochastic hw.nodup
  refine linear_of_stack (fun x0 k => (sagaDoc n W ρ G x0 k).1) (fun x0 => saga_whole_batch hl hW.mixing ρ c G hor x0) r hr0 hr1 fun x0 => ?_
  refine hb (mixOp (nodeW n W)) (mixOp (nodeW n W)) (mean_even hS) (mean_even hS) f G xs hf hxs (fun k => gather n (sagaDoc n W ρ G x0 k).1)
      (fun k => gather n (sagaDoc n W ρ G x0 (k + 1)).2.1) ?_ (fun k => ?_) (fun k => ?_)
  · have e : gather n (sagaDoc n W ρ G x0 (0 + 1)).2.1 = gather n (matVec n W (fun i => 0 + G i (x0 i) - 0)) := rfl
    show meanOp (gather n (sagaDoc n W ρ G x0 (0 + 1)).2.1) = _
    rw [e, gather_matVec hw.nodup, (mean_even hS).mean]
    simp only [zero_add, sub_zero]; rfl
  · refine (gather_matVec hw.nodup W _).trans ?_
    rw [gather_sub, gather_smul, map_sub, map_smul]; rfl
  · refine (gather_matVec hw.nodup W _).trans ?_
    rw [← map_add]
    congr 1
    rw [gather_sub, gather_add, add_sub_assoc]; rfl

/-- C104 for K-GT: any number of local steps `K ≥ 1` and any global step `β > 0`, small local step sizes -/
theorem C104_kgt (K : Nat) (hK : 0 < K) (β : ℝ) (hβ : 0 < β) : SmallStepsConverge Ω n d (fun grad ρ => kgt grad W ρ β K) (fun a => a.x) L m := by
  set κ : ℝ := 2 * (L * 2 ^ K / (K * β)) with hκ
  have hK' : 0 < (K : ℝ) := by exact_mod_cast hK
  have hκ0 : 0 ≤ κ := by positivity
  obtain ⟨η0, h0, h⟩ := tracking_core (d := d) hw hc hW hlazy L m κ hL hm hκ0
  refine ⟨min (η0 / (K * β)) (1 / L), by positivity, fun ρ hρ hlt w f G grad xs hl hf hG hxs => ?_⟩
  have hρL : ρ * L ≤ 1 := by
    have := hlt.le.trans (min_le_right _ _)
    rwa [le_div_iff₀ hL] at this
  have hη : (K : ℝ) * β * ρ < η0 := by
    have := hlt.trans_le (min_le_left _ _)
    rw [lt_div_iff₀ (by positivity)] at this
    linarith
  have hη0 : 0 < (K : ℝ) * β * ρ := by positivity
  obtain ⟨r, hr0, hr1, hb⟩ := h ((K : ℝ) * β * ρ) hη0 hη
  have hS := hW.stochastic hw.nodup
  refine linear_of_stack (fun x0 k => (kgtDoc n W ρ β K G x0 k).1) (fun x0 => kgt_doc hl hW.mixing ρ β K grad G hG x0) r hr0 hr1 fun x0 => ?_
  set X : Nat → Stack (Node n) d := fun k => gather n (kgtDoc n W ρ β K G x0 k).1 with hX
  set Cc : Nat → Stack (Node n) d := fun k => gather n (kgtDoc n W ρ β K G x0 k).2 with hCc
  set g := gradAt (nodeG n G) with hg
  have hgl : GradLike g L m := gradLike_nodes hf
  set Z : Nat → Stack (Node n) d := fun k => gather n (fun i => localMean (G i) ρ ((kgtDoc n W ρ β K G x0 k).2 i) K ((kgtDoc n W ρ β K G x0 k).1 i)) with hZ
  have hXs : ∀ k, X (k + 1) = mixOp (nodeW n W) (X k) - ((K : ℝ) * β * ρ) • mixOp (nodeW n W) (Z k) := by
    intro k
    refine (gather_matVec hw.nodup W _).trans ?_
    rw [gather_sub, gather_smul, map_sub, map_smul]
  have hCs : ∀ k, Cc (k + 1) = Cc k - Z k + mixOp (nodeW n W) (Z k) := by
    intro k
    rw [← gather_matVec hw.nodup]; rfl
  have hZe : ∀ k, ‖Z k - (g (X k) + Cc k)‖ ≤ L * (ρ * 2 ^ K * ‖g (X k) + Cc k‖) := by
    intro k
    have e : Z k = (1 / ((K : ℝ) * ρ)) • (X k - stackSteps g ρ (Cc k) K (X k)) := by
      apply stack_ext; intro i
      show (1 / ((K : ℝ) * ρ)) • ((kgtDoc n W ρ β K G x0 k).1 i.1 - kgtSteps (G i.1) ρ ((kgtDoc n W ρ β K G x0 k).2 i.1) K ((kgtDoc n W ρ β K G x0 k).1 i.1)) = _
      rw [show (kgtSteps (G i.1) ρ ((kgtDoc n W ρ β K G x0 k).2 i.1) K ((kgtDoc n W ρ β K G x0 k).1 i.1)) = stackSteps g ρ (Cc k) K (X k) i from
        (stackSteps_apply n G ρ (Cc k) K (X k) i).symm]
      rfl
    rw [e]
    exact local_error hgl hρ hρL (Cc k) (X k) K hK
  refine hb (mixOp (nodeW n W)) LinearMap.id (mean_even hS) (Even.id _) f G xs hf hxs X (fun k => g (X k) + Cc k) (fun k => Z k - (g (X k) + Cc k))
    (fun k => mixOp (nodeW n W) (Z k - (g (X k) + Cc k)) - (Z k - (g (X k) + Cc k))) ?_ (fun k => ?_) (fun k => ?_) (fun k => ?_) (fun k => ?_)
  · have : Cc 0 = 0 := rfl
    rw [this, add_zero]
  · rw [hXs k]; congr 3; abel
  · show g (X (k + 1)) + Cc (k + 1) = mixOp (nodeW n W) (g (X k) + Cc k) + (g (X (k + 1)) - g (X k)) + _
    rw [hCs k]
    simp only [map_sub, map_add]
    abel
  · rw [map_sub, (mean_even hS).mean, sub_self]
  · have hle : L * (ρ * 2 ^ K * ‖g (X k) + Cc k‖) * 2 = κ * ((K : ℝ) * β * ρ) * ‖g (X k) + Cc k‖ := by
      rw [hκ]; field_simp
    have h1 := hZe k
    have h2 : 0 ≤ L * (ρ * 2 ^ K * ‖g (X k) + Cc k‖) := by positivity
    refine ⟨by linarith, ?_⟩
    have h3 := norm_sub_le (mixOp (nodeW n W) (Z k - (g (X k) + Cc k))) (Z k - (g (X k) + Cc k))
    have h4 := (mean_even hS (d := d)).le (Z k - (g (X k) + Cc k))
    linarith

end

/-! ### the default weights, and three agents averaging their vectors -/

/-- C104 with the network's default weights -/
theorem C104_default {n : Net A} (hw : n.WF) (hl : Loopless n) (hc : JoinedUp n) {L m : ℝ} (hL : 0 < L) (hm : 0 < m) (K : Nat) (hK : 0 < K) (β : ℝ) (hβ : 0 < β) :
    SmallStepsConverge Ω n d (fun grad ρ => augDgm grad (weights n) ρ) (fun a => a.x) L m ∧
    SmallStepsConverge Ω n d (fun grad ρ => atcTracking grad (weights n) ρ) (fun a => a.x) L m ∧
    SmallStepsConverge Ω n d (fun grad ρ => kgt grad (weights n) ρ β K) (fun a => a.x) L m :=
  ⟨C104_aug_dgm hw hc (metropolis_good n hw hl) (lazy_default n hw hl) hL hm, C104_atc_tracking hw hc (metropolis_good n hw hl) (lazy_default n hw hl) hL hm,
   C104_kgt hw hc (metropolis_good n hw hl) (lazy_default n hw hl) hL hm K hK β hβ⟩

example (b : Nat → Vec d) : ∃ ρ0 : ℝ, 0 < ρ0 ∧ ∀ ρ, 0 < ρ → ρ < ρ0 →
    LinearTo (kgt (springGrad b) (weights path3) ρ 1 5) (fun a => a.x) (calmWorld d) path3 (fun _ => (1 / 3 : ℝ) • (b 0 + b 1 + b 2)) := by
  obtain ⟨ρ0, h0, h⟩ := (C104_default (d := d) (Ω := Unit) path3_wf path3_loopless path3_joined one_pos one_pos 5 (by norm_num) 1 one_pos).2.2
  exact ⟨ρ0, h0, fun ρ hρ hlt => h ρ hρ hlt _ _ _ _ _ calm_lossless (springs_smooth b) (fun _ _ _ => rfl) (springs_solves b)⟩

end
end Verif.Props
