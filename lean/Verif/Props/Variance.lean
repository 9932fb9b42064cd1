import Verif.Lemmas.Variance
import Verif.Model.Batch
import Verif.Props.AdmmMore
set_option linter.unusedSectionVars false
/-!
# C87: what the variance-reduced methods guarantee, whatever batches are drawn
-/
namespace Verif.Props
open Verif P2P Sys Costs
variable {A E Ω : Type} [DecidableEq A] [AddCommGroup E] [Module ℝ E]

/-- SPEC: the local cost is the mean of its samples' costs: the gradient on a batch is the mean of the samples' gradients over the
batch and the full gradient `G` the mean over all samples; batches contain existing samples -/
structure SampleMeans (c : Emp A E Ω) (G : A → E → E) : Prop where
  batch : ∀ i x ω, (c.batch i x ω).1.1 = meanAt (c.sample i x) (c.batch i x ω).1.2
  valid : ∀ i x ω, ∀ j ∈ (c.batch i x ω).1.2, j < c.size i
  some_ : ∀ i x l, c.at_ i x l = meanAt (c.sample i x) l
  all : ∀ i x, c.all i x = G i x
  full : ∀ i x, G i x = meanAt (c.sample i x) (List.range (c.size i))

/-! ## no noise when the memory is fresh -/

/-- GT-VR that takes a snapshot in every iteration is Aug-DGM with full gradients, whatever batches are drawn. -/
theorem C87_gt_vr_always_snapshot {w : World A E Ω} {n : Net A} (h : Lossless w n) {W : A → A → ℝ} (hW : Mixing n W) (ρ : ℝ) (c : Emp A E Ω) (G : A → E → E)
    (hc : SampleMeans c G) (coin : Ω → Bool × Ω) (hcoin : ∀ ω, (coin ω).1 = true) (x0 : A → E) :
    Computes (gtVr c coin W ρ) (fun a => a.x) w n x0 (fun k => (augDgmDoc n W ρ G x0 k).1) := by
  intro s0 k
  obtain ⟨s, hs, hP⟩ := after_induction (gtVr c coin W ρ) w n x0 s0 (fun k s =>
    (∀ i ∈ n.nodes, (s.loc i).x = (augDgmDoc n W ρ G x0 k).1 i) ∧
    (∀ i ∈ n.nodes, (s.loc i).y = (augDgmDoc n W ρ G x0 k).2 i) ∧
    (∀ i ∈ n.nodes, (s.loc i).v = G i (s.loc i).x)) (by
      obtain ⟨ωs, hi⟩ := init_spec (gtVr c coin W ρ) n h.wf x0 s0
      refine ⟨fun i hi' => by rw [hi i hi']; rfl, fun i hi' => ?_, fun i hi' => ?_⟩
      · rw [hi i hi']; exact hc.all _ _
      · rw [hi i hi']; exact hc.all _ _) (by
      intro k s ⟨hx, hy, hv⟩
      obtain ⟨s', ωs, ωc, h1, h2⟩ := gtVr_step_coin h c coin W hW.supported ρ k s
      have ex : ∀ i ∈ n.nodes, (s'.loc i).x = (augDgmDoc n W ρ G x0 (k + 1)).1 i := by
        intro i hi
        rw [(h2 i hi).1, applyW_congr n W (fun j hj => by rw [hx j hj, hy j hj]) i]; rfl
      have ev : ∀ i ∈ n.nodes, (s'.loc i).v = G i (s'.loc i).x := by
        intro i hi
        obtain ⟨_, a2, a3, _⟩ := h2 i hi
        rcases a2 with ⟨_, t1, t2⟩ | ⟨t0, _⟩
        · rw [a3, t1, t2, hc.batch, hc.some_, hc.all, sub_self, zero_add]
        · rw [hcoin] at t0; exact absurd t0 (by simp)
      refine ⟨s', h1, ex, fun i hi => ?_, ev⟩
      rw [(h2 i hi).2.2.2, applyW_congr n W (fun j hj => by rw [hy j hj, ev j hj, hv j hj, ex j hj, hx j hj]) i]; rfl) k
  exact ⟨s, hs, hP.1⟩

/-- GT-SAGA: if an agent's table holds the gradients at its current point, its direction is the full gradient, whatever batch is drawn. -/
theorem C87_saga_fresh {w : World A E Ω} {n : Net A} (h : Lossless w n) {W : A → A → ℝ} (hW : Mixing n W) (ρ : ℝ) (c : Emp A E Ω) (G : A → E → E)
    (hc : SampleMeans c G) (k : Int) (s s' : Sys A E Ω (Saga E)) (hs : (gtSaga c W ρ).step w n k (adv n k s) = .ok s') (i : A) (hi : i ∈ n.nodes)
    (hfresh : ∀ j, j < c.size i → (s.loc i).table j = c.sample i (s.loc i).x j) : (s'.loc i).g = G i (s.loc i).x := by
  obtain ⟨t, ωs, ωs', h1, h2⟩ := gtSaga_step h c W hW.supported ρ k s
  obtain rfl : t = s' := by rw [hs] at h1; injection h1 with h1; exact h1.symm
  rw [(h2 i hi).1, hc.batch, meanAt_congr (fun j hj => hfresh j (hc.valid _ _ _ j hj)), sub_self, zero_add, hc.full,
    meanAt_congr (fun j hj => hfresh j (List.mem_range.1 hj))]

/-- The first iteration of GT-SAGA is noiseless. -/
theorem C87_saga_first {w : World A E Ω} {n : Net A} (h : Lossless w n) {W : A → A → ℝ} (hW : Mixing n W) (ρ : ℝ) (c : Emp A E Ω) (G : A → E → E)
    (hc : SampleMeans c G) (x0 : A → E) (s0 : Sys A E Ω (Saga E)) :
    ∃ s, (gtSaga c W ρ).after w n x0 s0 1 = .ok s ∧ ∀ i ∈ n.nodes,
      (s.loc i).x = matVec n W (fun j => x0 j - ρ • matVec n W (fun l => G l (x0 l)) j) i := by
  obtain ⟨ωs, hi⟩ := init_spec (gtSaga c W ρ) n h.wf x0 s0
  obtain ⟨s', ωs1, ωs2, h1, h2⟩ := gtSaga_step h c W hW.supported ρ 0 ((gtSaga c W ρ).initialize_ n x0 s0)
  have h3 : (gtSaga c W ρ).after w n x0 s0 1 = .ok s' := by rw [after_succ]; exact h1
  refine ⟨s', h3, fun i hi' => ?_⟩
  have hg : ∀ j ∈ n.nodes, (s'.loc j).g = G j (x0 j) := by
    intro j hj
    have := C87_saga_fresh h hW ρ c G hc 0 _ s' h1 j hj (fun l _ => by rw [hi j hj]; rfl)
    rw [this, hi j hj]; rfl
  have hy : ∀ j ∈ n.nodes, (s'.loc j).y = matVec n W (fun l => G l (x0 l)) j := by
    intro j hj
    rw [(h2 j hj).2.1]
    refine (applyW_congr n W (fun l hl => ?_) j)
    rw [hg l hl, hi l hl]
    show (0 : E) + _ - 0 = _
    rw [zero_add, sub_zero]
  rw [(h2 i hi').2.2.1]
  refine applyW_congr n W (fun j hj => ?_) i
  rw [hy j hj, hi j hj]; rfl

/-- LT-ADMM-VR in its first variant with one local step per round is LT-ADMM with full gradients, whatever batches are drawn. -/
theorem C87_lt_one_step {w : World A E Ω} {n : Net A} (h : Lossless w n) (c : Emp A E Ω) (G : A → E → E) (hc : SampleMeans c G)
    (ρ α γ β : ℝ) (x0 : A → E) (s0 : Sys A E Ω (LtVr A E)) (k : Nat) :
    ∃ s, (ltAdmmVr c false ρ α γ β 1).after w n x0 s0 k = .ok s ∧ ∀ i ∈ n.nodes,
      (s.loc i).x = (ltDoc G n ρ α γ β 1 x0 k).1 i ∧ ∀ j ∈ n.nbrs i, (s.loc i).z j = (ltDoc G n ρ α γ β 1 x0 k).2 i j := by
  apply after_induction (ltAdmmVr c false ρ α γ β 1) w n x0 s0 (fun k s => ∀ i ∈ n.nodes,
      (s.loc i).x = (ltDoc G n ρ α γ β 1 x0 k).1 i ∧ ∀ j ∈ n.nbrs i, (s.loc i).z j = (ltDoc G n ρ α γ β 1 x0 k).2 i j)
  · obtain ⟨ωs, hi⟩ := init_spec (ltAdmmVr c false ρ α γ β 1) n h.wf x0 s0
    intro i hi'
    rw [hi i hi']
    exact ⟨rfl, fun _ _ => rfl⟩
  · intro k s hk
    obtain ⟨s', ωs, h1, h2⟩ := ltVr_step h c false ρ α γ β 1 k s
    have hx : ∀ i ∈ n.nodes, (s'.loc i).x = (ltDoc G n ρ α γ β 1 x0 (k + 1)).1 i := by
      intro i hi
      have e0 := congrArg Prod.fst (h2 i hi).1
      have e : rowSumZ n i (s.loc i).z = ((n.nbrs i).map (fun j => (ltDoc G n ρ α γ β 1 x0 k).2 i j)).sum := by
        unfold rowSumZ; congr 1
        exact List.map_congr_left fun j hj => (hk i hi).2 j hj
      simp only [repeatN, ltVrLocal, Bool.false_eq_true, if_false] at e0
      rw [e0, hc.batch, sub_self, zero_add, ← hc.full, e, (hk i hi).1]; rfl
    refine ⟨s', h1, fun i hi => ⟨hx i hi, fun j hj => ?_⟩⟩
    have hjn := h.wf.nbrs_mem i j hj
    rw [(h2 i hi).2 j, if_pos hj, hx j hjn, (hk i hi).2 j hj, (hk j hjn).2 i (h.wf.symm i j hj)]
    rfl

/-! ## GT-SARAH -/

/-- gradient tracking with full gradients: `(x, y, v)`, one communication round -/
noncomputable def digingDoc (n : Net A) (W : A → A → ℝ) (ρ : ℝ) (G : A → E → E) (x0 : A → E) : Nat → (A → E) × (A → E) × (A → E)
  | 0 => (x0, (fun _ => 0), (fun _ => 0))
  | k + 1 =>
    let p := digingDoc n W ρ G x0 k
    let v := fun i => G i (p.1 i)
    let y := fun i => matVec n W p.2.1 i + v i - p.2.2 i
    ((fun i => matVec n W p.1 i - ρ • y i), y, v)

/-- GT-SARAH with `K` inner steps on whole batches, or with none on any batches, performs `K + 1` rounds of exact gradient tracking per
iteration. -/
theorem C87_sarah {w : World A E Ω} {n : Net A} (h : Lossless w n) {W : A → A → ℝ} (hW : Mixing n W) (ρ : ℝ) (c : Emp A E Ω) (G : A → E → E)
    (hc : SampleMeans c G) (K : Nat) (hK : K = 0 ∨ WholeBatch c G) (x0 : A → E) :
    Computes (gtSarah c W ρ K) (fun a => a.x) w n x0 (fun k => (digingDoc n W ρ G x0 (k * (K + 1))).1) := by
  intro s0 k
  -- the state after `t` rounds
  let At : Nat → Sys A E Ω (Sarah E) → Prop := fun t s => ∀ i ∈ n.nodes, (s.loc i).x = (digingDoc n W ρ G x0 t).1 i ∧
    (s.loc i).y = (digingDoc n W ρ G x0 t).2.1 i ∧ (s.loc i).v = (digingDoc n W ρ G x0 t).2.2 i
  let Prev : Nat → Sys A E Ω (Sarah E) → Prop := fun t s => ∀ i ∈ n.nodes, (s.loc i).v = G i (s.loc i).xPrev
  have round : ∀ (t : Nat) (s1 : Sys A E Ω (Sarah E)), Good n s1.net → (∀ i ∈ n.nodes, (s1.loc i).x = (digingDoc n W ρ G x0 t).1 i ∧
      (s1.loc i).y = (digingDoc n W ρ G x0 t).2.1 i ∧ (s1.loc i).vPrev = (digingDoc n W ρ G x0 t).2.2 i ∧ (s1.loc i).v = G i (s1.loc i).x) →
      ∃ s2, sarahRound W ρ w n s1 = .ok s2 ∧ Good n s2.net ∧ At (t + 1) s2 ∧ Prev (t + 1) s2 := by
    intro t s1 g1 hs1
    obtain ⟨s2, h2, g2, l2⟩ := sarahRound_step h W hW.supported ρ s1 g1
    have ey : ∀ i ∈ n.nodes, (s2.loc i).y = (digingDoc n W ρ G x0 (t + 1)).2.1 i := by
      intro i hi
      rw [(l2 i hi).1, applyW_congr n W (fun j hj => (hs1 j hj).2.1) i, (hs1 i hi).2.2.2, (hs1 i hi).2.2.1, (hs1 i hi).1]; rfl
    refine ⟨s2, h2, g2, fun i hi => ⟨?_, ey i hi, ?_⟩, fun i hi => ?_⟩
    · rw [(l2 i hi).2.1, applyW_congr n W (fun j hj => (hs1 j hj).1) i, ey i hi]; rfl
    · rw [(l2 i hi).2.2.2, (hs1 i hi).2.2.2, (hs1 i hi).1]; rfl
    · rw [(l2 i hi).2.2.2, (hs1 i hi).2.2.2, (l2 i hi).2.2.1]
  have inner : ∀ (K : Nat), (K = 0 ∨ WholeBatch c G) → ∀ (t : Nat) (s : Sys A E Ω (Sarah E)), Good n s.net → At t s → Prev t s →
      ∃ s', sarahInner c W ρ w n K s = .ok s' ∧ At (t + K) s' := by
    intro K
    induction K with
    | zero => intro _ t s _ ha _; exact ⟨s, rfl, ha⟩
    | succ K ih =>
      intro hK t s hg ha hp
      have hK' : WholeBatch c G := by rcases hK with h0 | h0; exact absurd h0 (by omega); exact h0
      obtain ⟨s1, ωs, h1, g1, i1, l1⟩ := forActive_own h.ideal h.wf (fun i _ (a : Sarah E) ω =>
        let r := c.batch i a.x ω
        ({ a with vPrev := a.v, v := r.1.1 - c.at_ i a.xPrev r.1.2 + a.v }, r.2)) s hg
      obtain ⟨s2, h2, g2, ha2, hp2⟩ := round t s1 g1 (fun i hi => by
        rw [l1 i hi]
        refine ⟨(ha i hi).1, (ha i hi).2.1, (ha i hi).2.2, ?_⟩
        show (c.batch i (s.loc i).x (ωs i)).1.1 - c.at_ i (s.loc i).xPrev (c.batch i (s.loc i).x (ωs i)).1.2 + (s.loc i).v = G i (s.loc i).x
        rw [hK'.grad, hK'.used, hc.some_, ← hc.full, hp i hi, sub_add_cancel])
      obtain ⟨s', h3, h4⟩ := ih (Or.inr hK') (t + 1) s2 g2 ha2 hp2
      refine ⟨s', ?_, by rw [show t + (K + 1) = t + 1 + K by omega]; exact h4⟩
      simp only [sarahInner, h1, bind, Except.bind]
      rw [h2]
      exact h3
  obtain ⟨s, hs, hP⟩ := after_induction (gtSarah c W ρ K) w n x0 s0 (fun k s => At (k * (K + 1)) s) (by
      obtain ⟨ωs, hi⟩ := init_spec (gtSarah c W ρ K) n h.wf x0 s0
      intro i hi'
      rw [hi i hi', Nat.zero_mul]; exact ⟨rfl, rfl, rfl⟩) (by
      intro k s ha
      obtain ⟨s1, ωs, h1, g1, i1, l1⟩ := forActive_own h.ideal h.wf (fun i _ (a : Sarah E) ω =>
        ({ a with vPrev := a.v, v := c.all i a.x }, ω)) (adv n k s) (good_step n _ k)
      obtain ⟨s2, h2, g2, ha2, hp2⟩ := round (k * (K + 1)) s1 g1 (fun i hi => by
        rw [l1 i hi]
        exact ⟨(ha i hi).1, (ha i hi).2.1, (ha i hi).2.2, hc.all _ _⟩)
      obtain ⟨s', h3, h4⟩ := inner K hK _ s2 g2 ha2 hp2
      refine ⟨s', ?_, by rw [show (k + 1) * (K + 1) = k * (K + 1) + 1 + K by ring]; exact h4⟩
      simp only [gtSarah, h1, bind, Except.bind]
      rw [h2]
      exact h3) k
  exact ⟨s, hs, fun i hi => (hP i hi).1⟩

/-! ## no bias when an epoch begins -/

/-- the same cost, about to draw the batch `B` -/
noncomputable def drawing (c : Emp A E Ω) (B : List Nat) : Emp A E Ω := { c with batch := fun i x ω => ((meanAt (c.sample i x) B, B), ω) }

/-- SPEC: the batches `B π`, over all `N!` permutations of an agent's samples, are what a cost with `b` samples per batch draws at the start of an
epoch -/
def EpochStart (m b : Nat) (B : Equiv.Perm (Fin m) → List Nat) : Prop :=
  ∃ r : Part.Rng (Equiv.Perm (Fin m)), (∀ π, (r.perm m π).1 = (List.finRange m).map (fun i => (π i).val)) ∧ ∀ π, B π = (Batch.draw r m b [] π).1.1

theorem epoch_mean {m b : Nat} (hb : 0 < b) (hbm : b ≤ m) {B : Equiv.Perm (Fin m) → List Nat} (hB : EpochStart m b B) (u : Nat → E) :
    ∑ π, meanAt u (B π) = (Nat.factorial m : ℝ) • meanAt u (List.range m) := by
  obtain ⟨r, hr, hB⟩ := hB
  have e : ∀ π, B π = ((List.finRange m).take b).map (fun i => (π i).val) := by
    intro π
    rw [hB, Batch.draw]
    simp only [List.length_nil, if_true]
    rw [hr, if_pos (by simpa using hbm), List.map_take]
  rw [Finset.sum_congr rfl (fun π _ => by rw [e π]), perm_mean (by omega)]
  intro h0
  have := congrArg List.length h0
  simp at this
  omega

/-- GT-SAGA: averaged over the draws at the start of an epoch, the direction of each agent is the full gradient at its point, whatever its table
holds. -/
theorem C87_saga_unbiased {w : World A E Ω} {n : Net A} (h : Lossless w n) {W : A → A → ℝ} (hW : Mixing n W) (ρ : ℝ) (c : Emp A E Ω) (G : A → E → E)
    (hc : SampleMeans c G) (k : Int) (s : Sys A E Ω (Saga E)) (i : A) (hi : i ∈ n.nodes) (b : Nat) (hb : 0 < b) (hbm : b ≤ c.size i)
    (B : Equiv.Perm (Fin (c.size i)) → List Nat) (hB : EpochStart (c.size i) b B) (S : Equiv.Perm (Fin (c.size i)) → Sys A E Ω (Saga E))
    (hS : ∀ π, (gtSaga (drawing c (B π)) W ρ).step w n k (adv n k s) = .ok (S π)) :
    ∑ π, ((S π).loc i).g = (Nat.factorial (c.size i) : ℝ) • G i (s.loc i).x := by
  have e : ∀ π, ((S π).loc i).g = meanAt (fun j => c.sample i (s.loc i).x j - (s.loc i).table j) (B π) + meanAt (s.loc i).table (List.range (c.size i)) := by
    intro π
    obtain ⟨t, ωs, ωs', h1, h2⟩ := gtSaga_step h (drawing c (B π)) W hW.supported ρ k s
    obtain rfl : t = S π := by rw [hS π] at h1; injection h1 with h1; exact h1.symm
    rw [(h2 i hi).1, meanAt_sub]; rfl
  rw [Finset.sum_congr rfl (fun π _ => e π), Finset.sum_add_distrib, epoch_mean hb hbm hB, Finset.sum_const, Finset.card_univ, Fintype.card_perm,
    Fintype.card_fin, meanAt_sub, ← hc.full, ← Nat.cast_smul_eq_nsmul ℝ]
  module

/-- GT-VR: likewise, for every snapshot that carries its full gradient. -/
theorem C87_gt_vr_unbiased {w : World A E Ω} {n : Net A} (h : Lossless w n) {W : A → A → ℝ} (hW : Mixing n W) (ρ : ℝ) (c : Emp A E Ω) (G : A → E → E)
    (hc : SampleMeans c G) (coin : Ω → Bool × Ω) (heads : Bool) (hcoin : ∀ ω, (coin ω).1 = heads) (k : Int) (s : Sys A E Ω (Vr E)) (i : A) (hi : i ∈ n.nodes)
    (hsnap : (s.loc i).fullTau = c.all i (s.loc i).tau)
    (b : Nat) (hb : 0 < b) (hbm : b ≤ c.size i) (B : Equiv.Perm (Fin (c.size i)) → List Nat) (hB : EpochStart (c.size i) b B)
    (S : Equiv.Perm (Fin (c.size i)) → Sys A E Ω (Vr E)) (hS : ∀ π, (gtVr (drawing c (B π)) coin W ρ).step w n k (adv n k s) = .ok (S π)) :
    ∃ x, (∀ π, ((S π).loc i).x = x) ∧ ∑ π, ((S π).loc i).v = (Nat.factorial (c.size i) : ℝ) • G i x := by
  refine ⟨matVec n W (fun j => (s.loc j).x - ρ • (s.loc j).y) i, ?_⟩
  set x := matVec n W (fun j => (s.loc j).x - ρ • (s.loc j).y) i with hx
  have e : ∀ π, ((S π).loc i).x = x ∧ ((S π).loc i).v = meanAt (fun j => c.sample i x j - c.sample i (if heads then x else (s.loc i).tau) j) (B π) +
      G i (if heads then x else (s.loc i).tau) := by
    intro π
    obtain ⟨t, ωs, ωc, h1, h2⟩ := gtVr_step_coin h (drawing c (B π)) coin W hW.supported ρ k s
    obtain rfl : t = S π := by rw [hS π] at h1; injection h1 with h1; exact h1.symm
    obtain ⟨a1, a2, a3, _⟩ := h2 i hi
    have a1' : ((S π).loc i).x = x := a1
    refine ⟨a1', ?_⟩
    rw [a3, meanAt_sub]
    rcases a2 with ⟨t0, t1, t2⟩ | ⟨t0, t1, t2⟩
    · rw [hcoin] at t0
      rw [t1, t2, a1', t0]
      show meanAt (c.sample i x) (B π) - c.at_ i x (B π) + c.all i x = _
      rw [hc.some_, hc.all]; rfl
    · rw [hcoin] at t0
      rw [t1, t2, a1', t0, hsnap]
      show meanAt (c.sample i x) (B π) - c.at_ i (s.loc i).tau (B π) + c.all i (s.loc i).tau = _
      rw [hc.some_, hc.all]; rfl
  refine ⟨fun π => (e π).1, ?_⟩
  rw [Finset.sum_congr rfl (fun π _ => (e π).2), Finset.sum_add_distrib, epoch_mean hb hbm hB, Finset.sum_const, Finset.card_univ, Fintype.card_perm,
    Fintype.card_fin, meanAt_sub, ← hc.full, ← hc.full, ← Nat.cast_smul_eq_nsmul ℝ]
  module

/-- LT-ADMM-VR: a local step, averaged over the draws at the start of an epoch, is the LT-ADMM step with the full gradient. -/
theorem C87_lt_unbiased (c : Emp A E Ω) (G : A → E → E) (hc : SampleMeans c G) (γ : ℝ) (cor : E) (i : A) (x : E) (table : Nat → E) (ω : Ω)
    (b : Nat) (hb : 0 < b) (hbm : b ≤ c.size i) (B : Equiv.Perm (Fin (c.size i)) → List Nat) (hB : EpochStart (c.size i) b B) :
    ∑ π, (ltVrLocal (drawing c (B π)) γ cor i (x, table) ω).1.1 = (Nat.factorial (c.size i) : ℝ) • localTraining (G i) γ cor 1 x := by
  have e : ∀ π, (ltVrLocal (drawing c (B π)) γ cor i (x, table) ω).1.1 = (x - cor - γ • meanAt table (List.range (c.size i))) - γ • meanAt (fun j => c.sample i x j - table j) (B π) := by
    intro π
    rw [meanAt_sub]
    show x - (γ • (meanAt (c.sample i x) (B π) - meanAt table (B π) + meanAt table (List.range (c.size i))) + cor) = _
    module
  rw [Finset.sum_congr rfl (fun π _ => e π), Finset.sum_sub_distrib, ← Finset.smul_sum, epoch_mean hb hbm hB, Finset.sum_const, Finset.card_univ, Fintype.card_perm,
    Fintype.card_fin, meanAt_sub, ← hc.full, ← Nat.cast_smul_eq_nsmul ℝ, localTraining, localTraining]
  module

/-- Inside an epoch nothing is random: while enough unseen samples remain, the next batch is the same for every generator and every generator
state. -/
theorem C87_inside_epoch_determined {Ω₁ Ω₂ : Type} (r₁ : Part.Rng Ω₁) (r₂ : Part.Rng Ω₂) (m b : Nat) (remaining : List Nat) (hr : remaining ≠ []) (hb : b ≤ remaining.length)
    (ω₁ : Ω₁) (ω₂ : Ω₂) : (Batch.draw r₁ m b remaining ω₁).1 = (Batch.draw r₂ m b remaining ω₂).1 := by
  have h0 : remaining.length ≠ 0 := fun h => hr (List.length_eq_zero_iff.1 h)
  simp only [Batch.draw, if_neg h0, if_pos hb]

/-! ## the tables -/

/-- GT-SAGA: after every iteration each table row of each agent is that sample's gradient at one of the agent's iterates so far. -/
theorem C87_saga_rows {w : World A E Ω} {n : Net A} (h : Lossless w n) {W : A → A → ℝ} (hW : Mixing n W) (ρ : ℝ) (c : Emp A E Ω) (x0 : A → E)
    (s0 : Sys A E Ω (Saga E)) (k : Nat) :
    ∃ X : Nat → A → E, ∃ s, (gtSaga c W ρ).after w n x0 s0 k = .ok s ∧ (∀ i ∈ n.nodes, X 0 i = x0 i ∧ (s.loc i).x = X k i) ∧
      (∀ t ≤ k, ∃ s', (gtSaga c W ρ).after w n x0 s0 t = .ok s' ∧ ∀ i ∈ n.nodes, (s'.loc i).x = X t i) ∧
      ∀ i ∈ n.nodes, ∀ j, ∃ t ≤ k, (s.loc i).table j = c.sample i (X t i) j := by
  induction k with
  | zero =>
    obtain ⟨ωs, hi⟩ := init_spec (gtSaga c W ρ) n h.wf x0 s0
    refine ⟨fun _ => x0, (gtSaga c W ρ).initialize_ n x0 s0, rfl, fun i hi' => ⟨rfl, by rw [hi i hi']; rfl⟩, fun t ht => ?_, fun i hi' j => ⟨0, le_refl _, by rw [hi i hi']; rfl⟩⟩
    obtain rfl : t = 0 := by omega
    exact ⟨_, rfl, fun i hi' => by rw [hi i hi']; rfl⟩
  | succ k ih =>
    obtain ⟨X, s, h1, h2, h3, h4⟩ := ih
    obtain ⟨s', ωs, ωs', h5, h6⟩ := gtSaga_step h c W hW.supported ρ k s
    have h7 : (gtSaga c W ρ).after w n x0 s0 (k + 1) = .ok s' := by rw [after_succ, h1]; exact h5
    refine ⟨fun t => if t ≤ k then X t else fun i => (s'.loc i).x, s', h7, fun i hi => ⟨by simpa using (h2 i hi).1, by simp⟩, fun t ht => ?_, fun i hi j => ?_⟩
    · by_cases htk : t ≤ k
      · simp only [htk, if_true]; exact h3 t htk
      · obtain rfl : t = k + 1 := by omega
        exact ⟨s', h7, fun i _ => by simp⟩
    · rw [(h6 i hi).2.2.2]
      by_cases hj : j ∈ (c.batch i (s'.loc i).x (ωs' i)).1.2
      · refine ⟨k + 1, le_refl _, ?_⟩
        simp [hj]
      · obtain ⟨t, ht, e⟩ := h4 i hi j
        refine ⟨t, by omega, ?_⟩
        simp [hj, ht, e]

/-- ... and an iteration refreshes exactly the rows of one drawn batch. -/
theorem C87_saga_refresh {w : World A E Ω} {n : Net A} (h : Lossless w n) {W : A → A → ℝ} (hW : Mixing n W) (ρ : ℝ) (c : Emp A E Ω) (k : Int)
    (s s' : Sys A E Ω (Saga E)) (hs : (gtSaga c W ρ).step w n k (adv n k s) = .ok s') (i : A) (hi : i ∈ n.nodes) :
    ∃ ω, ∀ j, (j ∈ (c.batch i (s'.loc i).x ω).1.2 → (s'.loc i).table j = c.sample i (s'.loc i).x j) ∧
      (j ∉ (c.batch i (s'.loc i).x ω).1.2 → (s'.loc i).table j = (s.loc i).table j) := by
  obtain ⟨t, ωs, ωs', h1, h2⟩ := gtSaga_step h c W hW.supported ρ k s
  obtain rfl : t = s' := by rw [hs] at h1; injection h1 with h1; exact h1.symm
  refine ⟨ωs' i, fun j => ?_⟩
  rw [(h2 i hi).2.2.2]
  exact ⟨fun hj => by simp [hj], fun hj => by simp [hj]⟩

/-- LT-ADMM-VR-2 with one local step per round: the rows of the drawn batch are refreshed at the new point, all others kept from earlier rounds. -/
theorem C87_lt_refresh {w : World A E Ω} {n : Net A} (h : Lossless w n) (c : Emp A E Ω) (ρ α γ β : ℝ) (k : Int) (s s' : Sys A E Ω (LtVr A E))
    (hs : (ltAdmmVr c true ρ α γ β 1).step w n k (adv n k s) = .ok s') (i : A) (hi : i ∈ n.nodes) :
    ∃ ω, ∀ j, (j ∈ (c.batch i (s.loc i).x ω).1.2 → (s'.loc i).table j = c.sample i (s'.loc i).x j) ∧
      (j ∉ (c.batch i (s.loc i).x ω).1.2 → (s'.loc i).table j = (s.loc i).table j) := by
  obtain ⟨t, ωs, h1, h2⟩ := ltVr_step h c true ρ α γ β 1 k s
  obtain rfl : t = s' := by rw [hs] at h1; injection h1 with h1; exact h1.symm
  have e1 := congrArg Prod.fst (h2 i hi).1
  have e2 := congrArg Prod.snd (h2 i hi).1
  simp only [repeatN, ltVrLocal, if_true] at e1 e2
  refine ⟨ωs i, fun j => ?_⟩
  rw [e2, e1]
  exact ⟨fun hj => by simp [hj], fun hj => by simp [hj]⟩

/-! ## The hypotheses can be met -/
section
variable {d : Nat}

/-- three agents with two samples `b_i`, `b'_i` each, costs `½ ‖x - sample‖²`; the world decides which sample is drawn -/
noncomputable def coinSamples (b b' : Nat → Vec d) : Emp Nat (Vec d) Bool where
  batch i x ω := (if ω then (x - b i, [0]) else (x - b' i, [1]), !ω)
  sample i x j := if j = 0 then x - b i else x - b' i
  at_ i x l := meanAt (fun j => if j = 0 then x - b i else x - b' i) l
  all i x := meanAt (fun j => if j = 0 then x - b i else x - b' i) [0, 1]
  size _ := 2

theorem coinSamples_means (b b' : Nat → Vec d) : SampleMeans (coinSamples b b') (fun i x => meanAt (fun j => if j = 0 then x - b i else x - b' i) [0, 1]) where
  batch i x ω := by cases ω <;> simp [coinSamples, meanAt]
  valid i x ω := by cases ω <;> simp [coinSamples]
  some_ _ _ _ := rfl
  all _ _ := rfl
  full _ _ := rfl

/-- perfect communication beside a random bit -/
def bitWorld (d : Nat) : World Nat (Vec d) Bool :=
  { isActive := fun _ _ ω => (true, ω), shouldDrop := fun _ ω => (false, ω), compSize := fun _ _ => 1,
    compress := fun _ v ω => (v, ω), makeNoise := fun _ _ _ ω => (none, ω), add := fun a _ => a, costSize := fun _ => 1 }

theorem bit_lossless : Lossless (bitWorld d) path3 :=
  ⟨⟨fun _ _ _ => rfl, fun _ _ => rfl, fun _ _ _ => rfl, fun _ _ _ _ => rfl, rfl⟩, path3_wf, path3_loopless⟩

example (b b' x0 : Nat → Vec d) :=
  C87_gt_vr_always_snapshot bit_lossless (metropolis_mixing path3 path3_wf path3_loopless) 0.1 (coinSamples b b') _ (coinSamples_means b b') (fun ω => (true, ω)) (fun _ => rfl) x0

example (b b' x0 : Nat → Vec d) (s0) (k : Nat) := C87_lt_one_step bit_lossless (coinSamples b b') _ (coinSamples_means b b') 1 0.5 0.01 0.01 x0 s0 k

-- inside an epoch of two samples the second batch is the other sample, and the step is biased: with an outdated table it moves by that sample alone
example (r : Part.Rng Unit) : (Batch.draw r 2 1 [1] ()).1.1 = [1] := rfl

-- an epoch start of two samples, one per batch
example : EpochStart 2 1 (fun π => [(π 0).val]) :=
  ⟨⟨fun m π => (if m = 2 then (List.finRange 2).map (fun i => (π i).val) else [], π), fun _ π => (fun _ => 0, π), fun _ _ π => (0, π)⟩, fun _ => rfl, fun _ => rfl⟩

end
end Verif.Props
