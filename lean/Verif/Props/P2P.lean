import Verif.Lemmas.P2PSteps2
import Verif.Lemmas.Lossy
import Verif.Props.Weights
import Verif.Props.Network
set_option linter.unusedSectionVars false
/-!
# C23, C24, C25, C26, C28: invariants of the peer-to-peer algorithms

`Lossless w n`: all agents always active, no message dropped, compressed or perturbed, symmetric graph without self-loops.
`alg.after w n x0 s k` is the system after `Algorithm.run` with `k` iterations, from any system `s`, with initial states `x0`.
-/
namespace Verif.Props
open Verif P2P Sys

section
variable {A E Ω : Type} [DecidableEq A] [AddCommGroup E] [Module ℝ E]

/-- a mixing matrix compatible with the network: zero between distinct non-neighbours, every column sums to 1 -/
structure Mixing (n : Net A) (W : A → A → ℝ) : Prop where
  supported : ∀ i ∈ n.nodes, ∀ j ∈ n.nodes, i ≠ j → j ∉ n.nbrs i → W i j = 0
  colSum : ∀ j ∈ n.nodes, (n.nodes.map (fun i => W i j)).sum = 1

/-- the default (Metropolis) weights of any network without self-loops are such a matrix -/
theorem metropolis_mixing (n : Net A) (hw : n.WF) (hl : Loopless n) : Mixing n (weights n) := by
  refine ⟨fun i hi j hj hij hn => ?_, fun j hj => (C12_doubly_stochastic n hw hl j hj).2⟩
  exact (C12_support n hw i j hi hij).1 hn

/-- SPEC for C23: in every iteration of every run the network average of `x` moves by `-ρ` times the average of the local
gradients `G i` at the agents' own states; no iteration raises -/
def AverageDescends {α : Type} (alg : P2PAlg A E Ω α) (x : α → E) (w : World A E Ω) (n : Net A) (G : A → E → E) (ρ : ℝ) :
    Prop :=
  ∀ (x0 : A → E) (s0 : Sys A E Ω α) (k : Nat), ∃ s s' : Sys A E Ω α,
    alg.after w n x0 s0 k = .ok s ∧ alg.after w n x0 s0 (k + 1) = .ok s' ∧
    netAvg n (fun i => x (s'.loc i)) =
      netAvg n (fun i => x (s.loc i)) - ρ • netAvg n (fun i => G i (x (s.loc i)))

/-- the gradient oracle always returns the gradient `G` (full-batch costs) -/
def Exactly (grad : Grad A E Ω) (G : A → E → E) : Prop := ∀ i x ω, (grad i x ω).1 = G i x

theorem descends_of_inv {α : Type} (alg : P2PAlg A E Ω α) (x : α → E) (w : World A E Ω) (n : Net A) (G : A → E → E) (ρ : ℝ)
    (P : Nat → Sys A E Ω α → Prop) (h0 : ∀ x0 s0, P 0 (alg.initialize_ n x0 s0))
    (hs : ∀ k s, P k s → ∃ s', alg.step w n k (adv n k s) = .ok s' ∧ P (k + 1) s' ∧
      total n (fun i => x (s'.loc i)) = total n (fun i => x (s.loc i)) - ρ • total n (fun i => G i (x (s.loc i)))) :
    AverageDescends alg x w n G ρ := by
  intro x0 s0 k
  obtain ⟨s, h1, p1⟩ := after_induction alg w n x0 s0 P (h0 x0 s0)
    (fun k s p => by obtain ⟨s', a, b, _⟩ := hs k s p; exact ⟨s', a, b⟩) k
  obtain ⟨s', a, _, c⟩ := hs k s p1
  refine ⟨s, s', h1, by rw [after_succ, h1]; exact a, ?_⟩
  unfold netAvg
  rw [c]; module

theorem C23_dgd {w : World A E Ω} {n : Net A} (h : Lossless w n) {W : A → A → ℝ} (hW : Mixing n W) (ρ : ℝ)
    (grad : Grad A E Ω) (G : A → E → E) (hG : Exactly grad G) :
    AverageDescends (dgd grad W ρ) (fun a => a.x) w n G ρ := by
  apply descends_of_inv _ _ _ _ _ _ (fun _ _ => True) (fun _ _ => trivial)
  intro k s _
  obtain ⟨s', ωs, h1, h2⟩ := dgd_step h grad W hW.supported ρ k s
  refine ⟨s', h1, trivial, ?_⟩
  rw [total_congr n h2]
  simp only [hG _ _ _]
  rw [total_sub, total_smul, total_applyW n W 1 hW.colSum, one_smul]

theorem C23_simple_gt {w : World A E Ω} {n : Net A} (h : Lossless w n) {W : A → A → ℝ} (hW : Mixing n W) (ρ : ℝ)
    (grad : Grad A E Ω) (G : A → E → E) (hG : Exactly grad G) :
    AverageDescends (simpleGt grad W ρ) (fun a => a.x) w n G ρ := by
  apply descends_of_inv _ _ _ _ _ _ (fun _ s => total n (fun i => (s.loc i).x) = total n (fun i => (s.loc i).y))
  · intro x0 s0
    obtain ⟨ωs, hi⟩ := init_spec (simpleGt grad W ρ) n h.wf x0 s0
    exact total_congr n (fun i hi' => by rw [hi i hi']; rfl)
  · intro k s hP
    obtain ⟨s', ωs, h1, h2⟩ := simpleGt_step h grad W hW.supported ρ k s
    have ey : total n (fun i => (s'.loc i).y) =
        total n (fun i => (s.loc i).x) - ρ • total n (fun i => G i (s.loc i).x) := by
      rw [total_congr n (fun i hi => (h2 i hi).2)]
      simp only [hG _ _ _]
      rw [total_sub, total_smul]
    have ex : total n (fun i => (s'.loc i).x) =
        total n (fun i => (s.loc i).x) - ρ • total n (fun i => G i (s.loc i).x) := by
      rw [total_congr n (fun i hi => (h2 i hi).1)]
      simp only [hG _ _ _]
      rw [total_add, total_sub, total_sub, total_smul, total_applyW n W 1 hW.colSum, hP]
      module
    exact ⟨s', h1, by rw [ex, ey], ex⟩

theorem C23_ed {w : World A E Ω} {n : Net A} (h : Lossless w n) {W : A → A → ℝ} (hW : Mixing n W) (ρ : ℝ)
    (grad : Grad A E Ω) (G : A → E → E) (hG : Exactly grad G) :
    AverageDescends (ed grad W ρ) (fun a => a.x) w n G ρ := by
  obtain ⟨hs', hc'⟩ := halfPlus_ok n h.wf W hW.supported hW.colSum
  apply descends_of_inv _ _ _ _ _ _ (fun _ s => total n (fun i => (s.loc i).x) = total n (fun i => (s.loc i).y) ∧
    ∀ i ∈ n.nodes, (s.loc i).yNew = (s.loc i).x - ρ • G i (s.loc i).x)
  · intro x0 s0
    obtain ⟨ωs, hi⟩ := init_spec (ed grad W ρ) n h.wf x0 s0
    refine ⟨total_congr n (fun i hi' => by rw [hi i hi']; rfl), fun i hi' => ?_⟩
    rw [hi i hi']
    simp only [ed, hG _ _ _]
  · intro k s ⟨hP, hy⟩
    obtain ⟨s', ωs, h1, h2⟩ := ed_step h grad W hs' ρ k s
    have ey : total n (fun i => (s'.loc i).y) =
        total n (fun i => (s.loc i).x) - ρ • total n (fun i => G i (s.loc i).x) := by
      rw [total_congr n (fun i hi => (h2 i hi).2.1), total_congr n hy, total_sub, total_smul]
    have ex : total n (fun i => (s'.loc i).x) =
        total n (fun i => (s.loc i).x) - ρ • total n (fun i => G i (s.loc i).x) := by
      rw [total_congr n (fun i hi => (h2 i hi).1), total_applyW n _ 1 hc', total_sub, total_add, total_congr n hy,
        total_sub, total_smul, hP]
      module
    refine ⟨s', h1, ⟨by rw [ex, ey], fun i hi => ?_⟩, ex⟩
    rw [(h2 i hi).2.2, hG]

theorem C23_nids {w : World A E Ω} {n : Net A} (h : Lossless w n) {W : A → A → ℝ} (hW : Mixing n W) (ρ : ℝ)
    (grad : Grad A E Ω) (G : A → E → E) (hG : Exactly grad G) :
    AverageDescends (nids grad W ρ) (fun a => a.x) w n G ρ := by
  obtain ⟨hs', hc'⟩ := halfPlus_ok n h.wf W hW.supported hW.colSum
  apply descends_of_inv _ _ _ _ _ _ (fun k s =>
    if k = 0 then ∀ i ∈ n.nodes, (s.loc i).xOld = (s.loc i).x
    else total n (fun i => (s.loc i).x) = total n (fun i => (s.loc i).xOld) - ρ • total n (fun i => (s.loc i).g))
  · intro x0 s0
    obtain ⟨ωs, hi⟩ := init_spec (nids grad W ρ) n h.wf x0 s0
    rw [if_pos rfl]
    intro i hi'
    rw [hi i hi']; rfl
  · intro k s hP
    by_cases hk : k = 0
    · subst hk
      rw [if_pos rfl] at hP
      obtain ⟨s', ωs, h1, h2⟩ := nids_step0 h grad W ρ s
      refine ⟨s', h1, ?_, ?_⟩
      · rw [if_neg (by omega)]
        rw [total_congr n (fun i hi => (h2 i hi).1), total_congr n (fun i hi => (h2 i hi).2.1),
          total_congr n (fun i hi => (h2 i hi).2.2), total_sub, total_smul]
      · rw [total_congr n (fun i hi => (h2 i hi).1), total_sub, total_smul, total_congr n hP]
        simp only [hG _ _ _]
    · rw [if_neg hk] at hP
      obtain ⟨s', ωs, h1, h2⟩ := nids_step h grad W hs' ρ k (by exact_mod_cast hk) s
      have eg : total n (fun i => (s'.loc i).g) = total n (fun i => G i (s.loc i).x) :=
        total_congr n (fun i hi => by rw [(h2 i hi).2.2, hG])
      have ex : total n (fun i => (s'.loc i).x) =
          total n (fun i => (s.loc i).x) - ρ • total n (fun i => G i (s.loc i).x) := by
        rw [total_congr n (fun i hi => (h2 i hi).1), total_applyW n _ 1 hc', total_add, total_sub, total_sub, total_smul,
          total_smul, total_smul]
        simp only [hG _ _ _]
        rw [hP]
        module
      refine ⟨s', h1, ?_, ex⟩
      rw [if_neg (by omega), ex, eg, total_congr n (fun i hi => (h2 i hi).2.1)]

theorem C23_extra {w : World A E Ω} {n : Net A} (h : Lossless w n) {W : A → A → ℝ} (hW : Mixing n W) (ρ : ℝ)
    (grad : Grad A E Ω) (G : A → E → E) (hG : Exactly grad G) :
    AverageDescends (extra grad W ρ) (fun a => a.x) w n G ρ := by
  apply descends_of_inv _ _ _ _ _ _ (fun k s => k ≠ 0 →
    total n (fun i => (s.loc i).x) = total n (fun i => (s.loc i).xOld) - ρ • total n (fun i => G i (s.loc i).xOld) ∧
    total n (fun i => (s.loc i).xCons) = total n (fun i => (s.loc i).xOld))
  · intro x0 s0 h; exact absurd rfl h
  · intro k s hP
    by_cases hk : k = 0
    · subst hk
      obtain ⟨s', ωs, h1, h2⟩ := extra_step0 h grad W hW.supported ρ s
      have e2 : total n (fun i => (s'.loc i).xOld) = total n (fun i => (s.loc i).x) :=
        total_congr n (fun i hi => (h2 i hi).2.1)
      have e3 : total n (fun i => G i (s'.loc i).xOld) = total n (fun i => G i (s.loc i).x) :=
        total_congr n (fun i hi => by rw [(h2 i hi).2.1])
      have ex : total n (fun i => (s'.loc i).x) =
          total n (fun i => (s.loc i).x) - ρ • total n (fun i => G i (s.loc i).x) := by
        rw [total_congr n (fun i hi => (h2 i hi).1), total_sub, total_smul, total_applyW n W 1 hW.colSum, one_smul]
        simp only [hG _ _ _]
      refine ⟨s', h1, fun _ => ⟨by rw [ex, e2, e3], ?_⟩, ex⟩
      rw [e2, total_congr n (fun i hi => (h2 i hi).2.2), total_applyW n W 1 hW.colSum, one_smul]
    · obtain ⟨p1, p2⟩ := hP hk
      obtain ⟨s', ωs, ωs', h1, h2⟩ := extra_step h grad W hW.supported ρ k (by exact_mod_cast hk) s
      have e2 : total n (fun i => (s'.loc i).xOld) = total n (fun i => (s.loc i).x) :=
        total_congr n (fun i hi => (h2 i hi).2.1)
      have e3 : total n (fun i => G i (s'.loc i).xOld) = total n (fun i => G i (s.loc i).x) :=
        total_congr n (fun i hi => by rw [(h2 i hi).2.1])
      have ex : total n (fun i => (s'.loc i).x) =
          total n (fun i => (s.loc i).x) - ρ • total n (fun i => G i (s.loc i).x) := by
        rw [total_congr n (fun i hi => (h2 i hi).1)]
        simp only [hG _ _ _]
        rw [total_sub, total_sub, total_sub, total_add, total_smul, total_smul, total_smul, total_sub,
          total_applyW n W 1 hW.colSum, p2, p1]
        module
      refine ⟨s', h1, fun _ => ⟨by rw [ex, e2, e3], ?_⟩, ex⟩
      rw [e2, total_congr n (fun i hi => (h2 i hi).2.2), total_applyW n W 1 hW.colSum, one_smul]

/-! ## C24 -/

/-- SPEC for C24 and C25: after every iteration of every run, `P` holds of the system; no iteration raises -/
def AfterEveryIteration {α : Type} (alg : P2PAlg A E Ω α) (w : World A E Ω) (n : Net A)
    (P : Sys A E Ω α → Prop) : Prop :=
  ∀ (x0 : A → E) (s0 : Sys A E Ω α) (k : Nat), ∃ s, alg.after w n x0 s0 k = .ok s ∧ P s

theorem every_of_inv {α : Type} (alg : P2PAlg A E Ω α) (w : World A E Ω) (n : Net A) (P : Sys A E Ω α → Prop)
    (h0 : ∀ x0 s0, P (alg.initialize_ n x0 s0))
    (hs : ∀ (k : Nat) s, P s → ∃ s', alg.step w n k (adv n k s) = .ok s' ∧ P s') :
    AfterEveryIteration alg w n P := fun x0 s0 k =>
  after_induction alg w n x0 s0 (fun _ s => P s) (h0 x0 s0) hs k

/-- Aug-DGM, any gradient oracle: the trackers sum to the gradients `g` in use, and each `g` is what the oracle returned at
the agent's current `x` -/
theorem C24_aug_dgm {w : World A E Ω} {n : Net A} (h : Lossless w n) {W : A → A → ℝ} (hW : Mixing n W) (ρ : ℝ)
    (grad : Grad A E Ω) :
    AfterEveryIteration (augDgm grad W ρ) w n (fun s =>
      total n (fun i => (s.loc i).y) = total n (fun i => (s.loc i).g) ∧
      ∀ i ∈ n.nodes, ∃ ω : Ω, (s.loc i).g = (grad i (s.loc i).x ω).1) := by
  apply every_of_inv
  · intro x0 s0
    obtain ⟨ωs, hi⟩ := init_spec (augDgm grad W ρ) n h.wf x0 s0
    refine ⟨total_congr n (fun i hi' => by rw [hi i hi']; rfl), fun i hi' => ⟨ωs i, ?_⟩⟩
    rw [hi i hi']; rfl
  · intro k s ⟨hP, _⟩
    obtain ⟨s', ωs, h1, h2⟩ := augDgm_step h grad W hW.supported ρ k s
    refine ⟨s', h1, ?_, fun i hi => ⟨ωs i, (h2 i hi).2.1⟩⟩
    rw [total_congr n (fun i hi => (h2 i hi).2.2), total_applyW n W 1 hW.colSum, total_sub, total_add, hP]
    module

theorem C24_atc_tracking {w : World A E Ω} {n : Net A} (h : Lossless w n) {W : A → A → ℝ} (hW : Mixing n W) (ρ : ℝ)
    (grad : Grad A E Ω) :
    AfterEveryIteration (atcTracking grad W ρ) w n (fun s =>
      total n (fun i => (s.loc i).y) = total n (fun i => (s.loc i).g) ∧
      ∀ i ∈ n.nodes, ∃ ω : Ω, (s.loc i).g = (grad i (s.loc i).x ω).1) := by
  apply every_of_inv
  · intro x0 s0
    obtain ⟨ωs, hi⟩ := init_spec (atcTracking grad W ρ) n h.wf x0 s0
    refine ⟨total_congr n (fun i hi' => by rw [hi i hi']; rfl), fun i hi' => ⟨ωs i, ?_⟩⟩
    rw [hi i hi']; rfl
  · intro k s ⟨hP, _⟩
    obtain ⟨s', ωs, h1, h2⟩ := atcTracking_step h grad W hW.supported ρ k s
    refine ⟨s', h1, ?_, fun i hi => ⟨ωs i, (h2 i hi).2.1⟩⟩
    rw [total_congr n (fun i hi => (h2 i hi).2.2), total_sub, total_add, total_applyW n W 1 hW.colSum, hP]
    module

theorem C24_gt_saga {w : World A E Ω} {n : Net A} (h : Lossless w n) {W : A → A → ℝ} (hW : Mixing n W) (ρ : ℝ)
    (c : Emp A E Ω) :
    AfterEveryIteration (gtSaga c W ρ) w n (fun s =>
      total n (fun i => (s.loc i).y) = total n (fun i => (s.loc i).g)) := by
  apply every_of_inv
  · intro x0 s0
    obtain ⟨ωs, hi⟩ := init_spec (gtSaga c W ρ) n h.wf x0 s0
    exact total_congr n (fun i hi' => by rw [hi i hi']; rfl)
  · intro k s hP
    obtain ⟨s', ωs, ωs', h1, h2⟩ := gtSaga_step h c W hW.supported ρ k s
    refine ⟨s', h1, ?_⟩
    rw [total_congr n (fun i hi => (h2 i hi).2.1), total_applyW n W 1 hW.colSum, total_sub, total_add, hP]
    module

theorem C24_gt_vr {w : World A E Ω} {n : Net A} (h : Lossless w n) {W : A → A → ℝ} (hW : Mixing n W) (ρ : ℝ)
    (c : Emp A E Ω) (coin : Ω → Bool × Ω) :
    AfterEveryIteration (gtVr c coin W ρ) w n (fun s =>
      total n (fun i => (s.loc i).y) = total n (fun i => (s.loc i).v)) := by
  apply every_of_inv
  · intro x0 s0
    obtain ⟨ωs, hi⟩ := init_spec (gtVr c coin W ρ) n h.wf x0 s0
    exact total_congr n (fun i hi' => by rw [hi i hi']; rfl)
  · intro k s hP
    obtain ⟨s', ωs, h1, h2⟩ := gtVr_step h c coin W hW.supported ρ k s
    refine ⟨s', h1, ?_⟩
    rw [total_congr n (fun i hi => (h2 i hi).2.2.2), total_applyW n W 1 hW.colSum, total_sub, total_add, hP]
    module

/-- the snapshot gradient of GT-VR is always the full gradient at the snapshot point -/
theorem C24_gt_vr_snapshot {w : World A E Ω} {n : Net A} (h : Lossless w n) {W : A → A → ℝ} (hW : Mixing n W) (ρ : ℝ)
    (c : Emp A E Ω) (coin : Ω → Bool × Ω) :
    AfterEveryIteration (gtVr c coin W ρ) w n (fun s =>
      ∀ i ∈ n.nodes, (s.loc i).fullTau = c.all i (s.loc i).tau) := by
  apply every_of_inv
  · intro x0 s0
    obtain ⟨ωs, hi⟩ := init_spec (gtVr c coin W ρ) n h.wf x0 s0
    intro i hi'
    rw [hi i hi']; rfl
  · intro k s hP
    obtain ⟨s', ωs, h1, h2⟩ := gtVr_step h c coin W hW.supported ρ k s
    refine ⟨s', h1, fun i hi => ?_⟩
    rcases (h2 i hi).2.1 with ⟨a, b⟩ | ⟨a, b⟩
    · rw [b, a]
    · rw [b, a, hP i hi]

theorem sarahInner_inv {w : World A E Ω} {n : Net A} (h : Lossless w n) {W : A → A → ℝ} (hW : Mixing n W) (ρ : ℝ)
    (c : Emp A E Ω) (K : Nat) (s : Sys A E Ω (Sarah E)) (hg : Good n s.net)
    (hP : total n (fun i => (s.loc i).y) = total n (fun i => (s.loc i).v)) :
    ∃ s', sarahInner c W ρ w n K s = .ok s' ∧ total n (fun i => (s'.loc i).y) = total n (fun i => (s'.loc i).v) := by
  induction K generalizing s with
  | zero => exact ⟨s, rfl, hP⟩
  | succ K ih =>
    obtain ⟨s1, ωs, h1, g1, i1, l1⟩ := forActive_own h.ideal h.wf (fun i _ (a : Sarah E) ω =>
      let r := c.batch i a.x ω
      ({ a with vPrev := a.v, v := r.1.1 - c.at_ i a.xPrev r.1.2 + a.v }, r.2)) s hg
    obtain ⟨s2, h2, g2, l2⟩ := sarahRound_step h W hW.supported ρ s1 g1
    have hP2 : total n (fun i => (s2.loc i).y) = total n (fun i => (s2.loc i).v) := by
      rw [total_congr n (fun i hi => (l2 i hi).1), total_congr n (fun i hi => (l2 i hi).2.2.2), total_sub, total_add,
        total_applyW n W 1 hW.colSum, one_smul]
      have e1 : total n (fun i => (s1.loc i).y) = total n (fun i => (s.loc i).y) :=
        total_congr n (fun i hi => by rw [l1 i hi])
      have e2 : total n (fun i => (s1.loc i).vPrev) = total n (fun i => (s.loc i).v) :=
        total_congr n (fun i hi => by rw [l1 i hi])
      rw [e1, e2, hP]; module
    obtain ⟨s', h3, h4⟩ := ih s2 g2 hP2
    refine ⟨s', ?_, h4⟩
    simp only [sarahInner, h1, bind, Except.bind]
    rw [h2]
    exact h3

theorem C24_gt_sarah {w : World A E Ω} {n : Net A} (h : Lossless w n) {W : A → A → ℝ} (hW : Mixing n W) (ρ : ℝ)
    (c : Emp A E Ω) (K : Nat) :
    AfterEveryIteration (gtSarah c W ρ K) w n (fun s =>
      total n (fun i => (s.loc i).y) = total n (fun i => (s.loc i).v)) := by
  apply every_of_inv
  · intro x0 s0
    obtain ⟨ωs, hi⟩ := init_spec (gtSarah c W ρ K) n h.wf x0 s0
    exact total_congr n (fun i hi' => by rw [hi i hi']; rfl)
  · intro k s hP
    obtain ⟨s1, ωs, h1, g1, i1, l1⟩ := forActive_own h.ideal h.wf (fun i _ (a : Sarah E) ω =>
      ({ a with vPrev := a.v, v := c.all i a.x }, ω)) (adv n k s) (good_step n _ k)
    obtain ⟨s2, h2, g2, l2⟩ := sarahRound_step h W hW.supported ρ s1 g1
    have hP2 : total n (fun i => (s2.loc i).y) = total n (fun i => (s2.loc i).v) := by
      rw [total_congr n (fun i hi => (l2 i hi).1), total_congr n (fun i hi => (l2 i hi).2.2.2), total_sub, total_add,
        total_applyW n W 1 hW.colSum, one_smul]
      have e1 : total n (fun i => (s1.loc i).y) = total n (fun i => (s.loc i).y) :=
        total_congr n (fun i hi => by rw [l1 i hi]; rfl)
      have e2 : total n (fun i => (s1.loc i).vPrev) = total n (fun i => (s.loc i).v) :=
        total_congr n (fun i hi => by rw [l1 i hi]; rfl)
      rw [e1, e2, hP]; module
    obtain ⟨s', h3, h4⟩ := sarahInner_inv h hW ρ c K s2 g2 hP2
    refine ⟨s', ?_, h4⟩
    simp only [gtSarah, h1, bind, Except.bind]
    rw [h2]
    exact h3

/-! ## C25 -/

theorem C25_led {w : World A E Ω} {n : Net A} (h : Lossless w n) {W : A → A → ℝ} (hW : Mixing n W) (ρ β : ℝ) (τ : Nat)
    (grad : Grad A E Ω) :
    AfterEveryIteration (led grad W ρ β τ) w n (fun s => total n (fun i => (s.loc i).y) = 0) := by
  apply every_of_inv
  · intro x0 s0
    obtain ⟨ωs, hi⟩ := init_spec (led grad W ρ β τ) n h.wf x0 s0
    rw [total_congr n (g := fun _ => 0) (fun i hi' => by rw [hi i hi']; rfl), total_zero]
  · intro k s hP
    obtain ⟨s', ωs, h1, h2⟩ := led_step h grad W hW.supported ρ β τ k s
    refine ⟨s', h1, ?_⟩
    rw [total_congr n (fun i hi => (h2 i hi).2.2), total_add, total_sub, total_congr n (fun i hi => (h2 i hi).2.1),
      total_applyW n W 1 hW.colSum, hP]
    module

theorem C25_prox_skip {w : World A E Ω} {n : Net A} (h : Lossless w n) {W : A → A → ℝ} (hW : Mixing n W) (ρ β χ : ℝ)
    (grad : Grad A E Ω) (coin : Ω → Bool × Ω) :
    AfterEveryIteration (proxSkip grad coin W ρ β χ) w n (fun s => total n (fun i => (s.loc i).y) = 0) := by
  obtain ⟨hs', hc'⟩ := relaxed_ok n h.wf W χ hW.supported hW.colSum
  apply every_of_inv
  · intro x0 s0
    obtain ⟨ωs, hi⟩ := init_spec (proxSkip grad coin W ρ β χ) n h.wf x0 s0
    rw [total_congr n (g := fun _ => 0) (fun i hi' => by rw [hi i hi']; rfl), total_zero]
  · intro k s hP
    obtain ⟨s', ωs, h1, h2, h3⟩ := proxSkip_step h grad coin W χ hs' ρ β k s
    refine ⟨s', h1, ?_⟩
    rcases h3 with h3 | h3
    · rw [total_congr n (fun i hi => (h3 i hi).2), total_add, total_smul, total_sub,
        total_congr n (fun i hi => (h3 i hi).1), total_applyW n _ 1 hc', hP]
      module
    · rw [total_congr n (fun i hi => (h3 i hi).2), hP]

theorem C25_wang_elia {w : World A E Ω} {n : Net A} (h : Lossless w n) {W : A → A → ℝ} (hW : Mixing n W) (ρ : ℝ)
    (grad : Grad A E Ω) :
    AfterEveryIteration (wangElia grad W ρ) w n (fun s => total n (fun i => (s.loc i).z) = 0) := by
  obtain ⟨hs', hc'⟩ := halfMinus_ok n h.wf W hW.supported hW.colSum
  apply every_of_inv
  · intro x0 s0
    obtain ⟨ωs, hi⟩ := init_spec (wangElia grad W ρ) n h.wf x0 s0
    rw [total_congr n (g := fun _ => 0) (fun i hi' => by rw [hi i hi']; rfl), total_zero]
  · intro k s hP
    obtain ⟨s', ωs, h1, h2⟩ := wangElia_step h grad W hs' ρ k s
    refine ⟨s', h1, ?_⟩
    rw [total_congr n (fun i hi => (h2 i hi).2), total_add, total_applyW n _ 0 hc', hP]
    module

theorem C25_kgt {w : World A E Ω} {n : Net A} (h : Lossless w n) {W : A → A → ℝ} (hW : Mixing n W) (ρ β : ℝ) (K : Nat)
    (grad : Grad A E Ω) :
    AfterEveryIteration (kgt grad W ρ β K) w n (fun s => total n (fun i => (s.loc i).c) = 0) := by
  apply every_of_inv
  · intro x0 s0
    obtain ⟨ωs, hi⟩ := init_spec (kgt grad W ρ β K) n h.wf x0 s0
    rw [total_congr n (g := fun _ => 0) (fun i hi' => by rw [hi i hi']; rfl), total_zero]
  · intro k s hP
    obtain ⟨s', ωs, h1, h2⟩ := kgt_step h grad W hW.supported ρ β K k s
    refine ⟨s', h1, ?_⟩
    rw [total_congr n (fun i hi => (h2 i hi).2.1), total_add, total_sub, total_applyW n W 1 hW.colSum, hP]
    module

/-! ## C23, methods that also follow the average dynamics as a consequence of C24 and C25 -/

theorem C23_wang_elia {w : World A E Ω} {n : Net A} (h : Lossless w n) {W : A → A → ℝ} (hW : Mixing n W) (ρ : ℝ)
    (grad : Grad A E Ω) (G : A → E → E) (hG : Exactly grad G) :
    AverageDescends (wangElia grad W ρ) (fun a => a.x) w n G ρ := by
  obtain ⟨hs', hc'⟩ := halfMinus_ok n h.wf W hW.supported hW.colSum
  apply descends_of_inv _ _ _ _ _ _ (fun _ _ => True) (fun _ _ => trivial)
  intro k s _
  obtain ⟨s', ωs, h1, h2⟩ := wangElia_step h grad W hs' ρ k s
  refine ⟨s', h1, trivial, ?_⟩
  rw [total_congr n (fun i hi => (h2 i hi).1)]
  simp only [hG _ _ _]
  rw [total_sub, total_sub, total_smul, total_applyW n _ 0 hc', zero_smul, sub_zero]

theorem C23_aug_dgm {w : World A E Ω} {n : Net A} (h : Lossless w n) {W : A → A → ℝ} (hW : Mixing n W) (ρ : ℝ)
    (grad : Grad A E Ω) (G : A → E → E) (hG : Exactly grad G) :
    AverageDescends (augDgm grad W ρ) (fun a => a.x) w n G ρ := by
  apply descends_of_inv _ _ _ _ _ _ (fun _ s => total n (fun i => (s.loc i).y) = total n (fun i => (s.loc i).g) ∧
    ∀ i ∈ n.nodes, (s.loc i).g = G i (s.loc i).x)
  · intro x0 s0
    obtain ⟨ωs, hi⟩ := init_spec (augDgm grad W ρ) n h.wf x0 s0
    refine ⟨total_congr n (fun i hi' => by rw [hi i hi']; rfl), fun i hi' => ?_⟩
    rw [hi i hi']; exact hG _ _ _
  · intro k s ⟨hP, hg⟩
    obtain ⟨s', ωs, h1, h2⟩ := augDgm_step h grad W hW.supported ρ k s
    refine ⟨s', h1, ⟨?_, fun i hi => by rw [(h2 i hi).2.1, hG]⟩, ?_⟩
    · rw [total_congr n (fun i hi => (h2 i hi).2.2), total_applyW n W 1 hW.colSum, total_sub, total_add, hP]
      module
    · rw [total_congr n (fun i hi => (h2 i hi).1), total_applyW n W 1 hW.colSum, one_smul, total_sub, total_smul, hP,
        total_congr n hg]

theorem C23_atc_tracking {w : World A E Ω} {n : Net A} (h : Lossless w n) {W : A → A → ℝ} (hW : Mixing n W) (ρ : ℝ)
    (grad : Grad A E Ω) (G : A → E → E) (hG : Exactly grad G) :
    AverageDescends (atcTracking grad W ρ) (fun a => a.x) w n G ρ := by
  apply descends_of_inv _ _ _ _ _ _ (fun _ s => total n (fun i => (s.loc i).y) = total n (fun i => (s.loc i).g) ∧
    ∀ i ∈ n.nodes, (s.loc i).g = G i (s.loc i).x)
  · intro x0 s0
    obtain ⟨ωs, hi⟩ := init_spec (atcTracking grad W ρ) n h.wf x0 s0
    refine ⟨total_congr n (fun i hi' => by rw [hi i hi']; rfl), fun i hi' => ?_⟩
    rw [hi i hi']; exact hG _ _ _
  · intro k s ⟨hP, hg⟩
    obtain ⟨s', ωs, h1, h2⟩ := atcTracking_step h grad W hW.supported ρ k s
    refine ⟨s', h1, ⟨?_, fun i hi => by rw [(h2 i hi).2.1, hG]⟩, ?_⟩
    · rw [total_congr n (fun i hi => (h2 i hi).2.2), total_sub, total_add, total_applyW n W 1 hW.colSum, hP]
      module
    · rw [total_congr n (fun i hi => (h2 i hi).1), total_applyW n W 1 hW.colSum, one_smul, total_sub, total_smul, hP,
        total_congr n hg]

/-! ## C26 -/

/-- One ATC iteration from any reachable state: the documented value `Σ_j W_ij (x_j - ρ ∇f_j(x_j))` plus the spurious term
`ρ W_ii ∇f_i(x_i)`. -/
theorem C26_atc_deviation {w : World A E Ω} {n : Net A} (h : Lossless w n) {W : A → A → ℝ} (hW : Mixing n W) (ρ : ℝ)
    (grad : Grad A E Ω) (G : A → E → E) (hG : Exactly grad G) (x0 : A → E) (s0 : Sys A E Ω (Atc E)) (k : Nat) :
    ∃ s s', (atc grad W ρ).after w n x0 s0 k = .ok s ∧ (atc grad W ρ).after w n x0 s0 (k + 1) = .ok s' ∧
      (∀ i ∈ n.nodes, (s'.loc i).x =
        (n.nodes.map (fun j => W i j • ((s.loc j).x - ρ • G j (s.loc j).x))).sum + (W i i * ρ) • G i (s.loc i).x) ∧
      netAvg n (fun i => (s'.loc i).x) = netAvg n (fun i => (s.loc i).x)
        - ρ • netAvg n (fun j => (1 - W j j) • G j (s.loc j).x) := by
  have step : ∀ (k : Nat) (s : Sys A E Ω (Atc E)), ∃ s', (atc grad W ρ).step w n k (adv n k s) = .ok s' ∧
      ∀ i ∈ n.nodes, (s'.loc i).x =
        (n.nodes.map (fun j => W i j • ((s.loc j).x - ρ • G j (s.loc j).x))).sum + (W i i * ρ) • G i (s.loc i).x := by
    intro k s
    obtain ⟨s', ωs, h1, h2⟩ := atc_step h grad W hW.supported ρ k s
    refine ⟨s', h1, fun i hi => ?_⟩
    rw [(h2 i hi).1]
    simp only [hG _ _ _]
    rfl
  obtain ⟨s, h1, _⟩ := after_induction (atc grad W ρ) w n x0 s0 (fun _ _ => True) trivial
    (fun k s _ => by obtain ⟨s', a, _⟩ := step k s; exact ⟨s', a, trivial⟩) k
  obtain ⟨s', a, b⟩ := step k s
  refine ⟨s, s', h1, by rw [after_succ, h1]; exact a, b, ?_⟩
  unfold netAvg
  rw [total_congr n b, total_add]
  have e1 : total n (fun i => (n.nodes.map (fun j => W i j • ((s.loc j).x - ρ • G j (s.loc j).x))).sum) =
      total n (fun j => (s.loc j).x) - ρ • total n (fun j => G j (s.loc j).x) := by
    have := total_applyW n W 1 hW.colSum (fun j => (s.loc j).x - ρ • G j (s.loc j).x)
    rw [one_smul, total_sub, total_smul] at this
    exact this
  have e2 : total n (fun i => (W i i * ρ) • G i (s.loc i).x) = ρ • total n (fun i => W i i • G i (s.loc i).x) := by
    rw [← total_smul]
    exact total_congr n (fun i _ => by rw [smul_smul, mul_comm])
  have e3 : total n (fun j => (1 - W j j) • G j (s.loc j).x) =
      total n (fun j => G j (s.loc j).x) - total n (fun i => W i i • G i (s.loc i).x) := by
    rw [← total_sub]
    exact total_congr n (fun i _ => by module)
  rw [e1, e2, e3]
  module

/-- On a single-agent network ATC never moves, whatever the cost. -/
theorem C26_single_agent_stuck {w : World A E Ω} {n : Net A} (h : Lossless w n) (a : A) (hn : n.nodes = [a])
    {W : A → A → ℝ} (hW : Mixing n W) (ρ : ℝ) (grad : Grad A E Ω) (G : A → E → E) (hG : Exactly grad G) (x0 : A → E)
    (s0 : Sys A E Ω (Atc E)) (k : Nat) :
    ∃ s, (atc grad W ρ).after w n x0 s0 k = .ok s ∧ (s.loc a).x = x0 a := by
  have hWa : W a a = 1 := by
    have := hW.colSum a (by simp [hn])
    simpa [hn] using this
  apply after_induction (atc grad W ρ) w n x0 s0 (fun _ s => (s.loc a).x = x0 a)
  · obtain ⟨ωs, hi⟩ := init_spec (atc grad W ρ) n h.wf x0 s0
    rw [hi a (by simp [hn])]; rfl
  · intro k s hP
    obtain ⟨s', ωs, h1, h2⟩ := atc_step h grad W hW.supported ρ k s
    refine ⟨s', h1, ?_⟩
    rw [(h2 a (by simp [hn])).1]
    simp only [applyW, hn, List.map_cons, List.map_nil, List.sum_cons, List.sum_nil, hWa]
    rw [hP]; module

/-! ## C28 -/

/-- DGD started at a consensual point where every local gradient vanishes stays there in every iteration. -/
theorem C28_dgd_fixed_point {w : World A E Ω} {n : Net A} (h : Lossless w n) {W : A → A → ℝ} (hW : Mixing n W)
    (hrow : ∀ i ∈ n.nodes, (n.nodes.map (fun j => W i j)).sum = 1) (ρ : ℝ)
    (grad : Grad A E Ω) (G : A → E → E) (hG : Exactly grad G) (xs : E) (hst : ∀ i ∈ n.nodes, G i xs = 0)
    (s0 : Sys A E Ω (Dgd E)) (k : Nat) :
    ∃ s, (dgd grad W ρ).after w n (fun _ => xs) s0 k = .ok s ∧ ∀ i ∈ n.nodes, (s.loc i).x = xs := by
  apply after_induction (dgd grad W ρ) w n (fun _ => xs) s0 (fun _ s => ∀ i ∈ n.nodes, (s.loc i).x = xs)
  · obtain ⟨ωs, hi⟩ := init_spec (dgd grad W ρ) n h.wf (fun _ => xs) s0
    intro i hi'
    rw [hi i hi']; rfl
  · intro k s hP
    obtain ⟨s', ωs, h1, h2⟩ := dgd_step h grad W hW.supported ρ k s
    refine ⟨s', h1, fun i hi => ?_⟩
    rw [h2 i hi, hG, hP i hi, hst i hi, smul_zero, sub_zero, applyW_congr n W hP i]
    unfold applyW
    have : ∀ l : List A, (l.map (fun j => W i j • xs)).sum = ((l.map (fun j => W i j)).sum) • xs := by
      intro l; induction l with
      | nil => simp
      | cons a t ih => simp [ih, add_smul]
    rw [this, hrow i hi, one_smul]

/-- What DGD does at a consensual stationary point `xs` under arbitrary activation and message loss (default weights):
an active agent stays exactly if `xs = 0` or it heard all its neighbours; inactive agents stay. -/
theorem C28_lossy_iff {w : World A E Ω} {n : Net A} (h : Plain w n) (hw : n.WF) (hl : Loopless n) (ρ : ℝ)
    (grad : Grad A E Ω) (G : A → E → E) (hG : Exactly grad G) (xs : E) (hst : ∀ i ∈ n.nodes, G i xs = 0)
    (k : Int) (s : Sys A E Ω (Dgd E)) (hx : ∀ i ∈ n.nodes, (s.loc i).x = xs) :
    ∃ s' act, (dgd grad (weights n) ρ).step w n k { s with net := s.net.step n k } = .ok s' ∧
      s'.net.activeCache = some act ∧
      ∀ i ∈ n.nodes, ((∀ ω, (w.isActive i k ω).1 = true) → i ∈ act) ∧
        (i ∈ act → ((s'.loc i).x = xs ↔ xs = 0 ∨ ∀ j ∈ n.nbrs i, j ∈ ((s'.net.inbox i).byChannel .dflt).keys)) ∧
        (∀ j ∈ ((s'.net.inbox i).byChannel .dflt).keys, ∃ ω, (w.shouldDrop j ω).1 = false) := by
  obtain ⟨s', act, R, ωs, h1, h2, h3, h4, h5, h6, h7⟩ := dgd_step_lossy h hw grad (weights n) ρ k s
  refine ⟨s', act, h1, h4, fun i hi => ⟨h3 i hi, fun hia => ?_, fun j hj => ?_⟩⟩
  · obtain ⟨r1, r2, r3⟩ := h6 i hi
    rw [← h5 i, h7 i hi, if_pos hia, hG, hx i hi, hst i hi, smul_zero, sub_zero]
    have hR : (R i).map (fun j => weights n i j • (s.loc j).x) = (R i).map (fun j => weights n i j • xs) :=
      List.map_congr_left (fun j hj => by rw [hx j (hw.nbrs_mem i j (r2 j hj).1)])
    have hsum : ∀ l : List A, (l.map (fun j => weights n i j • xs)).sum = ((l.map (fun j => weights n i j)).sum) • xs := by
      intro l; induction l with
      | nil => simp
      | cons a t ih => simp [ih, add_smul]
    rw [hR, hsum, ← add_smul]
    -- the row sum over all neighbours is 1
    have hrow : weights n i i + ((n.nbrs i).map (fun j => weights n i j)).sum = 1 := by
      have e := sum_split n hw hl i hi (weights n) (metropolis_mixing n hw hl).supported (fun _ => (1 : ℝ))
      unfold applyW at e
      simp only [smul_eq_mul, mul_one] at e
      rw [← e]; exact (C12_doubly_stochastic n hw hl i hi).1
    -- split neighbours into heard and missed
    have hperm : (R i ++ (n.nbrs i).filter (fun j => decide (j ∉ R i))).Perm (n.nbrs i) := by
      rw [List.perm_ext_iff_of_nodup _ (hw.nbrs_nodup i)]
      · intro j
        simp only [List.mem_append, List.mem_filter, decide_eq_true_eq]
        constructor
        · rintro (hj | hj)
          · exact (r2 j hj).1
          · exact hj.1
        · intro hj
          by_cases hjR : j ∈ R i
          · exact Or.inl hjR
          · exact Or.inr ⟨hj, hjR⟩
      · refine List.Nodup.append r1 ((hw.nbrs_nodup i).filter _) ?_
        intro j hj hj'
        simp only [List.mem_filter, decide_eq_true_eq] at hj'
        exact hj'.2 hj
    have hsplit : ((n.nbrs i).map (fun j => weights n i j)).sum = ((R i).map (fun j => weights n i j)).sum +
        (((n.nbrs i).filter (fun j => decide (j ∉ R i))).map (fun j => weights n i j)).sum := by
      rw [← (hperm.map _).sum_eq, List.map_append, List.sum_append]
    have hpos : ∀ j ∈ (n.nbrs i).filter (fun j => decide (j ∉ R i)), 0 < weights n i j := by
      intro j hj
      rw [List.mem_filter] at hj
      have hij : i ≠ j := fun e => hl i (e ▸ hj.1)
      exact ((C12_support n hw i j hi hij).2 hj.1).2
    constructor
    · intro he
      have h0 : (((n.nbrs i).filter (fun j => decide (j ∉ R i))).map (fun j => weights n i j)).sum • xs = 0 := by
        have : (((n.nbrs i).filter (fun j => decide (j ∉ R i))).map (fun j => weights n i j)).sum • xs =
            (1 : ℝ) • xs - (weights n i i + ((R i).map (fun j => weights n i j)).sum) • xs := by
          rw [← sub_smul, ← hrow, hsplit]; congr 1; ring
        rw [this, he, one_smul, sub_self]
      rcases smul_eq_zero.1 h0 with hz | hz
      · right
        intro j hj
        by_contra hjR
        have hm : j ∈ (n.nbrs i).filter (fun j => decide (j ∉ R i)) := by
          rw [List.mem_filter]; exact ⟨hj, by simpa using hjR⟩
        have hge : weights n i j ≤ (((n.nbrs i).filter (fun j => decide (j ∉ R i))).map (fun j => weights n i j)).sum :=
          List.single_le_sum (fun x hx' => by
            obtain ⟨a, ha, rfl⟩ := List.mem_map.1 hx'
            exact le_of_lt (hpos a ha)) _ (List.mem_map.2 ⟨j, hm, rfl⟩)
        have := hpos j hm
        linarith
      · exact Or.inl hz
    · rintro (hz | hall)
      · rw [hz, smul_zero]
      · have hnil : (n.nbrs i).filter (fun j => decide (j ∉ R i)) = [] := by
          rw [List.filter_eq_nil_iff]
          intro j hj
          simpa using hall j hj
        rw [hnil] at hsplit
        simp only [List.map_nil, List.sum_nil, add_zero] at hsplit
        rw [← hsplit, hrow, one_smul]
  · rw [← h5 i] at hj
    exact ((h6 i hi).2.1 j hj).2.2.2

end

/-! ## C65: the runs are the documented recursions -/
section
variable {A E Ω : Type} [DecidableEq A] [AddCommGroup E] [Module ℝ E]

/-- `Σ_j M_ij v_j` over the agents -/
noncomputable def matVec (n : Net A) (M : A → A → ℝ) (v : A → E) (i : A) : E := (n.nodes.map (fun j => M i j • v j)).sum

/-- `(I + W) / 2` -/
noncomputable def tilde (W : A → A → ℝ) (i j : A) : ℝ := ((if i = j then 1 else 0) + W i j) / 2

/-- `(I - W) / 2` -/
noncomputable def laplace (W : A → A → ℝ) (i j : A) : ℝ := ((if i = j then 1 else 0) - W i j) / 2

/-- SPEC: every run of the algorithm succeeds and agent `i`'s state after `k` iterations is `X k i` -/
def Computes {α : Type} (alg : P2PAlg A E Ω α) (x : α → E) (w : World A E Ω) (n : Net A) (x0 : A → E) (X : Nat → A → E) :
    Prop :=
  ∀ (s0 : Sys A E Ω α) (k : Nat), ∃ s, alg.after w n x0 s0 k = .ok s ∧ ∀ i ∈ n.nodes, x (s.loc i) = X k i

/-- documented DGD (_dgd.py docstring) -/
noncomputable def dgdDoc (n : Net A) (W : A → A → ℝ) (ρ : ℝ) (G : A → E → E) (x0 : A → E) : Nat → A → E
  | 0 => x0
  | k + 1 => fun i => matVec n W (dgdDoc n W ρ G x0 k) i - ρ • G i (dgdDoc n W ρ G x0 k i)

/-- documented SimpleGT: the pair `(x_k, y_k)`, `y_0 = x_0` -/
noncomputable def simpleGtDoc (n : Net A) (W : A → A → ℝ) (ρ : ℝ) (G : A → E → E) (x0 : A → E) : Nat → (A → E) × (A → E)
  | 0 => (x0, x0)
  | k + 1 =>
    let p := simpleGtDoc n W ρ G x0 k
    let y' := fun i => p.1 i - ρ • G i (p.1 i)
    (fun i => y' i - p.2 i + matVec n W p.1 i, y')

/-- documented ED: `(x_k, y_k)`, `y_0 = x_0` -/
noncomputable def edDoc (n : Net A) (W : A → A → ℝ) (ρ : ℝ) (G : A → E → E) (x0 : A → E) : Nat → (A → E) × (A → E)
  | 0 => (x0, x0)
  | k + 1 =>
    let p := edDoc n W ρ G x0 k
    let y' := fun i => p.1 i - ρ • G i (p.1 i)
    (fun i => matVec n (tilde W) (fun j => p.1 j + y' j - p.2 j) i, y')

/-- documented NIDS: `(x_k, x_{k-1})` for `k ≥ 1`, first step `x_1 = x_0 - ρ ∇f(x_0)` -/
noncomputable def nidsDoc (n : Net A) (W : A → A → ℝ) (ρ : ℝ) (G : A → E → E) (x0 : A → E) : Nat → (A → E) × (A → E)
  | 0 => (x0, x0)
  | 1 => (fun i => x0 i - ρ • G i (x0 i), x0)
  | k + 2 =>
    let p := nidsDoc n W ρ G x0 (k + 1)
    (fun i => matVec n (tilde W) (fun j => (2 : ℝ) • p.1 j - p.2 j - ρ • G j (p.1 j) + ρ • G j (p.2 j)) i, p.1)

/-- documented EXTRA: `(x_k, x_{k-1})`, first step `x_1 = W x_0 - ρ ∇f(x_0)` -/
noncomputable def extraDoc (n : Net A) (W : A → A → ℝ) (ρ : ℝ) (G : A → E → E) (x0 : A → E) : Nat → (A → E) × (A → E)
  | 0 => (x0, x0)
  | 1 => (fun i => matVec n W x0 i - ρ • G i (x0 i), x0)
  | k + 2 =>
    let p := extraDoc n W ρ G x0 (k + 1)
    (fun i => p.1 i + matVec n W p.1 i - matVec n (tilde W) p.2 i - ρ • (G i (p.1 i) - G i (p.2 i)), p.1)

/-- documented Wang-Elia: `(x_k, z_k)`, `z_0 = 0` -/
noncomputable def wangEliaDoc (n : Net A) (W : A → A → ℝ) (ρ : ℝ) (G : A → E → E) (x0 : A → E) : Nat → (A → E) × (A → E)
  | 0 => (x0, fun _ => 0)
  | k + 1 =>
    let p := wangEliaDoc n W ρ G x0 k
    (fun i => p.1 i - matVec n (laplace W) (fun j => p.1 j + p.2 j) i - ρ • G i (p.1 i),
     fun i => p.2 i + matVec n (laplace W) p.1 i)

/-- documented Aug-DGM: `(x_k, y_k)`, `y_0 = ∇f(x_0)` -/
noncomputable def augDgmDoc (n : Net A) (W : A → A → ℝ) (ρ : ℝ) (G : A → E → E) (x0 : A → E) : Nat → (A → E) × (A → E)
  | 0 => (x0, fun i => G i (x0 i))
  | k + 1 =>
    let p := augDgmDoc n W ρ G x0 k
    let x' := fun i => matVec n W (fun j => p.1 j - ρ • p.2 j) i
    (x', fun i => matVec n W (fun j => p.2 j + G j (x' j) - G j (p.1 j)) i)

/-- documented ATC-Tracking: `(x_k, y_k)`, `y_0 = ∇f(x_0)` -/
noncomputable def atcTrackingDoc (n : Net A) (W : A → A → ℝ) (ρ : ℝ) (G : A → E → E) (x0 : A → E) : Nat → (A → E) × (A → E)
  | 0 => (x0, fun i => G i (x0 i))
  | k + 1 =>
    let p := atcTrackingDoc n W ρ G x0 k
    let x' := fun i => matVec n W (fun j => p.1 j - ρ • p.2 j) i
    (x', fun i => matVec n W p.2 i + G i (x' i) - G i (p.1 i))

theorem halfPlus_tilde (W : A → A → ℝ) : halfPlus W = tilde W := by
  funext i j; simp only [halfPlus, tilde]; ring

theorem halfMinus_laplace (W : A → A → ℝ) : halfMinus W = laplace W := by
  funext i j; simp only [halfMinus, laplace]; ring

theorem C65_dgd {w : World A E Ω} {n : Net A} (h : Lossless w n) {W : A → A → ℝ} (hW : Mixing n W) (ρ : ℝ)
    (grad : Grad A E Ω) (G : A → E → E) (hG : Exactly grad G) (x0 : A → E) :
    Computes (dgd grad W ρ) (fun a => a.x) w n x0 (dgdDoc n W ρ G x0) := by
  intro s0 k
  apply after_induction (dgd grad W ρ) w n x0 s0 (fun k s => ∀ i ∈ n.nodes, (s.loc i).x = dgdDoc n W ρ G x0 k i)
  · obtain ⟨ωs, hi⟩ := init_spec (dgd grad W ρ) n h.wf x0 s0
    intro i hi'; rw [hi i hi']; rfl
  · intro k s hP
    obtain ⟨s', ωs, h1, h2⟩ := dgd_step h grad W hW.supported ρ k s
    refine ⟨s', h1, fun i hi => ?_⟩
    rw [h2 i hi, hG, hP i hi, applyW_congr n W hP i]; rfl

theorem C65_simple_gt {w : World A E Ω} {n : Net A} (h : Lossless w n) {W : A → A → ℝ} (hW : Mixing n W) (ρ : ℝ)
    (grad : Grad A E Ω) (G : A → E → E) (hG : Exactly grad G) (x0 : A → E) :
    Computes (simpleGt grad W ρ) (fun a => a.x) w n x0 (fun k => (simpleGtDoc n W ρ G x0 k).1) := by
  intro s0 k
  obtain ⟨s, hs, hP⟩ := after_induction (simpleGt grad W ρ) w n x0 s0 (fun k s =>
    (∀ i ∈ n.nodes, (s.loc i).x = (simpleGtDoc n W ρ G x0 k).1 i) ∧
    (∀ i ∈ n.nodes, (s.loc i).y = (simpleGtDoc n W ρ G x0 k).2 i)) (by
      obtain ⟨ωs, hi⟩ := init_spec (simpleGt grad W ρ) n h.wf x0 s0
      exact ⟨fun i hi' => by rw [hi i hi']; rfl, fun i hi' => by rw [hi i hi']; rfl⟩) (by
      intro k s ⟨hx, hy⟩
      obtain ⟨s', ωs, h1, h2⟩ := simpleGt_step h grad W hW.supported ρ k s
      refine ⟨s', h1, fun i hi => ?_, fun i hi => ?_⟩
      · rw [(h2 i hi).1, hG, hx i hi, hy i hi, applyW_congr n W hx i]; rfl
      · rw [(h2 i hi).2, hG, hx i hi]; rfl) k
  exact ⟨s, hs, hP.1⟩

theorem C65_ed {w : World A E Ω} {n : Net A} (h : Lossless w n) {W : A → A → ℝ} (hW : Mixing n W) (ρ : ℝ)
    (grad : Grad A E Ω) (G : A → E → E) (hG : Exactly grad G) (x0 : A → E) :
    Computes (ed grad W ρ) (fun a => a.x) w n x0 (fun k => (edDoc n W ρ G x0 k).1) := by
  intro s0 k
  obtain ⟨s, hs, hP⟩ := after_induction (ed grad W ρ) w n x0 s0 (fun k s =>
    (∀ i ∈ n.nodes, (s.loc i).x = (edDoc n W ρ G x0 k).1 i) ∧
    (∀ i ∈ n.nodes, (s.loc i).y = (edDoc n W ρ G x0 k).2 i) ∧
    (∀ i ∈ n.nodes, (s.loc i).yNew = (edDoc n W ρ G x0 k).1 i - ρ • G i ((edDoc n W ρ G x0 k).1 i))) (by
      obtain ⟨ωs, hi⟩ := init_spec (ed grad W ρ) n h.wf x0 s0
      refine ⟨fun i hi' => by rw [hi i hi']; rfl, fun i hi' => by rw [hi i hi']; rfl, fun i hi' => ?_⟩
      rw [hi i hi']; simp only [ed, hG _ _ _]; rfl) (by
      intro k s ⟨hx, hy, hyn⟩
      obtain ⟨s', ωs, h1, h2⟩ := ed_step h grad W (halfPlus_ok n h.wf W hW.supported hW.colSum).1 ρ k s
      have ex : ∀ i ∈ n.nodes, (s'.loc i).x = (edDoc n W ρ G x0 (k + 1)).1 i := by
        intro i hi
        rw [(h2 i hi).1, halfPlus_tilde,
          applyW_congr n (tilde W) (fun j hj => by rw [hx j hj, hy j hj, hyn j hj]) i]
        rfl
      refine ⟨s', h1, ex, fun i hi => ?_, fun i hi => ?_⟩
      · rw [(h2 i hi).2.1, hyn i hi]; rfl
      · rw [(h2 i hi).2.2, hG, ex i hi]) k
  exact ⟨s, hs, hP.1⟩

theorem C65_nids {w : World A E Ω} {n : Net A} (h : Lossless w n) {W : A → A → ℝ} (hW : Mixing n W) (ρ : ℝ)
    (grad : Grad A E Ω) (G : A → E → E) (hG : Exactly grad G) (x0 : A → E) :
    Computes (nids grad W ρ) (fun a => a.x) w n x0 (fun k => (nidsDoc n W ρ G x0 k).1) := by
  intro s0 k
  obtain ⟨s, hs, hP⟩ := after_induction (nids grad W ρ) w n x0 s0 (fun k s =>
    (∀ i ∈ n.nodes, (s.loc i).x = (nidsDoc n W ρ G x0 k).1 i) ∧
    (∀ i ∈ n.nodes, (s.loc i).xOld = (nidsDoc n W ρ G x0 k).2 i) ∧
    (k ≠ 0 → ∀ i ∈ n.nodes, (s.loc i).g = G i ((nidsDoc n W ρ G x0 k).2 i))) (by
      obtain ⟨ωs, hi⟩ := init_spec (nids grad W ρ) n h.wf x0 s0
      exact ⟨fun i hi' => by rw [hi i hi']; rfl, fun i hi' => by rw [hi i hi']; rfl, fun h => absurd rfl h⟩) (by
      intro k s ⟨hx, hy, hg⟩
      cases k with
      | zero =>
        obtain ⟨s', ωs, h1, h2⟩ := nids_step0 h grad W ρ s
        refine ⟨s', h1, fun i hi => ?_, fun i hi => ?_, fun _ i hi => ?_⟩
        · rw [(h2 i hi).1, hG, hx i hi, hy i hi]; rfl
        · rw [(h2 i hi).2.1, hy i hi]; rfl
        · rw [(h2 i hi).2.2, hG, hx i hi]; rfl
      | succ k =>
        obtain ⟨s', ωs, h1, h2⟩ := nids_step h grad W (halfPlus_ok n h.wf W hW.supported hW.colSum).1 ρ
          ((k + 1 : Nat) : Int) (by push_cast; omega) s
        refine ⟨s', h1, fun i hi => ?_, fun i hi => ?_, fun _ i hi => ?_⟩
        · rw [(h2 i hi).1, halfPlus_tilde, applyW_congr n (tilde W)
            (fun j hj => by rw [hG, hx j hj, hy j hj, hg (by omega) j hj]) i]
          rfl
        · rw [(h2 i hi).2.1, hx i hi]; rfl
        · rw [(h2 i hi).2.2, hG, hx i hi]; rfl) k
  exact ⟨s, hs, hP.1⟩

theorem matVec_tilde (n : Net A) (hn : n.nodes.Nodup) (W : A → A → ℝ) (v : A → E) (i : A) (hi : i ∈ n.nodes) :
    matVec n (tilde W) v i = (0.5 : ℝ) • v i + (0.5 : ℝ) • matVec n W v i := by
  have hind : ∀ l : List A, l.Nodup → (l.map (fun j => (if i = j then (1 : ℝ) else 0) • v j)).sum =
      if i ∈ l then v i else 0 := by
    intro l; induction l with
    | nil => intro _; simp
    | cons a t ih =>
      intro hnd
      rw [List.map_cons, List.sum_cons, ih (List.nodup_cons.1 hnd).2]
      by_cases e : i = a
      · subst e; simp [(List.nodup_cons.1 hnd).1]
      · simp [e]
  have h1 : matVec n (tilde W) v i = (n.nodes.map (fun j => (0.5 : ℝ) • ((if i = j then (1 : ℝ) else 0) • v j)
      + (0.5 : ℝ) • (W i j • v j))).sum := by
    unfold matVec tilde; congr 1
    apply List.map_congr_left
    intro j _
    split <;> module
  have h2 : ∀ f : A → E, (n.nodes.map (fun j => (0.5 : ℝ) • f j)).sum = (0.5 : ℝ) • (n.nodes.map f).sum := by
    intro f; rw [List.smul_sum, List.map_map]; rfl
  rw [h1, List.sum_map_add, h2, h2, hind n.nodes hn, if_pos hi]
  rfl

theorem C65_extra {w : World A E Ω} {n : Net A} (h : Lossless w n) {W : A → A → ℝ} (hW : Mixing n W) (ρ : ℝ)
    (grad : Grad A E Ω) (G : A → E → E) (hG : Exactly grad G) (x0 : A → E) :
    Computes (extra grad W ρ) (fun a => a.x) w n x0 (fun k => (extraDoc n W ρ G x0 k).1) := by
  intro s0 k
  obtain ⟨s, hs, hP⟩ := after_induction (extra grad W ρ) w n x0 s0 (fun k s =>
    (∀ i ∈ n.nodes, (s.loc i).x = (extraDoc n W ρ G x0 k).1 i) ∧
    (∀ i ∈ n.nodes, (s.loc i).xOld = (extraDoc n W ρ G x0 k).2 i) ∧
    (k ≠ 0 → ∀ i ∈ n.nodes, (s.loc i).xCons = matVec n W (extraDoc n W ρ G x0 k).2 i)) (by
      obtain ⟨ωs, hi⟩ := init_spec (extra grad W ρ) n h.wf x0 s0
      exact ⟨fun i hi' => by rw [hi i hi']; rfl, fun i hi' => by rw [hi i hi']; rfl, fun h => absurd rfl h⟩) (by
      intro k s ⟨hx, hy, hc⟩
      cases k with
      | zero =>
        obtain ⟨s', ωs, h1, h2⟩ := extra_step0 h grad W hW.supported ρ s
        refine ⟨s', h1, fun i hi => ?_, fun i hi => ?_, fun _ i hi => ?_⟩
        · rw [(h2 i hi).1, hG, hx i hi, applyW_congr n W hx i]; rfl
        · rw [(h2 i hi).2.1, hx i hi]; rfl
        · rw [(h2 i hi).2.2, applyW_congr n W hx i]; rfl
      | succ k =>
        obtain ⟨s', ωs, ωs', h1, h2⟩ := extra_step h grad W hW.supported ρ ((k + 1 : Nat) : Int)
          (by push_cast; omega) s
        refine ⟨s', h1, fun i hi => ?_, fun i hi => ?_, fun _ i hi => ?_⟩
        · rw [(h2 i hi).1, hG, hG, hx i hi, hy i hi, hc (by omega) i hi, applyW_congr n W hx i]
          show _ = (extraDoc n W ρ G x0 (k + 1)).1 i + matVec n W (extraDoc n W ρ G x0 (k + 1)).1 i
            - matVec n (tilde W) (extraDoc n W ρ G x0 (k + 1)).2 i
            - ρ • (G i ((extraDoc n W ρ G x0 (k + 1)).1 i) - G i ((extraDoc n W ρ G x0 (k + 1)).2 i))
          rw [matVec_tilde n h.wf.nodup W _ i hi]
          show _ + matVec n W _ i - _ - _ - _ = _
          module
        · rw [(h2 i hi).2.1, hx i hi]; rfl
        · rw [(h2 i hi).2.2, applyW_congr n W hx i]; rfl) k
  exact ⟨s, hs, hP.1⟩

theorem C65_wang_elia {w : World A E Ω} {n : Net A} (h : Lossless w n) {W : A → A → ℝ} (hW : Mixing n W) (ρ : ℝ)
    (grad : Grad A E Ω) (G : A → E → E) (hG : Exactly grad G) (x0 : A → E) :
    Computes (wangElia grad W ρ) (fun a => a.x) w n x0 (fun k => (wangEliaDoc n W ρ G x0 k).1) := by
  intro s0 k
  obtain ⟨s, hs, hP⟩ := after_induction (wangElia grad W ρ) w n x0 s0 (fun k s =>
    (∀ i ∈ n.nodes, (s.loc i).x = (wangEliaDoc n W ρ G x0 k).1 i) ∧
    (∀ i ∈ n.nodes, (s.loc i).z = (wangEliaDoc n W ρ G x0 k).2 i)) (by
      obtain ⟨ωs, hi⟩ := init_spec (wangElia grad W ρ) n h.wf x0 s0
      exact ⟨fun i hi' => by rw [hi i hi']; rfl, fun i hi' => by rw [hi i hi']; rfl⟩) (by
      intro k s ⟨hx, hy⟩
      obtain ⟨s', ωs, h1, h2⟩ := wangElia_step h grad W (halfMinus_ok n h.wf W hW.supported hW.colSum).1 ρ k s
      refine ⟨s', h1, fun i hi => ?_, fun i hi => ?_⟩
      · rw [(h2 i hi).1, hG, hx i hi, halfMinus_laplace,
          applyW_congr n (laplace W) (fun j hj => by rw [hx j hj, hy j hj]) i]; rfl
      · rw [(h2 i hi).2, hy i hi, halfMinus_laplace, applyW_congr n (laplace W) hx i]; rfl) k
  exact ⟨s, hs, hP.1⟩

theorem C65_aug_dgm {w : World A E Ω} {n : Net A} (h : Lossless w n) {W : A → A → ℝ} (hW : Mixing n W) (ρ : ℝ)
    (grad : Grad A E Ω) (G : A → E → E) (hG : Exactly grad G) (x0 : A → E) :
    Computes (augDgm grad W ρ) (fun a => a.x) w n x0 (fun k => (augDgmDoc n W ρ G x0 k).1) := by
  intro s0 k
  obtain ⟨s, hs, hP⟩ := after_induction (augDgm grad W ρ) w n x0 s0 (fun k s =>
    (∀ i ∈ n.nodes, (s.loc i).x = (augDgmDoc n W ρ G x0 k).1 i) ∧
    (∀ i ∈ n.nodes, (s.loc i).y = (augDgmDoc n W ρ G x0 k).2 i) ∧
    (∀ i ∈ n.nodes, (s.loc i).g = G i (s.loc i).x)) (by
      obtain ⟨ωs, hi⟩ := init_spec (augDgm grad W ρ) n h.wf x0 s0
      refine ⟨fun i hi' => by rw [hi i hi']; rfl, fun i hi' => ?_, fun i hi' => ?_⟩
      · rw [hi i hi']; exact hG _ _ _
      · rw [hi i hi']; exact hG _ _ _) (by
      intro k s ⟨hx, hy, hg⟩
      obtain ⟨s', ωs, h1, h2⟩ := augDgm_step h grad W hW.supported ρ k s
      have ex : ∀ i ∈ n.nodes, (s'.loc i).x = (augDgmDoc n W ρ G x0 (k + 1)).1 i := by
        intro i hi
        rw [(h2 i hi).1, applyW_congr n W (fun j hj => by rw [hx j hj, hy j hj]) i]; rfl
      have eg : ∀ i ∈ n.nodes, (s'.loc i).g = G i (s'.loc i).x := fun i hi => by rw [(h2 i hi).2.1, hG]
      refine ⟨s', h1, ex, fun i hi => ?_, eg⟩
      rw [(h2 i hi).2.2, applyW_congr n W
        (fun j hj => by rw [hy j hj, eg j hj, hg j hj, ex j hj, hx j hj]) i]; rfl) k
  exact ⟨s, hs, hP.1⟩

theorem C65_atc_tracking {w : World A E Ω} {n : Net A} (h : Lossless w n) {W : A → A → ℝ} (hW : Mixing n W) (ρ : ℝ)
    (grad : Grad A E Ω) (G : A → E → E) (hG : Exactly grad G) (x0 : A → E) :
    Computes (atcTracking grad W ρ) (fun a => a.x) w n x0 (fun k => (atcTrackingDoc n W ρ G x0 k).1) := by
  intro s0 k
  obtain ⟨s, hs, hP⟩ := after_induction (atcTracking grad W ρ) w n x0 s0 (fun k s =>
    (∀ i ∈ n.nodes, (s.loc i).x = (atcTrackingDoc n W ρ G x0 k).1 i) ∧
    (∀ i ∈ n.nodes, (s.loc i).y = (atcTrackingDoc n W ρ G x0 k).2 i) ∧
    (∀ i ∈ n.nodes, (s.loc i).g = G i (s.loc i).x)) (by
      obtain ⟨ωs, hi⟩ := init_spec (atcTracking grad W ρ) n h.wf x0 s0
      refine ⟨fun i hi' => by rw [hi i hi']; rfl, fun i hi' => ?_, fun i hi' => ?_⟩
      · rw [hi i hi']; exact hG _ _ _
      · rw [hi i hi']; exact hG _ _ _) (by
      intro k s ⟨hx, hy, hg⟩
      obtain ⟨s', ωs, h1, h2⟩ := atcTracking_step h grad W hW.supported ρ k s
      have ex : ∀ i ∈ n.nodes, (s'.loc i).x = (atcTrackingDoc n W ρ G x0 (k + 1)).1 i := by
        intro i hi
        rw [(h2 i hi).1, applyW_congr n W (fun j hj => by rw [hx j hj, hy j hj]) i]; rfl
      have eg : ∀ i ∈ n.nodes, (s'.loc i).g = G i (s'.loc i).x := fun i hi => by rw [(h2 i hi).2.1, hG]
      refine ⟨s', h1, ex, fun i hi => ?_, eg⟩
      rw [(h2 i hi).2.2, applyW_congr n W hy i, eg i hi, hg i hi, ex i hi, hx i hi]; rfl) k
  exact ⟨s, hs, hP.1⟩

end

/-! ## Concrete instances -/

/-- perfect communication -/
def quietWorld : World Nat ℝ Unit :=
  { isActive := fun _ _ _ => (true, ()), shouldDrop := fun _ _ => (false, ()), compSize := fun _ _ => 1,
    compress := fun _ v _ => (v, ()), makeNoise := fun _ _ _ _ => (none, ()), add := fun a _ => a, costSize := fun _ => 1 }

theorem quiet_lossless : Lossless quietWorld path3 :=
  ⟨⟨fun _ _ _ => rfl, fun _ _ => rfl, fun _ _ _ => rfl, fun _ _ _ _ => rfl, rfl⟩, path3_wf, path3_loopless⟩

/-- agent 0's messages are always lost -/
def leakyWorld {E : Type} : World Nat E Unit :=
  { isActive := fun _ _ _ => (true, ()), shouldDrop := fun a _ => (decide (a = 0), ()), compSize := fun _ _ => 1,
    compress := fun _ v _ => (v, ()), makeNoise := fun _ _ _ _ => (none, ()), add := fun a _ => a, costSize := fun _ => 1 }

/-- `f_i(x) = (x - i)² / 2` -/
noncomputable def toyGrad : Grad Nat ℝ Unit := fun i x _ => (x - i, ())

theorem toy_exact : Exactly toyGrad (fun i x => x - i) := fun _ _ _ => rfl

-- the hypotheses of C23-C25, C28, C65 are met by a 3-agent path with its default weights
example : AverageDescends (extra toyGrad (weights path3) (1 / 10)) (fun a => a.x) quietWorld path3 (fun i x => x - i) (1 / 10) :=
  C23_extra quiet_lossless (metropolis_mixing path3 path3_wf path3_loopless) _ _ _ toy_exact

example : Computes (nids toyGrad (weights path3) (1 / 10)) (fun a => a.x) quietWorld path3 (fun _ => 7)
    (fun k => (nidsDoc path3 (weights path3) (1 / 10) (fun i (x : ℝ) => x - i) (fun _ => 7) k).1) :=
  C65_nids quiet_lossless (metropolis_mixing path3 path3_wf path3_loopless) _ _ _ toy_exact _

example : AfterEveryIteration (led toyGrad (weights path3) (1 / 10) (1 / 10) 5) quietWorld path3
    (fun s => total path3 (fun i : Nat => ((s.loc i).y : ℝ)) = 0) :=
  C25_led quiet_lossless (metropolis_mixing path3 path3_wf path3_loopless) _ _ _ _

/-- a single agent -/
def soloNet : Net Nat := ⟨[0], fun _ => [], [0]⟩

theorem solo_lossless : Lossless quietWorld soloNet :=
  ⟨⟨fun _ _ _ => rfl, fun _ _ => rfl, fun _ _ _ => rfl, fun _ _ _ _ => rfl, rfl⟩,
   ⟨by decide, by simp [soloNet], by simp [soloNet], by simp [soloNet], by simp [soloNet], by decide⟩,
   fun _ => by simp [soloNet]⟩

/-- Concrete refutation of ATC's documented update: minimising `x²/2 `on one agent from `x₀ = 1` with step 1/2, the documented
first iterate is 1/2 but ATC returns 1. -/
theorem C26_refutation (s0 : Sys Nat ℝ Unit (Atc ℝ)) :
    ∃ s, (atc toyGrad (weights soloNet) (1 / 2)).after quietWorld soloNet (fun _ => 1) s0 1 = .ok s ∧
      (s.loc 0).x = 1 ∧
      (soloNet.nodes.map (fun j => weights soloNet 0 j • ((1 : ℝ) - (1 / 2 : ℝ) • (1 - (j : ℝ))))).sum = 1 / 2 := by
  obtain ⟨s, h1, h2⟩ := C26_single_agent_stuck solo_lossless 0 rfl
    (metropolis_mixing soloNet solo_lossless.wf solo_lossless.noLoops) (1 / 2) toyGrad _ toy_exact (fun _ => 1) s0 1
  refine ⟨s, h1, h2, ?_⟩
  have hw : weights soloNet 0 0 = 1 := by
    have := (C12_doubly_stochastic soloNet solo_lossless.wf solo_lossless.noLoops 0 (by simp [soloNet])).1
    simpa [soloNet] using this
  show (weights soloNet 0 0 • ((1 : ℝ) - (1 / 2 : ℝ) • (1 - ((0 : Nat) : ℝ))) + 0) = 1 / 2
  rw [hw]; norm_num

/-- C28, lossy half: with a drop of agent 0's message on a two-agent network, agent 1 leaves the common minimiser `1` of
`f(x) = (x-1)²/2`, in any iteration and from any such state. -/
theorem C28_drop_breaks_fixed_point (k : Int) (s : Sys Nat ℝ Unit (Dgd ℝ)) (hx : ∀ i ∈ pairNet.nodes, (s.loc i).x = 1) :
    ∃ s', (dgd (fun _ x _ => (x - 1, ())) (weights pairNet) (1 / 10)).step leakyWorld pairNet k
        { s with net := s.net.step pairNet k } = .ok s' ∧ (s'.loc 1).x ≠ 1 := by
  have hl : Loopless pairNet := by
    intro a; simp only [pairNet]
    split
    · rename_i h; simp [h]
    · split
      · rename_i h; simp [h]
      · simp
  obtain ⟨s', act, h1, h2, h3⟩ := C28_lossy_iff (w := leakyWorld) (n := pairNet)
    ⟨fun _ _ _ => rfl, fun _ _ _ _ => rfl, rfl⟩ pairNet_wf hl (1 / 10) (fun _ x _ => (x - 1, ())) (fun _ x => x - 1)
    (fun _ _ _ => rfl) (1 : ℝ) (fun _ _ => by norm_num) k s hx
  refine ⟨s', h1, fun he => ?_⟩
  obtain ⟨q1, q2, q3⟩ := h3 1 (by simp [pairNet])
  rcases (q2 (q1 (fun _ => rfl))).1 he with h | h
  · norm_num at h
  · obtain ⟨ω, hω⟩ := q3 0 (h 0 (by simp [pairNet]))
    simp [leakyWorld] at hω

end Verif.Props
