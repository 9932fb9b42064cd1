import Verif.Props.Admm
set_option linter.unusedSectionVars false
/-!
# C85, C86: LT-ADMM, LT-ADMM-VR and ATG
-/
namespace Verif.Props
open Verif P2P Sys Consensus Costs
open scoped InnerProductSpace

section ltrun
variable {A E Ω : Type} [DecidableEq A] [AddCommGroup E] [Module ℝ E]

/-- LT-ADMM's local training: `τ` gradient steps from `x`, with a correction computed once -/
noncomputable def localTraining (g : E → E) (γ : ℝ) (c : E) : Nat → E → E
  | 0, x => x
  | t + 1, x => localTraining g γ c t (x - (γ • g x + c))

/-- LT-ADMM as described in the method docstrings (_lt_admm.py 99-137): the pair `(x_k, z_k)`, all `z_ij` of agent `i` starting
from `x0 i` -/
noncomputable def ltDoc (G : A → E → E) (n : Net A) (ρ α γ β : ℝ) (τ : Nat) (x0 : A → E) : Nat → (A → E) × (A → A → E)
  | 0 => (x0, fun i _ => x0 i)
  | k + 1 =>
    let x := (ltDoc G n ρ α γ β τ x0 k).1
    let z := (ltDoc G n ρ α γ β τ x0 k).2
    let x' := fun i => localTraining (G i) γ (β • ((ρ * ((n.nbrs i).length : ℝ)) • x i - ((n.nbrs i).map (fun j => z i j)).sum)) τ (x i)
    (x', fun i j => (1 - α) • z i j - α • (z j i - (2 * ρ) • x' j))

theorem repeatN_training (grad : Grad A E Ω) (G : A → E → E) (hG : Exactly grad G) (γ : ℝ) (c : E) (i : A) (τ : Nat) (x : E) (ω : Ω) :
    (repeatN (fun phi ω => let g := grad i phi ω; (phi - (γ • g.1 + c), g.2)) τ x ω).1 = localTraining (G i) γ c τ x := by
  induction τ generalizing x ω with
  | zero => rfl
  | succ t ih =>
    simp only [repeatN, localTraining]
    rw [ih, hG]

/-- C85, first half: on a lossless network every run of LT-ADMM succeeds and computes the described iterates. -/
theorem C85_run {w : World A E Ω} {n : Net A} (h : Lossless w n) (grad : Grad A E Ω) (G : A → E → E) (hG : Exactly grad G)
    (ρ α γ β : ℝ) (τ : Nat) (x0 : A → E) (s0 : Sys A E Ω (LtAdmm A E)) (k : Nat) :
    ∃ s, (ltAdmm grad ρ α γ β τ).after w n x0 s0 k = .ok s ∧ ∀ i ∈ n.nodes,
      (s.loc i).x = (ltDoc G n ρ α γ β τ x0 k).1 i ∧ ∀ j ∈ n.nbrs i, (s.loc i).z j = (ltDoc G n ρ α γ β τ x0 k).2 i j := by
  apply after_induction (ltAdmm grad ρ α γ β τ) w n x0 s0 (fun k s => ∀ i ∈ n.nodes,
      (s.loc i).x = (ltDoc G n ρ α γ β τ x0 k).1 i ∧ ∀ j ∈ n.nbrs i, (s.loc i).z j = (ltDoc G n ρ α γ β τ x0 k).2 i j)
  · obtain ⟨ωs, hi⟩ := init_spec (ltAdmm grad ρ α γ β τ) n h.wf x0 s0
    intro i hi'
    rw [hi i hi']
    exact ⟨rfl, fun _ _ => rfl⟩
  · intro k s hk
    obtain ⟨s', ωs, h1, h2⟩ := ltAdmm_step h grad ρ α γ β τ k s
    have hx : ∀ i ∈ n.nodes, (s'.loc i).x = (ltDoc G n ρ α γ β τ x0 (k + 1)).1 i := by
      intro i hi
      rw [(h2 i hi).1, repeatN_training grad G hG]
      have e : rowSumZ n i (s.loc i).z = ((n.nbrs i).map (fun j => (ltDoc G n ρ α γ β τ x0 k).2 i j)).sum := by
        unfold rowSumZ; congr 1
        exact List.map_congr_left fun j hj => (hk i hi).2 j hj
      rw [e, (hk i hi).1]; rfl
    refine ⟨s', h1, fun i hi => ⟨hx i hi, fun j hj => ?_⟩⟩
    have hjn := h.wf.nbrs_mem i j hj
    rw [(h2 i hi).2 j, if_pos hj, hx j hjn, (hk i hi).2 j hj, (hk j hjn).2 i (h.wf.symm i j hj)]
    rfl

/-- what full batches mean for an empirical cost: every gradient uses all the samples and is their mean -/
structure WholeBatch (c : Emp A E Ω) (G : A → E → E) : Prop where
  used : ∀ i x ω, (c.batch i x ω).1.2 = List.range (c.size i)
  grad : ∀ i x ω, (c.batch i x ω).1.1 = G i x

/-- LT-ADMM-VR with batches that contain all the samples is LT-ADMM, in both variants. -/
theorem C85_vr_whole_batch {w : World A E Ω} {n : Net A} (h : Lossless w n) (c : Emp A E Ω) (G : A → E → E) (hc : WholeBatch c G) (v2 : Bool)
    (ρ α γ β : ℝ) (τ : Nat) (x0 : A → E) (s0 : Sys A E Ω (LtVr A E)) (k : Nat) :
    ∃ s, (ltAdmmVr c v2 ρ α γ β τ).after w n x0 s0 k = .ok s ∧ ∀ i ∈ n.nodes,
      (s.loc i).x = (ltDoc G n ρ α γ β τ x0 k).1 i ∧ ∀ j ∈ n.nbrs i, (s.loc i).z j = (ltDoc G n ρ α γ β τ x0 k).2 i j := by
  have hrep : ∀ (i : A) (cor : E) (τ : Nat) (x : E) (t : Nat → E) (ω : Ω), (repeatN (ltVrLocal c γ cor i) τ (x, t) ω).1.1 = localTraining (G i) γ cor τ x := by
    intro i cor τ
    induction τ with
    | zero => intro x t ω; rfl
    | succ τ ih =>
      intro x t ω
      simp only [repeatN, localTraining]
      have e : (ltVrLocal c γ cor i (x, t) ω).1 = (x - (γ • G i x + cor), (ltVrLocal c γ cor i (x, t) ω).1.2) := by
        refine Prod.ext ?_ rfl
        simp only [ltVrLocal]
        rw [hc.used, hc.grad, sub_add_cancel]
      rw [e, ih]
  apply after_induction (ltAdmmVr c v2 ρ α γ β τ) w n x0 s0 (fun k s => ∀ i ∈ n.nodes,
      (s.loc i).x = (ltDoc G n ρ α γ β τ x0 k).1 i ∧ ∀ j ∈ n.nbrs i, (s.loc i).z j = (ltDoc G n ρ α γ β τ x0 k).2 i j)
  · obtain ⟨ωs, hi⟩ := init_spec (ltAdmmVr c v2 ρ α γ β τ) n h.wf x0 s0
    intro i hi'
    rw [hi i hi']
    exact ⟨rfl, fun _ _ => rfl⟩
  · intro k s hk
    obtain ⟨s', ωs, h1, h2⟩ := ltVr_step h c v2 ρ α γ β τ k s
    have hx : ∀ i ∈ n.nodes, (s'.loc i).x = (ltDoc G n ρ α γ β τ x0 (k + 1)).1 i := by
      intro i hi
      have := congrArg Prod.fst (h2 i hi).1
      simp only at this
      rw [this, hrep]
      have e : rowSumZ n i (s.loc i).z = ((n.nbrs i).map (fun j => (ltDoc G n ρ α γ β τ x0 k).2 i j)).sum := by
        unfold rowSumZ; congr 1
        exact List.map_congr_left fun j hj => (hk i hi).2 j hj
      rw [e, (hk i hi).1]; rfl
    refine ⟨s', h1, fun i hi => ⟨hx i hi, fun j hj => ?_⟩⟩
    have hjn := h.wf.nbrs_mem i j hj
    rw [(h2 i hi).2 j, if_pos hj, hx j hjn, (hk i hi).2 j hj, (hk j hjn).2 i (h.wf.symm i j hj)]
    rfl

/-- SPEC: a state at which LT-ADMM rests: the local step is zero and `z_ij + z_ji = 2 ρ x_j` -/
structure LtRest (G : A → E → E) (n : Net A) (ρ γ β : ℝ) (x : A → E) (z : A → A → E) : Prop where
  still : ∀ i ∈ n.nodes, γ • G i (x i) + β • ((ρ * ((n.nbrs i).length : ℝ)) • x i - ((n.nbrs i).map (fun j => z i j)).sum) = 0
  edge : ∀ i ∈ n.nodes, ∀ j ∈ n.nbrs i, z i j + z j i = (2 * ρ) • x j

theorem training_still (g : E → E) (γ : ℝ) (c x : E) (h : γ • g x + c = 0) (τ : Nat) : localTraining g γ c τ x = x := by
  induction τ with
  | zero => rfl
  | succ t ih => rw [localTraining, h, sub_zero]; exact ih

/-- C85: whatever agents are active and whatever messages are lost, LT-ADMM at rest stays at rest. -/
theorem C85_rest_is_kept {w : World A E Ω} {n : Net A} (h : Plain w n) (hw : n.WF) (grad : Grad A E Ω) (G : A → E → E) (hG : Exactly grad G)
    (ρ α γ β : ℝ) (τ : Nat) (x : A → E) (z : A → A → E) (hr : LtRest G n ρ γ β x z)
    (k : Int) (s : Sys A E Ω (LtAdmm A E)) (hx : ∀ i ∈ n.nodes, (s.loc i).x = x i) (hz : ∀ i ∈ n.nodes, ∀ j ∈ n.nbrs i, (s.loc i).z j = z i j) :
    ∃ s', (ltAdmm grad ρ α γ β τ).step w n k (adv n k s) = .ok s' ∧ (∀ i ∈ n.nodes, (s'.loc i).x = x i) ∧
      ∀ i ∈ n.nodes, ∀ j ∈ n.nbrs i, (s'.loc i).z j = z i j := by
  obtain ⟨s', act, ωs, h1, _, h2⟩ := ltAdmm_step_lossy h hw grad ρ α γ β τ k s
  have hx' : ∀ i ∈ n.nodes, (s'.loc i).x = x i := by
    intro i hi
    rw [(h2 i hi).1]
    split
    · rw [repeatN_training grad G hG, hx i hi]
      have e : rowSumZ n i (s.loc i).z = ((n.nbrs i).map (fun j => z i j)).sum := by
        unfold rowSumZ; congr 1
        exact List.map_congr_left fun j hj => hz i hi j hj
      rw [e]
      exact training_still _ _ _ _ (hr.still i hi) τ
    · exact hx i hi
  refine ⟨s', h1, hx', fun i hi j hj => ?_⟩
  have hjn := hw.nbrs_mem i j hj
  rcases (h2 i hi).2 j with ⟨_, _, _, e⟩ | ⟨e, _⟩
  · rw [e, hz i hi j hj, hz j hjn i (hw.symm i j hj), hx' j hjn, ← hr.edge i hi j hj]
    module
  · rw [e]; exact hz i hi j hj

end ltrun

theorem listSum_smul {α E : Type} [AddCommGroup E] [Module ℝ E] (l : List α) (c : ℝ) (u : α → E) :
    (l.map (fun i => c • u i)).sum = c • (l.map u).sum := by
  induction l with
  | nil => simp
  | cons a l ih => simp only [List.map_cons, List.sum_cons, ih, smul_add]

section lt
variable {A Ω : Type} [DecidableEq A] {d : Nat} {n : Net A} {f : A → Vec d → ℝ} {G : A → Vec d → Vec d} {L m : ℝ}

/-- C85: at rest all agents agree, on the minimiser of the sum of the costs. -/
theorem C85_rest_is_optimal (hw : n.WF) (hc : JoinedUp n) (hf : Smooth n f G L m) (ρ γ β : ℝ) (hρ : 0 < ρ) (hγ : γ ≠ 0)
    (x : A → Vec d) (z : A → A → Vec d) (hr : LtRest G n ρ γ β x z) : ∀ i ∈ n.nodes, SolvesSum n f (x i) ∧ ∀ j ∈ n.nodes, x j = x i := by
  have hagree := agree_of_rest hw hc ρ hρ x z hr.edge
  intro i hi
  refine ⟨?_, hagree i hi⟩
  rw [solves_iff hf]
  have hg : ∀ j ∈ n.nodes, G j (x i) = ((n.nbrs j).map (fun l => (β / γ) • (z j l - ρ • x i))).sum := by
    intro j hj
    have h1 := hr.still j hj
    rw [hagree i hi j hj] at h1
    have e : ((n.nbrs j).map (fun l => (β / γ) • (z j l - ρ • x i))).sum = (β / γ) • (((n.nbrs j).map (fun l => z j l)).sum - (ρ * ((n.nbrs j).length : ℝ)) • x i) := by
      rw [listSum_smul, listSum_sub, constSum, smul_smul, mul_comm _ ρ]
    rw [e]
    have h2 : γ • (G j (x i) - (β / γ) • (((n.nbrs j).map (fun l => z j l)).sum - (ρ * ((n.nbrs j).length : ℝ)) • x i)) = 0 := by
      rw [smul_sub, smul_smul, mul_div_cancel₀ _ hγ, ← h1]; module
    exact sub_eq_zero.1 ((smul_eq_zero.1 h2).resolve_left hγ)
  rw [List.map_congr_left hg]
  apply flow_total hw
  intro a ha b hb
  have h1 := hr.edge a ha b hb
  rw [hagree i hi b (hw.nbrs_mem a b hb)] at h1
  have e : (β / γ) • (z a b - ρ • x i) + (β / γ) • (z b a - ρ • x i) = (β / γ) • ((z a b + z b a) - (2 * ρ) • x i) := by module
  rw [e, h1, sub_self, smul_zero]

/-- the optimum is a point of rest -/
theorem C85_rest_exists (hw : n.WF) (hl : Loopless n) (hc : JoinedUp n) (hf : Smooth n f G L m) (ρ γ β : ℝ) (hβ : β ≠ 0) (xs : Vec d) (hxs : SolvesSum n f xs) :
    ∃ z, LtRest G n ρ γ β (fun _ => xs) z := by
  obtain ⟨y, hy, hdiv⟩ := exists_flow hw hl hc hf xs hxs
  refine ⟨fun i j => ρ • xs + (γ / β) • y i j, ?_, ?_⟩
  · intro i hi
    have : ((n.nbrs i).map (fun j => ρ • xs + (γ / β) • y i j)).sum = (ρ * ((n.nbrs i).length : ℝ)) • xs + (γ / β) • G i xs := by
      rw [List.sum_map_add, listSum_smul _ (γ / β) (fun j => y i j), hdiv i hi, constSum, smul_smul, mul_comm]
    rw [this, sub_add_cancel_left, smul_neg, smul_smul, mul_div_cancel₀ _ hβ, add_neg_cancel]
  · intro i hi j hj
    have e : ρ • xs + (γ / β) • y i j + (ρ • xs + (γ / β) • y j i) = (2 * ρ) • xs + (γ / β) • (y i j + y j i) := by module
    show ρ • xs + (γ / β) • y i j + (ρ • xs + (γ / β) • y j i) = (2 * ρ) • xs
    rw [e, hy i hi j hj, smul_zero, add_zero]

/-- gradient steps shorter than `2 / L` with a constant correction bring two points closer -/
theorem training_contract (hf : Smooth n f G L m) (γ : ℝ) (hγ : 0 < γ) (hγL : γ * L < 2) (i : A) (hi : i ∈ n.nodes) (c : Vec d) :
    ∃ q : ℝ, 0 ≤ q ∧ q < 1 ∧ ∀ x y, ‖(x - (γ • G i x + c)) - (y - (γ • G i y + c))‖ ^ 2 ≤ q * ‖x - y‖ ^ 2 := by
  have hq : 0 < γ * m * (2 - γ * L) := mul_pos (mul_pos hγ hf.mpos) (by linarith)
  refine ⟨max 0 (1 - γ * m * (2 - γ * L)), le_max_left _ _, max_lt one_pos (by linarith), fun x y => ?_⟩
  have h1 := cocoercive hf.Lpos (fun x y => hf.upper i hi x y) (Lower.mono (fun x y => hf.lower i hi x y) hf.mpos.le) x y
  have h2 := Consensus.strong_monotone (fun x y => hf.lower i hi x y) x y
  have e : (x - (γ • G i x + c)) - (y - (γ • G i y + c)) = (x - y) - γ • (G i x - G i y) := by module
  rw [e, norm_sub_smul_sq]
  set Q := ⟪G i x - G i y, x - y⟫_ℝ
  have h3 : ‖G i x - G i y‖ ^ 2 ≤ L * Q := by
    have := mul_le_mul_of_nonneg_left h1 hf.Lpos.le
    rwa [← mul_assoc, mul_one_div_cancel hf.Lpos.ne', one_mul] at this
  have h4 := mul_le_mul_of_nonneg_left h3 (sq_nonneg γ)
  have h5 := mul_le_mul_of_nonneg_left h2 (show 0 ≤ γ * (2 - γ * L) from mul_nonneg hγ.le (by linarith))
  have h6 : (1 - γ * m * (2 - γ * L)) * ‖x - y‖ ^ 2 ≤ max 0 (1 - γ * m * (2 - γ * L)) * ‖x - y‖ ^ 2 :=
    mul_le_mul_of_nonneg_right (le_max_right _ _) (sq_nonneg _)
  have e2 : γ * (2 - γ * L) * Q = 2 * γ * Q - γ ^ 2 * (L * Q) := by ring
  have e3 : γ * (2 - γ * L) * (m * ‖x - y‖ ^ 2) = ‖x - y‖ ^ 2 - (1 - γ * m * (2 - γ * L)) * ‖x - y‖ ^ 2 := by ring
  linarith

/-- C85: with local steps shorter than `2 / L`, LT-ADMM stops only at rest, however many local steps it takes. -/
theorem C85_still_is_rest {w : World A (Vec d) Ω} (h : Lossless w n) (hf : Smooth n f G L m) (grad : Grad A (Vec d) Ω) (hG : Exactly grad G)
    (ρ α γ β : ℝ) (hα : α ≠ 0) (hγ : 0 < γ) (hγL : γ * L < 2) (τ : Nat) (hτ : 0 < τ) (k : Int) (s : Sys A (Vec d) Ω (LtAdmm A (Vec d)))
    (hstill : ∀ s', (ltAdmm grad ρ α γ β τ).step w n k (adv n k s) = .ok s' → ∀ i ∈ n.nodes, (s'.loc i).x = (s.loc i).x ∧ ∀ j ∈ n.nbrs i, (s'.loc i).z j = (s.loc i).z j) :
    LtRest G n ρ γ β (fun i => (s.loc i).x) (fun i j => (s.loc i).z j) := by
  obtain ⟨s', ωs, h1, h2⟩ := ltAdmm_step h grad ρ α γ β τ k s
  have h3 := hstill s' h1
  refine ⟨fun i hi => ?_, fun i hi j hj => ?_⟩
  · have e := (h2 i hi).1
    rw [repeatN_training grad G hG, (h3 i hi).1] at e
    set x := (s.loc i).x
    set c := β • ((ρ * ((n.nbrs i).length : ℝ)) • x - rowSumZ n i (s.loc i).z) with hcdef
    obtain ⟨q, hq0, hq1, hq⟩ := training_contract hf γ hγ hγL i hi c
    have hcontr : ∀ (t : Nat) (x y : Vec d), ‖localTraining (G i) γ c t x - localTraining (G i) γ c t y‖ ^ 2 ≤ ‖x - y‖ ^ 2 := by
      intro t
      induction t with
      | zero => intro x y; exact le_refl _
      | succ t ih =>
        intro x y
        refine (ih _ _).trans ((hq x y).trans ?_)
        have := mul_le_mul_of_nonneg_right hq1.le (sq_nonneg ‖x - y‖)
        linarith
    -- one more step: `F x` is also a fixed point of the `τ`-fold map
    have hcomm : ∀ (t : Nat) (x : Vec d), localTraining (G i) γ c t (x - (γ • G i x + c)) = localTraining (G i) γ c t x - (γ • G i (localTraining (G i) γ c t x) + c) := by
      intro t
      induction t with
      | zero => intro x; rfl
      | succ t ih => intro x; rw [localTraining, ih]; rfl
    obtain ⟨t, rfl⟩ := Nat.exists_eq_succ_of_ne_zero hτ.ne'
    have hF : localTraining (G i) γ c (t + 1) (x - (γ • G i x + c)) = x - (γ • G i x + c) := by
      rw [hcomm, ← e]
    have h5 : ‖(x - (γ • G i x + c)) - x‖ ^ 2 ≤ q * ‖(x - (γ • G i x + c)) - x‖ ^ 2 := by
      have a1 := hcontr t (x - (γ • G i x + c) - (γ • G i (x - (γ • G i x + c)) + c)) (x - (γ • G i x + c))
      have a2 := hq (x - (γ • G i x + c)) x
      have a3 : localTraining (G i) γ c t (x - (γ • G i x + c) - (γ • G i (x - (γ • G i x + c)) + c)) = x - (γ • G i x + c) := hF
      have a4 : localTraining (G i) γ c t (x - (γ • G i x + c)) = x := e.symm
      rw [a3, a4] at a1
      exact a1.trans a2
    have h6 : ‖(x - (γ • G i x + c)) - x‖ ^ 2 ≤ 0 := by
      by_contra hc'
      have := mul_lt_mul_of_pos_right hq1 (not_le.1 hc')
      linarith
    have h7 : (x - (γ • G i x + c)) - x = 0 := norm_eq_zero.1 (pow_eq_zero_iff two_ne_zero |>.1 (le_antisymm h6 (sq_nonneg _)))
    have h8 : γ • G i x + c = 0 := by
      have : (x - (γ • G i x + c)) - x = -(γ • G i x + c) := by abel
      rw [this, neg_eq_zero] at h7; exact h7
    exact h8
  · have := (h2 i hi).2 j
    rw [if_pos hj, (h3 i hi).2 j hj, (h3 j (h.wf.nbrs_mem i j hj)).1] at this
    have e : α • ((s.loc i).z j + (s.loc j).z i - (2 * ρ) • (s.loc j).x) = 0 := by
      have : (s.loc i).z j - ((1 - α) • (s.loc i).z j - α • ((s.loc j).z i - (2 * ρ) • (s.loc j).x)) = 0 := by rw [← this, sub_self]
      rw [← this]; module
    exact sub_eq_zero.1 ((smul_eq_zero.1 e).resolve_left hα)

-- a point of rest for three agents
example (b : Nat → Vec d) : ∃ z, LtRest (fun i x => x - b i) path3 1 0.01 0.01 (fun _ => (1 / 3 : ℝ) • (b 0 + b 1 + b 2)) z :=
  C85_rest_exists path3_wf path3_loopless path3_joined (springs_smooth b) 1 0.01 0.01 (by norm_num) _ (springs_solves b)

end lt

/-! ## ATG -/
section atgrun
variable {A E Ω : Type} [DecidableEq A] [AddCommGroup E] [Module ℝ E]

/-- ATG: `(x_k, z^y_k, z^s_k)`. The `z` update uses the sender's `y_j`, `s_j`. -/
noncomputable def atgRule (G : A → E → E) (n : Net A) (ρ α γ δ : ℝ) (x0 z0 : A → E) : Nat → (A → E) × (A → A → E) × (A → A → E)
  | 0 => (x0, (fun i _ => z0 i), (fun i _ => z0 i))
  | k + 1 =>
    let x := (atgRule G n ρ α γ δ x0 z0 k).1
    let zy := (atgRule G n ρ α γ δ x0 z0 k).2.1
    let zs := (atgRule G n ρ α γ δ x0 z0 k).2.2
    let y := fun i => (1 / (1 + ρ * ((n.nbrs i).length : ℝ))) • (x i + ((n.nbrs i).map (fun j => zy i j)).sum)
    let s := fun i => (1 / (1 + ρ * ((n.nbrs i).length : ℝ))) • (G i (x i) + ((n.nbrs i).map (fun j => zs i j)).sum)
    ((fun i => (1 - γ) • x i + γ • (y i - δ • s i)), (fun i j => (1 - α) • zy i j - α • (zy j i - (2 * ρ) • y j)),
      (fun i j => (1 - α) • zs i j - α • (zs j i - (2 * ρ) • s j)))

/-- ATG as its class docstring writes it: the `z` update uses the receiver's own `y_i`, `s_i` (_atg.py 30-32) -/
noncomputable def atgDocstring (G : A → E → E) (n : Net A) (ρ α γ δ : ℝ) (x0 z0 : A → E) : Nat → (A → E) × (A → A → E) × (A → A → E)
  | 0 => (x0, (fun i _ => z0 i), (fun i _ => z0 i))
  | k + 1 =>
    let x := (atgDocstring G n ρ α γ δ x0 z0 k).1
    let zy := (atgDocstring G n ρ α γ δ x0 z0 k).2.1
    let zs := (atgDocstring G n ρ α γ δ x0 z0 k).2.2
    let y := fun i => (1 / (1 + ρ * ((n.nbrs i).length : ℝ))) • (x i + ((n.nbrs i).map (fun j => zy i j)).sum)
    let s := fun i => (1 / (1 + ρ * ((n.nbrs i).length : ℝ))) • (G i (x i) + ((n.nbrs i).map (fun j => zs i j)).sum)
    ((fun i => (1 - γ) • x i + γ • (y i - δ • s i)), (fun i j => (1 - α) • zy i j - α • (zy j i - (2 * ρ) • y i)),
      (fun i j => (1 - α) • zs i j - α • (zs j i - (2 * ρ) • s i)))

/-- C86: on a lossless network every run of ATG succeeds and computes `atgRule`. -/
theorem C86_run {w : World A E Ω} {n : Net A} (h : Lossless w n) (hn : ∀ i ∈ n.nodes, n.nbrs i ≠ []) (grad : Grad A E Ω) (G : A → E → E) (hG : Exactly grad G)
    (ρ α γ δ : ℝ) (x0 z0 : A → E) (s0 : Sys A E Ω (Atg A E)) (k : Nat) :
    ∃ s, atgAfter grad ρ α γ δ z0 w n x0 s0 k = .ok s ∧ ∀ i ∈ n.nodes,
      (s.loc i).x = (atgRule G n ρ α γ δ x0 z0 k).1 i ∧ ∀ j ∈ n.nbrs i,
        (s.loc i).zy j = (atgRule G n ρ α γ δ x0 z0 k).2.1 i j ∧ (s.loc i).zs j = (atgRule G n ρ α γ δ x0 z0 k).2.2 i j := by
  have hany : n.nodes.any (fun i => (n.nbrs i).isEmpty) = false := by
    rw [List.any_eq_false]
    intro i hi
    simpa using hn i hi
  have hrw : atgAfter grad ρ α γ δ z0 w n x0 s0 k = (atg grad ρ α γ δ z0).after w n x0 s0 k := by
    unfold atgAfter; rw [hany]; rfl
  rw [hrw]
  apply after_induction (atg grad ρ α γ δ z0) w n x0 s0 (fun k s => ∀ i ∈ n.nodes,
      (s.loc i).x = (atgRule G n ρ α γ δ x0 z0 k).1 i ∧ ∀ j ∈ n.nbrs i,
        (s.loc i).zy j = (atgRule G n ρ α γ δ x0 z0 k).2.1 i j ∧ (s.loc i).zs j = (atgRule G n ρ α γ δ x0 z0 k).2.2 i j)
  · obtain ⟨ωs, hi⟩ := init_spec (atg grad ρ α γ δ z0) n h.wf x0 s0
    intro i hi'
    rw [hi i hi']
    exact ⟨rfl, fun _ _ => ⟨rfl, rfl⟩⟩
  · intro k s hk
    obtain ⟨s', ωs, h1, h2⟩ := atg_step h grad ρ α γ δ z0 k s
    have ey : ∀ i ∈ n.nodes, rowSumZ n i (s.loc i).zy = ((n.nbrs i).map (fun j => (atgRule G n ρ α γ δ x0 z0 k).2.1 i j)).sum := by
      intro i hi
      unfold rowSumZ; congr 1
      exact List.map_congr_left fun j hj => ((hk i hi).2 j hj).1
    have es : ∀ i ∈ n.nodes, rowSumZ n i (s.loc i).zs = ((n.nbrs i).map (fun j => (atgRule G n ρ α γ δ x0 z0 k).2.2 i j)).sum := by
      intro i hi
      unfold rowSumZ; congr 1
      exact List.map_congr_left fun j hj => ((hk i hi).2 j hj).2
    refine ⟨s', h1, fun i hi => ⟨?_, fun j hj => ⟨?_, ?_⟩⟩⟩
    · obtain ⟨y1, y2, y3, _, _⟩ := h2 i hi
      rw [y3, y1, y2, hG, ey i hi, es i hi, (hk i hi).1]; rfl
    · have hjn := h.wf.nbrs_mem i j hj
      obtain ⟨_, _, _, y4, _⟩ := h2 i hi
      rw [y4 j hj, (h2 j hjn).1, ey j hjn, ((hk i hi).2 j hj).1, ((hk j hjn).2 i (h.wf.symm i j hj)).1, (hk j hjn).1]
      simp only [atgRule]
      module
    · have hjn := h.wf.nbrs_mem i j hj
      obtain ⟨_, _, _, _, y5⟩ := h2 i hi
      rw [y5 j hj, (h2 j hjn).2.1, es j hjn, hG, ((hk i hi).2 j hj).2, ((hk j hjn).2 i (h.wf.symm i j hj)).2, (hk j hjn).1]
      simp only [atgRule]
      module

/-- ATG is not the method of its docstring: on every lossless network with an arc `i → j`, for all positive penalties, there is a start
from which one iteration gives a different `z`. -/
theorem C86_not_docstring {w : World A E Ω} {n : Net A} (h : Lossless w n) (hn : ∀ i ∈ n.nodes, n.nbrs i ≠ []) (grad : Grad A E Ω) (G : A → E → E) (hG : Exactly grad G)
    (ρ α γ δ : ℝ) (hρ : 0 < ρ) (hα : α ≠ 0) (i j : A) (hi : i ∈ n.nodes) (hj : j ∈ n.nbrs i) (v : E) (hv : v ≠ 0) :
    ∃ x0 z0 : A → E, ∀ (s0 s : Sys A E Ω (Atg A E)), atgAfter grad ρ α γ δ z0 w n x0 s0 1 = .ok s →
      (s.loc i).zy j ≠ (atgDocstring G n ρ α γ δ x0 z0 1).2.1 i j := by
  have hne : i ≠ j := fun e => h.noLoops i (e ▸ hj)
  refine ⟨fun a => if a = j then v else 0, fun _ => 0, fun s0 s hs => ?_⟩
  obtain ⟨s', h1, h2⟩ := C86_run h hn grad G hG ρ α γ δ (fun a => if a = j then v else 0) (fun _ => 0) s0 1
  rw [h1] at hs
  obtain rfl : s' = s := by injection hs
  rw [((h2 i hi).2 j hj).1]
  have hz : ∀ l : List A, (l.map (fun _ => (0 : E))).sum = 0 := fun l => by simp
  simp only [atgRule, atgDocstring, if_pos, if_neg hne, hz, add_zero, smul_zero, zero_sub, sub_neg_eq_add, zero_add, smul_neg]
  intro e
  have hp : (1 + ρ * ((n.nbrs j).length : ℝ)) ≠ 0 := by positivity
  rw [smul_smul, smul_smul, smul_eq_zero] at e
  rcases e with e | e
  · have : α * (2 * ρ) * (1 / (1 + ρ * ((n.nbrs j).length : ℝ))) ≠ 0 := mul_ne_zero (mul_ne_zero hα (by positivity)) (one_div_ne_zero hp)
    exact this e
  · exact hv e

/-- an agent without neighbours makes ATG fail -/
theorem C86_isolated (w : World A E Ω) (n : Net A) (grad : Grad A E Ω) (ρ α γ δ : ℝ) (x0 z0 : A → E)
    (s0 : Sys A E Ω (Atg A E)) (k : Nat) (i : A) (hi : i ∈ n.nodes) (hz : n.nbrs i = []) :
    atgAfter grad ρ α γ δ z0 w n x0 s0 k = .error .valueError := by
  unfold atgAfter
  rw [if_pos]
  rw [List.any_eq_true]
  exact ⟨i, hi, by rw [hz]; rfl⟩

end atgrun

section atg
variable {A Ω : Type} [DecidableEq A] {d : Nat} {n : Net A} {f : A → Vec d → ℝ} {G : A → Vec d → Vec d} {L m : ℝ}

/-- tracking: if `(1 + ρ N_i) y_i = v_i + ∑_j z_ij` and `z_ij + z_ji = 2 ρ y_j`, every `y_i` is the average of the `v_i` -/
theorem tracked_average (hw : n.WF) (hc : JoinedUp n) (ρ : ℝ) (hρ : 0 < ρ) (v y : A → Vec d) (z : A → A → Vec d)
    (hy : ∀ i ∈ n.nodes, (1 + ρ * ((n.nbrs i).length : ℝ)) • y i = v i + ((n.nbrs i).map (fun j => z i j)).sum)
    (he : ∀ i ∈ n.nodes, ∀ j ∈ n.nbrs i, z i j + z j i = (2 * ρ) • y j) (i : A) (hi : i ∈ n.nodes) :
    (n.nodes.length : ℝ) • y i = (n.nodes.map v).sum := by
  have hagree := agree_of_rest hw hc ρ hρ y z he
  have hv : ∀ j ∈ n.nodes, v j = y i - ((n.nbrs j).map (fun l => z j l - ρ • y i)).sum := by
    intro j hj
    have h1 := hy j hj
    rw [hagree i hi j hj] at h1
    rw [listSum_sub, constSum, smul_smul, mul_comm _ ρ]
    have : v j = (1 + ρ * ((n.nbrs j).length : ℝ)) • y i - ((n.nbrs j).map (fun l => z j l)).sum := by rw [h1]; abel
    rw [this]; module
  rw [List.map_congr_left hv, listSum_sub, constSum, flow_total hw, sub_zero]
  intro a ha b hb
  have h1 := he a ha b hb
  rw [hagree i hi b (hw.nbrs_mem a b hb)] at h1
  have e : z a b - ρ • y i + (z b a - ρ • y i) = (z a b + z b a) - (2 * ρ) • y i := by module
  rw [e, h1, sub_self]

/-- C86: a state that an iteration of ATG leaves unchanged is a consensus on the minimiser of the sum of the costs. -/
theorem C86_still_is_optimal {w : World A (Vec d) Ω} (h : Lossless w n) (hc : JoinedUp n) (hf : Smooth n f G L m) (grad : Grad A (Vec d) Ω) (hG : Exactly grad G)
    (ρ α γ δ : ℝ) (hρ : 0 < ρ) (hα : α ≠ 0) (hγ : γ ≠ 0) (hδ : δ ≠ 0) (z0 : A → Vec d) (k : Int) (s : Sys A (Vec d) Ω (Atg A (Vec d)))
    (hstill : ∀ s', (atg grad ρ α γ δ z0).step w n k (adv n k s) = .ok s' → ∀ i ∈ n.nodes, (s'.loc i).x = (s.loc i).x ∧
      ∀ j ∈ n.nbrs i, (s'.loc i).zy j = (s.loc i).zy j ∧ (s'.loc i).zs j = (s.loc i).zs j) :
    ∀ i ∈ n.nodes, SolvesSum n f (s.loc i).x ∧ ∀ j ∈ n.nodes, (s.loc j).x = (s.loc i).x := by
  obtain ⟨s', ωs, h1, h2⟩ := atg_step h grad ρ α γ δ z0 k s
  have h3 := hstill s' h1
  have hpos : ∀ i, (1 + ρ * ((n.nbrs i).length : ℝ)) ≠ 0 := fun i => by positivity
  -- the edge equations
  have edge : ∀ (z : A → A → Vec d) (y : A → Vec d), (∀ i ∈ n.nodes, ∀ j ∈ n.nbrs i, z i j = (1 - α) • z i j + α • (- z j i + (2 * ρ) • y j)) →
      ∀ i ∈ n.nodes, ∀ j ∈ n.nbrs i, z i j + z j i = (2 * ρ) • y j := by
    intro z y hz i hi j hj
    have e : α • (z i j + z j i - (2 * ρ) • y j) = 0 := by
      have : z i j - ((1 - α) • z i j + α • (- z j i + (2 * ρ) • y j)) = 0 := by rw [← hz i hi j hj, sub_self]
      rw [← this]; module
    exact sub_eq_zero.1 ((smul_eq_zero.1 e).resolve_left hα)
  have hey := edge (fun i j => (s.loc i).zy j) (fun i => (s'.loc i).y) (fun i hi j hj => by
    have := (h2 i hi).2.2.2.1 j hj
    rw [((h3 i hi).2 j hj).1] at this; exact this)
  have hes := edge (fun i j => (s.loc i).zs j) (fun i => (s'.loc i).s) (fun i hi j hj => by
    have := (h2 i hi).2.2.2.2 j hj
    rw [((h3 i hi).2 j hj).2] at this; exact this)
  have ty := tracked_average h.wf hc ρ hρ (fun i => (s.loc i).x) (fun i => (s'.loc i).y) (fun i j => (s.loc i).zy j) (fun i hi => by
    rw [(h2 i hi).1, smul_smul, mul_one_div_cancel (hpos i), one_smul]; rfl) hey
  have ts := tracked_average h.wf hc ρ hρ (fun i => G i (s.loc i).x) (fun i => (s'.loc i).s) (fun i j => (s.loc i).zs j) (fun i hi => by
    rw [(h2 i hi).2.1, smul_smul, mul_one_div_cancel (hpos i), one_smul, hG]; rfl) hes
  have ay := agree_of_rest h.wf hc ρ hρ _ _ hey
  have as' := agree_of_rest h.wf hc ρ hρ _ _ hes
  -- every x equals y - δ s
  have hx : ∀ i ∈ n.nodes, (s.loc i).x = (s'.loc i).y - δ • (s'.loc i).s := by
    intro i hi
    have := (h2 i hi).2.2.1
    rw [(h3 i hi).1] at this
    have e : γ • ((s.loc i).x - ((s'.loc i).y - δ • (s'.loc i).s)) = 0 := by
      have h0 : (s.loc i).x - ((1 - γ) • (s.loc i).x + γ • ((s'.loc i).y - δ • (s'.loc i).s)) = 0 := by rw [← this, sub_self]
      rw [← h0]; module
    exact sub_eq_zero.1 ((smul_eq_zero.1 e).resolve_left hγ)
  intro i hi
  have hN : (n.nodes.length : ℝ) ≠ 0 := by
    have : n.nodes.length ≠ 0 := fun h0 => by rw [List.length_eq_zero_iff] at h0; rw [h0] at hi; exact absurd hi (by simp)
    exact_mod_cast this
  have hxx : ∀ j ∈ n.nodes, (s.loc j).x = (s.loc i).x := by
    intro j hj
    have a1 : (s'.loc j).y = (s'.loc i).y := ay i hi j hj
    have a2 : (s'.loc j).s = (s'.loc i).s := as' i hi j hj
    rw [hx j hj, hx i hi, a1, a2]
  refine ⟨?_, hxx⟩
  -- the average of the x is y, so s = 0
  have h4 : (n.nodes.length : ℝ) • ((s'.loc i).y - (s.loc i).x) = 0 := by
    have e : (n.nodes.map (fun j => (s.loc j).x)).sum = (n.nodes.length : ℝ) • (s.loc i).x := by
      rw [List.map_congr_left hxx, constSum]
    have := ty i hi
    rw [smul_sub, this, e, sub_self]
  have h5 : (s'.loc i).y = (s.loc i).x := sub_eq_zero.1 ((smul_eq_zero.1 h4).resolve_left hN)
  have h6 : δ • (s'.loc i).s = 0 := by
    have := hx i hi
    rw [h5] at this
    have h7 : (s.loc i).x - ((s.loc i).x - δ • (s'.loc i).s) = 0 := by rw [← this, sub_self]
    rw [← h7]; abel
  have h7 : (s'.loc i).s = 0 := (smul_eq_zero.1 h6).resolve_left hδ
  rw [solves_iff hf]
  have h8 := ts i hi
  rw [h7, smul_zero] at h8
  rw [h8]
  congr 1
  exact List.map_congr_left fun j hj => by rw [hxx j hj]

/-! ## The hypotheses can be met -/

example (b x0 : Nat → Vec d) (k : Nat) (s0) := C85_run calm_lossless (springGrad b) (fun i x => x - b i) (fun _ _ _ => rfl) 1 0.5 0.01 0.01 3 x0 s0 k

/-- two samples per agent, always read together -/
noncomputable def twoSamples (b : Nat → Vec d) : Emp Nat (Vec d) Unit :=
  ⟨fun i x _ => ((x - b i, [0, 1]), ()), fun i x _ => x - b i, fun i x => x - b i, fun i x _ => x - b i, fun _ => 2⟩

theorem twoSamples_whole (b : Nat → Vec d) : WholeBatch (twoSamples b) (fun i x => x - b i) := ⟨fun _ _ _ => rfl, fun _ _ _ => rfl⟩

example (b x0 : Nat → Vec d) (k : Nat) (s0) := C85_vr_whole_batch calm_lossless (twoSamples b) _ (twoSamples_whole b) true 1 0.5 0.01 0.01 3 x0 s0 k

example (b x0 z0 : Nat → Vec d) (k : Nat) (s0) := C86_run calm_lossless path3_busy (springGrad b) (fun i x => x - b i) (fun _ _ _ => rfl) 1 0.5 0.1 0.1 x0 z0 s0 k

example (b : Nat → Vec 1) := C86_not_docstring calm_lossless path3_busy (springGrad b) (fun i x => x - b i) (fun _ _ _ => rfl) 1 0.5 0.1 0.1 (by norm_num) (by norm_num) 0 1
  (by decide) (by decide) (EuclideanSpace.single 0 1) (by simp)

end atg
end Verif.Props
