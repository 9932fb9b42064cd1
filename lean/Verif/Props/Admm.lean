import Verif.Props.Rates
import Verif.Lemmas.Admm
import Verif.Lemmas.Arcs
import Mathlib.Tactic.Linarith
import Mathlib.Tactic.Positivity
import Mathlib.Tactic.Module
import Mathlib.Tactic.NormNum
set_option linter.unusedSectionVars false
/-!
# C83, C84: ADMM

`admmAfter` is the system after `ADMM.run` with `k` iterations. `x_i` and `z_ij` are the state of agent `i`.
-/
namespace Verif.Props
open Verif P2P Sys Consensus Costs Arcs
open scoped InnerProductSpace

section run
variable {A E Ω : Type} [DecidableEq A] [AddCommGroup E] [Module ℝ E]

/-- documented ADMM (_admm.py docstring): the pair `(x_k, z_k)`, all `z_ij` of agent `i` starting from `z0 i`;
`P i v p` is `prox_{p f_i}(v)` and `N i` the number of neighbours -/
noncomputable def admmDoc (P : A → E → ℝ → E) (n : Net A) (ρ α : ℝ) (x0 z0 : A → E) : Nat → (A → E) × (A → A → E)
  | 0 => (x0, fun i _ => z0 i)
  | k + 1 =>
    let z := (admmDoc P n ρ α x0 z0 k).2
    let x := fun i => P i ((1 / (ρ * ((n.nbrs i).length : ℝ))) • ((n.nbrs i).map (fun j => z i j)).sum) (1 / (ρ * ((n.nbrs i).length : ℝ)))
    (x, fun i j => (1 - α) • z i j - α • (z j i - (2 * ρ) • x j))

/-- documented start: `x0` if given, `prox_{f_i / (ρ N_i)}(z0_i / ρ)` if only `z0` is given -/
noncomputable def admmStart (P : A → E → ℝ → E) (n : Net A) (ρ : ℝ) (x0 z0 : A → E) (fromZ : Bool) (i : A) : E :=
  if fromZ then P i ((1 / ρ) • z0 i) (1 / (ρ * ((n.nbrs i).length : ℝ))) else x0 i

/-- C83, first half: on a lossless network every run of ADMM succeeds and computes the documented iterates. -/
theorem C83_run {w : World A E Ω} {n : Net A} (h : Lossless w n) (hn : ∀ i ∈ n.nodes, n.nbrs i ≠ []) (prox : Prox A E Ω)
    (P : A → E → ℝ → E) (hP : ∀ i v p ω, (prox i v p ω).1 = P i v p) (ρ α : ℝ) (x0 z0 : A → E) (fromZ : Bool)
    (s0 : Sys A E Ω (Admm A E)) (k : Nat) :
    ∃ s, admmAfter prox ρ α z0 fromZ w n x0 s0 k = .ok s ∧ ∀ i ∈ n.nodes,
      (s.loc i).x = (admmDoc P n ρ α (admmStart P n ρ x0 z0 fromZ) z0 k).1 i ∧
      ∀ j ∈ n.nbrs i, (s.loc i).z j = (admmDoc P n ρ α (admmStart P n ρ x0 z0 fromZ) z0 k).2 i j := by
  have hany : n.nodes.any (fun i => (n.nbrs i).isEmpty) = false := by
    rw [List.any_eq_false]
    intro i hi
    simpa using hn i hi
  have hrw : admmAfter prox ρ α z0 fromZ w n x0 s0 k = (admm prox n ρ α z0 fromZ).after w n x0 s0 k := by
    unfold admmAfter; rw [hany]; rfl
  rw [hrw]
  apply after_induction (admm prox n ρ α z0 fromZ) w n x0 s0 (fun k s => ∀ i ∈ n.nodes,
      (s.loc i).x = (admmDoc P n ρ α (admmStart P n ρ x0 z0 fromZ) z0 k).1 i ∧
      ∀ j ∈ n.nbrs i, (s.loc i).z j = (admmDoc P n ρ α (admmStart P n ρ x0 z0 fromZ) z0 k).2 i j)
  · obtain ⟨ωs, hi⟩ := init_spec (admm prox n ρ α z0 fromZ) n h.wf x0 s0
    intro i hi'
    rw [hi i hi']
    cases fromZ with
    | true =>
      refine ⟨?_, fun j _ => ?_⟩
      · simp [admm, admmDoc, admmStart, hP, admmRho]
      · simp [admm, admmDoc]
    | false =>
      refine ⟨?_, fun j _ => ?_⟩
      · simp [admm, admmDoc, admmStart]
      · simp [admm, admmDoc]
  · intro k s hk
    obtain ⟨s', ωs, h1, h2⟩ := admm_step h prox n ρ α z0 fromZ k s
    have hx : ∀ i ∈ n.nodes, (s'.loc i).x = (admmDoc P n ρ α (admmStart P n ρ x0 z0 fromZ) z0 (k + 1)).1 i := by
      intro i hi
      rw [(h2 i hi).1, hP]
      have e : rowSumZ n i (s.loc i).z = ((n.nbrs i).map (fun j => (admmDoc P n ρ α (admmStart P n ρ x0 z0 fromZ) z0 k).2 i j)).sum := by
        unfold rowSumZ
        congr 1
        exact List.map_congr_left fun j hj => (hk i hi).2 j hj
      rw [e]; rfl
    refine ⟨s', h1, fun i hi => ⟨hx i hi, fun j hj => ?_⟩⟩
    have hjn := h.wf.nbrs_mem i j hj
    rw [(h2 i hi).2 j, if_pos hj, hx j hjn, (hk i hi).2 j hj, (hk j hjn).2 i (h.wf.symm i j hj)]
    rfl

/-- an agent without neighbours makes `run` fail before the first iteration -/
theorem C83_isolated (w : World A E Ω) (n : Net A) (prox : Prox A E Ω) (ρ α : ℝ) (x0 z0 : A → E) (fromZ : Bool)
    (s0 : Sys A E Ω (Admm A E)) (k : Nat) (i : A) (hi : i ∈ n.nodes) (hz : n.nbrs i = []) :
    admmAfter prox ρ α z0 fromZ w n x0 s0 k = .error .zeroDivision := by
  unfold admmAfter
  rw [if_pos]
  rw [List.any_eq_true]
  exact ⟨i, hi, by rw [hz]; rfl⟩

/-- SPEC: a state from which ADMM does not move: `x_i` solves agent `i`'s local problem and `z_ij + z_ji = 2 ρ x_j` -/
structure AdmmRest (P : A → E → ℝ → E) (n : Net A) (ρ : ℝ) (x : A → E) (z : A → A → E) : Prop where
  localOpt : ∀ i ∈ n.nodes, P i ((1 / (ρ * ((n.nbrs i).length : ℝ))) • ((n.nbrs i).map (fun j => z i j)).sum) (1 / (ρ * ((n.nbrs i).length : ℝ))) = x i
  edge : ∀ i ∈ n.nodes, ∀ j ∈ n.nbrs i, z i j + z j i = (2 * ρ) • x j

/-- C84, first half: whatever agents are active and whatever messages are lost, an agent at rest stays at rest. -/
theorem C84_rest_is_kept {w : World A E Ω} {n : Net A} (h : Plain w n) (hw : n.WF) (prox : Prox A E Ω) (P : A → E → ℝ → E)
    (hP : ∀ i v p ω, (prox i v p ω).1 = P i v p) (n0 : Net A) (ρ α : ℝ) (z0 : A → E) (b : Bool) (x : A → E) (z : A → A → E) (hr : AdmmRest P n ρ x z)
    (k : Int) (s : Sys A E Ω (Admm A E)) (hx : ∀ i ∈ n.nodes, (s.loc i).x = x i) (hz : ∀ i ∈ n.nodes, ∀ j ∈ n.nbrs i, (s.loc i).z j = z i j) :
    ∃ s', (admm prox n0 ρ α z0 b).step w n k (adv n k s) = .ok s' ∧ (∀ i ∈ n.nodes, (s'.loc i).x = x i) ∧
      ∀ i ∈ n.nodes, ∀ j ∈ n.nbrs i, (s'.loc i).z j = z i j := by
  obtain ⟨s', act, ωs, h1, _, h2⟩ := admm_step_lossy h hw prox n0 ρ α z0 b k s
  have hx' : ∀ i ∈ n.nodes, (s'.loc i).x = x i := by
    intro i hi
    rw [(h2 i hi).1]
    split
    · rw [hP]
      have e : rowSumZ n i (s.loc i).z = ((n.nbrs i).map (fun j => z i j)).sum := by
        unfold rowSumZ; congr 1
        exact List.map_congr_left fun j hj => hz i hi j hj
      rw [e]; exact hr.localOpt i hi
    · exact hx i hi
  refine ⟨s', h1, hx', fun i hi j hj => ?_⟩
  have hjn := hw.nbrs_mem i j hj
  rcases (h2 i hi).2 j with ⟨_, _, _, e⟩ | ⟨e, _⟩
  · rw [e, hz i hi j hj, hz j hjn i (hw.symm i j hj), hx' j hjn, ← hr.edge i hi j hj]
    module
  · rw [e]; exact hz i hi j hj

/-- ... and so does the whole run after it: if ADMM is at rest after `k` iterations, it is there after `k + m`. -/
theorem C84_rest_forever {w : World A E Ω} {n : Net A} (h : Plain w n) (hw : n.WF) (prox : Prox A E Ω) (P : A → E → ℝ → E)
    (hP : ∀ i v p ω, (prox i v p ω).1 = P i v p) (ρ α : ℝ) (z0 : A → E) (b : Bool) (x : A → E) (z : A → A → E) (hr : AdmmRest P n ρ x z)
    (x0 : A → E) (k m : Nat) (s0 s : Sys A E Ω (Admm A E)) (hs : (admm prox n ρ α z0 b).after w n x0 s0 k = .ok s)
    (hx : ∀ i ∈ n.nodes, (s.loc i).x = x i) (hz : ∀ i ∈ n.nodes, ∀ j ∈ n.nbrs i, (s.loc i).z j = z i j) :
    ∃ s', (admm prox n ρ α z0 b).after w n x0 s0 (k + m) = .ok s' ∧ (∀ i ∈ n.nodes, (s'.loc i).x = x i) ∧
      ∀ i ∈ n.nodes, ∀ j ∈ n.nbrs i, (s'.loc i).z j = z i j := by
  induction m with
  | zero => exact ⟨s, hs, hx, hz⟩
  | succ m ih =>
    obtain ⟨s1, h1, hx1, hz1⟩ := ih
    obtain ⟨s2, h2, r2⟩ := C84_rest_is_kept h hw prox P hP n ρ α z0 b x z hr ((k + m : Nat) : Int) s1 hx1 hz1
    refine ⟨s2, ?_, r2⟩
    rw [← add_assoc, after_succ, h1]
    exact h2

end run

section rate
variable {A Ω : Type} [DecidableEq A] {d : Nat}

/-- SPEC: `P i v p` minimises `f_i(y) + ‖y - v‖² / (2 p)` -/
def ExactProx (n : Net A) (f : A → Vec d → ℝ) (P : A → Vec d → ℝ → Vec d) : Prop :=
  ∀ i ∈ n.nodes, ∀ v p, 0 < p → ∀ y, f i (P i v p) + 1 / (2 * p) * ‖P i v p - v‖ ^ 2 ≤ f i y + 1 / (2 * p) * ‖y - v‖ ^ 2

/-- a proximal point is stationary -/
theorem prox_stationary {n : Net A} {f : A → Vec d → ℝ} {G : A → Vec d → Vec d} {L m : ℝ} (hf : Smooth n f G L m) {P : A → Vec d → ℝ → Vec d}
    (hP : ExactProx n f P) (i : A) (hi : i ∈ n.nodes) (v : Vec d) (p : ℝ) (hp : 0 < p) : P i v p + p • G i (P i v p) = v := by
  have hu : Upper (fun y => f i y + 1 / (2 * p) * ‖y - v‖ ^ 2) (fun y => G i y + (1 / p) • (y - v)) (L + 1 / p) := by
    intro x y
    have h1 := hf.upper i hi x y
    have e : y - v = (x - v) + (y - x) := by abel
    have e2 : 1 / (2 * p) * ‖y - v‖ ^ 2 = 1 / (2 * p) * ‖x - v‖ ^ 2 + 1 / p * ⟪x - v, y - x⟫_ℝ + 1 / p / 2 * ‖y - x‖ ^ 2 := by
      rw [e, norm_add_sq_real]; field_simp
    simp only
    rw [e2, inner_add_left, inner_smul_left]
    simp only [conj_trivial]
    linarith
  have hL : 0 < L + 1 / p := add_pos hf.Lpos (by positivity)
  have h1 := gd_monotone hu hL (P i v p)
  have h2 := hP i hi v p hp (P i v p - (1 / (L + 1 / p)) • (G i (P i v p) + (1 / p) • (P i v p - v)))
  have h3 : 1 / (2 * (L + 1 / p)) * ‖G i (P i v p) + (1 / p) • (P i v p - v)‖ ^ 2 ≤ 0 := by linarith
  have h4 : ‖G i (P i v p) + (1 / p) • (P i v p - v)‖ ^ 2 ≤ 0 := by
    by_contra hc
    have := mul_pos (show 0 < 1 / (2 * (L + 1 / p)) by positivity) (not_le.1 hc)
    linarith
  have h5 : G i (P i v p) + (1 / p) • (P i v p - v) = 0 := norm_eq_zero.1 (pow_eq_zero_iff two_ne_zero |>.1 (le_antisymm h4 (sq_nonneg _)))
  have h6 : P i v p + p • G i (P i v p) = v + p • (G i (P i v p) + (1 / p) • (P i v p - v)) := by
    rw [smul_add, smul_smul, mul_one_div_cancel hp.ne', one_smul]; abel
  rw [h6, h5, smul_zero, add_zero]

theorem listSum_sub (l : List A) (u v : A → Vec d) : (l.map (fun i => u i - v i)).sum = (l.map u).sum - (l.map v).sum := by
  induction l with
  | nil => simp
  | cons a t ih => simp only [List.map_cons, List.sum_cons, ih]; abel

/-! ### arcs of the network -/

/-- ordered pairs of neighbours -/
abbrev Arc (n : Net A) := {p : Node n × Node n // p.2.1 ∈ n.nbrs p.1.1}

/-- where an arc starts -/
def tail (n : Net A) (a : Arc n) : Node n := a.1.1

/-- the reversed arc -/
def reverse {n : Net A} (hw : n.WF) (a : Arc n) : Arc n := ⟨(a.1.2, a.1.1), hw.symm _ _ a.2⟩

theorem arcSum {M : Type} [AddCommMonoid M] (n : Net A) (F : Node n → M) (i : Node n) :
    (∑ a : Arc n, if tail n a = i then F a.1.2 else 0) = ∑ j : Node n, if j.1 ∈ n.nbrs i.1 then F j else 0 := by
  rw [← Finset.sum_filter, ← Finset.sum_filter]
  refine Finset.sum_bij' (fun a _ => a.1.2) (fun j hj => ⟨(i, j), (Finset.mem_filter.1 hj).2⟩) ?_ ?_ ?_ ?_ ?_
  · intro a ha
    obtain ⟨_, h⟩ := Finset.mem_filter.1 ha
    refine Finset.mem_filter.2 ⟨Finset.mem_univ _, ?_⟩
    rw [← h]; exact a.2
  · intro j hj; exact Finset.mem_filter.2 ⟨Finset.mem_univ _, rfl⟩
  · intro a ha
    obtain ⟨_, h⟩ := Finset.mem_filter.1 ha
    apply Subtype.ext
    exact Prod.ext h.symm rfl
  · intro j hj; rfl
  · intro a ha; rfl

theorem arcNbrSum {M : Type} [AddCommMonoid M] {n : Net A} (hw : n.WF) (φ : A → M) (i : Node n) :
    (∑ j : Node n, if j.1 ∈ n.nbrs i.1 then φ j.1 else 0) = ((n.nbrs i.1).map φ).sum := by
  rw [nodeSum hw.nodup (fun j => if j ∈ n.nbrs i.1 then φ j else 0), ← List.sum_toFinset _ hw.nodup, ← List.sum_toFinset _ (hw.nbrs_nodup i.1),
    ← Finset.sum_filter]
  apply Finset.sum_congr _ (fun _ _ => rfl)
  ext j
  simp only [Finset.mem_filter, List.mem_toFinset]
  exact ⟨fun h => h.2, fun h => ⟨hw.nbrs_mem i.1 j h, h⟩⟩

/-- the stacked `z_ij` -/
def gatherZ (n : Net A) (z : A → A → Vec d) : Stack (Arc n) d := stack fun a => z a.1.1.1 a.1.2.1

theorem outSum_gatherZ {n : Net A} (hw : n.WF) (z : A → A → Vec d) (i : Node n) :
    outSum (tail n) (gatherZ n z) i = ((n.nbrs i.1).map (fun j => z i.1 j)).sum := by
  rw [outSum_apply, ← arcNbrSum hw (fun j => z i.1 j) i, ← arcSum n (fun j => z i.1 j.1) i]
  apply Finset.sum_congr rfl
  intro a _
  split
  · rename_i h
    have h' : a.1.1 = i := h
    show z a.1.1.1 a.1.2.1 = _
    rw [h']
  · rfl

theorem deg_tail {n : Net A} (hw : n.WF) (i : Node n) : deg (tail n) i = ((n.nbrs i.1).length : ℝ) := by
  unfold deg
  rw [arcSum n (fun _ => (1 : ℝ)) i, arcNbrSum hw (fun _ => (1 : ℝ)) i]
  simp

/-- the agents' local solutions -/
noncomputable def solveLocal (n : Net A) (P : A → Vec d → ℝ → Vec d) (ρ : ℝ) (z : Stack (Arc n) d) : Stack (Node n) d :=
  stack fun i => P i.1 ((1 / (ρ * ((n.nbrs i.1).length : ℝ))) • outSum (tail n) z i) (1 / (ρ * ((n.nbrs i.1).length : ℝ)))

section
variable {n : Net A} {f : A → Vec d → ℝ} {G : A → Vec d → Vec d} {L m : ℝ}

theorem solve_resolves (hw : n.WF) (hn : ∀ i ∈ n.nodes, n.nbrs i ≠ []) (hf : Smooth n f G L m) {P : A → Vec d → ℝ → Vec d}
    (hP : ExactProx n f P) (ρ : ℝ) (hρ : 0 < ρ) : Resolves (tail n) ρ (nodeG n G) (solveLocal n P ρ) := by
  intro z i
  have hN : 0 < ((n.nbrs i.1).length : ℝ) := by exact_mod_cast List.length_pos_iff.2 (hn i.1 i.mem)
  have h1 := prox_stationary hf hP i.1 i.mem ((1 / (ρ * ((n.nbrs i.1).length : ℝ))) • outSum (tail n) z i) _ (show 0 < 1 / (ρ * ((n.nbrs i.1).length : ℝ)) by positivity)
  rw [deg_tail hw]
  show (ρ * ((n.nbrs i.1).length : ℝ)) • P i.1 _ _ + G i.1 (P i.1 _ _) = _
  have h2 := congrArg (fun v => (ρ * ((n.nbrs i.1).length : ℝ)) • v) h1
  simp only [smul_add, smul_smul] at h2
  rw [mul_one_div_cancel (by positivity), one_smul, one_smul] at h2
  exact h2

theorem solve_inj (P : A → Vec d → ℝ → Vec d) (ρ : ℝ) (z p : Stack (Arc n) d) (h : outSum (tail n) z = outSum (tail n) p) :
    solveLocal n P ρ z = solveLocal n P ρ p := by
  unfold solveLocal; rw [h]

/-- at the optimum the local gradients are the divergences of an antisymmetric flow -/
theorem exists_flow (hw : n.WF) (hl : Loopless n) (hc : JoinedUp n) (hf : Smooth n f G L m) (xs : Vec d) (hxs : SolvesSum n f xs) :
    ∃ y : A → A → Vec d, (∀ i ∈ n.nodes, ∀ j ∈ n.nbrs i, y i j + y j i = 0) ∧ ∀ i ∈ n.nodes, ((n.nbrs i).map (fun j => y i j)).sum = G i xs := by
  have hW := metropolis_good n hw hl
  obtain ⟨us, hus⟩ := exists_dual hw hW hc G xs ((solves_iff hf xs).1 hxs) 1
  set u : A → Vec d := fun i => if hi : i ∈ n.nodes then us (toNode hi) else 0 with hu
  have hunode : ∀ i : Node n, u i.1 = us i := by
    intro i
    show (if hi : i.1 ∈ n.nodes then us (toNode hi) else 0) = us i
    rw [dif_pos i.mem]; rfl
  refine ⟨fun i j => - ((weights n i j / 2) • (u i - u j)), ?_, ?_⟩
  · intro i hi j hj
    show -((weights n i j / 2) • (u i - u j)) + -((weights n j i / 2) • (u j - u i)) = 0
    rw [hW.symm i hi j (hw.nbrs_mem i j hj)]
    module
  · intro i hi
    refine (arcNbrSum hw (fun j => - ((weights n i j / 2) • (u i - u j))) (toNode hi)).symm.trans ?_
    have e1 : ∀ j : Node n, (if j.1 ∈ n.nbrs (toNode hi).1 then - ((weights n i j.1 / 2) • (u i - u j.1)) else 0) =
        - ((weights n i j.1 / 2) • (u i - u j.1)) := by
      intro j
      split
      · rfl
      · rename_i hj
        by_cases hij : i = j.1
        · rw [← hij, sub_self, smul_zero, neg_zero]
        · rw [hW.supported i hi j.1 j.mem hij hj, zero_div, zero_smul, neg_zero]
    rw [Finset.sum_congr rfl (fun j _ => e1 j), Finset.sum_neg_distrib]
    have e3 : (∑ j : Node n, (weights n i j.1 / 2) • (u i - u j.1)) = minus (mixOp (nodeW n (weights n))) us (toNode hi) := by
      rw [minus_apply]
      show _ = (1 / 2 : ℝ) • (us (toNode hi) - mixOp (nodeW n (weights n)) us (toNode hi))
      rw [mixOp_apply]
      have e4 : ∀ j : Node n, (weights n i j.1 / 2) • (u i - u j.1) = (1 / 2 : ℝ) • (weights n i j.1 • u i) - (1 / 2 : ℝ) • (weights n i j.1 • us j) := by
        intro j; rw [hunode j]; module
      rw [Finset.sum_congr rfl (fun j _ => e4 j), Finset.sum_sub_distrib, ← Finset.smul_sum, ← Finset.smul_sum, ← Finset.sum_smul,
        nodeSum hw.nodup (fun j => weights n i j), hW.row i hi, one_smul, ← smul_sub]
      have : u i = us (toNode hi) := hunode (toNode hi)
      rw [this]; rfl
    rw [e3, hus]
    show - -((1 : ℝ) • G i xs) = _
    rw [one_smul, neg_neg]

/-- the divergences of an antisymmetric flow sum to zero -/
theorem flow_total (hw : n.WF) (y : A → A → Vec d) (hy : ∀ i ∈ n.nodes, ∀ j ∈ n.nbrs i, y i j + y j i = 0) :
    (n.nodes.map (fun i => ((n.nbrs i).map (fun j => y i j)).sum)).sum = 0 := by
  rw [← nodeSum hw.nodup (fun j => ((n.nbrs j).map (fun l => y j l)).sum)]
  have e1 : ∀ j : Node n, ((n.nbrs j.1).map (fun l => y j.1 l)).sum = ∑ l : Node n, if l.1 ∈ n.nbrs j.1 then y j.1 l.1 else 0 :=
    fun j => (arcNbrSum hw (fun l => y j.1 l) j).symm
  rw [Finset.sum_congr rfl (fun j _ => e1 j)]
  set S := ∑ j : Node n, ∑ l : Node n, (if l.1 ∈ n.nbrs j.1 then y j.1 l.1 else 0) with hS
  have hneg : S = -S := by
    conv_lhs => rw [hS, Finset.sum_comm]
    rw [hS, ← Finset.sum_neg_distrib]
    apply Finset.sum_congr rfl
    intro j _
    rw [← Finset.sum_neg_distrib]
    apply Finset.sum_congr rfl
    intro l _
    by_cases hl : l.1 ∈ n.nbrs j.1
    · rw [if_pos hl, if_pos (hw.symm _ _ hl)]
      have h1 := hy j.1 j.mem l.1 hl
      exact (neg_eq_of_add_eq_zero_right h1).symm
    · rw [if_neg hl, if_neg (fun h' => hl (hw.symm _ _ h')), neg_zero]
  have h2 : (2 : ℝ) • S = 0 := by
    rw [two_smul]
    nth_rewrite 2 [hneg]
    exact add_neg_cancel S
  exact (smul_eq_zero.1 h2).resolve_left two_ne_zero

/-- values equal along edges are equal everywhere -/
theorem agree_of_edges {M : Type} (hw : n.WF) (hc : JoinedUp n) (x : A → M) (hx : ∀ i ∈ n.nodes, ∀ j ∈ n.nbrs i, x j = x i) :
    ∀ i ∈ n.nodes, ∀ j ∈ n.nodes, x j = x i := by
  intro i hi j hj
  have hp := hc i hi j hj
  have : j ∈ n.nodes ∧ x j = x i := by
    clear hj
    induction hp with
    | refl => exact ⟨hi, rfl⟩
    | tail _ hbc ih => exact ⟨hw.nbrs_mem _ _ hbc, (hx _ ih.1 _ hbc).trans ih.2⟩
  exact this.2

/-- `z_ij + z_ji = 2 ρ x_j` on every edge makes the `x` agree -/
theorem agree_of_rest (hw : n.WF) (hc : JoinedUp n) (ρ : ℝ) (hρ : 0 < ρ) (x : A → Vec d) (z : A → A → Vec d)
    (he : ∀ i ∈ n.nodes, ∀ j ∈ n.nbrs i, z i j + z j i = (2 * ρ) • x j) : ∀ i ∈ n.nodes, ∀ j ∈ n.nodes, x j = x i := by
  refine agree_of_edges hw hc x fun i hi j hj => ?_
  have h1 := he i hi j hj
  have h2 := he j (hw.nbrs_mem i j hj) i (hw.symm i j hj)
  rw [add_comm, h1] at h2
  exact smul_right_injective _ (show (2 * ρ : ℝ) ≠ 0 by positivity) h2

theorem constSum (l : List A) (v : Vec d) : (l.map (fun _ => v)).sum = (l.length : ℝ) • v := by
  rw [List.map_const', List.sum_replicate]
  exact (Nat.cast_smul_eq_nsmul ℝ _ _).symm

/-- the optimum is a point of rest -/
theorem C84_rest_exists (hw : n.WF) (hl : Loopless n) (hn : ∀ i ∈ n.nodes, n.nbrs i ≠ []) (hc : JoinedUp n) (hf : Smooth n f G L m)
    {P : A → Vec d → ℝ → Vec d} (hP : ExactProx n f P) (ρ : ℝ) (hρ : 0 < ρ) (xs : Vec d) (hxs : SolvesSum n f xs) :
    ∃ z, AdmmRest P n ρ (fun _ => xs) z := by
  obtain ⟨y, hy, hdiv⟩ := exists_flow hw hl hc hf xs hxs
  refine ⟨fun i j => ρ • xs + y i j, ?_, ?_⟩
  · intro i hi
    have hN : 0 < ((n.nbrs i).length : ℝ) := by exact_mod_cast List.length_pos_iff.2 (hn i hi)
    have hsum : ((n.nbrs i).map (fun j => ρ • xs + y i j)).sum = (ρ * ((n.nbrs i).length : ℝ)) • xs + G i xs := by
      rw [List.sum_map_add, hdiv i hi, constSum, smul_smul, mul_comm]
    have hp : 0 < 1 / (ρ * ((n.nbrs i).length : ℝ)) := by positivity
    have h1 := prox_stationary hf hP i hi ((1 / (ρ * ((n.nbrs i).length : ℝ))) • ((n.nbrs i).map (fun j => ρ • xs + y i j)).sum) _ hp
    set v := P i ((1 / (ρ * ((n.nbrs i).length : ℝ))) • ((n.nbrs i).map (fun j => ρ • xs + y i j)).sum) (1 / (ρ * ((n.nbrs i).length : ℝ))) with hv
    rw [hsum, smul_add, smul_smul, one_div_mul_cancel (by positivity), one_smul] at h1
    -- strong monotonicity
    have h2 : (v - xs) + (1 / (ρ * ((n.nbrs i).length : ℝ))) • (G i v - G i xs) = 0 := by
      rw [smul_sub]
      have : v + (1 / (ρ * ((n.nbrs i).length : ℝ))) • G i v - (xs + (1 / (ρ * ((n.nbrs i).length : ℝ))) • G i xs) = 0 := by rw [h1, sub_self]
      rw [← this]; abel
    have h3 := Consensus.strong_monotone (fun x y => hf.lower i hi x y) v xs
    have h4 := congrArg (fun y => ⟪y, v - xs⟫_ℝ) h2
    simp only [inner_add_left, inner_smul_left, conj_trivial, inner_zero_left, real_inner_self_eq_norm_sq] at h4
    have h5 : ‖v - xs‖ ^ 2 ≤ 0 := by
      have : 0 ≤ ⟪G i v - G i xs, v - xs⟫_ℝ := le_trans (by have := hf.mpos; positivity) h3
      have := mul_nonneg hp.le this
      linarith
    exact sub_eq_zero.1 (norm_eq_zero.1 (pow_eq_zero_iff two_ne_zero |>.1 (le_antisymm h5 (sq_nonneg _))))
  · intro i hi j hj
    have e : ρ • xs + y i j + (ρ • xs + y j i) = (2 * ρ) • xs + (y i j + y j i) := by module
    rw [e, hy i hi j hj, add_zero]

/-- C84, second half: at rest all agents agree, on the minimiser of the sum of the costs. -/
theorem C84_rest_is_optimal (hw : n.WF) (hn : ∀ i ∈ n.nodes, n.nbrs i ≠ []) (hc : JoinedUp n) (hf : Smooth n f G L m)
    {P : A → Vec d → ℝ → Vec d} (hP : ExactProx n f P) (ρ : ℝ) (hρ : 0 < ρ) (x : A → Vec d) (z : A → A → Vec d) (hr : AdmmRest P n ρ x z) :
    ∀ i ∈ n.nodes, SolvesSum n f (x i) ∧ ∀ j ∈ n.nodes, x j = x i := by
  have hagree := agree_of_rest hw hc ρ hρ x z hr.edge
  intro i hi
  refine ⟨?_, hagree i hi⟩
  rw [solves_iff hf]
  have hg : ∀ j ∈ n.nodes, G j (x i) = ((n.nbrs j).map (fun l => z j l - ρ • x i)).sum := by
    intro j hj
    have hN : 0 < ((n.nbrs j).length : ℝ) := by exact_mod_cast List.length_pos_iff.2 (hn j hj)
    have h1 := prox_stationary hf hP j hj ((1 / (ρ * ((n.nbrs j).length : ℝ))) • ((n.nbrs j).map (fun l => z j l)).sum) _ (show 0 < 1 / (ρ * ((n.nbrs j).length : ℝ)) by positivity)
    rw [hr.localOpt j hj, hagree i hi j hj] at h1
    have h2 := congrArg (fun v => (ρ * ((n.nbrs j).length : ℝ)) • v) h1
    simp only [smul_add, smul_smul] at h2
    rw [mul_one_div_cancel (by positivity), one_smul, one_smul] at h2
    rw [listSum_sub, constSum, smul_smul, mul_comm _ ρ, ← h2]; abel
  rw [List.map_congr_left hg]
  apply flow_total hw
  intro a ha b hb
  have h1 := hr.edge a ha b hb
  rw [hagree i hi b (hw.nbrs_mem a b hb)] at h1
  have e : z a b - ρ • x i + (z b a - ρ • x i) = (z a b + z b a) - (2 * ρ) • x i := by module
  rw [e, h1, sub_self]

/-- ADMM stops only there: a state that one lossless iteration leaves unchanged is at rest. -/
theorem C84_still_is_rest {w : World A (Vec d) Ω} (h : Lossless w n) (prox : Prox A (Vec d) Ω) (P : A → Vec d → ℝ → Vec d)
    (hprox : ∀ i v p ω, (prox i v p ω).1 = P i v p) (ρ α : ℝ) (hα : α ≠ 0) (z0 : A → Vec d) (b : Bool) (k : Int) (s : Sys A (Vec d) Ω (Admm A (Vec d)))
    (hstill : ∀ s', (admm prox n ρ α z0 b).step w n k (adv n k s) = .ok s' → ∀ i ∈ n.nodes, (s'.loc i).x = (s.loc i).x ∧ ∀ j ∈ n.nbrs i, (s'.loc i).z j = (s.loc i).z j) :
    AdmmRest P n ρ (fun i => (s.loc i).x) (fun i j => (s.loc i).z j) := by
  obtain ⟨s', ωs, h1, h2⟩ := admm_step h prox n ρ α z0 b k s
  have h3 := hstill s' h1
  refine ⟨fun i hi => ?_, fun i hi j hj => ?_⟩
  · have := (h2 i hi).1
    rw [hprox, (h3 i hi).1] at this
    exact this.symm
  · have := (h2 i hi).2 j
    rw [if_pos hj, (h3 i hi).2 j hj, (h3 j (h.wf.nbrs_mem i j hj)).1] at this
    have e : α • ((s.loc i).z j + (s.loc j).z i - (2 * ρ) • (s.loc j).x) = 0 := by
      have : (s.loc i).z j - ((1 - α) • (s.loc i).z j - α • ((s.loc j).z i - (2 * ρ) • (s.loc j).x)) = 0 := by rw [← this, sub_self]
      rw [← this]; module
    exact sub_eq_zero.1 ((smul_eq_zero.1 e).resolve_left hα)

/-- C83, second half: for every penalty `ρ > 0`, relaxation `α ∈ (0, 1)` and start, every agent converges linearly to the
minimiser of the sum. -/
theorem C83_linear {w : World A (Vec d) Ω} (h : Lossless w n) (hn : ∀ i ∈ n.nodes, n.nbrs i ≠ []) (hc : JoinedUp n) (hf : Smooth n f G L m)
    (prox : Prox A (Vec d) Ω) (P : A → Vec d → ℝ → Vec d) (hprox : ∀ i v p ω, (prox i v p ω).1 = P i v p) (hP : ExactProx n f P)
    (ρ α : ℝ) (hρ : 0 < ρ) (hα0 : 0 < α) (hα1 : α < 1) (xs : Vec d) (hxs : SolvesSum n f xs) :
    ∃ r : ℝ, 0 < r ∧ r < 1 ∧ ∀ (x0 z0 : A → Vec d) (fromZ : Bool), ∃ C : ℝ, ∀ (s0 : Sys A (Vec d) Ω (Admm A (Vec d))) (k : Nat), ∃ s,
      admmAfter prox ρ α z0 fromZ w n x0 s0 k = .ok s ∧ ∀ i ∈ n.nodes, ‖(s.loc i).x - xs‖ ^ 2 ≤ C * r ^ k := by
  have hw := h.wf
  rcases List.eq_nil_or_concat n.nodes with h0 | ⟨_, _, hne⟩
  · refine ⟨1 / 2, by norm_num, by norm_num, fun x0 z0 b => ⟨0, fun s0 k => ?_⟩⟩
    obtain ⟨s, hs, _⟩ := C83_run h hn prox P hprox ρ α x0 z0 b s0 k
    exact ⟨s, hs, fun i hi => by rw [h0] at hi; exact absurd hi (by simp)⟩
  have hex : ∃ i, i ∈ n.nodes := ⟨_, by rw [hne]; simp; exact Or.inr rfl⟩
  obtain ⟨i0, hi0⟩ := hex
  obtain ⟨j0, hj0⟩ := List.exists_mem_of_ne_nil _ (hn i0 hi0)
  have : Nonempty (Arc n) := ⟨⟨(toNode hi0, toNode (hw.nbrs_mem i0 j0 hj0)), hj0⟩⟩
  obtain ⟨zs, hzs⟩ := C84_rest_exists hw h.noLoops hn hc hf hP ρ hρ xs hxs
  have hξzs : solveLocal n P ρ (gatherZ n zs) = gather n (fun _ => xs) := by
    apply stack_ext; intro i
    show P i.1 _ _ = xs
    rw [outSum_gatherZ hw]
    exact hzs.localOpt i.1 i.mem
  have hfix : reflect (tail n) (reverse hw) ρ (solveLocal n P ρ) (gatherZ n zs) = gatherZ n zs := by
    apply stack_ext; intro a
    show (2 * ρ) • solveLocal n P ρ (gatherZ n zs) _ - zs a.1.2.1 a.1.1.1 = zs a.1.1.1 a.1.2.1
    rw [hξzs]
    show (2 * ρ) • xs - _ = _
    have := hzs.edge a.1.1.1 a.1.1.mem a.1.2.1 a.2
    rw [← this]; abel
  obtain ⟨r, hr0, hr1, hr⟩ := relax_rate (src := tail n) (flip := reverse hw) (G := nodeG n G) (f := fun i => f i.1) (fun a => rfl) hρ hα0 hα1 hf.mpos hf.Lpos
    hf.nodes.1 hf.nodes.2 (solve_resolves hw hn hf hP ρ hρ) (solve_inj P ρ) (gatherZ n zs) hfix
  refine ⟨r, hr0, hr1, fun x0 z0 b => ?_⟩
  set X := admmStart P n ρ x0 z0 b with hX
  -- the stacked recursion
  have hstep : ∀ k, gatherZ n (admmDoc P n ρ α X z0 k).2 = (relax (tail n) (reverse hw) ρ α (solveLocal n P ρ))^[k] (gatherZ n (fun i _ => z0 i)) := by
    intro k
    induction k with
    | zero => rfl
    | succ k ih =>
      rw [Function.iterate_succ_apply', ← ih]
      apply stack_ext; intro a
      show (1 - α) • _ - α • (_ - (2 * ρ) • _) = (1 - α) • _ + α • ((2 * ρ) • solveLocal n P ρ _ (a.1.2) - _)
      have e : solveLocal n P ρ (gatherZ n (admmDoc P n ρ α X z0 k).2) a.1.2 = (admmDoc P n ρ α X z0 (k + 1)).1 a.1.2.1 := by
        show P a.1.2.1 _ _ = _
        rw [outSum_gatherZ hw]; rfl
      rw [e]
      set y := (admmDoc P n ρ α X z0 (k + 1)).1 a.1.2.1 with hy
      show (1 - α) • (admmDoc P n ρ α X z0 k).2 a.1.1.1 a.1.2.1 - α • ((admmDoc P n ρ α X z0 k).2 a.1.2.1 a.1.1.1 - (2 * ρ) • y) =
        (1 - α) • (admmDoc P n ρ α X z0 k).2 a.1.1.1 a.1.2.1 + α • ((2 * ρ) • y - (admmDoc P n ρ α X z0 k).2 a.1.2.1 a.1.1.1)
      module
  have hx : ∀ k, gather n (admmDoc P n ρ α X z0 (k + 1)).1 = solveLocal n P ρ ((relax (tail n) (reverse hw) ρ α (solveLocal n P ρ))^[k] (gatherZ n (fun i _ => z0 i))) := by
    intro k
    rw [← hstep k]
    apply stack_ext; intro i
    show _ = P i.1 _ _
    rw [outSum_gatherZ hw]; rfl
  obtain ⟨C, hC0, hC⟩ := hr (gatherZ n (fun i _ => z0 i))
  refine ⟨C / r + ‖gather n X - gather n (fun _ => xs)‖ ^ 2, fun s0 k => ?_⟩
  obtain ⟨s, hs, hval⟩ := C83_run h hn prox P hprox ρ α x0 z0 b s0 k
  refine ⟨s, hs, fun i hi => ?_⟩
  rw [(hval i hi).1]
  refine (coord_le (gather n (admmDoc P n ρ α X z0 k).1 - gather n (fun _ => xs)) (toNode hi)).trans ?_
  cases k with
  | zero =>
    rw [pow_zero, mul_one]
    have : 0 ≤ C / r := by positivity
    have e : gather n (admmDoc P n ρ α X z0 0).1 = gather n X := rfl
    rw [e]; linarith
  | succ k =>
    rw [hx k, ← hξzs]
    refine (hC k).trans ?_
    have e : (C / r + ‖gather n X - solveLocal n P ρ (gatherZ n zs)‖ ^ 2) * r ^ (k + 1) = C * r ^ k + ‖gather n X - solveLocal n P ρ (gatherZ n zs)‖ ^ 2 * r ^ (k + 1) := by
      rw [pow_succ r k]; field_simp
    rw [e]
    have : 0 ≤ ‖gather n X - solveLocal n P ρ (gatherZ n zs)‖ ^ 2 * r ^ (k + 1) := by positivity
    linarith

end

/-! ### a concrete problem -/

/-- the proximal operator of `½ ‖x - b_i‖²` -/
noncomputable def springProx (b : Nat → Vec d) (i : Nat) (v : Vec d) (p : ℝ) : Vec d := (1 / (1 + p)) • (v + p • b i)

theorem springProx_exact (b : Nat → Vec d) : ExactProx path3 (springs b) (springProx b) := by
  intro i _ v p hp y
  have h1 : 0 < 1 + p := by linarith
  set u := springProx b i v p with hu
  have hg : (u - b i) + (1 / p) • (u - v) = 0 := by
    have : u - b i + (1 / p) • (u - v) = (1 / p) • ((1 + p) • u - (v + p • b i)) := by
      rw [smul_sub, smul_sub, smul_add, smul_smul, smul_smul, one_div_mul_cancel hp.ne', one_smul]
      rw [mul_add, one_div_mul_cancel hp.ne']
      module
    rw [this, hu, springProx, smul_smul, mul_one_div_cancel h1.ne', one_smul, sub_self, smul_zero]
  have e1 : y - b i = (u - b i) + (y - u) := by abel
  have e2 : y - v = (u - v) + (y - u) := by abel
  have h3 : ⟪u - b i, y - u⟫_ℝ + 1 / p * ⟪u - v, y - u⟫_ℝ = 0 := by
    have := congrArg (fun t => ⟪t, y - u⟫_ℝ) hg
    simpa [inner_add_left, inner_smul_left] using this
  unfold springs
  rw [e1, e2, norm_add_sq_real, norm_add_sq_real]
  have h4 : 1 / (2 * p) * (‖u - v‖ ^ 2 + 2 * ⟪u - v, y - u⟫_ℝ + ‖y - u‖ ^ 2) =
      1 / (2 * p) * ‖u - v‖ ^ 2 + 1 / p * ⟪u - v, y - u⟫_ℝ + 1 / (2 * p) * ‖y - u‖ ^ 2 := by field_simp
  rw [h4]
  have h5 : 0 ≤ 1 / (2 * p) * ‖y - u‖ ^ 2 := by positivity
  have h6 := sq_nonneg ‖y - u‖
  linarith

theorem path3_busy : ∀ i ∈ path3.nodes, path3.nbrs i ≠ [] := by
  intro i hi
  have : i = 0 ∨ i = 1 ∨ i = 2 := by simpa [path3] using hi
  rcases this with rfl | rfl | rfl <;> decide

-- three agents averaging their vectors by ADMM with penalty 5 and relaxation 0.9
example (b : Nat → Vec d) : ∃ r : ℝ, 0 < r ∧ r < 1 ∧ ∀ (x0 z0 : Nat → Vec d) (fromZ : Bool), ∃ C : ℝ, ∀ (s0 : Sys Nat (Vec d) Unit (Admm Nat (Vec d))) (k : Nat), ∃ s,
      admmAfter (fun i v p _ => (springProx b i v p, ())) 5 0.9 z0 fromZ (calmWorld d) path3 x0 s0 k = .ok s ∧
      ∀ i ∈ path3.nodes, ‖(s.loc i).x - (1 / 3 : ℝ) • (b 0 + b 1 + b 2)‖ ^ 2 ≤ C * r ^ k :=
  C83_linear calm_lossless path3_busy path3_joined (springs_smooth b) _ (springProx b) (fun _ _ _ _ => rfl) (springProx_exact b) 5 0.9
    (by norm_num) (by norm_num) (by norm_num) _ (springs_solves b)

-- a point of rest whose agents hold different local gradients
example (b : Nat → Vec d) : ∃ z, AdmmRest (springProx b) path3 2 (fun _ => (1 / 3 : ℝ) • (b 0 + b 1 + b 2)) z :=
  C84_rest_exists path3_wf path3_loopless path3_busy path3_joined (springs_smooth b) (springProx_exact b) 2 (by norm_num) _ (springs_solves b)

end rate
end Verif.Props
