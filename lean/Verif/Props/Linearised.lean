import Verif.Lemmas.Linearised
import Verif.Lemmas.FedRest
import Verif.Props.Alias
import Verif.Props.PrimalDual
import Mathlib.Topology.Instances.RealVectorSpace
set_option linter.unusedSectionVars false
/-!
# C118: DLM and DiNNO

On arrays whose `+=` makes a new array (JAX, TensorFlow) both algorithms compute their documented recursions on every network; DLM, and
DiNNO with one local step, converge linearly to the minimiser of the sum for every step size below `1 / (L + 2 ρ D)`, `D` the largest
number of neighbours; DiNNO with any number of local steps rests only there. On NumPy arrays and torch tensors, on a triangle without
noise, DLM converges to zero or not at all.
-/
namespace Verif.Props
open Verif P2P Sys Consensus Costs
open scoped InnerProductSpace

section
variable {A E Ω : Type} [DecidableEq A] [AddCommGroup E] [Module ℝ E]

theorem disagreement_congr {n : Net A} (hw : n.WF) {x y : A → E} (h : ∀ i ∈ n.nodes, x i = y i) (i : A) (hi : i ∈ n.nodes) :
    disagreement n.nbrs x i = disagreement n.nbrs y i := gapSum_congr hw h i hi

/-- the states of a DLM run, with the dual variables -/
theorem dlm_both {w : World A E Ω} {n : Net A} (h : Lossless w n) (μ ρ : ℝ) (grad : Grad A E Ω) (G : A → E → E) (hG : Exactly grad G) (x0 : A → E)
    (s0 : Sys A E Ω (DlmLoc E)) (k : Nat) : ∃ s, (dlm grad μ ρ).after w n x0 s0 k = .ok s ∧ ∀ i ∈ n.nodes,
      (s.loc i).x = (dlmDoc n.nbrs G μ ρ x0 (k - 1)).1 i ∧ (s.loc i).y = (dlmDoc n.nbrs G μ ρ x0 (k - 1)).2 i ∧
      (s.loc i).s = if k = 0 then 0 else disagreement n.nbrs (dlmDoc n.nbrs G μ ρ x0 (k - 1)).1 i := by
  refine after_induction (dlm grad μ ρ) w n x0 s0 (fun k s => ∀ i ∈ n.nodes,
      (s.loc i).x = (dlmDoc n.nbrs G μ ρ x0 (k - 1)).1 i ∧ (s.loc i).y = (dlmDoc n.nbrs G μ ρ x0 (k - 1)).2 i ∧
      (s.loc i).s = if k = 0 then 0 else disagreement n.nbrs (dlmDoc n.nbrs G μ ρ x0 (k - 1)).1 i) ?_ ?_ k
  · obtain ⟨ωs, hi⟩ := init_spec (dlm grad μ ρ) n h.wf x0 s0
    intro i hi'
    rw [hi i hi']
    exact ⟨rfl, rfl, rfl⟩
  · intro k s hP
    rcases Nat.eq_zero_or_pos k with hk | hk
    · subst hk
      obtain ⟨s', h1, h2⟩ := dlm_first h grad μ ρ s
      refine ⟨s', h1, fun i hi => ⟨(h2 i hi).1.trans (hP i hi).1, (h2 i hi).2.1.trans (hP i hi).2.1, ?_⟩⟩
      rw [if_neg (Nat.succ_ne_zero 0)]
      have e : gapSum n (fun j => (s.loc j).x) i = disagreement n.nbrs x0 i := disagreement_congr h.wf (fun j hj => (hP j hj).1) i hi
      refine (h2 i hi).2.2.trans ?_
      by_cases he : n.nbrs i = []
      · rw [if_pos he, (hP i hi).2.2, if_pos rfl]
        show 0 = disagreement n.nbrs x0 i
        rw [← e, gapSum_alone he]
      · rw [if_neg he]; exact e
    · obtain ⟨k', rfl⟩ : ∃ k', k = k' + 1 := ⟨k - 1, by omega⟩
      obtain ⟨s', ωs, h1, h2⟩ := dlm_later h grad μ ρ ((k' + 1 : Nat) : Int) (by omega) s
      have ex : ∀ i ∈ n.nodes, (s'.loc i).x = (dlmDoc n.nbrs G μ ρ x0 (k' + 1)).1 i := by
        intro i hi
        obtain ⟨p1, p2, p3⟩ := hP i hi
        rw [if_neg (by omega)] at p3
        rw [(h2 i hi).1, hG, p1, p2, p3]
        rfl
      have es : ∀ i ∈ n.nodes, (s'.loc i).s = disagreement n.nbrs (dlmDoc n.nbrs G μ ρ x0 (k' + 1)).1 i := by
        intro i hi
        rw [(h2 i hi).2.1]
        split
        · rename_i he
          rw [(hP i hi).2.2, if_neg (by omega)]
          exact (gapSum_alone he).trans (gapSum_alone he).symm
        · exact disagreement_congr h.wf ex i hi
      refine ⟨s', h1, fun i hi => ⟨ex i hi, ?_, ?_⟩⟩
      · rw [(h2 i hi).2.2, es i hi, (hP i hi).2.1]
        rfl
      · rw [if_neg (by omega)]; exact es i hi

/-- C118: on arrays whose `+=` makes a new array DLM computes its documented recursion, one iteration late: the first iteration only
communicates -/
theorem C118_dlm_recursion {w : World A E Ω} {n : Net A} (h : Lossless w n) (μ ρ : ℝ) (grad : Grad A E Ω) (G : A → E → E) (hG : Exactly grad G) (x0 : A → E) :
    Computes (dlm grad μ ρ) (fun a => a.x) w n x0 (fun k => (dlmDoc n.nbrs G μ ρ x0 (k - 1)).1) := by
  intro s0 k
  obtain ⟨s, hs, hP⟩ := dlm_both h μ ρ grad G hG x0 s0 k
  exact ⟨s, hs, fun i hi => (hP i hi).1⟩

theorem dinnoTrain_doc (grad : E → Ω → E × Ω) (G : E → E) (hG : ∀ x ω, (grad x ω).1 = G x) (μ ρ : ℝ) (xi p : E) (nb : List E) (half : Option E)
    (hn : nb = [] → half = none) (hsome : nb ≠ [] → half = some ((1 / 2 : ℝ) • nb.sum)) (B : Nat) (psi : E) (ω : Ω) :
    (dinnoTrain grad μ ρ nb.length xi p half B psi ω).1 = dinnoInnerDoc G μ ρ xi p nb B psi := by
  rw [← dinnoLocal_doc G μ ρ xi p nb half hn hsome]
  induction B generalizing psi ω with
  | zero => rfl
  | succ B ih =>
    cases half with
    | none => exact (ih _ _).trans (by rw [hG]; rfl)
    | some v => exact (ih _ _).trans (by rw [hG]; rfl)

/-- the states of a DiNNO run, with the dual variables -/
theorem dinno_both {w : World A E Ω} {n : Net A} (h : Lossless w n) (μ ρ : ℝ) (B : Nat) (grad : Grad A E Ω) (G : A → E → E) (hG : Exactly grad G) (x0 : A → E)
    (s0 : Sys A E Ω (DinnoLoc E)) (k : Nat) : ∃ s, (dinno grad μ ρ B).after w n x0 s0 k = .ok s ∧ ∀ i ∈ n.nodes,
      (s.loc i).x = ((dinnoDoc n.nbrs G μ ρ B)^[k] ⟨x0, fun _ => 0⟩).x i ∧ (s.loc i).p = ((dinnoDoc n.nbrs G μ ρ B)^[k] ⟨x0, fun _ => 0⟩).p i := by
  refine after_induction (dinno grad μ ρ B) w n x0 s0 (fun k s => ∀ i ∈ n.nodes,
      (s.loc i).x = ((dinnoDoc n.nbrs G μ ρ B)^[k] ⟨x0, fun _ => 0⟩).x i ∧ (s.loc i).p = ((dinnoDoc n.nbrs G μ ρ B)^[k] ⟨x0, fun _ => 0⟩).p i) ?_ ?_ k
  · obtain ⟨ωs, hi⟩ := init_spec (dinno grad μ ρ B) n h.wf x0 s0
    intro i hi'
    rw [hi i hi']
    exact ⟨rfl, rfl⟩
  · intro k s hP
    obtain ⟨s', ωs, h1, h2⟩ := dinno_step h grad μ ρ B k s
    obtain ⟨st, hst⟩ : ∃ st, st = (dinnoDoc n.nbrs G μ ρ B)^[k] ⟨x0, fun _ => 0⟩ := ⟨_, rfl⟩
    rw [← hst] at hP
    have ep : ∀ i ∈ n.nodes, (s'.loc i).p = st.p i + ρ • disagreement n.nbrs st.x i := by
      intro i hi
      rw [(h2 i hi).1, (hP i hi).2]
      congr 2
      exact disagreement_congr h.wf (fun j hj => (hP j hj).1) i hi
    refine ⟨s', h1, fun i hi => ?_⟩
    rw [Function.iterate_succ_apply', ← hst]
    refine ⟨?_, ep i hi⟩
    rw [(h2 i hi).2, ep i hi, (hP i hi).1]
    have e : (n.nbrs i).map (fun j => (s.loc j).x) = (n.nbrs i).map st.x :=
      List.map_congr_left fun j hj => (hP j (h.wf.nbrs_mem i j hj)).1
    rw [e]
    have := dinnoTrain_doc (grad i) (G i) (hG i) μ ρ (st.x i) (st.p i + ρ • disagreement n.nbrs st.x i) ((n.nbrs i).map st.x)
      (if n.nbrs i = [] then none else some ((1 / 2 : ℝ) • ((n.nbrs i).map st.x).sum)) (fun h0 => if_pos (by simpa using h0)) (fun h0 => if_neg (by simpa using h0)) B
      (st.x i) (ωs i)
    rw [List.length_map] at this
    exact this

/-- C118: on arrays whose `+=` makes a new array DiNNO performs its documented iterations -/
theorem C118_dinno_recursion {w : World A E Ω} {n : Net A} (h : Lossless w n) (μ ρ : ℝ) (B : Nat) (grad : Grad A E Ω) (G : A → E → E) (hG : Exactly grad G)
    (x0 : A → E) : Computes (dinno grad μ ρ B) (fun a => a.x) w n x0 (fun k => ((dinnoDoc n.nbrs G μ ρ B)^[k] ⟨x0, fun _ => 0⟩).x) := by
  intro s0 k
  obtain ⟨s, hs, hP⟩ := dinno_both h μ ρ B grad G hG x0 s0 k
  exact ⟨s, hs, fun i hi => (hP i hi).1⟩

end

/-! ### the network operator -/
section
variable {A Ω : Type} [DecidableEq A] {d : Nat}

/-- weights with `1 / D` on the edges -/
noncomputable def evenWeights (n : Net A) (D : Nat) (i j : A) : ℝ := if i = j then 1 - (n.nbrs i).length / D else if j ∈ n.nbrs i then 1 / D else 0

theorem evenWeights_good {n : Net A} (hw : n.WF) (hl : Loopless n) {D : Nat} (hD0 : 0 < D) (hD : ∀ i ∈ n.nodes, (n.nbrs i).length ≤ D) : GoodWeights n (evenWeights n D) := by
  have hDr : 0 < (D : ℝ) := by exact_mod_cast hD0
  have hsupp : ∀ i ∈ n.nodes, ∀ j ∈ n.nodes, i ≠ j → j ∉ n.nbrs i → evenWeights n D i j = 0 := by
    intro i _ j _ hij hj; unfold evenWeights; rw [if_neg hij, if_neg hj]
  refine ⟨fun i hi j hj => ?_, fun i hi j hj => ?_, fun i hi => ?_, hsupp, fun i hi j hj => ?_⟩
  · unfold evenWeights
    by_cases h : i = j
    · subst h; rfl
    · rw [if_neg h, if_neg (Ne.symm h)]
      have : j ∈ n.nbrs i ↔ i ∈ n.nbrs j := ⟨hw.symm i j, hw.symm j i⟩
      by_cases h' : j ∈ n.nbrs i
      · rw [if_pos h', if_pos (this.1 h')]
      · rw [if_neg h', if_neg (fun hc => h' (this.2 hc))]
  · unfold evenWeights
    split
    · have : ((n.nbrs i).length : ℝ) / D ≤ 1 := by rw [div_le_one hDr]; exact_mod_cast hD i hi
      linarith
    · split <;> positivity
  · have h1 := sum_split n hw hl i hi (evenWeights n D) hsupp (fun _ => (1 : ℝ))
    unfold applyW at h1
    simp only [smul_eq_mul, mul_one] at h1
    rw [h1]
    have h2 : (n.nbrs i).map (fun j => evenWeights n D i j) = (n.nbrs i).map (fun _ => 1 / (D : ℝ)) := by
      refine List.map_congr_left fun j hj => ?_
      unfold evenWeights
      rw [if_neg (fun (e : i = j) => hl i (by rw [← e] at hj; exact hj)), if_pos hj]
    rw [h2]
    unfold evenWeights
    rw [if_pos rfl]
    simp only [List.map_const', List.sum_replicate, nsmul_eq_mul]
    ring
  · unfold evenWeights
    rw [if_neg (fun (e : i = j) => hl i (by rw [← e] at hj; exact hj)), if_pos hj]; positivity

/-- `x_i - Σ_j W_ij x_j` is the disagreement over `D` -/
theorem disagreement_eq {n : Net A} (hw : n.WF) (hl : Loopless n) {D : Nat} (hD0 : 0 < D) (hD : ∀ i ∈ n.nodes, (n.nbrs i).length ≤ D) (x : A → Vec d) (i : A) (hi : i ∈ n.nodes) :
    disagreement n.nbrs x i = (D : ℝ) • (x i - matVec n (evenWeights n D) x i) := by
  have hDr : (D : ℝ) ≠ 0 := by exact_mod_cast hD0.ne'
  have h1 := sum_split n hw hl i hi (evenWeights n D) (evenWeights_good hw hl hD0 hD).supported x
  have h2 : (n.nbrs i).map (fun j => evenWeights n D i j • x j) = (n.nbrs i).map (fun j => (1 / (D : ℝ)) • x j) := by
    refine List.map_congr_left fun j hj => ?_
    unfold evenWeights
    rw [if_neg (fun (e : i = j) => hl i (by rw [← e] at hj; exact hj)), if_pos hj]
  have h3 : ((n.nbrs i).map (fun j => (1 / (D : ℝ)) • x j)).sum = (1 / (D : ℝ)) • ((n.nbrs i).map x).sum := by
    rw [List.smul_sum, List.map_map]; rfl
  have h4 : matVec n (evenWeights n D) x i = (1 - (n.nbrs i).length / (D : ℝ)) • x i + (1 / (D : ℝ)) • ((n.nbrs i).map x).sum := by
    rw [← h3, ← h2]
    have e : evenWeights n D i i = 1 - (n.nbrs i).length / (D : ℝ) := if_pos rfl
    rw [← e]
    exact h1
  rw [h4]
  unfold disagreement
  rw [sum_const_sub, smul_sub, smul_add, smul_smul, smul_smul, mul_one_div_cancel hDr, one_smul, ← Nat.cast_smul_eq_nsmul ℝ]
  have e5 : (D : ℝ) * (1 - ((n.nbrs i).length : ℝ) / D) = D - (n.nbrs i).length := by field_simp
  rw [e5, sub_smul]
  abel

/-- the disagreement of all agents, as an operator -/
noncomputable def netOp (n : Net A) (D : Nat) : Stack (Node n) d →ₗ[ℝ] Stack (Node n) d := (2 * (D : ℝ)) • minus (mixOp (nodeW n (evenWeights n D)))

theorem netOp_gather {n : Net A} (hw : n.WF) (hl : Loopless n) {D : Nat} (hD0 : 0 < D) (hD : ∀ i ∈ n.nodes, (n.nbrs i).length ≤ D) (x : A → Vec d) :
    gather n (disagreement n.nbrs x) = netOp n D (gather n x) := by
  unfold netOp
  rw [LinearMap.smul_apply, minus_apply, ← gather_matVec hw.nodup, smul_smul]
  apply stack_ext; intro i
  show disagreement n.nbrs x i.1 = ((2 * (D : ℝ)) * (1 / 2)) • (x i.1 - matVec n (evenWeights n D) x i.1)
  rw [disagreement_eq hw hl hD0 hD x i.1 i.mem]
  congr 1; ring

structure NetOp (n : Net A) (D : Nat) (M : Stack (Node n) d →ₗ[ℝ] Stack (Node n) d) (c : ℝ) : Prop where
  symm : ∀ u v, ⟪M u, v⟫_ℝ = ⟪u, M v⟫_ℝ
  nonneg : ∀ v, 0 ≤ ⟪v, M v⟫_ℝ
  le : ∀ v, ‖M v‖ ≤ 2 * (D : ℝ) * ‖v‖
  pos : 0 < c
  gap : ∀ v, c * ⟪v, M v⟫_ℝ ≤ ‖M v‖ ^ 2

theorem netOp_facts {n : Net A} (hw : n.WF) (hl : Loopless n) {D : Nat} (hD0 : 0 < D) (hD : ∀ i ∈ n.nodes, (n.nbrs i).length ≤ D) :
    ∃ c, NetOp (d := d) n D (netOp n D) c := by
  have hDr : 0 < (D : ℝ) := by exact_mod_cast hD0
  have hS := (evenWeights_good hw hl hD0 hD).stochastic hw.nodup
  have hA : Averaging (mixOp (nodeW n (evenWeights n D)) : Stack (Node n) d →ₗ[ℝ] Stack (Node n) d) := averaging hS
  have hsym : ∀ u v : Stack (Node n) d, ⟪netOp n D u, v⟫_ℝ = ⟪u, netOp n D v⟫_ℝ := by
    intro u v
    unfold netOp
    rw [LinearMap.smul_apply, LinearMap.smul_apply, real_inner_smul_left, real_inner_smul_right, minus_symm hA]
  have hnn : ∀ v : Stack (Node n) d, 0 ≤ ⟪v, netOp n D v⟫_ℝ := by
    intro v
    unfold netOp
    rw [LinearMap.smul_apply, real_inner_smul_right]
    exact mul_nonneg (by positivity) (minus_nonneg hA v)
  obtain ⟨c, hc, _, hg⟩ := exists_gap (netOp n D : Stack (Node n) d →ₗ[ℝ] Stack (Node n) d) hsym hnn
  refine ⟨c, hsym, hnn, fun v => ?_, hc, hg⟩
  unfold netOp
  rw [LinearMap.smul_apply, norm_smul, Real.norm_eq_abs, abs_of_pos (by positivity)]
  refine mul_le_mul_of_nonneg_left ?_ (by positivity)
  rw [minus_apply, norm_smul, Real.norm_eq_abs, abs_of_pos (by norm_num : (0 : ℝ) < 1 / 2)]
  have h1 := norm_sub_le v (mixOp (nodeW n (evenWeights n D)) v)
  have h2 := hA.le v
  linarith

theorem netOp_agree {n : Net A} (hw : n.WF) (hl : Loopless n) {D : Nat} (hD0 : 0 < D) (hD : ∀ i ∈ n.nodes, (n.nbrs i).length ≤ D) (x : Vec d) :
    netOp n D (gather n (fun _ => x)) = 0 := by
  rw [← netOp_gather hw hl hD0 hD]
  apply stack_ext; intro i
  show disagreement n.nbrs (fun _ => x) i.1 = 0
  unfold disagreement
  simp

theorem netOp_dual {n : Net A} (hw : n.WF) (hl : Loopless n) (hc : JoinedUp n) {D : Nat} (hD0 : 0 < D) (hD : ∀ i ∈ n.nodes, (n.nbrs i).length ≤ D) (G : A → Vec d → Vec d)
    (xs : Vec d) (hxs : (n.nodes.map (fun i => G i xs)).sum = 0) : ∃ us, gradAt (nodeG n G) (gather n (fun _ => xs)) + netOp n D us = 0 := by
  have hDr : (D : ℝ) ≠ 0 := by exact_mod_cast hD0.ne'
  obtain ⟨us, hus⟩ := exists_dual hw (evenWeights_good hw hl hD0 hD) hc G xs hxs 1
  refine ⟨(1 / (2 * (D : ℝ))) • us, ?_⟩
  unfold netOp
  rw [LinearMap.smul_apply, map_smul, smul_smul, mul_one_div_cancel (by positivity), one_smul, hus, one_smul, add_neg_cancel]

theorem three_point {f : Vec d → ℝ} {g : Vec d → Vec d} {L m : ℝ} (hu : Upper f g L) (hl : Lower f g m) (x y z : Vec d) :
    m / 2 * (‖x - z‖ ^ 2 + ‖y - z‖ ^ 2) - L / 2 * ‖y - x‖ ^ 2 ≤ ⟪y - z, g x - g z⟫_ℝ := by
  have h1 := hu x y
  have h2 := hl x z
  have h3 := hl z y
  have e1 : ⟪g x, y - x⟫_ℝ - ⟪g x, z - x⟫_ℝ = ⟪y - z, g x⟫_ℝ := by
    rw [← inner_sub_right, real_inner_comm]; congr 1; abel
  have e2 : ⟪g z, y - z⟫_ℝ = ⟪y - z, g z⟫_ℝ := real_inner_comm _ _
  rw [inner_sub_right, ← e1, ← e2]
  rw [norm_sub_rev z x] at h2
  linarith

theorem stack_three {f : A → Vec d → ℝ} {G : A → Vec d → Vec d} {n : Net A} {L m : ℝ} (h : Smooth n f G L m) : ThreePoint (gradAt (nodeG n G)) L m := by
  intro x y z
  rw [stack_norm_sq, stack_norm_sq, stack_norm_sq, stack_inner, ← Finset.sum_add_distrib, Finset.mul_sum, Finset.mul_sum, ← Finset.sum_sub_distrib]
  exact Finset.sum_le_sum fun i _ => three_point (h.nodes.1 i) (h.nodes.2 i) (x i) (y i) (z i)

theorem stack_lip {f : A → Vec d → ℝ} {G : A → Vec d → Vec d} {n : Net A} {L m : ℝ} (h : Smooth n f G L m) (x y : Stack (Node n) d) :
    ‖gradAt (nodeG n G) x - gradAt (nodeG n G) y‖ ≤ L * ‖x - y‖ := by
  have h1 := stack_cocoercive h.Lpos h.nodes.1 (fun i => (h.nodes.2 i).mono h.mpos.le) x y
  have h2 := real_inner_le_norm (gradAt (nodeG n G) x - gradAt (nodeG n G) y) (x - y)
  by_contra hc
  have h3 := not_le.1 hc
  have h4 : 0 < ‖gradAt (nodeG n G) x - gradAt (nodeG n G) y‖ := lt_of_le_of_lt (mul_nonneg h.Lpos.le (norm_nonneg _)) h3
  have h5 := mul_le_mul_of_nonneg_left h2 h.Lpos.le
  have h6 := mul_lt_mul_of_pos_left h3 h4
  nlinarith

/-- the common rate: a sequence that starts anywhere and follows the linearised method of multipliers -/
theorem linearised_network {n : Net A} (hw : n.WF) (hl : Loopless n) (hc : JoinedUp n) {D : Nat} (hD0 : 0 < D) (hD : ∀ i ∈ n.nodes, (n.nbrs i).length ≤ D)
    {f : A → Vec d → ℝ} {G : A → Vec d → Vec d} {L m : ℝ} (hf : Smooth n f G L m) {μ ρ : ℝ} (hμ : 0 < μ) (hρ : 0 < ρ) (hsmall : μ * (L + 2 * ρ * D) < 1)
    {xs : Vec d} (hxs : SolvesSum n f xs) :
    ∃ r : ℝ, 0 < r ∧ r < 1 ∧ ∀ (x u : Nat → A → Vec d), (∀ k, ∀ i ∈ n.nodes, x (k + 1) i = x k i - μ • (G i (x k i) + ρ • disagreement n.nbrs (x k) i + disagreement n.nbrs (u k) i)) →
      (∀ k, ∀ i ∈ n.nodes, u (k + 1) i = u k i + ρ • x (k + 1) i) → ∃ C : ℝ, ∀ k, ‖gather n (x k) - gather n (fun _ => xs)‖ ^ 2 ≤ C * r ^ k := by
  obtain ⟨c, hM⟩ := netOp_facts (d := d) hw hl hD0 hD
  obtain ⟨us, hus⟩ := netOp_dual (d := d) hw hl hc hD0 hD G xs ((solves_iff hf xs).1 hxs)
  obtain ⟨r, hr0, hr1, hr⟩ := linearised_rate (netOp n D : Stack (Node n) d →ₗ[ℝ] Stack (Node n) d) hM.symm hM.nonneg L m (2 * D) c μ ρ hf.Lpos hf.mpos (by positivity) hμ hρ
    hM.le hM.pos hM.gap (by rw [show ρ * (2 * (D : ℝ)) = 2 * ρ * D by ring]; exact hsmall)
  refine ⟨r, hr0, hr1, fun x u hx hu => ?_⟩
  refine hr (gradAt (nodeG n G)) (stack_three hf) (stack_lip hf) (gather n (fun _ => xs)) us (netOp_agree hw hl hD0 hD xs) hus (fun k => gather n (x k)) (fun k => gather n (u k))
    (fun k => ?_) (fun k => ?_)
  · rw [← netOp_gather hw hl hD0 hD, ← netOp_gather hw hl hD0 hD]
    apply stack_ext; intro i
    exact hx k i.1 i.mem
  · apply stack_ext; intro i
    exact hu k i.1 i.mem

theorem disagreement_add (nb : A → List A) (u v : A → Vec d) (ρ : ℝ) (i : A) :
    disagreement nb (fun j => u j + ρ • v j) i = disagreement nb u i + ρ • disagreement nb v i := by
  unfold disagreement
  induction nb i with
  | nil => simp
  | cons a t ih => simp only [List.map_cons, List.sum_cons, ih]; module

/-- the running sum behind the dual variable -/
noncomputable def runningSum (ρ : ℝ) (u0 : A → Vec d) (x : Nat → A → Vec d) : Nat → A → Vec d
  | 0 => u0
  | k + 1 => fun i => runningSum ρ u0 x k i + ρ • x (k + 1) i

/-- C118: DLM (on arrays whose `+=` makes a new array) converges linearly to the minimiser of the sum for every step size below
`1 / (L + 2 ρ D)` -/
theorem C118_dlm_linear {w : World A (Vec d) Ω} {n : Net A} (h : Lossless w n) (hc : JoinedUp n) {D : Nat} (hD0 : 0 < D) (hD : ∀ i ∈ n.nodes, (n.nbrs i).length ≤ D)
    {f : A → Vec d → ℝ} {G : A → Vec d → Vec d} {L m : ℝ} (hf : Smooth n f G L m) (grad : Grad A (Vec d) Ω) (hG : Exactly grad G) {μ ρ : ℝ} (hμ : 0 < μ) (hρ : 0 < ρ)
    (hsmall : μ * (L + 2 * ρ * D) < 1) (xs : Vec d) (hxs : SolvesSum n f xs) : LinearTo (dlm grad μ ρ) (fun a => a.x) w n (fun _ => xs) := by
  obtain ⟨r, hr0, hr1, hr⟩ := linearised_network h.wf h.noLoops hc hD0 hD hf hμ hρ hsmall hxs
  refine linear_of_stack (fun x0 k => (dlmDoc n.nbrs G μ ρ x0 (k - 1)).1) (fun x0 => C118_dlm_recursion h μ ρ grad G hG x0) r hr0.le hr1 fun x0 => ?_
  have hz : ∀ k i, (dlmDoc n.nbrs G μ ρ x0 k).2 i = disagreement n.nbrs (runningSum ρ (fun _ => 0) (fun k => (dlmDoc n.nbrs G μ ρ x0 k).1) k) i := by
    intro k
    induction k with
    | zero => intro i; simp [dlmDoc, runningSum, disagreement]
    | succ k ih =>
      intro i
      rw [runningSum, disagreement_add, ← ih i]
      rfl
  obtain ⟨C, hC⟩ := hr (fun k => (dlmDoc n.nbrs G μ ρ x0 k).1) (runningSum ρ (fun _ => 0) (fun k => (dlmDoc n.nbrs G μ ρ x0 k).1)) (fun k i hi => by
    rw [← hz k i]; rfl) (fun k i hi => rfl)
  have hC0 : 0 ≤ C := by
    have := (sq_nonneg _).trans (hC 0)
    rwa [pow_zero, mul_one] at this
  refine ⟨C / r, fun k => ?_⟩
  rcases Nat.eq_zero_or_pos k with hk | hk
  · subst hk
    refine (hC 0).trans ?_
    rw [pow_zero, mul_one, mul_one, le_div_iff₀ hr0]
    exact mul_le_of_le_one_right hC0 hr1.le
  · obtain ⟨k', rfl⟩ : ∃ k', k = k' + 1 := ⟨k - 1, by omega⟩
    refine (hC k').trans (le_of_eq ?_)
    rw [pow_succ]; field_simp

theorem inner_once (G : Vec d → Vec d) (μ ρ : ℝ) (p : Vec d) (nb : A → List A) (x : A → Vec d) (i : A) :
    dinnoInnerDoc G μ ρ (x i) p ((nb i).map x) 1 (x i) = x i - μ • (G (x i) + ρ • disagreement nb x i + p) := by
  have e : ∀ l : List A, (2 * ρ) • ((l.map x).map (fun xj => x i - (1 / 2 : ℝ) • (x i + xj))).sum = ρ • (l.map (fun j => x i - x j)).sum := by
    intro l
    induction l with
    | nil => simp
    | cons a t ih =>
      simp only [List.map_cons, List.sum_cons]
      rw [smul_add (2 * ρ), ih, smul_add ρ]
      congr 1
      module
  show x i - μ • (G (x i) + p + (2 * ρ) • (((nb i).map x).map (fun xj => x i - (1 / 2 : ℝ) • (x i + xj))).sum) = _
  rw [e]
  unfold disagreement
  module

/-- C118: the same for DiNNO with one local step per iteration -/
theorem C118_dinno_linear {w : World A (Vec d) Ω} {n : Net A} (h : Lossless w n) (hc : JoinedUp n) {D : Nat} (hD0 : 0 < D) (hD : ∀ i ∈ n.nodes, (n.nbrs i).length ≤ D)
    {f : A → Vec d → ℝ} {G : A → Vec d → Vec d} {L m : ℝ} (hf : Smooth n f G L m) (grad : Grad A (Vec d) Ω) (hG : Exactly grad G) {μ ρ : ℝ} (hμ : 0 < μ) (hρ : 0 < ρ)
    (hsmall : μ * (L + 2 * ρ * D) < 1) (xs : Vec d) (hxs : SolvesSum n f xs) : LinearTo (dinno grad μ ρ 1) (fun a => a.x) w n (fun _ => xs) := by
  obtain ⟨r, hr0, hr1, hr⟩ := linearised_network h.wf h.noLoops hc hD0 hD hf hμ hρ hsmall hxs
  refine linear_of_stack (fun x0 k => ((dinnoDoc n.nbrs G μ ρ 1)^[k] ⟨x0, fun _ => 0⟩).x) (fun x0 => C118_dinno_recursion h μ ρ 1 grad G hG x0) r hr0.le hr1 fun x0 => ?_
  obtain ⟨st, hst⟩ : ∃ st : Nat → Alias.Dinno A (Vec d), st = fun k => (dinnoDoc n.nbrs G μ ρ 1)^[k] ⟨x0, fun _ => 0⟩ := ⟨_, rfl⟩
  have hstep : ∀ k, st (k + 1) = dinnoDoc n.nbrs G μ ρ 1 (st k) := fun k => by rw [hst]; exact Function.iterate_succ_apply' _ _ _
  have h0 : st 0 = ⟨x0, fun _ => 0⟩ := by rw [hst]; rfl
  have hz : ∀ k i, (st (k + 1)).p i = disagreement n.nbrs (runningSum ρ (fun i => ρ • x0 i) (fun k => (st k).x) k) i := by
    intro k
    induction k with
    | zero =>
      intro i
      rw [hstep, h0]
      show 0 + ρ • disagreement n.nbrs x0 i = _
      have := disagreement_add n.nbrs (fun _ => (0 : Vec d)) x0 ρ i
      rw [runningSum]
      have e : (fun j => (0 : Vec d) + ρ • x0 j) = fun i => ρ • x0 i := by funext j; rw [zero_add]
      rw [e] at this
      rw [this]
      congr 1
      simp [disagreement]
    | succ k ih =>
      intro i
      rw [runningSum, disagreement_add, ← ih i, hstep (k + 1)]
      rfl
  have hx : ∀ k i, (st (k + 1)).x i = (st k).x i - μ • (G i ((st k).x i) + ρ • disagreement n.nbrs (st k).x i + (st (k + 1)).p i) := by
    intro k i
    have e1 : (st (k + 1)).x i = dinnoInnerDoc (G i) μ ρ ((st k).x i) ((st (k + 1)).p i) ((n.nbrs i).map (st k).x) 1 ((st k).x i) := by
      rw [hstep k]; rfl
    rw [e1, inner_once]
  obtain ⟨C, hC⟩ := hr (fun k => (st k).x) (runningSum ρ (fun i => ρ • x0 i) (fun k => (st k).x)) (fun k i hi => by rw [← hz k i]; exact hx k i) (fun k i hi => rfl)
  refine ⟨C, fun k => ?_⟩
  have := hC k
  rw [hst] at this
  exact this

/-! ### where DiNNO rests -/

theorem spring_sum_upper (l : List (Vec d)) {ρ : ℝ} (hρ : 0 ≤ ρ) : Upper (fun y => ρ * (l.map (fun c => ‖y - c‖ ^ 2)).sum) (fun y => (2 * ρ) • (l.map (fun c => y - c)).sum) (2 * ρ * l.length) := by
  intro x y
  induction l with
  | nil => simp
  | cons a t ih =>
    have e : ‖y - a‖ ^ 2 = ‖x - a‖ ^ 2 + 2 * ⟪x - a, y - x⟫_ℝ + ‖y - x‖ ^ 2 := by
      have : y - a = (x - a) + (y - x) := by abel
      rw [this, norm_add_sq_real]
    simp only [List.map_cons, List.sum_cons, smul_add, inner_add_left, List.length_cons, Nat.cast_add, Nat.cast_one] at ih ⊢
    rw [e, real_inner_smul_left (x - a)]
    have e2 : 2 * ρ * ((t.length : ℝ) + 1) / 2 * ‖y - x‖ ^ 2 = 2 * ρ * (t.length : ℝ) / 2 * ‖y - x‖ ^ 2 + ρ * ‖y - x‖ ^ 2 := by ring
    have e3 : ρ * (‖x - a‖ ^ 2 + 2 * ⟪x - a, y - x⟫_ℝ + ‖y - x‖ ^ 2 + (t.map (fun c => ‖y - c‖ ^ 2)).sum) =
      ρ * ‖x - a‖ ^ 2 + 2 * ρ * ⟪x - a, y - x⟫_ℝ + ρ * ‖y - x‖ ^ 2 + ρ * (t.map (fun c => ‖y - c‖ ^ 2)).sum := by ring
    have e4 : ρ * (‖x - a‖ ^ 2 + (t.map (fun c => ‖x - c‖ ^ 2)).sum) = ρ * ‖x - a‖ ^ 2 + ρ * (t.map (fun c => ‖x - c‖ ^ 2)).sum := by ring
    rw [e2, e3, e4]
    linarith

theorem inner_iterate (G : Vec d → Vec d) (μ ρ : ℝ) (xi p : Vec d) (nb : List (Vec d)) (B : Nat) (psi : Vec d) :
    dinnoInnerDoc G μ ρ xi p nb B psi = (fun y => y - μ • (G y + p + (2 * ρ) • ((nb.map (fun xj => (1 / 2 : ℝ) • (xi + xj))).map (fun c => y - c)).sum))^[B] psi := by
  induction B generalizing psi with
  | zero => rfl
  | succ B ih =>
    rw [dinnoInnerDoc, ih, Function.iterate_succ_apply, List.map_map]
    rfl

/-- a local problem of DiNNO whose gradient steps return to their start is solved there -/
theorem inner_return {f : Vec d → ℝ} {G : Vec d → Vec d} {L : ℝ} (hu : Upper f G L) {μ ρ : ℝ} (hμ : 0 < μ) (hρ : 0 ≤ ρ) (xi p : Vec d) (nb : List (Vec d))
    (hs : μ * (L + 2 * ρ * nb.length) < 2) (B : Nat) (hB : 0 < B) (hr : dinnoInnerDoc G μ ρ xi p nb B xi = xi) :
    G xi + p + (2 * ρ) • (nb.map (fun xj => xi - (1 / 2 : ℝ) • (xi + xj))).sum = 0 := by
  have hup : Upper (fun y => f y + ⟪p, y⟫_ℝ + ρ * ((nb.map (fun xj => (1 / 2 : ℝ) • (xi + xj))).map (fun c => ‖y - c‖ ^ 2)).sum)
      (fun y => G y + p + (2 * ρ) • ((nb.map (fun xj => (1 / 2 : ℝ) • (xi + xj))).map (fun c => y - c)).sum) (L + 2 * ρ * nb.length) := by
    intro x y
    have h1 := hu x y
    have h2 := spring_sum_upper (nb.map (fun xj => (1 / 2 : ℝ) • (xi + xj))) hρ x y
    rw [List.length_map] at h2
    have h3 : ⟪p, y⟫_ℝ = ⟪p, x⟫_ℝ + ⟪p, y - x⟫_ℝ := by rw [inner_sub_right]; ring
    dsimp only at h2 ⊢
    rw [inner_add_left, inner_add_left, h3]
    have h4 : (L + 2 * ρ * (nb.length : ℝ)) / 2 * ‖y - x‖ ^ 2 = L / 2 * ‖y - x‖ ^ 2 + 2 * ρ * (nb.length : ℝ) / 2 * ‖y - x‖ ^ 2 := by ring
    rw [h4]
    linarith
  rw [inner_iterate] at hr
  have := gd_return hup hμ hs B hB xi hr
  rw [List.map_map] at this
  exact this

theorem total_disagreement {n : Net A} (hw : n.WF) (hl : Loopless n) {D : Nat} (hD0 : 0 < D) (hD : ∀ i ∈ n.nodes, (n.nbrs i).length ≤ D) (x : A → Vec d) :
    total n (disagreement n.nbrs x) = 0 := by
  rw [total_congr n (fun i hi => disagreement_eq hw hl hD0 hD x i hi), total_smul, total_sub]
  have := total_applyW n (evenWeights n D) 1 (evenWeights_good hw hl hD0 hD).mixing.colSum x
  rw [one_smul] at this
  have e : total n (matVec n (evenWeights n D) x) = total n x := this
  rw [e, sub_self, smul_zero]

/-- C118: a DiNNO run, with any number of local steps, that stops moving has reached consensus on the minimiser of the sum -/
theorem C118_dinno_rests {w : World A (Vec d) Ω} {n : Net A} (h : Lossless w n) (hc : JoinedUp n) {D : Nat} (hD0 : 0 < D) (hD : ∀ i ∈ n.nodes, (n.nbrs i).length ≤ D)
    {f : A → Vec d → ℝ} {G : A → Vec d → Vec d} {L m : ℝ} (hf : Smooth n f G L m) (grad : Grad A (Vec d) Ω) (hG : Exactly grad G) {μ ρ : ℝ} (hμ : 0 < μ) (hρ : 0 < ρ)
    (hsmall : μ * (L + 2 * ρ * D) < 2) (B : Nat) (hB : 0 < B) (x0 : A → Vec d) (s0 : Sys A (Vec d) Ω (DinnoLoc (Vec d))) (k : Nat) (s s' : Sys A (Vec d) Ω (DinnoLoc (Vec d)))
    (hs : (dinno grad μ ρ B).after w n x0 s0 k = .ok s) (hs' : (dinno grad μ ρ B).after w n x0 s0 (k + 1) = .ok s')
    (hrest : ∀ i ∈ n.nodes, (s'.loc i).x = (s.loc i).x ∧ (s'.loc i).p = (s.loc i).p) :
    ∃ xs, (∀ i ∈ n.nodes, (s.loc i).x = xs) ∧ SolvesSum n f xs := by
  obtain ⟨t, ht, hP⟩ := dinno_both h μ ρ B grad G hG x0 s0 k
  obtain ⟨t', ht', hP'⟩ := dinno_both h μ ρ B grad G hG x0 s0 (k + 1)
  rw [hs] at ht; cases ht
  rw [hs'] at ht'; cases ht'
  obtain ⟨st, hst⟩ : ∃ st : Nat → Alias.Dinno A (Vec d), st = fun k => (dinnoDoc n.nbrs G μ ρ B)^[k] ⟨x0, fun _ => 0⟩ := ⟨_, rfl⟩
  have hstep : ∀ k, st (k + 1) = dinnoDoc n.nbrs G μ ρ B (st k) := fun k => by rw [hst]; exact Function.iterate_succ_apply' _ _ _
  have hk : ∀ i ∈ n.nodes, (s.loc i).x = (st k).x i ∧ (s.loc i).p = (st k).p i := by rw [hst]; exact hP
  have hk' : ∀ i ∈ n.nodes, (s'.loc i).x = (st (k + 1)).x i ∧ (s'.loc i).p = (st (k + 1)).p i := by rw [hst]; exact hP'
  have htot : ∀ k, total n (st k).p = 0 := by
    intro k
    induction k with
    | zero => rw [hst]; exact total_zero n
    | succ k ih =>
      rw [hstep]
      show total n (fun i => (st k).p i + ρ • disagreement n.nbrs (st k).x i) = 0
      rw [total_add, ih, total_smul, total_disagreement h.wf h.noLoops hD0 hD, smul_zero, add_zero]
  have hdis : ∀ i ∈ n.nodes, disagreement n.nbrs (st k).x i = 0 := by
    intro i hi
    have e1 : (st (k + 1)).p i = (st k).p i := by rw [← (hk' i hi).2, ← (hk i hi).2]; exact (hrest i hi).2
    rw [hstep] at e1
    have e2 : (st k).p i + ρ • disagreement n.nbrs (st k).x i = (st k).p i := e1
    have e3 : ρ • disagreement n.nbrs (st k).x i = 0 := by rwa [add_eq_left] at e2
    exact (smul_eq_zero.1 e3).resolve_left hρ.ne'
  have hS := (evenWeights_good h.wf h.noLoops hD0 hD).stochastic h.wf.nodup
  have hag : Agree (gather n (st k).x) := by
    refine minus_ker hS ((evenWeights_good h.wf h.noLoops hD0 hD).linked h.wf hc) _ ?_
    have e1 : netOp n D (gather n (st k).x) = 0 := by
      rw [← netOp_gather h.wf h.noLoops hD0 hD]
      apply stack_ext; intro i
      exact hdis i.1 i.mem
    unfold netOp at e1
    rw [LinearMap.smul_apply] at e1
    have hDr : (D : ℝ) ≠ 0 := by exact_mod_cast hD0.ne'
    exact (smul_eq_zero.1 e1).resolve_left (by positivity)
  have hag' : ∀ i ∈ n.nodes, ∀ j ∈ n.nodes, (st k).x i = (st k).x j := fun i hi j hj => hag (toNode hi) (toNode hj)
  rcases List.eq_nil_or_concat n.nodes with he | ⟨l, a, hla⟩
  · exact ⟨0, fun i hi => (by rw [he] at hi; cases hi), fun y => (by rw [he]; exact le_rfl)⟩
  have ha : a ∈ n.nodes := by rw [hla]; simp
  refine ⟨(st k).x a, fun i hi => by rw [(hk i hi).1]; exact hag' i hi a ha, ?_⟩
  rw [solves_iff hf]
  have hgr : ∀ i ∈ n.nodes, G i ((st k).x a) = -(st (k + 1)).p i := by
    intro i hi
    have e1 : dinnoInnerDoc (G i) μ ρ ((st k).x i) ((st (k + 1)).p i) ((n.nbrs i).map (st k).x) B ((st k).x i) = (st k).x i := by
      have : (st (k + 1)).x i = (st k).x i := by rw [← (hk' i hi).1, ← (hk i hi).1]; exact (hrest i hi).1
      rw [hstep] at this ⊢
      exact this
    have hdeg : ((n.nbrs i).length : ℝ) ≤ D := by exact_mod_cast hD i hi
    have hsm : μ * (L + 2 * ρ * (((n.nbrs i).map (st k).x).length : ℝ)) < 2 := by
      rw [List.length_map]
      refine lt_of_le_of_lt (mul_le_mul_of_nonneg_left ?_ hμ.le) hsmall
      have := mul_le_mul_of_nonneg_left hdeg (show 0 ≤ 2 * ρ by positivity)
      linarith
    have e2 := inner_return (hf.upper i hi) hμ hρ.le _ _ _ hsm B hB e1
    have e3 : ((n.nbrs i).map (st k).x).map (fun xj => (st k).x i - (1 / 2 : ℝ) • ((st k).x i + xj)) = (n.nbrs i).map (fun _ => (0 : Vec d)) := by
      rw [List.map_map]
      refine List.map_congr_left fun j hj => ?_
      show (st k).x i - (1 / 2 : ℝ) • ((st k).x i + (st k).x j) = 0
      rw [hag' j (h.wf.nbrs_mem i j hj) i hi]
      module
    rw [e3, List.map_const', List.sum_replicate, smul_zero, smul_zero, add_zero, hag' i hi a ha] at e2
    exact eq_neg_of_add_eq_zero_left e2
  have : (n.nodes.map (fun i => G i ((st k).x a))).sum = total n (fun i => -(st (k + 1)).p i) := total_congr n hgr
  rw [this, total_neg, htot, neg_zero]

/-! ### NumPy and torch on a triangle -/

/-- the sums stored by agents 0, 1, 2 of a triangle when the received arrays are summed in place -/
theorem triangle_sums (x s : Nat → Vec d) : (Alias.gather Alias.shared triHeard x [0, 1, 2] (Alias.heapOf id x) s).1 0 = (2 : ℝ) • x 0 - (x 1 + x 2) ∧
    (Alias.gather Alias.shared triHeard x [0, 1, 2] (Alias.heapOf id x) s).1 1 = (2 : ℝ) • x 1 - (x 0 + x 2) ∧
    (Alias.gather Alias.shared triHeard x [0, 1, 2] (Alias.heapOf id x) s).1 2 = -(x 0 + x 1) := by
  refine ⟨?_, ?_, ?_⟩
  · simp [Alias.gather, triHeard, Alias.sumInPlace, Alias.shared, upd, Alias.heapOf, two_smul]
  · simp [Alias.gather, triHeard, Alias.sumInPlace, Alias.shared, upd, Alias.heapOf, two_smul]
  · simp [Alias.gather, triHeard, Alias.sumInPlace, Alias.shared, upd, Alias.heapOf, two_smul]
    abel

/-- C118: on a triangle, with NumPy arrays or torch tensors and no noise, a DLM run whose states converge has converged to zero, whatever
the costs: no other point can be reached -/
theorem C118_triangle_inplace (G : Nat → Vec d → Vec d) (hcont : ∀ i, Continuous (G i)) (μ ρ : ℝ) (hμ : 0 < μ) (hρ : 0 < ρ) (x0 X : Nat → Vec d)
    (hX : ∀ i ∈ [0, 1, 2], Filter.Tendsto (fun k => (Alias.dlmAfter id Alias.shared triHeard [0, 1, 2] G μ ρ x0 k).x i) Filter.atTop (nhds (X i))) :
    X 0 = 0 ∧ X 1 = 0 ∧ X 2 = 0 := by
  obtain ⟨st, hst⟩ : ∃ st : Nat → Alias.Dlm Nat (Vec d), st = fun k => Alias.dlmAfter id Alias.shared triHeard [0, 1, 2] G μ ρ x0 (k + 1) := ⟨_, rfl⟩
  have hx : ∀ i ∈ [0, 1, 2], Filter.Tendsto (fun k => (st k).x i) Filter.atTop (nhds (X i)) := by
    intro i hi; rw [hst]; exact (Filter.tendsto_add_atTop_iff_nat 1).2 (hX i hi)
  have hstep : ∀ k, st (k + 1) = Alias.dlmStep id Alias.shared triHeard [0, 1, 2] G μ ρ (k + 1) (st k) := fun k => by rw [hst]; rfl
  have hxs : ∀ k, ∀ i ∈ [0, 1, 2], (st (k + 1)).x i = (st k).x i - μ • (G i ((st k).x i) + ρ • (st k).s i + (st k).y i) := by
    intro k i hi
    rw [hstep, Alias.dlmStep, if_neg (by omega)]
    dsimp only
    rw [if_pos hi]
  have hss : ∀ k, (st k).s 0 = (2 : ℝ) • (st k).x 0 - ((st k).x 1 + (st k).x 2) ∧ (st k).s 1 = (2 : ℝ) • (st k).x 1 - ((st k).x 0 + (st k).x 2) ∧
      (st k).s 2 = -((st k).x 0 + (st k).x 1) := by
    intro k
    cases k with
    | zero =>
      rw [hst]
      show _ = _ ∧ _ = _ ∧ _ = _
      simp only [Alias.dlmAfter, Alias.dlmStep, if_true]
      exact triangle_sums _ _
    | succ k =>
      rw [hstep, Alias.dlmStep, if_neg (by omega)]
      dsimp only
      exact triangle_sums _ _
  have hys : ∀ k, ∀ i ∈ [0, 1, 2], (st (k + 1)).y i = (st k).y i + ρ • (st (k + 1)).s i := by
    intro k i hi
    rw [hstep, Alias.dlmStep, if_neg (by omega)]
    dsimp only
    rw [if_pos hi]
  have t0 := hx 0 (by simp)
  have t1 := hx 1 (by simp)
  have t2 := hx 2 (by simp)
  have hs0 : Filter.Tendsto (fun k => (st k).s 0) Filter.atTop (nhds ((2 : ℝ) • X 0 - (X 1 + X 2))) := by
    simp only [fun k => (hss k).1]; exact (t0.const_smul 2).sub (t1.add t2)
  have hs1 : Filter.Tendsto (fun k => (st k).s 1) Filter.atTop (nhds ((2 : ℝ) • X 1 - (X 0 + X 2))) := by
    simp only [fun k => (hss k).2.1]; exact (t1.const_smul 2).sub (t0.add t2)
  have hs2 : Filter.Tendsto (fun k => (st k).s 2) Filter.atTop (nhds (-(X 0 + X 1))) := by
    simp only [fun k => (hss k).2.2]; exact (t0.add t1).neg
  have key : ∀ i ∈ [0, 1, 2], ∀ S : Vec d, Filter.Tendsto (fun k => (st k).s i) Filter.atTop (nhds S) → S = 0 := by
    intro i hi S hS
    have hy : ∀ k, (st k).y i = (1 / μ) • ((st k).x i - (st (k + 1)).x i) - G i ((st k).x i) - ρ • (st k).s i := by
      intro k
      rw [hxs k i hi, sub_sub_cancel, smul_smul, one_div_mul_cancel hμ.ne', one_smul]
      abel
    have hx1 : Filter.Tendsto (fun k => (st (k + 1)).x i) Filter.atTop (nhds (X i)) := (Filter.tendsto_add_atTop_iff_nat 1).2 (hx i hi)
    have hyt : Filter.Tendsto (fun k => (st k).y i) Filter.atTop (nhds ((1 / μ) • (X i - X i) - G i (X i) - ρ • S)) := by
      simp only [hy]
      exact ((((hx i hi).sub hx1).const_smul (1 / μ)).sub (((hcont i).tendsto _).comp (hx i hi))).sub (hS.const_smul ρ)
    have hyt1 := (Filter.tendsto_add_atTop_iff_nat 1).2 hyt
    have hd : Filter.Tendsto (fun k => (st (k + 1)).y i - (st k).y i) Filter.atTop (nhds 0) := by
      have := hyt1.sub hyt
      rwa [sub_self ((1 / μ) • (X i - X i) - G i (X i) - ρ • S)] at this
    have he : ∀ k, (st (k + 1)).y i - (st k).y i = ρ • (st (k + 1)).s i := fun k => by rw [hys k i hi, add_sub_cancel_left]
    simp only [he] at hd
    have hρS := ((Filter.tendsto_add_atTop_iff_nat 1).2 hS).const_smul ρ
    have := tendsto_nhds_unique hρS hd
    exact (smul_eq_zero.1 this).resolve_left hρ.ne'
  have e0 := key 0 (by simp) _ hs0
  have e1 := key 1 (by simp) _ hs1
  have e2 := key 2 (by simp) _ hs2
  have f1 : X 1 = -X 0 := by
    have : X 0 + X 1 = 0 := neg_eq_zero.1 e2
    exact eq_neg_of_add_eq_zero_right this
  have f2 : (3 : ℝ) • (X 0 - X 1) = 0 := by
    calc (3 : ℝ) • (X 0 - X 1) = ((2 : ℝ) • X 0 - (X 1 + X 2)) - ((2 : ℝ) • X 1 - (X 0 + X 2)) := by module
      _ = 0 := by rw [e0, e1, sub_zero]
  have f3 : X 0 - X 1 = 0 := (smul_eq_zero.1 f2).resolve_left (by norm_num)
  have f4 : X 0 = 0 := by
    rw [f1, sub_neg_eq_add, ← two_smul ℝ] at f3
    exact (smul_eq_zero.1 f3).resolve_left (by norm_num)
  have f5 : X 1 = 0 := by rw [f1, f4, neg_zero]
  refine ⟨f4, f5, ?_⟩
  rw [f4, f5, smul_zero, zero_add, zero_sub, neg_eq_zero] at e0
  exact e0

/-- C118: so on a triangle no NumPy or torch run of DLM reaches a minimiser other than zero, from any starting points -/
theorem C118_triangle_misses (G : Nat → Vec d → Vec d) (hcont : ∀ i, Continuous (G i)) (μ ρ : ℝ) (hμ : 0 < μ) (hρ : 0 < ρ) (x0 : Nat → Vec d) (xs : Vec d) (hxs : xs ≠ 0) :
    ¬ ∀ i ∈ [0, 1, 2], Filter.Tendsto (fun k => (Alias.dlmAfter id Alias.shared triHeard [0, 1, 2] G μ ρ x0 k).x i) Filter.atTop (nhds xs) :=
  fun h => hxs (C118_triangle_inplace G hcont μ ρ hμ hρ x0 (fun _ => xs) h).1

/-- three equal springs that end at `c ≠ 0`: even the run started at the minimiser leaves it -/
example (c : Vec d) (hc : c ≠ 0) :
    ¬ ∀ i ∈ [0, 1, 2], Filter.Tendsto (fun k => (Alias.dlmAfter id Alias.shared triHeard [0, 1, 2] (fun _ x => x - c) (1 / 10) 1 (fun _ => c) k).x i) Filter.atTop (nhds c) :=
  C118_triangle_misses _ (fun _ => continuous_id.sub continuous_const) _ _ (by norm_num) (by norm_num) _ c hc

theorem path3_two : ∀ i ∈ path3.nodes, (path3.nbrs i).length ≤ 2 := by decide

/-- a path of three agents with springs: the hypotheses are met with step size 1/10 and penalty 1 -/
example (b : Nat → Vec d) : LinearTo (dlm (springGrad b) (1 / 10) 1) (fun a => a.x) (calmWorld d) path3 (fun _ => (1 / 3 : ℝ) • (b 0 + b 1 + b 2)) :=
  C118_dlm_linear (D := 2) calm_lossless path3_joined (by norm_num) path3_two (springs_smooth b) (springGrad b) (fun _ _ _ => rfl) (by norm_num) (by norm_num)
    (by norm_num) _ (springs_solves b)

example (b : Nat → Vec d) : LinearTo (dinno (springGrad b) (1 / 10) 1 1) (fun a => a.x) (calmWorld d) path3 (fun _ => (1 / 3 : ℝ) • (b 0 + b 1 + b 2)) :=
  C118_dinno_linear (D := 2) calm_lossless path3_joined (by norm_num) path3_two (springs_smooth b) (springGrad b) (fun _ _ _ => rfl) (by norm_num) (by norm_num)
    (by norm_num) _ (springs_solves b)

/-- springs with equal ends, started at the minimiser: the run with five local steps rests there -/
example (c : Vec d) (s s' : Sys Nat (Vec d) Unit (DinnoLoc (Vec d))) (s0 : Sys Nat (Vec d) Unit (DinnoLoc (Vec d)))
    (hs : (dinno (springGrad fun _ => c) (1 / 10) 1 5).after (calmWorld d) path3 (fun _ => c) s0 0 = .ok s)
    (hs' : (dinno (springGrad fun _ => c) (1 / 10) 1 5).after (calmWorld d) path3 (fun _ => c) s0 1 = .ok s') :
    ∀ i ∈ path3.nodes, (s'.loc i).x = (s.loc i).x ∧ (s'.loc i).p = (s.loc i).p := by
  obtain ⟨t, ht, hP⟩ := dinno_both (n := path3) calm_lossless (1 / 10) 1 5 (springGrad fun _ => c) (fun _ x => x - c) (fun _ _ _ => rfl) (fun _ => c) s0 0
  obtain ⟨t', ht', hP'⟩ := dinno_both (n := path3) calm_lossless (1 / 10) 1 5 (springGrad fun _ => c) (fun _ x => x - c) (fun _ _ _ => rfl) (fun _ => c) s0 1
  rw [hs] at ht; cases ht
  rw [hs'] at ht'; cases ht'
  intro i hi
  have hd : ∀ j, disagreement path3.nbrs (fun _ => c) j = 0 := by intro j; simp [disagreement]
  have hfix : ∀ (B : Nat) (l : List Nat), dinnoInnerDoc (fun x : Vec d => x - c) (1 / 10) 1 c 0 (l.map (fun _ => c)) B c = c := by
    intro B l
    have e : ((l.map (fun _ => c)).map (fun xj => c - (1 / 2 : ℝ) • (c + xj))).sum = 0 := by
      apply List.sum_eq_zero
      intro y hy
      obtain ⟨z, hz, rfl⟩ := List.mem_map.1 hy
      obtain ⟨_, _, rfl⟩ := List.mem_map.1 hz
      module
    induction B with
    | zero => rfl
    | succ B ih =>
      rw [dinnoInnerDoc, e]
      simpa using ih
  rw [(hP i hi).1, (hP i hi).2, (hP' i hi).1, (hP' i hi).2]
  simp only [Function.iterate_one, Function.iterate_zero, id, dinnoDoc, hd, smul_zero, add_zero]
  exact ⟨hfix 5 _, trivial⟩

end
end Verif.Props
