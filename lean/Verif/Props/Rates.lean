import Verif.Props.P2P
import Verif.Lemmas.Rates
import Mathlib.Algebra.BigOperators.Group.List.Basic
import Mathlib.Tactic.Linarith
import Mathlib.Tactic.Positivity
import Mathlib.Tactic.Module
import Mathlib.Tactic.NormNum
set_option linter.unusedSectionVars false
/-!
# C80-C82: what the peer-to-peer methods converge to, and how fast

The costs `f i` are smooth and strongly convex (`Smooth`), the network is connected, every agent is active and no message is
lost. `xs` minimises the sum of the costs. The theorems are about `alg.after w n x0 s0 k`, the system after
`Algorithm.run` with `k` iterations, from initial states `x0` (one per agent, arbitrary).
-/
namespace Verif.Props
open Verif P2P Sys Consensus Costs
open scoped InnerProductSpace

section
variable {A Ω : Type} [DecidableEq A] {d : Nat}

/-- SPEC: any two agents are joined by a path of the graph -/
def JoinedUp (n : Net A) : Prop := ∀ i ∈ n.nodes, ∀ j ∈ n.nodes, Relation.ReflTransGen (fun a b => b ∈ n.nbrs a) i j

/-- SPEC: every agent's cost lies between two parabolas touching it at each point: `m`-strongly convex, `L`-smooth -/
structure Smooth (n : Net A) (f : A → Vec d → ℝ) (G : A → Vec d → Vec d) (L m : ℝ) : Prop where
  mpos : 0 < m
  Lpos : 0 < L
  upper : ∀ i ∈ n.nodes, ∀ x y, f i y ≤ f i x + ⟪G i x, y - x⟫_ℝ + L / 2 * ‖y - x‖ ^ 2
  lower : ∀ i ∈ n.nodes, ∀ x y, f i x + ⟪G i x, y - x⟫_ℝ + m / 2 * ‖y - x‖ ^ 2 ≤ f i y

/-- SPEC: `xs` minimises the sum of the agents' costs -/
def SolvesSum (n : Net A) (f : A → Vec d → ℝ) (xs : Vec d) : Prop :=
  ∀ y, (n.nodes.map (fun i => f i xs)).sum ≤ (n.nodes.map (fun i => f i y)).sum

/-- SPEC: every run succeeds, and the distance of every agent to `xs` after `k` iterations is at most `C r^k` (squared), `r < 1` -/
def LinearTo {α : Type} (alg : P2PAlg A (Vec d) Ω α) (x : α → Vec d) (w : World A (Vec d) Ω) (n : Net A) (xs : A → Vec d) : Prop :=
  ∃ r : ℝ, 0 ≤ r ∧ r < 1 ∧ ∀ x0 : A → Vec d, ∃ C : ℝ, ∀ (s0 : Sys A (Vec d) Ω α) (k : Nat), ∃ s,
    alg.after w n x0 s0 k = .ok s ∧ ∀ i ∈ n.nodes, ‖x (s.loc i) - xs i‖ ^ 2 ≤ C * r ^ k

/-- weights like the default ones: symmetric, non-negative, rows sum to one, positive exactly where needed -/
structure GoodWeights (n : Net A) (W : A → A → ℝ) : Prop where
  symm : ∀ i ∈ n.nodes, ∀ j ∈ n.nodes, W i j = W j i
  nonneg : ∀ i ∈ n.nodes, ∀ j ∈ n.nodes, 0 ≤ W i j
  row : ∀ i ∈ n.nodes, (n.nodes.map (fun j => W i j)).sum = 1
  supported : ∀ i ∈ n.nodes, ∀ j ∈ n.nodes, i ≠ j → j ∉ n.nbrs i → W i j = 0
  onEdges : ∀ i ∈ n.nodes, ∀ j ∈ n.nbrs i, 0 < W i j

theorem metropolis_good (n : Net A) (hw : n.WF) (hl : Loopless n) : GoodWeights n (weights n) where
  symm i hi j hj := C12_symmetric n hw i j hi hj
  nonneg i hi j _ := (C12_nonneg n hw i j hi).1
  row i hi := (C12_doubly_stochastic n hw hl i hi).1
  supported i hi j _ hij hn := (C12_support n hw i j hi hij).1 hn
  onEdges i hi j hj := ((C12_support n hw i j hi (fun e => hl i (e ▸ hj))).2 hj).2

theorem GoodWeights.mixing {n : Net A} {W : A → A → ℝ} (h : GoodWeights n W) : Mixing n W := by
  refine ⟨h.supported, fun j hj => ?_⟩
  rw [← h.row j hj]; congr 1
  exact List.map_congr_left fun i hi => h.symm i hi j hj

/-! ### stacking the agents -/

/-- the agents, as a finite type -/
abbrev Node (n : Net A) := {i // i ∈ n.nodes.toFinset}

theorem Node.mem {n : Net A} (i : Node n) : i.1 ∈ n.nodes := List.mem_toFinset.1 i.2

/-- one agent, as a node -/
def toNode {n : Net A} {i : A} (hi : i ∈ n.nodes) : Node n := ⟨i, List.mem_toFinset.2 hi⟩

theorem nodeSum {M : Type} [AddCommMonoid M] {n : Net A} (hn : n.nodes.Nodup) (f : A → M) : ∑ i : Node n, f i.1 = (n.nodes.map f).sum := by
  rw [← List.sum_toFinset f hn]; exact Finset.sum_coe_sort n.nodes.toFinset f

/-- the stacked states -/
def gather (n : Net A) (v : A → Vec d) : Stack (Node n) d := stack fun i => v i.1

/-- the weights between nodes -/
def nodeW (n : Net A) (W : A → A → ℝ) (i j : Node n) : ℝ := W i.1 j.1

@[simp] theorem gather_apply (n : Net A) (v : A → Vec d) (i : Node n) : gather n v i = v i.1 := rfl

theorem gather_matVec {n : Net A} (hn : n.nodes.Nodup) (W : A → A → ℝ) (v : A → Vec d) :
    gather n (matVec n W v) = mixOp (nodeW n W) (gather n v) := by
  apply stack_ext; intro i
  rw [gather_apply, mixOp_apply]
  exact (nodeSum hn (fun j => W i.1 j • v j)).symm

theorem gather_tilde {n : Net A} (hn : n.nodes.Nodup) (W : A → A → ℝ) (v : A → Vec d) :
    gather n (matVec n (tilde W) v) = plus (mixOp (nodeW n W)) (gather n v) := by
  apply stack_ext; intro i
  have e : mixOp (nodeW n W) (gather n v) i = matVec n W v i.1 := by rw [← gather_matVec hn]; rfl
  rw [gather_apply, matVec_tilde n hn W v i.1 i.mem, plus]
  show _ = (1 / 2 : ℝ) • (v i.1 + mixOp (nodeW n W) (gather n v) i)
  rw [e]; module

theorem GoodWeights.stochastic {n : Net A} {W : A → A → ℝ} (hn : n.nodes.Nodup) (h : GoodWeights n W) : Stochastic (nodeW n W) where
  symm i j := h.symm i.1 i.mem j.1 j.mem
  nonneg i j := h.nonneg i.1 i.mem j.1 j.mem
  row i := by rw [← h.row i.1 i.mem, ← nodeSum hn (fun j => W i.1 j)]; rfl

theorem GoodWeights.linked {n : Net A} {W : A → A → ℝ} (hw : n.WF) (h : GoodWeights n W) (hc : JoinedUp n) : Linked (nodeW n W) := by
  have key : ∀ (i j : A), i ∈ n.nodes → Relation.ReflTransGen (fun a b => b ∈ n.nbrs a) i j →
      ∃ hj : j ∈ n.nodes.toFinset, ∀ hi : i ∈ n.nodes.toFinset, Relation.ReflTransGen (fun a b : Node n => 0 < nodeW n W a b) ⟨i, hi⟩ ⟨j, hj⟩ := by
    intro i j hi hij
    induction hij with
    | refl => exact ⟨List.mem_toFinset.2 hi, fun _ => Relation.ReflTransGen.refl⟩
    | tail hab hbc ih =>
      rename_i b c
      obtain ⟨hb, ih⟩ := ih
      have hc' : c ∈ n.nodes.toFinset := List.mem_toFinset.2 (hw.nbrs_mem b c hbc)
      exact ⟨hc', fun hi' => (ih hi').tail (h.onEdges b (List.mem_toFinset.1 hb) c hbc)⟩
  intro i j
  obtain ⟨hj, h1⟩ := key i.1 j.1 i.mem (hc i.1 i.mem j.1 j.mem)
  exact h1 i.2

/-! ### the optimum -/

theorem netSum_bounds {n : Net A} {f : A → Vec d → ℝ} {G : A → Vec d → Vec d} {L m : ℝ} (h : Smooth n f G L m) :
    Upper (fun x => (n.nodes.map (fun i => f i x)).sum) (fun x => (n.nodes.map (fun i => G i x)).sum) (n.nodes.length * L) ∧
    Lower (fun x => (n.nodes.map (fun i => f i x)).sum) (fun x => (n.nodes.map (fun i => G i x)).sum) (n.nodes.length * m) := by
  have key : ∀ l : List A, (∀ i ∈ l, i ∈ n.nodes) →
      Upper (fun x => (l.map (fun i => f i x)).sum) (fun x => (l.map (fun i => G i x)).sum) (l.length * L) ∧
      Lower (fun x => (l.map (fun i => f i x)).sum) (fun x => (l.map (fun i => G i x)).sum) (l.length * m) := by
    intro l
    induction l with
    | nil => intro _; constructor <;> intro x y <;> simp
    | cons a t ih =>
      intro hl
      obtain ⟨ih1, ih2⟩ := ih (fun i hi => hl i (List.mem_cons_of_mem _ hi))
      constructor
      · intro x y
        have h1 := ih1 x y
        have h2 := h.upper a (hl a List.mem_cons_self) x y
        simp only [List.map_cons, List.sum_cons, List.length_cons, inner_add_left]
        push_cast
        linarith
      · intro x y
        have h1 := ih2 x y
        have h2 := h.lower a (hl a List.mem_cons_self) x y
        simp only [List.map_cons, List.sum_cons, List.length_cons, inner_add_left]
        push_cast
        linarith
  exact key n.nodes (fun i hi => hi)

theorem solves_iff {n : Net A} {f : A → Vec d → ℝ} {G : A → Vec d → Vec d} {L m : ℝ} (h : Smooth n f G L m) (xs : Vec d) :
    SolvesSum n f xs ↔ (n.nodes.map (fun i => G i xs)).sum = 0 := by
  obtain ⟨hu, hl⟩ := netSum_bounds h
  constructor
  · intro hs
    rcases Nat.eq_zero_or_pos n.nodes.length with h0 | h0
    · rw [List.length_eq_zero_iff] at h0; rw [h0]; rfl
    · have hN : 0 < (n.nodes.length : ℝ) * L := mul_pos (by exact_mod_cast h0) h.Lpos
      have h1 := gd_monotone hu hN xs
      have h2 := hs (xs - (1 / (n.nodes.length * L)) • (n.nodes.map (fun i => G i xs)).sum)
      have h3 : 1 / (2 * (n.nodes.length * L)) * ‖(n.nodes.map (fun i => G i xs)).sum‖ ^ 2 ≤ 0 := by
        linarith
      have h4 : ‖(n.nodes.map (fun i => G i xs)).sum‖ ^ 2 ≤ 0 := by
        by_contra hc
        have := mul_pos (show 0 < 1 / (2 * (n.nodes.length * L)) by positivity) (not_le.1 hc)
        linarith
      have h5 : ‖(n.nodes.map (fun i => G i xs)).sum‖ = 0 := by
        have := le_antisymm h4 (sq_nonneg _)
        exact pow_eq_zero_iff (two_ne_zero) |>.1 this
      exact norm_eq_zero.1 h5
  · intro hs y
    have h1 := hl xs y
    simp only [hs, inner_zero_left] at h1
    have : 0 ≤ (n.nodes.length : ℝ) * m / 2 * ‖y - xs‖ ^ 2 := by have := h.mpos; positivity
    linarith


/-- a smooth strongly convex function has a stationary point -/
theorem exists_stationary {f : Vec d → ℝ} {g : Vec d → Vec d} {L m : ℝ} (hL : Upper f g L) (hm : Lower f g m) (hmp : 0 < m) (hLp : 0 < L) :
    ∃ x, g x = 0 := by
  set q : ℝ := 1 - m / L with hq
  have hstep : ∀ x y, ‖(x - (1 / L) • g x) - (y - (1 / L) • g y)‖ ^ 2 ≤ q * ‖x - y‖ ^ 2 := by
    intro x y
    have h1 := cocoercive hLp hL (hm.mono hmp.le) x y
    have h2 := strong_monotone hm x y
    have e : (x - (1 / L) • g x) - (y - (1 / L) • g y) = (x - y) - (1 / L) • (g x - g y) := by module
    rw [e, norm_sub_smul_sq]
    have h3 := mul_le_mul_of_nonneg_left h1 (show 0 ≤ 1 / L by positivity)
    have h4 := mul_le_mul_of_nonneg_left h2 (show 0 ≤ 1 / L by positivity)
    have e2 : (1 / L) ^ 2 * ‖g x - g y‖ ^ 2 = 1 / L * (1 / L * ‖g x - g y‖ ^ 2) := by ring
    have e3 : 1 / L * (m * ‖x - y‖ ^ 2) = m / L * ‖x - y‖ ^ 2 := by ring
    rw [hq]
    linarith
  by_cases hq0 : 0 ≤ q
  · have hq1 : q < 1 := by rw [hq]; have : 0 < m / L := by positivity
                           linarith
    have hc : ContractingWith (Real.toNNReal (Real.sqrt q)) (fun x : Vec d => x - (1 / L) • g x) := by
      refine ⟨?_, LipschitzWith.of_dist_le_mul fun x y => ?_⟩
      · rw [← NNReal.coe_lt_coe, Real.coe_toNNReal _ (Real.sqrt_nonneg q), NNReal.coe_one, Real.sqrt_lt' one_pos]; simpa using hq1
      · rw [dist_eq_norm, dist_eq_norm, Real.coe_toNNReal _ (Real.sqrt_nonneg q)]
        rw [← Real.sqrt_sq (norm_nonneg (x - (1 / L) • g x - (y - (1 / L) • g y))), ← Real.sqrt_sq (norm_nonneg (x - y)), ← Real.sqrt_mul hq0]
        exact Real.sqrt_le_sqrt (hstep x y)
    have hfix := hc.fixedPoint_isFixedPt
    set p := ContractingWith.fixedPoint (fun x : Vec d => x - (1 / L) • g x) hc
    have hp : p - (1 / L) • g p = p := hfix
    refine ⟨p, ?_⟩
    have h1 : (1 / L) • g p = 0 := by
      have : p - (p - (1 / L) • g p) = 0 := by rw [hp, sub_self]
      simpa using this
    exact (smul_eq_zero.1 h1).resolve_left (by positivity)
  · -- all points coincide
    have hz : ∀ x y : Vec d, x = y := by
      intro x y
      have h1 := hstep x y
      have h2 := sq_nonneg ‖(x - (1 / L) • g x) - (y - (1 / L) • g y)‖
      have h3 : ‖x - y‖ ^ 2 ≤ 0 := by
        by_contra hc
        have := mul_neg_of_neg_of_pos (not_le.1 hq0) (not_le.1 hc)
        linarith
      have h4 : ‖x - y‖ = 0 := pow_eq_zero_iff two_ne_zero |>.1 (le_antisymm h3 (sq_nonneg _))
      exact sub_eq_zero.1 (norm_eq_zero.1 h4)
    exact ⟨0, hz _ _⟩

/-- The problem has exactly one solution, and it is the only point where the local gradients sum to zero. -/
theorem C80_optimum {n : Net A} {f : A → Vec d → ℝ} {G : A → Vec d → Vec d} {L m : ℝ} (h : Smooth n f G L m) (hn : n.nodes ≠ []) :
    ∃ xs, SolvesSum n f xs ∧ (n.nodes.map (fun i => G i xs)).sum = 0 ∧ ∀ y, SolvesSum n f y → y = xs := by
  obtain ⟨hu, hl⟩ := netSum_bounds h
  have hN : 0 < (n.nodes.length : ℝ) := by exact_mod_cast List.length_pos_iff.2 hn
  obtain ⟨xs, hxs⟩ := exists_stationary hu hl (mul_pos hN h.mpos) (mul_pos hN h.Lpos)
  refine ⟨xs, (solves_iff h xs).2 hxs, hxs, fun y hy => ?_⟩
  have hy' := (solves_iff h y).1 hy
  have h1 := strong_monotone hl y xs
  simp only [hxs, hy', sub_zero, inner_zero_left] at h1
  have h3 : ‖y - xs‖ ^ 2 ≤ 0 := by
    by_contra hc
    have := mul_pos (mul_pos hN h.mpos) (not_le.1 hc)
    linarith
  have h4 : ‖y - xs‖ = 0 := pow_eq_zero_iff two_ne_zero |>.1 (le_antisymm h3 (sq_nonneg _))
  exact sub_eq_zero.1 (norm_eq_zero.1 h4)

/-! ### the exact methods -/

/-- the local gradients at the nodes -/
def nodeG (n : Net A) (G : A → Vec d → Vec d) (i : Node n) : Vec d → Vec d := G i.1

theorem gather_grad (n : Net A) (G : A → Vec d → Vec d) (v : A → Vec d) : gather n (fun i => G i (v i)) = gradAt (nodeG n G) (gather n v) := rfl

/-- the dual certificate of the optimum -/
theorem exists_dual {n : Net A} {W : A → A → ℝ} (hw : n.WF) (hW : GoodWeights n W) (hc : JoinedUp n) (G : A → Vec d → Vec d)
    (xs : Vec d) (hxs : (n.nodes.map (fun i => G i xs)).sum = 0) (ρ : ℝ) :
    ∃ us, minus (mixOp (nodeW n W)) us = -(ρ • gradAt (nodeG n G) (gather n (fun _ => xs))) := by
  have hS := hW.stochastic hw.nodup
  have hA : Averaging (mixOp (nodeW n W) : Stack (Node n) d →ₗ[ℝ] Stack (Node n) d) := averaging hS
  apply exists_preimage (minus (mixOp (nodeW n W))) (minus_symm hA)
  intro v hv
  have hag := minus_ker hS (hW.linked hw hc) v hv
  rw [inner_neg_right, inner_smul_right, stack_inner]
  rcases isEmpty_or_nonempty (Node n) with he | ⟨⟨i0⟩⟩
  · simp
  · have e : ∀ i, ⟪v i, gradAt (nodeG n G) (gather n (fun _ => xs)) i⟫_ℝ = ⟪v i0, G i.1 xs⟫_ℝ := by
      intro i; rw [hag i i0]; rfl
    rw [Finset.sum_congr rfl (fun i _ => e i), ← inner_sum, nodeSum hw.nodup (fun i => G i xs), hxs]
    simp

theorem consensus_minus {n : Net A} {W : A → A → ℝ} (hn : n.nodes.Nodup) (hW : GoodWeights n W) (xs : Vec d) :
    minus (mixOp (nodeW n W)) (gather n (fun _ => xs)) = 0 := by
  rw [minus_apply, agree_fixed (hW.stochastic hn) _ (fun _ _ => rfl), sub_self, smul_zero]

theorem Smooth.nodes {n : Net A} {f : A → Vec d → ℝ} {G : A → Vec d → Vec d} {L m : ℝ} (h : Smooth n f G L m) :
    (∀ i : Node n, Upper (f i.1) (nodeG n G i) L) ∧ (∀ i : Node n, Lower (f i.1) (nodeG n G i) m) :=
  ⟨fun i => h.upper i.1 i.mem, fun i => h.lower i.1 i.mem⟩

theorem coord_le {n : Net A} (v : Stack (Node n) d) (i : Node n) : ‖v i‖ ^ 2 ≤ ‖v‖ ^ 2 := by
  rw [stack_norm_sq]
  exact Finset.single_le_sum (f := fun j => ‖v j‖ ^ 2) (fun j _ => sq_nonneg _) (Finset.mem_univ i)

/-- from the stacked recursion to the runs -/
theorem linear_of_stack {α : Type} {alg : P2PAlg A (Vec d) Ω α} {x : α → Vec d} {w : World A (Vec d) Ω} {n : Net A} {xs : A → Vec d}
    (X : (A → Vec d) → Nat → A → Vec d) (hX : ∀ x0, Computes alg x w n x0 (X x0)) (r : ℝ) (hr0 : 0 ≤ r) (hr1 : r < 1)
    (hb : ∀ x0, ∃ C : ℝ, ∀ k, ‖gather n (X x0 k) - gather n xs‖ ^ 2 ≤ C * r ^ k) : LinearTo alg x w n xs := by
  refine ⟨r, hr0, hr1, fun x0 => ?_⟩
  obtain ⟨C, hC⟩ := hb x0
  refine ⟨C, fun s0 k => ?_⟩
  obtain ⟨s, hs, hx⟩ := hX x0 s0 k
  refine ⟨s, hs, fun i hi => ?_⟩
  rw [hx i hi]
  exact (coord_le (gather n (X x0 k) - gather n xs) (toNode hi)).trans (hC k)

theorem gather_sub (n : Net A) (u v : A → Vec d) : gather n (fun i => u i - v i) = gather n u - gather n v := rfl
theorem gather_add (n : Net A) (u v : A → Vec d) : gather n (fun i => u i + v i) = gather n u + gather n v := rfl
theorem gather_smul (n : Net A) (c : ℝ) (v : A → Vec d) : gather n (fun i => c • v i) = c • gather n v := rfl

section
variable {w : World A (Vec d) Ω} {n : Net A} {f : A → Vec d → ℝ} {G : A → Vec d → Vec d} {L m : ℝ}

/-- C80 for exact diffusion: for every step size below `2 / L` and every initial state, each agent converges linearly to the
minimiser of the sum. -/
theorem C80_ed (h : Lossless w n) (hc : JoinedUp n) (hf : Smooth n f G L m) {W : A → A → ℝ} (hW : GoodWeights n W)
    (grad : Grad A (Vec d) Ω) (hG : Exactly grad G) (ρ : ℝ) (hρ : 0 < ρ) (hρL : ρ * L < 2) (xs : Vec d) (hxs : SolvesSum n f xs) :
    LinearTo (ed grad W ρ) (fun a => a.x) w n (fun _ => xs) := by
  have hS := hW.stochastic h.wf.nodup
  have hA : Averaging (mixOp (nodeW n W) : Stack (Node n) d →ₗ[ℝ] Stack (Node n) d) := averaging hS
  obtain ⟨us, hus⟩ := exists_dual h.wf hW hc G xs ((solves_iff hf xs).1 hxs) ρ
  obtain ⟨lam, hlam0, hlam1, hgap⟩ := exists_gap (minus (mixOp (nodeW n W) : Stack (Node n) d →ₗ[ℝ] Stack (Node n) d)) (minus_symm hA) (minus_nonneg hA)
  have hcp : 0 < ρ * m * (2 - ρ * L) := mul_pos (mul_pos hρ hf.mpos) (by linarith)
  refine linear_of_stack (fun x0 k => (edDoc n W ρ G x0 k).1) (fun x0 => C65_ed h hW.mixing ρ grad G hG x0)
    (max (1 - ρ * m * (2 - ρ * L)) (1 - lam)) (le_max_of_le_right (by linarith)) (max_lt (by linarith) (by linarith)) fun x0 => ?_
  refine ⟨‖gather n x0 - gather n (fun _ => xs)‖ ^ 2 + ⟪0 - us, minus (mixOp (nodeW n W)) (0 - us)⟫_ℝ, fun k => ?_⟩
  rw [mul_comm]
  refine diffusion_rate hA (gradAt (nodeG n G)) ρ (1 - ρ * m * (2 - ρ * L)) lam (gather n (fun _ => xs)) us 0
    (consensus_minus h.wf.nodup hW xs) hus
    (fun x => grad_contract hf.mpos hf.nodes.1 hf.nodes.2 hf.Lpos hρ hρL.le x _) hlam1 hgap
    (fun k => gather n (edDoc n W ρ G x0 k).1) (fun k => gather n (edDoc n W ρ G x0 k).2) ?_ ?_ ?_ k
  · rw [map_zero]; exact sub_self _
  · intro k; rfl
  · intro k
    exact gather_tilde h.wf.nodup W _

/-- C80 for NIDS -/
theorem C80_nids (h : Lossless w n) (hc : JoinedUp n) (hf : Smooth n f G L m) {W : A → A → ℝ} (hW : GoodWeights n W)
    (grad : Grad A (Vec d) Ω) (hG : Exactly grad G) (ρ : ℝ) (hρ : 0 < ρ) (hρL : ρ * L < 2) (xs : Vec d) (hxs : SolvesSum n f xs) :
    LinearTo (nids grad W ρ) (fun a => a.x) w n (fun _ => xs) := by
  have hS := hW.stochastic h.wf.nodup
  have hA : Averaging (mixOp (nodeW n W) : Stack (Node n) d →ₗ[ℝ] Stack (Node n) d) := averaging hS
  obtain ⟨us, hus⟩ := exists_dual h.wf hW hc G xs ((solves_iff hf xs).1 hxs) ρ
  obtain ⟨lam, hlam0, hlam1, hgap⟩ := exists_gap (minus (mixOp (nodeW n W) : Stack (Node n) d →ₗ[ℝ] Stack (Node n) d)) (minus_symm hA) (minus_nonneg hA)
  have hcp : 0 < ρ * m * (2 - ρ * L) := mul_pos (mul_pos hρ hf.mpos) (by linarith)
  -- a rate bounded away from zero, to absorb the shift by one iteration
  set r := max (1 / 2) (max (1 - ρ * m * (2 - ρ * L)) (1 - lam)) with hr
  have hr0 : 0 < r := lt_of_lt_of_le (by norm_num) (le_max_left _ _)
  refine linear_of_stack (fun x0 k => (nidsDoc n W ρ G x0 k).1) (fun x0 => C65_nids h hW.mixing ρ grad G hG x0)
    r hr0.le (max_lt (by norm_num) (max_lt (by linarith) (by linarith))) fun x0 => ?_
  set D := ‖gather n (nidsDoc n W ρ G x0 1).1 - gather n (fun _ => xs)‖ ^ 2 + ⟪0 - us, minus (mixOp (nodeW n W)) (0 - us)⟫_ℝ with hD
  have hD0 : 0 ≤ D := add_nonneg (sq_nonneg _) (minus_nonneg hA _)
  have hk : ∀ k, ‖gather n (nidsDoc n W ρ G x0 (k + 1)).1 - gather n (fun _ => xs)‖ ^ 2 ≤
      max (1 - ρ * m * (2 - ρ * L)) (1 - lam) ^ k * D := by
    intro k
    refine diffusion_rate hA (gradAt (nodeG n G)) ρ (1 - ρ * m * (2 - ρ * L)) lam (gather n (fun _ => xs)) us 0
      (consensus_minus h.wf.nodup hW xs) hus
      (fun x => grad_contract hf.mpos hf.nodes.1 hf.nodes.2 hf.Lpos hρ hρL.le x _) hlam1 hgap
      (fun k => gather n (nidsDoc n W ρ G x0 (k + 1)).1)
      (fun k => gather n (nidsDoc n W ρ G x0 (k + 1)).2 - ρ • gradAt (nodeG n G) (gather n (nidsDoc n W ρ G x0 (k + 1)).2)) ?_ ?_ ?_ k
    · rw [map_zero]; exact sub_self _
    · intro k; rfl
    · intro k
      refine (gather_tilde h.wf.nodup W _).trans ?_
      congr 1
      apply stack_ext; intro i
      show (2 : ℝ) • (nidsDoc n W ρ G x0 (k + 1)).1 i.1 - (nidsDoc n W ρ G x0 (k + 1)).2 i.1 - ρ • G i.1 ((nidsDoc n W ρ G x0 (k + 1)).1 i.1)
          + ρ • G i.1 ((nidsDoc n W ρ G x0 (k + 1)).2 i.1) =
        (nidsDoc n W ρ G x0 (k + 1)).1 i.1 + ((nidsDoc n W ρ G x0 (k + 1)).1 i.1 - ρ • G i.1 ((nidsDoc n W ρ G x0 (k + 1)).1 i.1))
          - ((nidsDoc n W ρ G x0 (k + 1)).2 i.1 - ρ • G i.1 ((nidsDoc n W ρ G x0 (k + 1)).2 i.1))
      module
  refine ⟨‖gather n x0 - gather n (fun _ => xs)‖ ^ 2 + D / r, fun k => ?_⟩
  cases k with
  | zero =>
    rw [pow_zero, mul_one]
    have : 0 ≤ D / r := by positivity
    show ‖gather n x0 - gather n (fun _ => xs)‖ ^ 2 ≤ _
    linarith
  | succ k =>
    have h1 : max (1 - ρ * m * (2 - ρ * L)) (1 - lam) ^ k ≤ r ^ k :=
      pow_le_pow_left₀ (le_max_of_le_right (by linarith)) (le_max_right _ _) k
    have h2 := mul_le_mul_of_nonneg_right h1 hD0
    have e : D / r * r ^ (k + 1) = r ^ k * D := by rw [pow_succ' r k]; field_simp
    rw [add_mul, e]
    have : 0 ≤ ‖gather n x0 - gather n (fun _ => xs)‖ ^ 2 * r ^ (k + 1) := by positivity
    linarith [hk k]

/-- C81: EXTRA converges linearly to the minimiser of the sum whenever `ρ L < 2 δ`, `δ` a lower bound of the agents'
self-weights. -/
theorem C81_extra (h : Lossless w n) (hc : JoinedUp n) (hf : Smooth n f G L m) {W : A → A → ℝ} (hW : GoodWeights n W)
    (grad : Grad A (Vec d) Ω) (hG : Exactly grad G) (ρ δ : ℝ) (hρ : 0 < ρ) (hδ : 0 < δ) (hdiag : ∀ i ∈ n.nodes, δ ≤ W i i) (hρL : ρ * L < 2 * δ)
    (xs : Vec d) (hxs : SolvesSum n f xs) :
    LinearTo (extra grad W ρ) (fun a => a.x) w n (fun _ => xs) := by
  have hS := hW.stochastic h.wf.nodup
  have hA : Averaging (mixOp (nodeW n W) : Stack (Node n) d →ₗ[ℝ] Stack (Node n) d) := averaging hS
  obtain ⟨us, hus⟩ := exists_dual h.wf hW hc G xs ((solves_iff hf xs).1 hxs) ρ
  obtain ⟨lam, hlam0, hlam1, hgap⟩ := exists_gap (minus (mixOp (nodeW n W) : Stack (Node n) d →ₗ[ℝ] Stack (Node n) d)) (minus_symm hA) (minus_nonneg hA)
  obtain ⟨r, hr0, hr1, hrate⟩ := extra_rate hA (gradAt (nodeG n G)) ρ L m δ lam hρ hf.Lpos hf.mpos hδ hρL hlam0 hgap
    (inner_plus_ge hS δ (fun i => hdiag i.1 i.mem)) (gather n (fun _ => xs)) us (consensus_minus h.wf.nodup hW xs) hus
    (fun x => stack_cocoercive hf.Lpos hf.nodes.1 (fun i => (hf.nodes.2 i).mono hf.mpos.le) x _) (fun x => stack_monotone hf.nodes.2 x _)
  refine linear_of_stack (fun x0 k => (extraDoc n W ρ G x0 k).1) (fun x0 => C65_extra h hW.mixing ρ grad G hG x0) r hr0 hr1 fun x0 => ?_
  set X : Nat → Stack (Node n) d := fun k => gather n (extraDoc n W ρ G x0 k).1 with hX
  set U : Nat → Stack (Node n) d := fun k => ∑ t ∈ Finset.range (k + 1), X t with hU
  have hU1 : ∀ k, U (k + 1) = U k + X (k + 1) := fun k => Finset.sum_range_succ _ _
  have hU0 : U 0 = X 0 := by simp [hU]
  have hsplit : ∀ v : Stack (Node n) d, mixOp (nodeW n W) v = plus (mixOp (nodeW n W)) v - minus (mixOp (nodeW n W)) v := by
    intro v; rw [plus, minus_apply]; module
  have hold : ∀ k, gather n (extraDoc n W ρ G x0 (k + 1)).2 = X k := by
    intro k; cases k <;> rfl
  have hrec : ∀ k, X (k + 2) = X (k + 1) + mixOp (nodeW n W) (X (k + 1)) - plus (mixOp (nodeW n W)) (X k)
      - ρ • (gradAt (nodeG n G) (X (k + 1)) - gradAt (nodeG n G) (X k)) := by
    intro k
    rw [← hold k, ← gather_tilde h.wf.nodup]
    show X (k + 2) = X (k + 1) + mixOp (nodeW n W) (gather n (extraDoc n W ρ G x0 (k + 1)).1) - _ - _
    rw [← gather_matVec h.wf.nodup]
    rfl
  have hstep : ∀ k, X (k + 1) = plus (mixOp (nodeW n W)) (X k) - ρ • gradAt (nodeG n G) (X k) - minus (mixOp (nodeW n W)) (U k) := by
    intro k
    induction k with
    | zero =>
      rw [hU0]
      have e : X 1 = mixOp (nodeW n W) (X 0) - ρ • gradAt (nodeG n G) (X 0) := by
        show gather n (fun i => matVec n W x0 i - ρ • G i (x0 i)) = _
        rw [gather_sub, gather_smul]
        show gather n (matVec n W x0) - _ = _
        rw [gather_matVec h.wf.nodup]; rfl
      rw [e, hsplit]; abel
    | succ k ih =>
      rw [hrec k, hU1 k, map_add, hsplit (X (k + 1))]
      have e : minus (mixOp (nodeW n W)) (U k) = plus (mixOp (nodeW n W)) (X k) - ρ • gradAt (nodeG n G) (X k) - X (k + 1) := by rw [ih]; abel
      rw [e]; module
  have hb := hrate X U hU1 hstep
  refine ⟨(‖X 0 - gather n (fun _ => xs)‖ ^ 2 + ⟪U 0 - us, minus (mixOp (nodeW n W)) (U 0 - us)⟫_ℝ) / δ, fun k => ?_⟩
  rw [div_mul_eq_mul_div, le_div_iff₀ hδ]
  have := hb k
  show ‖X k - gather n (fun _ => xs)‖ ^ 2 * δ ≤ _
  linarith

end


/-! ### the default weights -/

/-- the self-weight of an agent is at least `1 / (1 + degree)` -/
theorem metropolis_diag (n : Net A) (hw : n.WF) (hl : Loopless n) (i : A) (hi : i ∈ n.nodes) : 1 / (1 + (degree n i : ℝ)) ≤ weights n i i := by
  rw [weights_apply n hw i i hi, if_pos rfl]
  have hle : nbrSum n i ≤ ((n.nbrs i).length : ℝ) * (1 / (1 + (degree n i : ℝ))) := by
    unfold nbrSum
    have : ∀ l : List A, (l.map (metro n i)).sum ≤ (l.length : ℝ) * (1 / (1 + (degree n i : ℝ))) := by
      intro l
      induction l with
      | nil => simp
      | cons a t ih =>
        simp only [List.map_cons, List.sum_cons, List.length_cons]
        push_cast
        have := metro_le n i a
        linarith
    exact this _
  have hd : (degree n i : ℝ) = ((n.nbrs i).length : ℝ) := by unfold degree; rw [if_neg (hl i)]; simp
  rw [← hd] at hle
  have hpos : (0 : ℝ) < 1 + (degree n i : ℝ) := by positivity
  have e : (degree n i : ℝ) * (1 / (1 + (degree n i : ℝ))) = 1 - 1 / (1 + (degree n i : ℝ)) := by field_simp; ring
  linarith

section
variable {w : World A (Vec d) Ω} {n : Net A} {f : A → Vec d → ℝ} {G : A → Vec d → Vec d} {L m : ℝ}

/-- C80 with the network's default weights -/
theorem C80_default (h : Lossless w n) (hc : JoinedUp n) (hf : Smooth n f G L m)
    (grad : Grad A (Vec d) Ω) (hG : Exactly grad G) (ρ : ℝ) (hρ : 0 < ρ) (hρL : ρ * L < 2) (xs : Vec d) (hxs : SolvesSum n f xs) :
    LinearTo (ed grad (weights n) ρ) (fun a => a.x) w n (fun _ => xs) ∧ LinearTo (nids grad (weights n) ρ) (fun a => a.x) w n (fun _ => xs) :=
  ⟨C80_ed h hc hf (metropolis_good n h.wf h.noLoops) grad hG ρ hρ hρL xs hxs, C80_nids h hc hf (metropolis_good n h.wf h.noLoops) grad hG ρ hρ hρL xs hxs⟩

theorem default_diag (h : Lossless w n) (D : Nat) (hD : ∀ i ∈ n.nodes, (n.nbrs i).length ≤ D) (i : A) (hi : i ∈ n.nodes) : 1 / (1 + (D : ℝ)) ≤ weights n i i := by
  refine le_trans ?_ (metropolis_diag n h.wf h.noLoops i hi)
  have hd : degree n i = (n.nbrs i).length := by unfold degree; rw [if_neg (h.noLoops i)]; simp
  have : (degree n i : ℝ) ≤ D := by rw [hd]; exact_mod_cast hD i hi
  exact one_div_le_one_div_of_le (by positivity) (by linarith)

/-- C81 with the network's default weights: `ρ < 2 / ((1 + D) L)` suffices, `D` the largest number of neighbours -/
theorem C81_default (h : Lossless w n) (hc : JoinedUp n) (hf : Smooth n f G L m)
    (grad : Grad A (Vec d) Ω) (hG : Exactly grad G) (D : Nat) (hD : ∀ i ∈ n.nodes, (n.nbrs i).length ≤ D)
    (ρ : ℝ) (hρ : 0 < ρ) (hρL : ρ < 2 / ((1 + D) * L)) (xs : Vec d) (hxs : SolvesSum n f xs) :
    LinearTo (extra grad (weights n) ρ) (fun a => a.x) w n (fun _ => xs) := by
  refine C81_extra h hc hf (metropolis_good n h.wf h.noLoops) grad hG ρ (1 / (1 + (D : ℝ))) hρ (by positivity) (default_diag h D hD) ?_ xs hxs
  have hp : 0 < (1 + (D : ℝ)) * L := mul_pos (by positivity) hf.Lpos
  rw [lt_div_iff₀ hp] at hρL
  rw [mul_one_div, lt_div_iff₀ (by positivity)]
  linarith

/-! ### DGD -/

/-- SPEC: `v` is stationary for the DGD update `v_i = Σ_j W_ij v_j - ρ ∇f_i(v_i)` -/
def DgdStationary (n : Net A) (W : A → A → ℝ) (ρ : ℝ) (G : A → Vec d → Vec d) (v : A → Vec d) : Prop :=
  ∀ i ∈ n.nodes, v i = (n.nodes.map (fun j => W i j • v j)).sum - ρ • G i (v i)

theorem stationary_iff {W : A → A → ℝ} (hn : n.nodes.Nodup) (ρ : ℝ) (v : A → Vec d) :
    DgdStationary n W ρ G v ↔ mixOp (nodeW n W) (gather n v) - ρ • gradAt (nodeG n G) (gather n v) = gather n v := by
  have e : mixOp (nodeW n W) (gather n v) = gather n (matVec n W v) := (gather_matVec hn W v).symm
  constructor
  · intro hv
    apply stack_ext; intro i
    rw [e]
    exact (hv i.1 i.mem).symm
  · intro hv i hi
    rw [e] at hv
    exact (congrFun (congrArg WithLp.ofLp hv) (toNode hi)).symm

/-- the contraction behind DGD -/
theorem dgd_shrink (hn : n.nodes.Nodup) (hf : Smooth n f G L m) {W : A → A → ℝ} (hW : GoodWeights n W) (ρ δ : ℝ) (hρ : 0 < ρ)
    (hdiag : ∀ i ∈ n.nodes, δ ≤ W i i) (hρL : ρ * L < 2 * δ) : ∃ q : ℝ, 0 ≤ q ∧ q < 1 ∧ ∀ x y : Stack (Node n) d,
      ‖(mixOp (nodeW n W) x - ρ • gradAt (nodeG n G) x) - (mixOp (nodeW n W) y - ρ • gradAt (nodeG n G) y)‖ ^ 2 ≤ q * ‖x - y‖ ^ 2 := by
  have hS := hW.stochastic hn
  have hA : Averaging (mixOp (nodeW n W) : Stack (Node n) d →ₗ[ℝ] Stack (Node n) d) := averaging hS
  -- a self-weight bound strictly below one
  set δ' := min ((ρ * L / 2 + δ) / 2) ((ρ * L / 2 + 1) / 2) with hδ'
  by_cases hbig : 1 ≤ ρ * L / 2
  · -- no agents: every self-weight is at most one
    have hemp : ∀ i, i ∉ n.nodes := by
      intro i hi
      have h1 := hdiag i hi
      have h2 : W i i ≤ 1 := by
        rw [← hW.row i hi]
        exact List.single_le_sum (fun x hx => by obtain ⟨j, hj, rfl⟩ := List.mem_map.1 hx; exact hW.nonneg i hi j hj) _ (List.mem_map.2 ⟨i, hi, rfl⟩)
      linarith
    refine ⟨0, le_refl _, one_pos, fun x y => ?_⟩
    rw [stack_norm_sq, zero_mul]
    exact le_of_eq (Finset.sum_eq_zero fun i _ => absurd i.mem (hemp i.1))
  · have hbig := not_le.1 hbig
    have h1 : δ' < 1 := lt_of_le_of_lt (min_le_right _ _) (by linarith)
    have h2 : ρ * L < 2 * δ' := by
      have : ρ * L / 2 < δ' := lt_min (by linarith) (by linarith)
      linarith
    have h3 : δ' ≤ δ := le_trans (min_le_left _ _) (by linarith)
    have hp : 0 < (2 * δ' - ρ * L) * (ρ * m) := mul_pos (by linarith) (mul_pos hρ hf.mpos)
    refine ⟨max 0 (1 - (2 * δ' - ρ * L) * (ρ * m)), le_max_left _ _, max_lt one_pos (by linarith), fun x y => ?_⟩
    refine le_trans (dgd_contract hA (gradAt (nodeG n G)) ρ L m δ' hρ hf.Lpos h2.le h1
      (inner_plus_ge hS δ' (fun i => h3.trans (hdiag i.1 i.mem))) x y
      (stack_cocoercive hf.Lpos hf.nodes.1 (fun i => (hf.nodes.2 i).mono hf.mpos.le) x y) (stack_monotone hf.nodes.2 x y)) ?_
    exact mul_le_mul_of_nonneg_right (le_max_right _ _) (sq_nonneg _)

/-- a map that contracts squared distances has a fixed point -/
theorem fixed_of_shrink {H : Type} [NormedAddCommGroup H] [CompleteSpace H] (T : H → H) (q : ℝ) (hq0 : 0 ≤ q) (hq1 : q < 1)
    (hT : ∀ x y, ‖T x - T y‖ ^ 2 ≤ q * ‖x - y‖ ^ 2) : ∃ p, T p = p := by
  have hc : ContractingWith (Real.toNNReal (Real.sqrt q)) T := by
    refine ⟨?_, LipschitzWith.of_dist_le_mul fun x y => ?_⟩
    · rw [← NNReal.coe_lt_coe, Real.coe_toNNReal _ (Real.sqrt_nonneg q), NNReal.coe_one, Real.sqrt_lt' one_pos]; simpa using hq1
    · rw [dist_eq_norm, dist_eq_norm, Real.coe_toNNReal _ (Real.sqrt_nonneg q)]
      rw [← Real.sqrt_sq (norm_nonneg (T x - T y)), ← Real.sqrt_sq (norm_nonneg (x - y)), ← Real.sqrt_mul hq0]
      exact Real.sqrt_le_sqrt (hT x y)
  exact ⟨_, hc.fixedPoint_isFixedPt⟩

/-- C82: with `ρ L < 2 δ` DGD converges linearly, from every initial state, to one and the same stationary point of its update;
there is exactly one (up to values outside the network). -/
theorem C82_limit (h : Lossless w n) (hf : Smooth n f G L m) {W : A → A → ℝ} (hW : GoodWeights n W)
    (grad : Grad A (Vec d) Ω) (hG : Exactly grad G) (ρ δ : ℝ) (hρ : 0 < ρ) (hdiag : ∀ i ∈ n.nodes, δ ≤ W i i) (hρL : ρ * L < 2 * δ) :
    ∃ v : A → Vec d, DgdStationary n W ρ G v ∧ LinearTo (dgd grad W ρ) (fun a => a.x) w n v ∧
      ∀ v', DgdStationary n W ρ G v' → ∀ i ∈ n.nodes, v' i = v i := by
  obtain ⟨q, hq0, hq1, hT⟩ := dgd_shrink h.wf.nodup hf hW ρ δ hρ hdiag hρL
  obtain ⟨p, hp⟩ := fixed_of_shrink (fun x : Stack (Node n) d => mixOp (nodeW n W) x - ρ • gradAt (nodeG n G) x) q hq0 hq1 hT
  set v : A → Vec d := fun i => if hi : i ∈ n.nodes then p (toNode hi) else 0 with hv
  have hgv : gather n v = p := by
    apply stack_ext; intro i
    rw [gather_apply, hv]; simp only [dif_pos i.mem]; rfl
  have hst : DgdStationary n W ρ G v := (stationary_iff h.wf.nodup ρ v).2 (by rw [hgv]; exact hp)
  refine ⟨v, hst, ?_, ?_⟩
  · refine linear_of_stack (dgdDoc n W ρ G) (fun x0 => C65_dgd h hW.mixing ρ grad G hG x0) q hq0 hq1 fun x0 => ?_
    refine ⟨‖gather n x0 - gather n v‖ ^ 2, fun k => ?_⟩
    induction k with
    | zero => rw [pow_zero, mul_one]; exact le_refl _
    | succ k ih =>
      have e : gather n (dgdDoc n W ρ G x0 (k + 1)) = mixOp (nodeW n W) (gather n (dgdDoc n W ρ G x0 k)) - ρ • gradAt (nodeG n G) (gather n (dgdDoc n W ρ G x0 k)) := by
        rw [← gather_matVec h.wf.nodup]; rfl
      have h1 := hT (gather n (dgdDoc n W ρ G x0 k)) (gather n v)
      rw [← e] at h1
      have e2 : mixOp (nodeW n W) (gather n v) - ρ • gradAt (nodeG n G) (gather n v) = gather n v := by rw [hgv]; exact hp
      rw [e2] at h1
      refine h1.trans ((mul_le_mul_of_nonneg_left ih hq0).trans (le_of_eq ?_))
      rw [pow_succ' q k]; ring
  · intro v' hv' i hi
    have e1 := (stationary_iff h.wf.nodup ρ v').1 hv'
    have h1 := hT (gather n v') p
    rw [e1] at h1
    have e2 : mixOp (nodeW n W) p - ρ • gradAt (nodeG n G) p = p := hp
    rw [e2] at h1
    have h3 : ‖gather n v' - p‖ ^ 2 ≤ 0 := by
      by_contra hcon
      have := mul_lt_mul_of_pos_right hq1 (not_le.1 hcon)
      linarith
    have h4 : ‖gather n v' - p‖ = 0 := pow_eq_zero_iff two_ne_zero |>.1 (le_antisymm h3 (sq_nonneg _))
    have h5 : gather n v' = p := sub_eq_zero.1 (norm_eq_zero.1 h4)
    have h6 : gather n v' (toNode hi) = gather n v (toNode hi) := by rw [h5, hgv]
    exact h6

/-- C82: the point DGD converges to is the consensual optimum exactly when every single agent's gradient vanishes there -/
theorem C82_exact_iff {W : A → A → ℝ} (hW : GoodWeights n W) (ρ : ℝ) (hρ : 0 < ρ) (xs : Vec d) :
    DgdStationary n W ρ G (fun _ => xs) ↔ ∀ i ∈ n.nodes, G i xs = 0 := by
  have e : ∀ i ∈ n.nodes, (n.nodes.map (fun j => W i j • xs)).sum = xs := by
    intro i hi
    have e0 : (n.nodes.map (fun j => W i j • xs)) = ((n.nodes.map (fun j => W i j)).map (fun c => c • xs)) := by rw [List.map_map]; rfl
    rw [e0, ← List.sum_smul, hW.row i hi, one_smul]
  constructor
  · intro hs i hi
    have h1 := hs i hi
    rw [e i hi] at h1
    have h2 : ρ • G i xs = 0 := by
      have : xs - (xs - ρ • G i xs) = 0 := by rw [← h1, sub_self]
      simpa using this
    exact (smul_eq_zero.1 h2).resolve_left hρ.ne'
  · intro hs i hi
    rw [e i hi, hs i hi, smul_zero, sub_zero]

/-- C82: the bias of DGD is proportional to the step size: there is a constant, not depending on the step size, such that the
point DGD converges to is within `C ρ` of the minimiser of the sum, at every agent. -/
theorem C82_bias (h : Lossless w n) (hc : JoinedUp n) (hf : Smooth n f G L m) {W : A → A → ℝ} (hW : GoodWeights n W)
    (xs : Vec d) (hxs : SolvesSum n f xs) : ∃ C : ℝ, ∀ ρ : ℝ, 0 < ρ → ∀ v, DgdStationary n W ρ G v → ∀ i ∈ n.nodes, ‖v i - xs‖ ≤ C * ρ := by
  have hS := hW.stochastic h.wf.nodup
  have hA : Averaging (mixOp (nodeW n W) : Stack (Node n) d →ₗ[ℝ] Stack (Node n) d) := averaging hS
  obtain ⟨u, hu⟩ := exists_dual h.wf hW hc G xs ((solves_iff hf xs).1 hxs) (1 / 2)
  have hmp := hf.mpos
  have hLp := hf.Lpos
  refine ⟨(L / m + 1) * ‖u‖, fun ρ hρ v hv i hi => ?_⟩
  have hfix := (stationary_iff h.wf.nodup ρ v).1 hv
  set X := gather n v with hX
  set S : Stack (Node n) d := gather n (fun _ => xs) with hSdef
  set p := S + ρ • u with hp
  set z := X - p with hz
  set g := gradAt (nodeG n G) with hg
  -- `2 B z + ρ (g X - g p) = ρ (g S - g p)`
  have e1 : (2 : ℝ) • minus (mixOp (nodeW n W)) X = -(ρ • g X) := by
    have : mixOp (nodeW n W) X = X + ρ • g X := sub_eq_iff_eq_add.1 hfix
    rw [minus_apply, this]; module
  have e2 : (2 : ℝ) • minus (mixOp (nodeW n W)) p = -(ρ • g S) := by
    rw [hp, map_add, map_smul, consensus_minus h.wf.nodup hW, hu]; module
  have e3 : (2 : ℝ) • minus (mixOp (nodeW n W)) z + ρ • (g X - g p) = ρ • (g S - g p) := by
    rw [hz, map_sub, smul_sub, e1, e2]; module
  have h1 := minus_nonneg hA z
  have h2 := stack_monotone hf.nodes.2 X p
  have h3 := stack_cocoercive hf.Lpos hf.nodes.1 (fun i => (hf.nodes.2 i).mono hf.mpos.le) S p
  have hlip : ‖g S - g p‖ ≤ L * (ρ * ‖u‖) := by
    have hn : ‖S - p‖ = ρ * ‖u‖ := by rw [hp, sub_add_cancel_left, norm_neg, norm_smul, Real.norm_of_nonneg hρ.le]
    have hcs := real_inner_le_norm (g S - g p) (S - p)
    rw [← hn]
    by_contra hcon
    have hcon := not_le.1 hcon
    have hg0 : 0 < ‖g S - g p‖ := lt_of_le_of_lt (by positivity) hcon
    have a := mul_lt_mul_of_pos_left hcon hg0
    have b := mul_le_mul_of_nonneg_left hcs hLp.le
    change ‖g S - g p‖ ^ 2 ≤ L * ⟪g S - g p, S - p⟫_ℝ at h3
    nlinarith
  have e4 : 2 * ⟪z, minus (mixOp (nodeW n W)) z⟫_ℝ + ρ * ⟪g X - g p, z⟫_ℝ = ρ * ⟪g S - g p, z⟫_ℝ := by
    have := congrArg (fun t => ⟪z, t⟫_ℝ) e3
    simp only [inner_add_right, inner_smul_right] at this
    rw [real_inner_comm (g X - g p) z, real_inner_comm (g S - g p) z] at this
    exact this
  have h5 : ρ * (m * ‖z‖ ^ 2) ≤ ρ * (L * (ρ * ‖u‖) * ‖z‖) := by
    have a := mul_le_mul_of_nonneg_left h2 hρ.le
    have b := real_inner_le_norm (g S - g p) z
    have c := mul_le_mul_of_nonneg_right hlip (norm_nonneg z)
    have e := mul_le_mul_of_nonneg_left (b.trans c) hρ.le
    change ρ * (m * ‖z‖ ^ 2) ≤ ρ * ⟪g X - g p, z⟫_ℝ at a
    linarith
  have h6 := le_of_mul_le_mul_left h5 hρ
  have h7 : ‖z‖ ≤ L / m * (ρ * ‖u‖) := by
    rcases eq_or_lt_of_le (norm_nonneg z) with h0 | h0
    · rw [← h0]; positivity
    · have : m * ‖z‖ ≤ L * (ρ * ‖u‖) := by
        apply le_of_mul_le_mul_right _ h0
        calc m * ‖z‖ * ‖z‖ = m * ‖z‖ ^ 2 := by ring
          _ ≤ _ := h6
      rw [div_mul_eq_mul_div, le_div_iff₀ hmp]; linarith
  have h8 : ‖X - S‖ ≤ (L / m + 1) * ‖u‖ * ρ := by
    have e : X - S = z + ρ • u := by rw [hz, hp]; abel
    rw [e]
    refine (norm_add_le _ _).trans ?_
    rw [norm_smul, Real.norm_of_nonneg hρ.le]
    linarith
  have h9 := coord_le (X - S) (toNode hi)
  exact (pow_le_pow_iff_left₀ (norm_nonneg _) (norm_nonneg _) two_ne_zero).1 h9 |>.trans h8

/-- C82 with the network's default weights -/
theorem C82_default (h : Lossless w n) (hc : JoinedUp n) (hf : Smooth n f G L m) (grad : Grad A (Vec d) Ω) (hG : Exactly grad G)
    (D : Nat) (hD : ∀ i ∈ n.nodes, (n.nbrs i).length ≤ D) (xs : Vec d) (hxs : SolvesSum n f xs) :
    ∃ C : ℝ, ∀ ρ : ℝ, 0 < ρ → ρ < 2 / ((1 + D) * L) → ∃ v : A → Vec d,
      LinearTo (dgd grad (weights n) ρ) (fun a => a.x) w n v ∧ ∀ i ∈ n.nodes, ‖v i - xs‖ ≤ C * ρ := by
  have hW := metropolis_good n h.wf h.noLoops
  obtain ⟨C, hC⟩ := C82_bias h hc hf hW xs hxs
  refine ⟨C, fun ρ hρ hρL => ?_⟩
  obtain ⟨v, hv, hlin, -⟩ := C82_limit h hf hW grad hG ρ (1 / (1 + (D : ℝ))) hρ (default_diag h D hD) (by
    have hp : 0 < (1 + (D : ℝ)) * L := mul_pos (by positivity) hf.Lpos
    rw [lt_div_iff₀ hp] at hρL
    rw [mul_one_div, lt_div_iff₀ (by positivity)]
    linarith)
  exact ⟨v, hlin, hC ρ hρ v hv⟩

end


/-! ### a concrete problem -/

/-- perfect communication, vectors of any dimension -/
def calmWorld (d : Nat) : World Nat (Vec d) Unit :=
  { isActive := fun _ _ _ => (true, ()), shouldDrop := fun _ _ => (false, ()), compSize := fun _ _ => 1,
    compress := fun _ v _ => (v, ()), makeNoise := fun _ _ _ _ => (none, ()), add := fun a _ => a, costSize := fun _ => 1 }

theorem calm_lossless : Lossless (calmWorld d) path3 :=
  ⟨⟨fun _ _ _ => rfl, fun _ _ => rfl, fun _ _ _ => rfl, fun _ _ _ _ => rfl, rfl⟩, path3_wf, path3_loopless⟩

theorem path3_joined : JoinedUp path3 := by
  have s : ∀ a b, b ∈ path3.nbrs a → Relation.ReflTransGen (fun a b => b ∈ path3.nbrs a) a b := fun a b h => Relation.ReflTransGen.single h
  have h01 := s 0 1 (by decide)
  have h10 := s 1 0 (by decide)
  have h12 := s 1 2 (by decide)
  have h21 := s 2 1 (by decide)
  intro i hi j hj
  have hi' : i = 0 ∨ i = 1 ∨ i = 2 := by simpa [path3] using hi
  have hj' : j = 0 ∨ j = 1 ∨ j = 2 := by simpa [path3] using hj
  rcases hi' with rfl | rfl | rfl <;> rcases hj' with rfl | rfl | rfl
  · exact .refl
  · exact h01
  · exact h01.trans h12
  · exact h10
  · exact .refl
  · exact h12
  · exact h21.trans h10
  · exact h21
  · exact .refl

/-- `f_i(x) = ½ ‖x - b_i‖²` -/
noncomputable def springs (b : Nat → Vec d) (i : Nat) (x : Vec d) : ℝ := 1 / 2 * ‖x - b i‖ ^ 2

/-- its gradient, as an oracle -/
noncomputable def springGrad (b : Nat → Vec d) : Grad Nat (Vec d) Unit := fun i x _ => (x - b i, ())

theorem springs_smooth (b : Nat → Vec d) : Smooth path3 (springs b) (fun i x => x - b i) 1 1 := by
  have e : ∀ (i : Nat) (x y : Vec d), springs b i y = springs b i x + ⟪x - b i, y - x⟫_ℝ + 1 / 2 * ‖y - x‖ ^ 2 := by
    intro i x y
    have : y - b i = (x - b i) + (y - x) := by abel
    unfold springs
    rw [this, norm_add_sq_real]; ring
  exact ⟨one_pos, one_pos, fun i _ x y => (e i x y).le, fun i _ x y => (e i x y).ge⟩

theorem springs_solves (b : Nat → Vec d) : SolvesSum path3 (springs b) ((1 / 3 : ℝ) • (b 0 + b 1 + b 2)) := by
  rw [solves_iff (springs_smooth b)]
  show (1 / 3 : ℝ) • (b 0 + b 1 + b 2) - b 0 + ((1 / 3 : ℝ) • (b 0 + b 1 + b 2) - b 1 + ((1 / 3 : ℝ) • (b 0 + b 1 + b 2) - b 2 + 0)) = 0
  module

-- three agents averaging their vectors: ED and NIDS with step 1.9, EXTRA with step 1/2, all reach the mean
example (b : Nat → Vec d) : LinearTo (ed (springGrad b) (weights path3) 1.9) (fun a => a.x) (calmWorld d) path3 (fun _ => (1 / 3 : ℝ) • (b 0 + b 1 + b 2)) :=
  (C80_default calm_lossless path3_joined (springs_smooth b) (springGrad b) (fun _ _ _ => rfl) 1.9 (by norm_num) (by norm_num) _ (springs_solves b)).1

example (b : Nat → Vec d) : LinearTo (extra (springGrad b) (weights path3) (1 / 2)) (fun a => a.x) (calmWorld d) path3 (fun _ => (1 / 3 : ℝ) • (b 0 + b 1 + b 2)) :=
  C81_default calm_lossless path3_joined (springs_smooth b) (springGrad b) (fun _ _ _ => rfl) 2
    (by intro i hi; have : i = 0 ∨ i = 1 ∨ i = 2 := by simpa [path3] using hi
        rcases this with rfl | rfl | rfl <;> decide) (1 / 2) (by norm_num) (by norm_num) _ (springs_solves b)

-- DGD cannot reach it unless all vectors coincide
example (b : Nat → Vec d) (hb : b 0 ≠ b 1) (ρ : ℝ) (hρ : 0 < ρ) (xs : Vec d) : ¬ DgdStationary path3 (weights path3) ρ (fun i x => x - b i) (fun _ => xs) := by
  rw [C82_exact_iff (metropolis_good path3 path3_wf path3_loopless) ρ hρ]
  intro h
  have h0 := h 0 (by decide)
  have h1 := h 1 (by decide)
  exact hb (by rw [← sub_eq_zero.1 h0, ← sub_eq_zero.1 h1])

end
end Verif.Props
