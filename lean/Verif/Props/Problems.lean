import Verif.Model.Problems
import Verif.Props.SolverRates
import Verif.Props.CostsProx
import Verif.Props.Partition
import Verif.Props.BatchMore
import Verif.Props.StateMetrics
import Mathlib.Algebra.Order.Chebyshev
/-!
# C110: the ready-made problems
-/
set_option linter.unusedSectionVars false
namespace Verif.Props
open Verif Costs CostAlg Solver Part Problems
open scoped InnerProductSpace

variable {Ω σ ι : Type} {d : Nat}

/-- `F` is the sum of the values of the costs, called with the keyword argument `kw` -/
def ProblemObjective (kw : Option ι) (costs : List (Cost σ ι d)) (F : Vec d → ℝ) : Prop :=
  ∀ y, ∃ vs : List ℝ, List.Forall₂ (fun c v => c.fn kw y = .ok v) costs vs ∧ F y = vs.sum

theorem ProblemObjective.unique {kw : Option ι} {costs : List (Cost σ ι d)} {F G : Vec d → ℝ} (hF : ProblemObjective kw costs F)
    (hG : ProblemObjective kw costs G) : F = G := by
  funext y
  obtain ⟨vs, h1, h2⟩ := hF y
  obtain ⟨ws, h3, h4⟩ := hG y
  rw [h2, h4]
  congr 1
  clear h2 h4 hF hG
  induction h1 generalizing ws with
  | nil => cases h3; rfl
  | cons e _ ih =>
    cases h3 with
    | cons e' h3 =>
      rw [e] at e'
      cases e'
      rw [ih _ h3]

/-! ### quadratic problems -/

theorem quadMatrix_symm (U : Mat d) : (quadMatrix U).transpose = quadMatrix U := by
  unfold quadMatrix
  ext i j
  by_cases h : i = j
  · subst h; simp [Matrix.add_apply]
  · simp [Matrix.add_apply, Matrix.one_apply_ne h, Matrix.one_apply_ne (Ne.symm h)]; ring

theorem quadMatrix_form (U : Mat d) (v : Vec d) :
    ⟪v, app (quadMatrix U) v⟫_ℝ = (∑ i, ∑ j, U i j * (v i * v j)) + d * ‖v‖ ^ 2 := by
  have e : app (quadMatrix U) v = (1 / 2 : ℝ) • (app U v + app U.transpose v) + (d : ℝ) • v := by
    unfold quadMatrix
    rw [add_app, smul_app, add_app, smul_app, one_app]
  have h1 : ⟪v, app U v⟫_ℝ = ∑ i, ∑ j, U i j * (v i * v j) := by
    rw [← dot_eq_inner, dot]
    refine Finset.sum_congr rfl fun i _ => ?_
    rw [app_apply, Finset.mul_sum]
    exact Finset.sum_congr rfl fun j _ => by ring
  have h2 : ⟪v, app U.transpose v⟫_ℝ = ⟪v, app U v⟫_ℝ := by
    rw [inner_app, Matrix.transpose_transpose, real_inner_comm]
  rw [e, inner_add_right, inner_smul_right, inner_add_right, inner_smul_right, h2, h1, real_inner_self_eq_norm_sq]
  ring

theorem sum_abs_sq_le (v : Vec d) : (∑ i, |v i|) ^ 2 ≤ d * ‖v‖ ^ 2 := by
  have := sq_sum_le_card_mul_sum_sq (s := Finset.univ) (f := fun i => |v i|)
  rw [Finset.card_univ, Fintype.card_fin] at this
  rw [EuclideanSpace.norm_sq_eq]
  simpa [sq_abs] using this

theorem quadMatrix_lower (U : Mat d) (hU : ∀ i j, 0 ≤ U i j ∧ U i j < 1) (v : Vec d) : ‖v‖ ^ 2 ≤ ⟪v, app (quadMatrix U) v⟫_ℝ := by
  rw [quadMatrix_form]
  have h1 : ∀ i j, -(|v i| * |v j|) + (if i = j then |v i| ^ 2 else 0) ≤ U i j * (v i * v j) := by
    intro i j
    obtain ⟨a, b⟩ := hU i j
    by_cases h : i = j
    · subst h
      rw [if_pos rfl]
      have : 0 ≤ U i i * (v i * v i) := mul_nonneg a (mul_self_nonneg _)
      nlinarith
    · rw [if_neg h, add_zero]
      have h2 : |U i j * (v i * v j)| ≤ |v i| * |v j| := by
        rw [abs_mul, abs_mul, abs_of_nonneg a]
        exact mul_le_of_le_one_left (by positivity) b.le
      linarith [neg_abs_le (U i j * (v i * v j))]
  have h2 : ∑ i, ∑ j, (-(|v i| * |v j|) + (if i = j then |v i| ^ 2 else 0)) ≤ ∑ i, ∑ j, U i j * (v i * v j) :=
    Finset.sum_le_sum fun i _ => Finset.sum_le_sum fun j _ => h1 i j
  have h3 : ∑ i, ∑ j, (-(|v i| * |v j|) + (if i = j then |v i| ^ 2 else 0)) = -(∑ i, |v i|) ^ 2 + ‖v‖ ^ 2 := by
    simp only [Finset.sum_add_distrib, Finset.sum_neg_distrib, Finset.sum_ite_eq, Finset.mem_univ, if_true]
    rw [EuclideanSpace.norm_sq_eq, sq (∑ i, |v i|), Finset.sum_mul_sum]
    simp
  have := sum_abs_sq_le v
  linarith

theorem quadMatrix_upper (U : Mat d) (hU : ∀ i j, 0 ≤ U i j ∧ U i j < 1) (v : Vec d) :
    ⟪v, app (quadMatrix U) v⟫_ℝ ≤ 2 * d * ‖v‖ ^ 2 := by
  rw [quadMatrix_form]
  have h2 : ∑ i, ∑ j, U i j * (v i * v j) ≤ ∑ i, ∑ j, |v i| * |v j| := by
    refine Finset.sum_le_sum fun i _ => Finset.sum_le_sum fun j _ => ?_
    obtain ⟨a, b⟩ := hU i j
    have h2 : |U i j * (v i * v j)| ≤ |v i| * |v j| := by
      rw [abs_mul, abs_mul, abs_of_nonneg a]
      exact mul_le_of_le_one_left (by positivity) b.le
    exact (le_abs_self _).trans h2
  rw [← Finset.sum_mul_sum, ← sq] at h2
  have := sum_abs_sq_le v
  linarith

/-- the reported constants of such a cost -/
theorem quadMatrix_constants (U : Mat d) (hU : ∀ i j, 0 ≤ U i j ∧ U i j < 1) (hd : 0 < d) :
    quadSmooth (quadMatrix U) ≤ 2 * d ∧ ∃ m, quadCvx (quadMatrix U) = .fin m ∧ 1 ≤ m := by
  have hsymm : symPart (quadMatrix U) = quadMatrix U := by rw [symPart, quadMatrix_symm]; ext i j; simp; ring
  have : Nonempty (Fin d) := ⟨⟨0, hd⟩⟩
  have hM := symPart_herm (quadMatrix U)
  have hform : ∀ v, ⟪v, app (symPart (quadMatrix U)) v⟫_ℝ = ⟪v, app (quadMatrix U) v⟫_ℝ := inner_symPart _
  have hval : ∀ i, (symPart_herm (quadMatrix U)).eigenvalues i =
      ⟪(symPart_herm (quadMatrix U)).eigenvectorBasis i, app (quadMatrix U) ((symPart_herm (quadMatrix U)).eigenvectorBasis i)⟫_ℝ := by
    intro i
    rw [← hform, app_eigen, inner_smul_right, real_inner_self_eq_norm_sq, (symPart_herm (quadMatrix U)).eigenvectorBasis.orthonormal.1 i]
    ring
  have hb : ∀ i, 1 ≤ (symPart_herm (quadMatrix U)).eigenvalues i ∧ (symPart_herm (quadMatrix U)).eigenvalues i ≤ 2 * d := by
    intro i
    have h1 := quadMatrix_lower U hU ((symPart_herm (quadMatrix U)).eigenvectorBasis i)
    have h2 := quadMatrix_upper U hU ((symPart_herm (quadMatrix U)).eigenvectorBasis i)
    rw [(symPart_herm (quadMatrix U)).eigenvectorBasis.orthonormal.1 i, ← hval] at h1 h2
    constructor <;> linarith
  have hmin : 1 ≤ minEig _ (symPart_herm (quadMatrix U)) := le_ciInf fun i => (hb i).1
  refine ⟨ciSup_le fun i => ?_, minEig _ (symPart_herm (quadMatrix U)), ?_, hmin⟩
  · rw [abs_of_nonneg (by linarith [(hb i).1])]
    exact (hb i).2
  · rw [quadCvx, cvxOf, if_pos (by norm_num; linarith)]

/-- the data drawn: matrices and vectors, one pair per agent -/
theorem quadData_spec (g : Draws Ω d) (hg : g.Lawful) (n : Nat) (ω : Ω) :
    (quadData g n ω).1.length = n ∧ ∀ p ∈ (quadData g n ω).1, ∃ U : Mat d, (∀ i j, 0 ≤ U i j ∧ U i j < 1) ∧ p.1 = quadMatrix U := by
  induction n generalizing ω with
  | zero => simp [quadData]
  | succ n ih =>
    simp only [quadData, List.length_cons, List.mem_cons]
    refine ⟨by rw [(ih _).1], ?_⟩
    rintro p (rfl | hp)
    · exact ⟨_, hg ω, rfl⟩
    · exact (ih _).2 p hp

theorem addAll_quads [DecidableEq σ] (np : σ) (ps : List (Mat d × Vec d)) (A : Mat d) (b : Vec d) (c : ℝ) :
    addAll (.quad np A b c : Cost σ ι d) (ps.map (fun p : Mat d × Vec d => .quad np p.1 p.2 0)) =
      .ok (.quad np (A + (ps.map (fun p : Mat d × Vec d => p.1)).sum) (b + (ps.map (fun p : Mat d × Vec d => p.2)).sum) c) := by
  induction ps generalizing A b c with
  | nil => simp [addAll]
  | cons p ps ih =>
    have h1 : (Cost.quad np A b c : Cost σ ι d).add (.quad np p.1 p.2 0) = .ok (.quad np (A + p.1) (b + p.2) (c + 0)) := by
      simp [Cost.add, validate]; rfl
    simp only [List.map_cons, addAll, h1, List.sum_cons]
    rw [ih, add_assoc, add_assoc, add_zero]

theorem quadFn_add (A B : Mat d) (a b : Vec d) (s t : ℝ) (y : Vec d) : quadFn (A + B) (a + b) (s + t) y = quadFn A a s y + quadFn B b t y := by
  unfold quadFn
  rw [add_app]
  simp only [dot_eq_inner, inner_add_left, inner_add_right]
  ring

theorem quadFn_zero (y : Vec d) : quadFn (0 : Mat d) 0 0 y = 0 := by
  unfold quadFn
  rw [zero_app]
  simp [dot_eq_inner]

theorem quadFn_sum (ps : List (Mat d × Vec d)) (y : Vec d) :
    quadFn (ps.map (fun p : Mat d × Vec d => p.1)).sum (ps.map (fun p : Mat d × Vec d => p.2)).sum 0 y = (ps.map (fun p : Mat d × Vec d => quadFn p.1 p.2 0 y)).sum := by
  induction ps with
  | nil => exact quadFn_zero y
  | cons p ps ih =>
    simp only [List.map_cons, List.sum_cons]
    rw [← ih, ← quadFn_add, add_zero]

theorem quad_objective (np : σ) (ps : List (Mat d × Vec d)) : ProblemObjective none
    (ps.map (fun p : Mat d × Vec d => (.quad np p.1 p.2 0 : Cost σ ι d))) (fun y => (ps.map (fun p : Mat d × Vec d => quadFn p.1 p.2 0 y)).sum) := by
  intro y
  refine ⟨ps.map (fun p : Mat d × Vec d => quadFn p.1 p.2 0 y), ?_, rfl⟩
  induction ps with
  | nil => exact .nil
  | cons p ps ih => exact .cons (by rw [Cost.fn]; rfl) ih

/-- **C110.** `create_quadratic_problem` with at least one agent always returns: as many costs as agents, each 1-strongly convex and
`2 * size`-smooth (and reporting constants that say so), and the unique minimiser of their sum. -/
theorem C110_quadratic [DecidableEq σ] (np : σ) (lstsq : Mat d → Vec d → Vec d) (g : Draws Ω d) (hg : g.Lawful) (n : Int) (hn : 1 ≤ n)
    (ω : Ω) :
    ∃ (costs : List (Cost σ ι d)) (x : Vec d) (ω' : Ω),
      createQuadratic np lstsq g n ω = .result (.ok (⟨costs, some x, []⟩, ω')) ∧ (costs.length : Int) = n ∧
      (∀ c ∈ costs, ∃ f gr, (∀ y, c.fn none y = .ok (f y)) ∧ (∀ y, c.grad none y = .ok (gr y)) ∧ Upper f gr (2 * d) ∧ Lower f gr 1 ∧
        (0 < d → ∃ L m, c.mSmooth = .fin L ∧ L ≤ 2 * d ∧ c.mCvx = .fin m ∧ 1 ≤ m)) ∧
      ∃ F, ProblemObjective none costs F ∧ ∀ y, y ≠ x → F x < F y := by
  obtain ⟨k, rfl⟩ : ∃ k : Nat, n = ((k + 1 : Nat) : Int) := ⟨(n - 1).toNat, by omega⟩
  obtain ⟨hlen, hmem⟩ := quadData_spec g hg (k + 1) ω
  obtain ⟨p, ps, hps⟩ : ∃ p ps, (quadData g (k + 1) ω).1 = p :: ps := by
    cases h : (quadData g (k + 1) ω).1 with
    | nil => rw [h] at hlen; simp at hlen
    | cons p ps => exact ⟨p, ps, rfl⟩
  have hred : reduceAdd ((quadData g (k + 1) ω).1.map (fun p : Mat d × Vec d => (.quad np p.1 p.2 0 : Cost σ ι d))) =
      .ok (.quad np ((quadData g (k + 1) ω).1.map (fun p : Mat d × Vec d => p.1)).sum ((quadData g (k + 1) ω).1.map (fun p : Mat d × Vec d => p.2)).sum 0) := by
    rw [hps]
    simp only [List.map_cons, reduceAdd, List.sum_cons]
    rw [addAll_quads]
  have hsym : ∀ l : List (Mat d × Vec d), (∀ p ∈ l, p ∈ (quadData g (k + 1) ω).1) →
      ((l.map (fun p : Mat d × Vec d => p.1)).sum).transpose = (l.map (fun p : Mat d × Vec d => p.1)).sum ∧
      ∀ v, (l.length : ℝ) * ‖v‖ ^ 2 ≤ ⟪v, app (l.map (fun p : Mat d × Vec d => p.1)).sum v⟫_ℝ := by
    intro l
    induction l with
    | nil => intro _; simp [zero_app]
    | cons q l ih =>
      intro h
      obtain ⟨h1, h2⟩ := ih fun p hp => h p (by simp [hp])
      obtain ⟨U, hU, hq⟩ := hmem q (h q (by simp))
      simp only [List.map_cons, List.sum_cons, List.length_cons]
      refine ⟨by rw [Matrix.transpose_add, h1, hq, quadMatrix_symm], fun v => ?_⟩
      rw [add_app, inner_add_right, hq]
      have := quadMatrix_lower U hU v
      push_cast
      linarith [h2 v]
  obtain ⟨hs, hpd⟩ := hsym _ (fun p hp => hp)
  obtain ⟨x, hx, hmin⟩ := C54_quadratic _ ((quadData g (k + 1) ω).1.map (fun p : Mat d × Vec d => p.2)).sum 0 hs (fun v hv => by
    rw [dot_eq_inner]
    have := hpd v
    rw [hlen] at this
    have h0 : 0 < ‖v‖ ^ 2 := by positivity
    push_cast at this
    nlinarith)
  refine ⟨_, x, (quadData g (k + 1) ω).2, ?_, ?_, ?_, _, quad_objective np (quadData g (k + 1) ω).1, fun y hy => ?_⟩
  · unfold createQuadratic
    simp only [Int.toNat_natCast, hred, solveIt, Solver.solve, hx]
  · rw [List.length_map, hlen]
  · intro c hc
    obtain ⟨q, hq, rfl⟩ := List.mem_map.1 hc
    obtain ⟨U, hU, hqU⟩ := hmem q hq
    have hsymm : symPart q.1 = q.1 := by rw [symPart, hqU, quadMatrix_symm]; ext i j; simp; ring
    refine ⟨quadFn q.1 q.2 0, quadGrad q.1 q.2, fun y => by simp [Cost.fn], fun y => by simp [Cost.grad], fun a b => ?_, fun a b => ?_, fun hd => ?_⟩
    · rw [quad_expand q.1 q.2 0 a b, hsymm, hqU]
      have := quadMatrix_upper U hU (b - a)
      nlinarith
    · rw [quad_expand q.1 q.2 0 a b, hsymm, hqU]
      have := quadMatrix_lower U hU (b - a)
      nlinarith
    · obtain ⟨h1, m, h2, h3⟩ := quadMatrix_constants U hU hd
      rw [← hqU] at h1 h2
      exact ⟨_, m, rfl, h1, h2, h3⟩
  · have := hmin y hy
    rw [quadFn_sum, quadFn_sum] at this
    exact this

/-- **C110.** Without agents there is nothing to add up: TypeError. -/
theorem C110_quadratic_empty [DecidableEq σ] (np : σ) (lstsq : Mat d → Vec d → Vec d) (g : Draws Ω d) (n : Int) (hn : n ≤ 0) (ω : Ω) :
    createQuadratic (ι := ι) np lstsq g n ω = .result (.error .typeError) := by
  unfold createQuadratic
  rw [Int.toNat_of_nonpos hn]
  rfl

/-- every entry drawn is one half, every vector is zero -/
noncomputable def halves (d : Nat) : Draws Unit d := ⟨fun _ => (Matrix.of fun _ _ => 1 / 2, ()), fun _ => (0, ())⟩

example : (halves 3).Lawful := fun _ _ _ => by simp [halves]; norm_num

/-! ### data -/

/-- an average over a data set -/
noncomputable def dataMean {X : Type} (h : X → ℝ) (S : List X) : ℝ := (S.map h).sum / S.length

theorem dataMean_parts {X : Type} (h : X → ℝ) (k : Nat) (parts : List (List X)) (data : List X) (hk : ∀ S ∈ parts, S.length = k)
    (hp : parts.flatten.Perm data) : (parts.map (dataMean h)).sum = parts.length * dataMean h data := by
  have h1 : (data.map h).sum = (parts.map (fun S => (S.map h).sum)).sum := by
    rw [← (hp.map h).sum_eq]
    clear hp hk
    induction parts with
    | nil => rfl
    | cons S l ih => simp only [List.flatten_cons, List.map_append, List.sum_append, List.map_cons, List.sum_cons, ih]
  have h2 : data.length = parts.length * k := by
    rw [← hp.length_eq]
    clear hp h1
    induction parts with
    | nil => simp
    | cons S l ih =>
      rw [List.flatten_cons, List.length_append, ih fun S hS => hk S (by simp [hS]), hk S (by simp), List.length_cons]
      ring
  have h3 : (parts.map (dataMean h)).sum = (parts.map (fun S => (S.map h).sum)).sum / k := by
    clear hp h1 h2
    induction parts with
    | nil => simp
    | cons S l ih =>
      simp only [List.map_cons, List.sum_cons]
      rw [ih fun S hS => hk S (by simp [hS]), dataMean, hk S (by simp), add_div]
  rw [h3, ← h1, dataMean, h2]
  by_cases h0 : parts.length = 0
  · have : parts = [] := List.length_eq_zero_iff.1 h0
    subst this
    simp at hp
    subst hp
    simp
  · push_cast
    have : (parts.length : ℝ) ≠ 0 := by exact_mod_cast h0
    rw [mul_div_assoc', mul_comm (parts.length : ℝ) (k : ℝ), mul_comm (parts.length : ℝ) (data.map h).sum, mul_div_mul_right _ _ this]

theorem linFn_mean (S : List (Vec d × ℝ)) (x : Vec d) :
    linFn S x = dataMean (fun s : Vec d × ℝ => 0.5 * ((dot s.1 x - s.2) * (dot s.1 x - s.2))) S := by
  rw [linFn, dataMean, List.sum_map_mul_left]

theorem logFn_mean (S : List (Vec d × ℝ)) (x : Vec d) :
    logFn S x = dataMean (fun s : Vec d × ℝ => s.2 * negLogSig (dot s.1 x) + (1 - s.2) * (dot s.1 x + negLogSig (dot s.1 x))) S := by
  rw [logFn, dataMean, List.sum_map_add]

/-- what the data of a problem are: ten samples for each of the `n` agents, together all the samples generated - by the seed, if one
is set -/
def LocalData {Y : Type} (src : Source Ω Y d) (n : Int) (locals : List (List (Vec d × Y))) (data : List (Vec d × Y)) : Prop :=
  (locals.length : Int) = n ∧ (∀ S ∈ locals, S.length = 10) ∧ locals.flatten.Perm data ∧
    ∀ s, src.seed = some s → data = src.seeded s (n * 10).toNat

theorem even_tens (n : Nat) : evenCounts (n * 10) n = List.replicate n 10 := by
  unfold evenCounts
  refine List.eq_replicate_iff.2 ⟨by simp, ?_⟩
  intro a ha
  obtain ⟨i, hi, rfl⟩ := List.mem_map.1 ha
  have : 0 < n := by have := List.mem_range.1 hi; omega
  rw [Nat.mul_mod_right, Nat.mul_div_cancel_left _ this]
  simp

theorem raw_length {Y : Type} {src : Source Ω Y d} (hs : src.Lawful) (n : Nat) (ω : Ω) : (src.raw n ω).1.length = n := by
  unfold Source.raw
  cases src.seed with
  | none => exact hs.fresh n ω
  | some s => exact hs.seeded s n

theorem map_getD_range_ {X : Type} (l : List X) (x : X) : (List.range l.length).map (fun i => l.getD i x) = l := by
  apply List.ext_getElem (by simp)
  intro i h1 h2
  simp [List.getElem_range, h2]

theorem localData_eq {Y : Type} [Inhabited Y] (src : Source Ω Y d) (hs : src.Lawful) (n : Int) (hn : 1 ≤ n) (ω : Ω) :
    ∃ locals data ω', localData src n ω = .ok ((locals, data), ω') ∧ LocalData src n locals data ∧
      (∀ s, src.seed = some s → ∀ k, (src.raw k ω').1 = src.seeded s k) ∧
      locals = (splitByCounts (src.rng.perm (n * 10).toNat ω).1 (List.replicate n.toNat 10)).map (fun p => p.map (fun i => data.getD i (0, default))) := by
  obtain ⟨m, rfl⟩ : ∃ m : Nat, n = (m : Int) := ⟨n.toNat, by omega⟩
  have hm : 0 < m := by omega
  have hnn : ((m : Int) * 10).toNat = m * 10 := by omega
  have hcounts : partitionCounts (m * 10) (m : Int) .none = .ok (List.replicate m 10) := by
    unfold partitionCounts
    rw [if_neg (by omega)]
    simp only [Int.toNat_natCast, even_tens]
    rw [if_neg (by rw [sum_replicate_nat]; omega)]
  have hperm := hs.rng.perm (m * 10) ω
  have hsplit : splitIid src.rng (m * 10) (m : Int) .none ω =
      .ok (splitByCounts (src.rng.perm (m * 10) ω).1 (List.replicate m 10), (src.rng.perm (m * 10) ω).2) := by
    simp only [splitIid, hcounts, shuffledRange]
  obtain ⟨parts, hparts⟩ : ∃ parts, parts = splitByCounts (src.rng.perm (m * 10) ω).1 (List.replicate m 10) := ⟨_, rfl⟩
  have hlen : parts.map List.length = List.replicate m 10 := by
    rw [hparts]
    exact splitByCounts_lengths _ _ (by rw [sum_replicate_nat, hperm.length_eq]; simp)
  have hflat : parts.flatten = (src.rng.perm (m * 10) ω).1 := by
    rw [hparts, splitByCounts_flatten, sum_replicate_nat, List.take_of_length_le (by rw [hperm.length_eq]; simp)]
  have hfp : parts.flatten.Perm (List.range (m * 10)) := by rw [hflat]; exact hperm
  obtain ⟨r, hr⟩ : ∃ r, r = src.raw (m * 10) (src.rng.perm (m * 10) ω).2 := ⟨_, rfl⟩
  have hrl : r.1.length = m * 10 := by rw [hr]; exact raw_length hs _ _
  have hsd : splitData (m * 10) (fun i => r.1.getD i (0, default)) (parts.map (fun p => p.map (fun i : Nat => Idx.int (i : Int)))) =
      .ok (parts.map (fun p => p.map (fun i => r.1.getD i (0, default)))) :=
    (C48_split_iff _ _ _ _).2 ⟨parts, rfl, hfp.symm.nodup List.nodup_range, fun i hi => List.mem_range.1 (hfp.subset hi), rfl⟩
  refine ⟨parts.map (fun p => p.map (fun i => r.1.getD i (0, default))), r.1, r.2, ?_, ⟨?_, ?_, ?_, ?_⟩, ?_, by rw [hparts, hnn, Int.toNat_natCast]⟩
  · unfold localData
    rw [hnn, hsplit]
    simp only
    rw [← hparts, ← hr, hsd]
  · have := congrArg List.length hlen
    simp at this
    simp [this]
  · intro S hS
    obtain ⟨p, hp, rfl⟩ := List.mem_map.1 hS
    have : p.length ∈ parts.map List.length := List.mem_map_of_mem hp
    rw [hlen] at this
    simpa using (List.eq_of_mem_replicate this)
  · have h1 : (parts.map (fun p => p.map (fun i => r.1.getD i (0, default)))).flatten =
        parts.flatten.map (fun i => r.1.getD i (0, default)) := by
      rw [List.map_flatten]
    rw [h1]
    refine (hfp.map _).trans ?_
    rw [← hrl, map_getD_range_]
  · intro s h
    rw [hr, hnn, Source.raw, h]
  · intro s h k
    simp only [Source.raw, h]

theorem localData_ok {Y : Type} [Inhabited Y] (src : Source Ω Y d) (hs : src.Lawful) (n : Int) (hn : 1 ≤ n) (ω : Ω) :
    ∃ locals data ω', localData src n ω = .ok ((locals, data), ω') ∧ LocalData src n locals data ∧
      (∀ s, src.seed = some s → ∀ k, (src.raw k ω').1 = src.seeded s k) := by
  obtain ⟨a, b, c, h1, h2, h3, -⟩ := localData_eq src hs n hn ω
  exact ⟨a, b, c, h1, h2, h3⟩

theorem localData_bad {Y : Type} [Inhabited Y] (src : Source Ω Y d) (n : Int) (hn : n ≤ 0) (ω : Ω) :
    localData src n ω = .error .valueError := by
  unfold localData splitIid partitionCounts
  rw [if_pos hn]

/-! ### sums of empirical costs -/

/-- the batch sizes a cost with ten samples accepts -/
def BatchOk : BatchSize → Prop
  | .all => True
  | .size k => 1 ≤ k ∧ k ≤ 10
  | .other => False

theorem checkBatch_ok {len : Nat} (h : len = 10) (b : BatchSize) : (BatchOk b → checkBatch len b = .ok ()) ∧ (¬ BatchOk b → checkBatch len b = .error .valueError) := by
  subst h
  unfold checkBatch
  rw [if_neg (by omega)]
  cases b with
  | all => exact ⟨fun _ => rfl, fun h => absurd trivial h⟩
  | other => exact ⟨fun h => h.elim, fun _ => rfl⟩
  | size k =>
    constructor
    · rintro ⟨h1, h2⟩; exact if_neg (by push Not; exact ⟨by omega, by exact_mod_cast h2⟩)
    · intro h
      refine if_pos ?_
      by_contra hc
      push Not at hc
      exact h ⟨by omega, by exact_mod_cast hc.2⟩

theorem addAll_emps [DecidableEq σ] (np : σ) : ∀ (as : List (Atom σ ι d)) (a : Atom σ ι d) (bs : List (Atom σ ι d)), a.sig = np →
    (∀ b ∈ bs, b.sig = np) → (∀ b ∈ as, b.sig = np) →
    addAll (.sum (.emp a) (bs.map .emp) : Cost σ ι d) (as.map .emp) = .ok (.sum (.emp a) ((bs ++ as).map .emp))
  | [], a, bs, _, _, _ => by simp [addAll]
  | b :: as, a, bs, h1, h2, h3 => by
    have hv : validateAll np (((bs ++ [b]).map .emp) : List (Cost σ ι d)) = .ok () := by
      rw [validateAll_iff]
      intro c hc
      obtain ⟨e, he, rfl⟩ := List.mem_map.1 hc
      rcases List.mem_append.1 he with he | he
      · exact (h2 e he).symm
      · rw [List.mem_singleton.1 he]; exact (h3 b (by simp)).symm
    have hadd : (Cost.sum (.emp a) (bs.map .emp) : Cost σ ι d).add (.emp b) = .ok (.sum (.emp a) ((bs ++ [b]).map .emp)) := by
      rw [Cost.add, mkSum]
      simp only [Cost.items, List.cons_append]
      rw [show (bs.map Cost.emp ++ [Cost.emp b] : List (Cost σ ι d)) = (bs ++ [b]).map .emp by simp,
        show (Cost.emp a : Cost σ ι d).sig = np from h1, hv]
      rfl
    simp only [List.map_cons, addAll, hadd]
    rw [addAll_emps np as a (bs ++ [b]) h1 (fun c hc => by
      rcases List.mem_append.1 hc with hc | hc
      · exact h2 c hc
      · rw [List.mem_singleton.1 hc]; exact h3 b (by simp)) (fun c hc => h3 c (by simp [hc]))]
    simp

theorem reduceAdd_emps [DecidableEq σ] (np : σ) (a b : Atom σ ι d) (as : List (Atom σ ι d)) (h : ∀ e ∈ a :: b :: as, e.sig = np) :
    reduceAdd ((a :: b :: as).map .emp : List (Cost σ ι d)) = .ok (.sum (.emp a) ((b :: as).map .emp)) := by
  have ha : a.sig = np := h a (by simp)
  have hb : b.sig = np := h b (by simp)
  have hadd : (Cost.emp a : Cost σ ι d).add (.emp b) = .ok (.sum (.emp a) [.emp b]) := by
    rw [Cost.add]
    · simp only [Cost.sig, ha, hb, validate, if_true, bind, Except.bind, mkSum, Cost.items, List.cons_append, List.nil_append, validateAll]
    all_goals (intros; first | contradiction | (intro _; contradiction))
  simp only [List.map_cons, reduceAdd, addAll, hadd]
  have := addAll_emps np as a [b] ha (by simpa using hb) (fun e he => h e (by simp [he]))
  simpa using this

theorem emp_objective (kw : Option ι) (np : σ) (f : List (Vec d × ℝ) → Atom σ ι d) (v : List (Vec d × ℝ) → Vec d → ℝ) (hf : ∀ S, (f S).fn kw = v S)
    (locals : List (List (Vec d × ℝ))) :
    ProblemObjective kw (locals.map (fun S => Cost.emp (f S))) (fun y => (locals.map (fun S => v S y)).sum) := by
  intro y
  refine ⟨locals.map (fun S => v S y), ?_, rfl⟩
  induction locals with
  | nil => exact .nil
  | cons S l ih => exact .cons (by rw [Cost.fn, hf]) ih

theorem mkLinear_all (np : σ) (b : BatchSize) (hb : BatchOk b) (locals : List (List (Vec d × ℝ))) (hl : ∀ S ∈ locals, S.length = 10) :
    locals.mapM (mkLinear (ι := ι) np b) = .ok (locals.map (fun S => .emp (linAtom np S))) := by
  rw [mapM_ok]
  induction locals with
  | nil => exact .nil
  | cons S l ih =>
    refine .cons ?_ (ih fun T hT => hl T (by simp [hT]))
    rw [mkLinear, (checkBatch_ok (hl S (by simp)) b).1 hb]

theorem linData_spec (np : σ) (S : List (Vec d × ℝ)) :
    ∃ S', linData np (Cost.emp (linAtom np S) : Cost σ ι d) = some S' ∧ linFn S' = linFn S := by
  have h : ∃ T, (Cost.emp (linAtom np S) : Cost σ ι d) = .emp (linAtom np T) := ⟨S, rfl⟩
  refine ⟨h.choose, by unfold linData; rw [dif_pos h], ?_⟩
  have e := h.choose_spec
  injection e with e
  have := congrArg (fun a : Atom σ ι d => a.fn none) e
  exact this.symm

theorem linData_all (np : σ) (locals : List (List (Vec d × ℝ))) :
    ((locals.map (fun S => (Cost.emp (linAtom np S) : Cost σ ι d))).all (fun c => (linData np c).isSome)) = true ∧
    ∀ y, sumLin ((locals.map (fun S => (Cost.emp (linAtom np S) : Cost σ ι d))).filterMap (linData np)) y = sumLin locals y := by
  induction locals with
  | nil => exact ⟨rfl, fun _ => rfl⟩
  | cons S l ih =>
    obtain ⟨S', h1, h2⟩ := linData_spec (ι := ι) np S
    constructor
    · simp only [List.map_cons, List.all_cons, h1, Option.isSome_some, Bool.true_and]
      exact ih.1
    · intro y
      have := ih.2 y
      simp only [sumLin] at this ⊢
      simp only [List.map_cons, List.filterMap_cons, h1, List.sum_cons, h2, this]

/-! ### regression -/

/-- **C110.** `create_regression_problem` for two or more agents and an admissible batch size always returns: one cost per agent, each on
ten samples, together all the samples; `x_optimal`, when asked for, minimises the sum of the costs - which is `n` times the cost on all
the data - over the whole space, whatever the batch size. -/
theorem C110_regression [DecidableEq σ] (np : σ) (lstsq : Mat d → Vec d → Vec d) (hl : ∀ Q v, IsLstsq Q v (lstsq Q v))
    (src : Source Ω ℝ d) (hs : src.Lawful) (n : Int) (hn : 2 ≤ n) (b : BatchSize) (hb : BatchOk b) (wantX : Bool) (ω : Ω) (kw : Option ι) :
    ∃ (costs : List (Cost σ ι d)) (xo : Option (Vec d)) (test : List (Vec d × ℝ)) (ω' : Ω) (locals : List (List (Vec d × ℝ))) (data : List (Vec d × ℝ)),
      createRegression np lstsq src n b wantX ω = .result (.ok (⟨costs, xo, test⟩, ω')) ∧ LocalData src n locals data ∧
      costs = locals.map (fun S => .emp (linAtom np S)) ∧ test.length = 100 ∧ (xo.isSome = wantX) ∧ (∀ s, src.seed = some s → test = src.seeded s 100) ∧
      ProblemObjective kw costs (fun y => n * linFn data y) ∧ ∀ x, xo = some x → ∀ y, linFn data x ≤ linFn data y := by
  obtain ⟨locals, data, ω2, h1, h2, h3⟩ := localData_ok src hs n (by omega) ω
  have hmk := mkLinear_all (ι := ι) np b hb locals h2.2.1
  have hobj : ∀ y, (locals.map (fun S => linFn S y)).sum = n * linFn data y := by
    intro y
    have := dataMean_parts (fun s : Vec d × ℝ => 0.5 * ((dot s.1 y - s.2) * (dot s.1 y - s.2))) 10 locals data h2.2.1 h2.2.2.1
    simp only [linFn_mean]
    rw [this, ← h2.1]
    push_cast
    rfl
  have hO : ProblemObjective kw (locals.map (fun S => (Cost.emp (linAtom np S) : Cost σ ι d))) (fun y => n * linFn data y) := by
    have := emp_objective kw np (fun S => linAtom np S) linFn (fun S => rfl) locals
    simpa only [hobj] using this
  have htest : (src.raw 100 ω2).1.length = 100 := raw_length hs _ _
  cases wantX with
  | false =>
    refine ⟨_, none, (src.raw 100 ω2).1, (src.raw 100 ω2).2, locals, data, ?_, h2, rfl, htest, rfl, fun s e => h3 s e 100, hO, fun x h => by cases h⟩
    unfold createRegression
    simp only [h1, hmk]
    rfl
  | true =>
    obtain ⟨S, T, rest, hloc⟩ : ∃ S T rest, locals = S :: T :: rest := by
      have := h2.1
      match locals, this with
      | [], h => simp at h; omega
      | [_], h => simp at h; omega
      | S :: T :: rest, _ => exact ⟨S, T, rest, rfl⟩
    have hred : reduceAdd (locals.map (fun S => (Cost.emp (linAtom np S) : Cost σ ι d))) =
        .ok (.sum (.emp (linAtom np S)) ((T :: rest).map (fun S => .emp (linAtom np S)))) := by
      have := reduceAdd_emps np (linAtom np S : Atom σ ι d) (linAtom np T) (rest.map (fun S => linAtom np S)) (by
        intro e he
        simp only [List.mem_cons, List.mem_map] at he
        rcases he with rfl | rfl | ⟨_, _, rfl⟩ <;> rfl)
      rw [hloc]
      simpa [List.map_map, Function.comp_def] using this
    have hall := linData_all (ι := ι) np locals
    have hsolve : solveRegression np lstsq n b (locals.map (fun S => (Cost.emp (linAtom np S) : Cost σ ι d))) =
        .result (.ok (solveLinearRegressions lstsq ((locals.map (fun S => (Cost.emp (linAtom np S) : Cost σ ι d))).filterMap (linData np)))) := by
      have e : solveIt np lstsq (.sum (.emp (linAtom np S)) ((T :: rest).map (fun S => .emp (linAtom np S))) : Cost σ ι d) =
          .result (.ok (solveLinearRegressions lstsq ((locals.map (fun S => (Cost.emp (linAtom np S) : Cost σ ι d))).filterMap (linData np)))) := by
        rw [hloc] at hall ⊢
        simp only [List.map_cons] at hall ⊢
        simp only [solveIt, Solver.solve]
        rw [if_pos hall.1]
      unfold solveRegression
      rw [hred]
      split
      · omega
      · omega
      · exact e
    refine ⟨_, some (solveLinearRegressions lstsq ((locals.map (fun S => (Cost.emp (linAtom np S) : Cost σ ι d))).filterMap (linData np))), (src.raw 100 ω2).1, (src.raw 100 ω2).2, locals, data, ?_, h2, rfl, htest, rfl, fun s e => h3 s e 100, hO, fun x hx y => ?_⟩
    · unfold createRegression
      simp only [h1, hmk, hsolve, if_true]
    · cases hx
      have := C54_linear_regressions lstsq hl ((locals.map (fun S => (Cost.emp (linAtom np S) : Cost σ ι d))).filterMap (linData np)) y
      rw [hall.2, hall.2] at this
      simp only [sumLin, hobj] at this
      have hp : (0 : ℝ) < n := by exact_mod_cast (by omega : 0 < n)
      exact le_of_mul_le_mul_left this hp

/-- **C110.** Inadmissible arguments are refused with ValueError: no agents, or a batch size that is not between 1 and the ten samples of
each agent. -/
theorem C110_regression_refused [DecidableEq σ] (np : σ) (lstsq : Mat d → Vec d → Vec d) (src : Source Ω ℝ d) (hs : src.Lawful) (n : Int)
    (b : BatchSize) (h : n ≤ 0 ∨ ¬ BatchOk b) (wantX : Bool) (ω : Ω) :
    createRegression (ι := ι) np lstsq src n b wantX ω = .result (.error .valueError) := by
  by_cases hn : n ≤ 0
  · unfold createRegression
    rw [localData_bad src n hn]
  · obtain ⟨locals, data, ω2, h1, h2, -⟩ := localData_ok src hs n (by omega) ω
    obtain ⟨S, rest, hloc⟩ : ∃ S rest, locals = S :: rest := by
      have := h2.1
      match locals, this with
      | [], h => simp at h; omega
      | S :: rest, _ => exact ⟨S, rest, rfl⟩
    have hb : ¬ BatchOk b := h.resolve_left hn
    have hm : locals.mapM (mkLinear (ι := ι) np b) = .error .valueError := by
      rw [hloc, List.mapM_cons, mkLinear, (checkBatch_ok (h2.2.1 S (by simp [hloc])) b).2 hb]
      rfl
    unfold createRegression
    simp only [h1, hm]

/-! ### classification -/

/-- **C110.** What `solve` with both tolerances does for a smooth convex cost that is handled iteratively: RuntimeError, or an iterate of the
accelerated method, within its rate. -/
theorem solve_tolerances (linReg : Cost σ ι d → Option (List (Vec d × ℝ))) (lstsq : Mat d → Vec d → Vec d) (c : Cost σ ι d)
    (hi : Iterative linReg c) (f : Vec d → ℝ) (g : Vec d → Vec d) (h : Described c f g) (L : ℝ)
    (hL : c.mSmooth = .fin L) (hm : c.mCvx = .fin 0) (hp : 0 < L) (N : Int) (hN : 1 ≤ N) (st mt : ℝ) (hst : 0 < st) (hmt : 0 < mt) :
    Solver.solve linReg lstsq c N (some st) (some mt) = .result (.error .runtimeError) ∨
    ∃ (x : Vec d) (k : Nat), Solver.solve linReg lstsq c N (some st) (some mt) = .result (.ok x) ∧ 1 ≤ k ∧ (k : Int) ≤ N ∧
      ∀ z, (∀ y, f z ≤ f y) → f x - f z ≤ 2 * L * ‖z‖ ^ 2 / (k + 1) ^ 2 := by
  obtain ⟨η, β, h1, h2, -⟩ := C70_accelerated c f g h L 0 hL hm hp none 1 le_rfl
  have hsol : Solver.solve linReg lstsq c N (some st) (some mt) =
      match acceleratedGradientDescent c η β none N (some st) (some mt) 0.01 with
      | .ok s => .result (.ok s.x)
      | .error e => .result (.error e) := by
    rw [solve_iterative linReg lstsq c hi, solveIter, if_neg (by rw [hL]; simp only [finVal]; exact fun h => hp.ne' h.2),
      if_pos (by rw [hL, hm]; exact ⟨rfl, hp⟩), h1, h2]
    rfl
  rw [hsol]
  obtain ⟨n, g1, g2, -, g4⟩ := C59_run (agdStep η β c) (agdStep_keeps _ _ _) N (some st) (some mt) 0.01
    ⟨hN, by simpa using hst, by simpa using hmt, by norm_num, by norm_num⟩ (init none id)
  obtain ⟨η', β', h1', h2', s, h3, h4, -⟩ := C70_accelerated c f g h L 0 hL hm hp none n g1
  rw [h1] at h1'
  rw [h2] at h2'
  cases h1'
  cases h2'
  rcases g4 with ⟨e, a, -⟩ | ⟨s', δ, a, -, -, hcase⟩
  · rw [h3] at a; cases a
  · rw [h3] at a
    cases a
    rcases hcase with ⟨t, -, -, hr⟩ | ⟨-, hr⟩
    · left
      rw [acceleratedGradientDescent, hr]
    · right
      refine ⟨s.x, n, by rw [acceleratedGradientDescent, hr], g1, g2, fun z hz => ?_⟩
      have := h4 rfl z hz
      simpa [norm_sub_rev] using this

/-- both class labels are 0 and 1, as `make_classification` with two classes returns them -/
def BinaryLabels (data : List (Vec d × ℚ)) : Prop := ∀ s ∈ data, s.2 = 0 ∨ s.2 = 1

/-- both labels occur -/
def BothClasses (data : List (Vec d × ℚ)) : Prop := (∃ s ∈ data, s.2 = 0) ∧ ∃ s ∈ data, s.2 = 1

/-- the data set with its labels as real numbers -/
def asReal (data : List (Vec d × ℚ)) : List (Vec d × ℝ) := data.map (fun s => (s.1, (s.2 : ℝ)))

theorem relabel_binary (S : List (Vec d × ℚ)) (h : BinaryLabels S) : relabel 0 1 S = asReal S := by
  unfold relabel asReal
  refine List.map_congr_left fun s hs => ?_
  rcases h s hs with e | e <;> simp [Batch.relabelOne, e]

theorem mkLogistic_spec (np : σ) (order : List ℚ → List ℚ) (ho : OrderLawful order) (b : BatchSize) (S : List (Vec d × ℚ)) (hS : BinaryLabels S)
    (hb : checkBatch S.length b = .ok ()) :
    (BothClasses S → mkLogistic (ι := ι) np order b S = .ok (.emp (logAtom np (asReal S)))) ∧
    (¬ BothClasses S → mkLogistic (ι := ι) np order b S = .error .valueError) := by
  have hbin : ∀ y ∈ S.map (fun s => s.2), y = 0 ∨ y = 1 := by
    intro y hy
    obtain ⟨s, hs, rfl⟩ := List.mem_map.1 hy
    exact hS s hs
  have hmem : ∀ y : ℚ, y ∈ S.map (fun s => s.2) ↔ ∃ s ∈ S, s.2 = y := by intro y; simp
  constructor
  · rintro ⟨h0, h1⟩
    have := ho.binary _ hbin ((hmem 0).2 h0) ((hmem 1).2 h1)
    simp only [mkLogistic, hb, this, Batch.labelMapping, relabel_binary S hS]
  · intro hnot
    have hlen : ∀ p, Batch.labelMapping (order (S.map (fun s => s.2))) ≠ .ok p := by
      intro p hp
      rcases ho' : order (S.map (fun s => s.2)) with _ | ⟨a, _ | ⟨b', _ | ⟨c, t⟩⟩⟩
      · rw [ho'] at hp; simp [Batch.labelMapping] at hp
      · rw [ho'] at hp; simp [Batch.labelMapping] at hp
      · have hnd := ho.nodup (S.map (fun s => s.2))
        rw [ho'] at hnd
        have ha : a ∈ S.map (fun s => s.2) := (ho.mem _ a).1 (by rw [ho']; simp)
        have hb' : b' ∈ S.map (fun s => s.2) := (ho.mem _ b').1 (by rw [ho']; simp)
        have hne : a ≠ b' := by simpa using hnd
        have h01 : (0 : ℚ) ∈ S.map (fun s => s.2) ∧ (1 : ℚ) ∈ S.map (fun s => s.2) := by
          rcases hbin a ha with rfl | rfl <;> rcases hbin b' hb' with rfl | rfl
          · exact absurd rfl hne
          · exact ⟨ha, hb'⟩
          · exact ⟨hb', ha⟩
          · exact absurd rfl hne
        exact hnot ⟨(hmem 0).1 h01.1, (hmem 1).1 h01.2⟩
      · rw [ho'] at hp; simp [Batch.labelMapping] at hp
    have herr : ∀ l : List ℚ, (∀ p, Batch.labelMapping l ≠ .ok p) → Batch.labelMapping l = .error .valueError := by
      intro l h
      unfold Batch.labelMapping at h ⊢
      split
      · rename_i a b'; exact absurd rfl (h (a, b'))
      · rfl
    simp only [mkLogistic, hb, herr _ hlen]

theorem mkLogistic_all (np : σ) (order : List ℚ → List ℚ) (ho : OrderLawful order) (b : BatchSize) (hb : BatchOk b) (locals : List (List (Vec d × ℚ)))
    (hl : ∀ S ∈ locals, S.length = 10) (hS : ∀ S ∈ locals, BinaryLabels S) :
    ((∀ S ∈ locals, BothClasses S) → locals.mapM (mkLogistic (ι := ι) np order b) = .ok (locals.map (fun S => .emp (logAtom np (asReal S))))) ∧
    ((∃ S ∈ locals, ¬ BothClasses S) → locals.mapM (mkLogistic (ι := ι) np order b) = .error .valueError) := by
  induction locals with
  | nil => exact ⟨fun _ => rfl, fun ⟨S, hS, _⟩ => by cases hS⟩
  | cons S l ih =>
    obtain ⟨i1, i2⟩ := ih (fun T hT => hl T (by simp [hT])) (fun T hT => hS T (by simp [hT]))
    obtain ⟨m1, m2⟩ := mkLogistic_spec (ι := ι) np order ho b S (hS S (by simp)) ((checkBatch_ok (hl S (by simp)) b).1 hb)
    constructor
    · intro hall
      rw [List.mapM_cons, m1 (hall S (by simp)), i1 fun T hT => hall T (by simp [hT])]
      rfl
    · rintro ⟨T, hT, hn⟩
      rw [List.mapM_cons]
      by_cases hc : BothClasses S
      · rw [m1 hc]
        rcases List.mem_cons.1 hT with rfl | hT
        · exact absurd hc hn
        · rw [i2 ⟨T, hT, hn⟩]; rfl
      · rw [m2 hc]; rfl

theorem logAtom_described (np : σ) (S : List (Vec d × ℝ)) : Described (.emp (logAtom np S) : Cost σ ι d) (logFn S) (logGrad S) :=
  ⟨fun _ => by rw [Cost.fn]; rfl, fun _ => by rw [Cost.grad]; rfl, C52_logistic_smooth S, C52_logistic_convex S⟩

theorem logAtom_iterative (np : σ) (S : List (Vec d × ℝ)) : Iterative (linData np) (.emp (logAtom np S) : Cost σ ι d) := trivial

/-- **C110.** `create_classification_problem` (LogisticRegressionCost) for `n ≥ 1` agents and an admissible batch size, with labels 0 and 1.
If every agent's ten samples contain both classes, the costs sum up to `n` times the cost on all the data, whose minimisers are
therefore those of the problem; the call returns the costs and - if asked - an iterate of the accelerated method on the cost of all the
data, within its rate of the optimum; the only errors are RuntimeError (not converged to the tolerance) and ValueError (all features
zero). -/
theorem C110_classification (np : σ) (lstsq : Mat d → Vec d → Vec d) (order : List ℚ → List ℚ) (ho : OrderLawful order)
    (src : Source Ω ℚ d) (hs : src.Lawful) (n : Int) (hn : 1 ≤ n) (b : BatchSize) (hb : BatchOk b) (ω : Ω) (kw : Option ι) :
    ∃ (locals : List (List (Vec d × ℚ))) (data : List (Vec d × ℚ)) (test : List (Vec d × ℚ)) (ω' : Ω), LocalData src n locals data ∧
      test.length = 100 ∧ (∀ s, src.seed = some s → test = src.seeded s 100) ∧
      (BinaryLabels data → (∀ S ∈ locals, BothClasses S) →
        ∃ costs : List (Cost σ ι d), costs = locals.map (fun S => .emp (logAtom np (asReal S))) ∧
          ProblemObjective kw costs (fun y => n * logFn (asReal data) y) ∧
          createClassification np lstsq order src n b false ω = .result (.ok (⟨costs, none, test⟩, ω')) ∧
          (createClassification (ι := ι) np lstsq order src n b true ω = .result (.error .runtimeError) ∨
           (createClassification (ι := ι) np lstsq order src n b true ω = .result (.error .valueError) ∧ ∀ s ∈ data, s.1 = 0) ∨
           ∃ (x : Vec d) (k : Nat), createClassification np lstsq order src n b true ω = .result (.ok (⟨costs, some x, test⟩, ω')) ∧
             1 ≤ k ∧ k ≤ 10000 ∧ ∀ z, (∀ y, logFn (asReal data) z ≤ logFn (asReal data) y) →
               logFn (asReal data) x - logFn (asReal data) z ≤ 2 * logSmooth (asReal data) * ‖z‖ ^ 2 / (k + 1) ^ 2)) ∧
      (BinaryLabels data → (∃ S ∈ locals, ¬ BothClasses S) → ∀ wantX,
        createClassification (ι := ι) np lstsq order src n b wantX ω = .result (.error .valueError)) := by
  obtain ⟨locals, data, ω2, h1, h2, h3⟩ := localData_ok src hs n hn ω
  have hbin : BinaryLabels data → ∀ S ∈ locals, BinaryLabels S := fun h S hS s hs' =>
    h s (h2.2.2.1.subset (List.mem_flatten.2 ⟨S, hS, hs'⟩))
  refine ⟨locals, data, (src.raw 100 ω2).1, (src.raw 100 ω2).2, h2, raw_length hs _ _, fun s e => h3 s e 100, fun hd hall => ?_, fun hd hex wantX => ?_⟩
  · have hmk := (mkLogistic_all (ι := ι) np order ho b hb locals h2.2.1 (hbin hd)).1 hall
    have hobj : ∀ y, (locals.map (fun S => logFn (asReal S) y)).sum = n * logFn (asReal data) y := by
      intro y
      have hp : (locals.map asReal).flatten.Perm (asReal data) := by
        have := h2.2.2.1.map (fun s : Vec d × ℚ => (s.1, (s.2 : ℝ)))
        rw [List.map_flatten] at this
        exact this
      have := dataMean_parts (fun s : Vec d × ℝ => s.2 * negLogSig (dot s.1 y) + (1 - s.2) * (dot s.1 y + negLogSig (dot s.1 y))) 10
        (locals.map asReal) (asReal data) (by
          intro S hS
          obtain ⟨T, hT, rfl⟩ := List.mem_map.1 hS
          simpa [asReal] using h2.2.1 T hT) hp
      simp only [logFn_mean]
      rw [List.map_map] at this
      refine Eq.trans ?_ (this.trans ?_)
      · rfl
      · rw [List.length_map, ← h2.1]; push_cast; rfl
    have hO : ProblemObjective kw (locals.map (fun S => (Cost.emp (logAtom np (asReal S)) : Cost σ ι d))) (fun y => n * logFn (asReal data) y) := by
      have := emp_objective kw np (fun S => logAtom np S) logFn (fun S => rfl) (locals.map asReal)
      rw [List.map_map] at this
      simp only [List.map_map, Function.comp_def, hobj] at this
      exact this
    have hboth : BothClasses data := by
      obtain ⟨S, hS⟩ : ∃ S, S ∈ locals := by
        cases locals with
        | nil => have := h2.1; simp at this; omega
        | cons S _ => exact ⟨S, by simp⟩
      obtain ⟨⟨s, hs0, e0⟩, ⟨t, ht0, e1⟩⟩ := hall S hS
      exact ⟨⟨s, h2.2.2.1.subset (List.mem_flatten.2 ⟨S, hS, hs0⟩), e0⟩, ⟨t, h2.2.2.1.subset (List.mem_flatten.2 ⟨S, hS, ht0⟩), e1⟩⟩
    have hne : data.length ≠ 0 := by
      obtain ⟨⟨s, hs0, -⟩, -⟩ := hboth
      intro h; rw [List.length_eq_zero_iff.1 h] at hs0; cases hs0
    have hwhole : mkLogistic (ι := ι) np order .all data = .ok (.emp (logAtom np (asReal data))) :=
      (mkLogistic_spec (ι := ι) np order ho .all data hd (if_neg hne)).1 hboth
    refine ⟨_, rfl, hO, ?_, ?_⟩
    · unfold createClassification
      simp only [h1, hmk]
      rfl
    · have hc : createClassification (ι := ι) np lstsq order src n b true ω =
          match solveIt np lstsq (.emp (logAtom np (asReal data)) : Cost σ ι d) with
          | .nonFinite => .nonFinite
          | .result (.error e) => .result (.error e)
          | .result (.ok x) => .result (.ok (⟨locals.map (fun S => .emp (logAtom np (asReal S))), some x, (src.raw 100 ω2).1⟩, (src.raw 100 ω2).2)) := by
        unfold createClassification
        simp only [h1, hmk, hwhole, if_true]
        rfl
      rw [hc]
      have hL0 : 0 ≤ logSmooth (asReal data) := div_nonneg (foldr_max_nonneg _) (by norm_num)
      rcases hL0.lt_or_eq with hL | hL
      · rcases solve_tolerances (linData np) lstsq (.emp (logAtom np (asReal data)) : Cost σ ι d) (logAtom_iterative np _) _ _ (logAtom_described np _) _ rfl rfl hL
            solveMaxIter (by unfold solveMaxIter; norm_num) solveStopTol solveMaxTol (by unfold solveStopTol; norm_num) (by unfold solveMaxTol; norm_num) with he | ⟨x, k, he, k1, k2, k3⟩
        · left
          rw [solveIt, he]
        · right; right
          refine ⟨x, k, by rw [solveIt, he], k1, ?_, k3⟩
          unfold solveMaxIter at k2
          omega
      · right; left
        constructor
        · rw [solveIt, C71_constant_refused (linData np) lstsq _ (logAtom_iterative np _) 0 (by show Fl.fin (logSmooth (asReal data)) = _; rw [← hL]) rfl]
        · intro s hs'
          have hz : ((asReal data).map (fun s => dot s.1 s.1)).foldr max 0 = 0 := by
            have : logSmooth (asReal data) = 0 := hL.symm
            unfold logSmooth at this
            linarith
          have h4 : dot s.1 s.1 ≤ 0 := by
            rw [← hz]
            refine le_foldr_max _ (List.mem_map.2 ⟨(s.1, (s.2 : ℝ)), List.mem_map.2 ⟨s, hs', rfl⟩, rfl⟩)
          rw [dot_eq_inner] at h4
          rw [real_inner_self_eq_norm_sq] at h4
          exact norm_eq_zero.1 (by nlinarith [norm_nonneg s.1])
  · have hmk := (mkLogistic_all (ι := ι) np order ho b hb locals h2.2.1 (hbin hd)).2 hex
    unfold createClassification
    simp only [h1, hmk]

/-- **C110.** Inadmissible arguments are refused here too. -/
theorem C110_classification_refused (np : σ) (lstsq : Mat d → Vec d → Vec d) (order : List ℚ → List ℚ) (src : Source Ω ℚ d) (hs : src.Lawful)
    (n : Int) (b : BatchSize) (h : n ≤ 0 ∨ ¬ BatchOk b) (wantX : Bool) (ω : Ω) :
    createClassification (ι := ι) np lstsq order src n b wantX ω = .result (.error .valueError) := by
  by_cases hn : n ≤ 0
  · unfold createClassification
    rw [localData_bad src n hn]
  · obtain ⟨locals, data, ω2, h1, h2, -⟩ := localData_ok src hs n (by omega) ω
    obtain ⟨S, rest, hloc⟩ : ∃ S rest, locals = S :: rest := by
      have := h2.1
      match locals, this with
      | [], h => simp at h; omega
      | S :: rest, _ => exact ⟨S, rest, rfl⟩
    have hb : ¬ BatchOk b := h.resolve_left hn
    have hm : locals.mapM (mkLogistic (ι := ι) np order b) = .error .valueError := by
      rw [hloc, List.mapM_cons, mkLogistic, (checkBatch_ok (h2.2.1 S (by simp [hloc])) b).2 hb]
      rfl
    unfold createClassification
    simp only [h1, hm]

/-- a class with fewer samples than there are parts is missing from one of them -/
theorem missing_class (p : Vec d × ℚ → Bool) (locals : List (List (Vec d × ℚ))) (h : (locals.flatten.countP p) < locals.length) :
    ∃ S ∈ locals, ∀ s ∈ S, p s = false := by
  by_contra hc
  push Not at hc
  have : locals.length ≤ locals.flatten.countP p := by
    clear h
    induction locals with
    | nil => simp
    | cons S l ih =>
      rw [List.flatten_cons, List.countP_append, List.length_cons]
      have h1 := ih fun T hT => hc T (by simp [hT])
      obtain ⟨s, hs, hp⟩ := hc S (by simp)
      have h2 : 0 < S.countP p := List.countP_pos_iff.2 ⟨s, hs, by simpa using hp⟩
      omega
  omega

/-- **C110.** With fewer samples of one of the classes than agents no shuffling gives every agent both classes: the call fails with
ValueError, whatever the generators do. -/
theorem C110_classification_scarce (np : σ) (lstsq : Mat d → Vec d → Vec d) (order : List ℚ → List ℚ) (ho : OrderLawful order)
    (src : Source Ω ℚ d) (hs : src.Lawful) (n : Int) (hn : 1 ≤ n) (b : BatchSize) (hb : BatchOk b) (seed : Int) (hseed : src.seed = some seed)
    (hbin : BinaryLabels (src.seeded seed (n * 10).toNat)) (y : ℚ) (hy : y = 0 ∨ y = 1)
    (hfew : (((src.seeded seed (n * 10).toNat).countP (fun s => s.2 = y) : Nat) : Int) < n) (wantX : Bool) (ω : Ω) :
    createClassification (ι := ι) np lstsq order src n b wantX ω = .result (.error .valueError) := by
  obtain ⟨locals, data, ω2, h1, h2, -⟩ := localData_ok src hs n hn ω
  have hd := h2.2.2.2 seed hseed
  have hcount : locals.flatten.countP (fun s => decide (s.2 = y)) < locals.length := by
    rw [h2.2.2.1.countP_eq, hd]
    have := h2.1
    omega
  obtain ⟨S, hS, hno⟩ := missing_class _ locals hcount
  have hnot : ¬ BothClasses S := by
    rintro ⟨⟨s, hs0, e0⟩, ⟨t, ht0, e1⟩⟩
    rcases hy with rfl | rfl
    · have := hno s hs0; simp [e0] at this
    · have := hno t ht0; simp [e1] at this
  have hb' : ∀ S ∈ locals, BinaryLabels S := fun S hS s hs' => by
    have := h2.2.2.1.subset (List.mem_flatten.2 ⟨S, hS, hs'⟩)
    rw [hd] at this
    exact hbin s this
  have hmk := (mkLogistic_all (ι := ι) np order ho b hb locals h2.2.1 hb').2 ⟨S, hS, hnot⟩
  unfold createClassification
  simp only [h1, hmk]

/-- balanced data sorted by class -/
def sortedData (d n : Nat) : List (Vec d × ℚ) := (List.range n).map (fun i => (0, if 2 * i < n then 0 else 1))

/-- a source with a seed, an unshuffled generator and data sorted by class -/
def sortedSource (d : Nat) : Source Unit ℚ d := ⟨straight, some 0, fun _ n => sortedData d n, fun n ω => (sortedData d n, ω)⟩

theorem sortedSource_lawful : (sortedSource d).Lawful := ⟨straight_lawful, fun _ n => by simp [sortedSource, sortedData], fun n _ => by simp [sortedSource, sortedData]⟩

/-- **C110.** "Every agent gets a cost" does not follow from balanced data: here half of the twenty samples belong to each class, and
the call fails for two agents - the samples dealt to one agent may all be of one class. -/
theorem C110_one_class_refuted (np : σ) (lstsq : Mat d → Vec d → Vec d) (order : List ℚ → List ℚ) (ho : OrderLawful order) (wantX : Bool) :
    BinaryLabels ((sortedSource d).seeded 0 20) ∧ ((sortedSource d).seeded 0 20).countP (fun s => s.2 = 0) = 10 ∧
    ((sortedSource d).seeded 0 20).countP (fun s => s.2 = 1) = 10 ∧
    createClassification (ι := ι) np lstsq order (sortedSource d) 2 .all wantX () = .result (.error .valueError) := by
  have hbin : BinaryLabels ((sortedSource d).seeded 0 20) := by
    intro s hs
    obtain ⟨i, -, rfl⟩ := List.mem_map.1 hs
    dsimp only
    split
    · exact .inl rfl
    · exact .inr rfl
  have hc : ∀ y : ℚ, ((sortedSource d).seeded 0 20).countP (fun s => s.2 = y) =
      ((List.range 20).map (fun i => if 2 * i < 20 then (0 : ℚ) else 1)).countP (fun z => z = y) := by
    intro y
    show (sortedData d 20).countP _ = _
    rw [sortedData, List.countP_map, List.countP_map]
    rfl
  refine ⟨hbin, by rw [hc]; decide +kernel, by rw [hc]; decide +kernel, ?_⟩
  obtain ⟨locals, data, ω2, h1, h2, -, h4⟩ := localData_eq (sortedSource d) sortedSource_lawful 2 (by omega) ()
  have hd := h2.2.2.2 0 rfl
  have hb' : ∀ S ∈ locals, BinaryLabels S := fun S hS s hs' => by
    have := h2.2.2.1.subset (List.mem_flatten.2 ⟨S, hS, hs'⟩)
    rw [hd] at this
    exact hbin s this
  have hmem : ((List.range 10).map (fun i => data.getD i (0, default))) ∈ locals := by
    rw [h4]
    refine List.mem_map.2 ⟨List.range 10, ?_, rfl⟩
    have : splitByCounts ((sortedSource d).rng.perm ((2 : Int) * 10).toNat ()).1 (List.replicate (2 : Int).toNat 10) = [List.range 10, (List.range 20).drop 10] := by
      rfl
    rw [this]; simp
  have hnot : ¬ BothClasses ((List.range 10).map (fun i => data.getD i (0, default))) := by
    rintro ⟨-, s, hs0, e1⟩
    obtain ⟨i, hi, rfl⟩ := List.mem_map.1 hs0
    have hi := List.mem_range.1 hi
    rw [hd] at e1
    have : ((sortedSource d).seeded 0 ((2 : Int) * 10).toNat).getD i (0, default) = ((0 : Vec d), (if 2 * i < 20 then (0 : ℚ) else 1)) := by
      show (sortedData d 20).getD i _ = _
      rw [sortedData, List.getD_eq_getElem?_getD, List.getElem?_map, List.getElem?_range (by omega)]
      rfl
    rw [this, if_pos (by omega)] at e1
    norm_num at e1
  have hmk := (mkLogistic_all (ι := ι) np order ho .all trivial locals h2.2.1 hb').2 ⟨_, hmem, hnot⟩
  unfold createClassification
  simp only [h1, hmk]

/-! ### seeds -/

/-- **C110.** With a global seed the objective of the regression problem depends on the seed and the number of agents only: two calls,
whatever was drawn before and whatever batch sizes, give the same function. -/
theorem C110_same_seed [DecidableEq σ] (np : σ) (lstsq : Mat d → Vec d → Vec d) (hl : ∀ Q v, IsLstsq Q v (lstsq Q v))
    (src : Source Ω ℝ d) (hs : src.Lawful) (seed : Int) (hseed : src.seed = some seed) (n : Int) (hn : 2 ≤ n) (b b' : BatchSize)
    (hb : BatchOk b) (hb' : BatchOk b') (want want' : Bool) (ω ω' : Ω) (kw : Option ι) :
    ∃ (r r' : Built σ ι ℝ d) (e e' : Ω) (F : Vec d → ℝ), createRegression np lstsq src n b want ω = .result (.ok (r, e)) ∧
      createRegression np lstsq src n b' want' ω' = .result (.ok (r', e')) ∧ ProblemObjective kw r.costs F ∧ ProblemObjective kw r'.costs F ∧
      r.test = r'.test := by
  obtain ⟨c, xo, t, e, l, D, a1, a2, -, -, -, a6, a7, -⟩ := C110_regression np lstsq hl src hs n hn b hb want ω kw
  obtain ⟨c', xo', t', e', l', D', b1, b2, -, -, -, b6, b7, -⟩ := C110_regression np lstsq hl src hs n hn b' hb' want' ω' kw
  have hD : D = D' := by rw [a2.2.2.2 seed hseed, b2.2.2.2 seed hseed]
  subst hD
  exact ⟨_, _, e, e', _, a1, b1, a7, b7, by rw [a6 seed hseed, b6 seed hseed]⟩

/-- **C110.** The test data are not always new: with a global seed and ten agents they are exactly the training data, dealt out to the
agents (regression; `C110_test_is_training_classification` says it for classification). -/
theorem C110_test_is_training [DecidableEq σ] (np : σ) (lstsq : Mat d → Vec d → Vec d) (hl : ∀ Q v, IsLstsq Q v (lstsq Q v))
    (src : Source Ω ℝ d) (hs : src.Lawful) (seed : Int) (hseed : src.seed = some seed) (b : BatchSize) (hb : BatchOk b) (want : Bool) (ω : Ω) :
    ∃ (r : Built σ ι ℝ d) (e : Ω) (locals : List (List (Vec d × ℝ))), createRegression np lstsq src 10 b want ω = .result (.ok (r, e)) ∧
      r.costs = locals.map (fun S => .emp (linAtom np S)) ∧ locals.flatten.Perm r.test := by
  obtain ⟨c, xo, t, e, l, D, a1, a2, a3, -, -, a6, a7, -⟩ := C110_regression (ι := ι) np lstsq hl src hs 10 (by norm_num) b hb want ω none
  refine ⟨_, e, l, a1, a3, ?_⟩
  show l.flatten.Perm t
  rw [a6 seed hseed]
  have := a2.2.2.1
  rw [a2.2.2.2 seed hseed] at this
  exact this

/-- **C110.** Likewise for classification, whenever the call returns costs. -/
theorem C110_test_is_training_classification (np : σ) (lstsq : Mat d → Vec d → Vec d) (order : List ℚ → List ℚ)
    (src : Source Ω ℚ d) (hs : src.Lawful) (seed : Int) (hseed : src.seed = some seed) (b : BatchSize) (want : Bool) (ω e : Ω)
    (r : Built σ ι ℚ d) (h : createClassification np lstsq order src 10 b want ω = .result (.ok (r, e))) :
    ∃ locals : List (List (Vec d × ℚ)), locals.mapM (mkLogistic np order b) = .ok r.costs ∧ locals.flatten.Perm r.test := by
  obtain ⟨locals, data, ω2, h1, h2, h3⟩ := localData_ok src hs 10 (by norm_num) ω
  have hp : locals.flatten.Perm (src.raw 100 ω2).1 := by
    rw [h3 seed hseed 100]
    have := h2.2.2.1
    rw [h2.2.2.2 seed hseed] at this
    exact this
  refine ⟨locals, ?_, ?_⟩
  all_goals
    unfold createClassification at h
    simp only [h1] at h
    repeat' split at h
    all_goals first | (cases h; done) | skip
    all_goals
      cases h
      assumption

/-! ### the hypotheses can be met -/

/-- CPython's order of a set of labels, sorted here -/
def sortedOrder (l : List ℚ) : List ℚ := if (∀ y ∈ l, y = 0 ∨ y = 1) ∧ 0 ∈ l ∧ 1 ∈ l then [0, 1] else l.dedup

example : OrderLawful sortedOrder where
  nodup l := by
    unfold sortedOrder
    split
    · simp
    · exact List.nodup_dedup _
  mem l y := by
    unfold sortedOrder
    split
    · rename_i h
      constructor
      · intro hy
        simp only [List.mem_cons, List.not_mem_nil, or_false] at hy
        rcases hy with rfl | rfl
        · exact h.2.1
        · exact h.2.2
      · intro hy
        rcases h.1 y hy with rfl | rfl <;> simp
    · exact List.mem_dedup
  binary l h h0 h1 := if_pos ⟨h, h0, h1⟩

example : ∃ lstsq : Mat d → Vec d → Vec d, ∀ Q v, IsLstsq Q v (lstsq Q v) := exists_lstsq

example : (sortedSource 3).Lawful ∧ (sortedSource 3).seed = some 0 := ⟨sortedSource_lawful, rfl⟩

/-- ten samples with alternating labels for one agent: both classes -/
example : BothClasses ((List.range 10).map (fun i => ((0 : Vec d), if i % 2 = 0 then (0 : ℚ) else 1))) := by
  constructor
  · exact ⟨_, List.mem_map.2 ⟨0, by simp, rfl⟩, rfl⟩
  · exact ⟨_, List.mem_map.2 ⟨1, by simp, rfl⟩, rfl⟩

end Verif.Props
