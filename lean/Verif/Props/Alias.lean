import Verif.Model.Alias
import Mathlib.Algebra.BigOperators.Group.List.Basic
import Mathlib.Algebra.Module.BigOperators
import Mathlib.Tactic.Module
import Mathlib.Tactic.Linarith
import Mathlib.Tactic.Abel
set_option linter.unusedSectionVars false
/-! # C27: in-place sums over received messages (DLM, DiNNO) -/
namespace Verif.Props
open Verif Verif.Alias

section
variable {A E L : Type} [DecidableEq A] [DecidableEq L] [AddCommGroup E] [Module ℝ E]

/-- `Σ_{j heard by i} (x_i - x_j)` -/
def disagreement (heard : A → List A) (x : A → E) (i : A) : E := ((heard i).map (fun j => x i - x j)).sum

/-- documented DLM: `(x_k, z_k)` -/
noncomputable def dlmDoc (heard : A → List A) (G : A → E → E) (μ ρ : ℝ) (x0 : A → E) : Nat → (A → E) × (A → E)
  | 0 => (x0, fun _ => 0)
  | k + 1 =>
    let p := dlmDoc heard G μ ρ x0 k
    let x' := fun i => p.1 i - μ • (G i (p.1 i) + ρ • disagreement heard p.1 i + p.2 i)
    (x', fun i => p.2 i + ρ • disagreement heard x' i)

/-- Distinct agents do not share the object that one of them uses as accumulator: the first message of an agent that
received at least `m` messages is in nobody else's inbox; and nobody holds the same object twice. -/
structure NoSharedAccumulator (addr : A → A → L) (heard : A → List A) (order : List A) (m : Nat) : Prop where
  nodup : ∀ i ∈ order, ((heard i).map (fun j => addr j i)).Nodup
  private_ : ∀ i ∈ order, m ≤ (heard i).length → ∀ j ∈ (heard i).head?, ∀ i' ∈ order, i' ≠ i →
    ∀ j' ∈ heard i', addr j' i' ≠ addr j i

theorem foldl_acc (a : L) (t : List L) (ha : a ∉ t) (h : L → E) :
    (t.foldl (fun h b => upd h a (h a + h b)) h) a = h a + (t.map h).sum ∧
    ∀ b, b ≠ a → (t.foldl (fun h b => upd h a (h a + h b)) h) b = h b := by
  induction t generalizing h with
  | nil => simp
  | cons c t ih =>
    have hc : c ≠ a := fun e => ha (by simp [e])
    have ht : a ∉ t := fun e => ha (by simp [e])
    obtain ⟨h1, h2⟩ := ih ht (upd h a (h a + h c))
    have hm : t.map (upd h a (h a + h c)) = t.map h :=
      List.map_congr_left (fun b hb => by
        have : b ≠ a := fun e => ht (e ▸ hb)
        simp [upd, this])
    constructor
    · rw [List.foldl_cons, h1, hm, List.map_cons, List.sum_cons]
      simp only [upd, if_true]
      rw [add_assoc]
    · intro b hb
      rw [List.foldl_cons, h2 b hb]; simp [upd, hb]

/-- what one agent's sum does -/
theorem sumInPlace_spec (h : L → E) (l : List L) (hl : l.Nodup) :
    (l = [] ∧ sumInPlace h l = (none, h)) ∨
    ∃ a t h', l = a :: t ∧ sumInPlace h l = (some a, h') ∧ h' a = (l.map h).sum ∧ (∀ b, b ≠ a → h' b = h b) ∧
      (t = [] → h' = h) := by
  cases l with
  | nil => left; exact ⟨rfl, rfl⟩
  | cons a t =>
    right
    obtain ⟨h1, h2⟩ := foldl_acc a t (List.nodup_cons.1 hl).1 h
    refine ⟨a, t, _, rfl, rfl, by rw [h1]; simp, h2, fun ht => by subst ht; rfl⟩

theorem sum_const_sub (l : List A) (c : E) (f : A → E) : (l.map (fun j => c - f j)).sum = l.length • c - (l.map f).sum := by
  induction l with
  | nil => simp
  | cons a t ih =>
    simp only [List.map_cons, List.sum_cons, List.length_cons, ih, add_smul, one_smul]
    abel

/-- after an agent has summed, the messages of the other agents are intact -/
theorem sum_frame (addr : A → A → L) (heard : A → List A) (order : List A) (hs : NoSharedAccumulator addr heard order 2)
    (i : A) (hi : i ∈ order) (h h' : L → E) (a : L) (t : List L)
    (hl : (heard i).map (fun j => addr j i) = a :: t) (hne : ∀ b, b ≠ a → h' b = h b) (htriv : t = [] → h' = h)
    (i' : A) (hi' : i' ∈ order) (hii : i' ≠ i) (j : A) (hj : j ∈ heard i') : h' (addr j i') = h (addr j i') := by
  by_cases ht : t = []
  · rw [htriv ht]
  · apply hne
    have hlen : 2 ≤ (heard i).length := by
      have := congrArg List.length hl
      rw [List.length_map, List.length_cons] at this
      have : t.length ≠ 0 := fun e => ht (List.length_eq_zero_iff.1 e)
      omega
    cases hh : heard i with
    | nil => rw [hh] at hl; simp at hl
    | cons j0 t0 =>
      rw [hh] at hl
      simp only [List.map_cons, List.cons.injEq] at hl
      rw [← hl.1]
      exact hs.private_ i hi hlen j0 (by rw [hh]; rfl) i' hi' hii j hj

theorem gather_spec (addr : A → A → L) (heard : A → List A) (order : List A) (hs : NoSharedAccumulator addr heard order 2)
    (x v : A → E) (l : List A) (hl : l.Nodup) (hsub : ∀ i ∈ l, i ∈ order) (h : L → E) (s : A → E)
    (hh : ∀ i ∈ l, ∀ j ∈ heard i, h (addr j i) = v j) :
    ∀ i, (gather addr heard x l h s).1 i =
      if i ∈ l ∧ heard i ≠ [] then (heard i).length • x i - ((heard i).map v).sum else s i := by
  induction l generalizing h s with
  | nil => intro i; simp [gather]
  | cons a t ih =>
    intro i
    have hat := (List.nodup_cons.1 hl).1
    rcases sumInPlace_spec h ((heard a).map (fun j => addr j a)) (hs.nodup a (hsub a (by simp))) with
      ⟨he, hsum⟩ | ⟨b, r, h', he, hsum, hb, hne, htriv⟩
    · have hea : heard a = [] := by simpa using he
      simp only [gather, hsum]
      rw [ih (List.nodup_cons.1 hl).2 (fun i hi => hsub i (by simp [hi])) h s (fun i hi => hh i (by simp [hi])) i]
      by_cases hia : i = a
      · subst hia; simp [hat, hea]
      · simp [hia]
    · have hea : heard a ≠ [] := by intro e; rw [e] at he; simp at he
      have hval : h' b = ((heard a).map v).sum := by
        rw [hb, List.map_map]
        congr 1
        exact List.map_congr_left (fun j hj => hh a (by simp) j hj)
      simp only [gather, hsum]
      rw [ih (List.nodup_cons.1 hl).2 (fun i hi => hsub i (by simp [hi])) h' _ (fun i hi j hj => by
        rw [sum_frame addr heard order hs a (hsub a (by simp)) h h' b r he hne htriv i (hsub i (by simp [hi]))
          (fun e => hat (e ▸ hi)) j hj]
        exact hh i (by simp [hi]) j hj) i]
      by_cases hia : i = a
      · subst hia; simp [hat, hea, hval, upd]
      · simp [hia, upd]

/-- Conditional positive statement for DLM: if accumulators are not shared, the run computes the documented recursion
(delayed by the communication-only first iteration), for every number of iterations. -/
theorem C27_dlm_documented (msgOf : L → A) (addr : A → A → L) (heard : A → List A) (order : List A)
    (hs : NoSharedAccumulator addr heard order 2) (hmsg : ∀ j i, msgOf (addr j i) = j) (hnd : order.Nodup)
    (hall : ∀ i, i ∈ order) (G : A → E → E) (μ ρ : ℝ) (x0 : A → E) (k : Nat) (i : A) :
    (dlmAfter msgOf addr heard order G μ ρ x0 (k + 1)).x i = (dlmDoc heard G μ ρ x0 k).1 i := by
  have hgather : ∀ (x s : A → E), (∀ i, heard i = [] → s i = 0) →
      (gather addr heard x order (heapOf msgOf x) s).1 = disagreement heard x := by
    intro x s hs0
    funext i
    rw [gather_spec addr heard order hs x x order hnd (fun _ h => h) _ _ (fun i _ j _ => by simp [heapOf, hmsg]) i]
    by_cases he : heard i = []
    · simp [he, hs0 i he, disagreement]
    · simp [hall i, he, disagreement, sum_const_sub]
  have key : ∀ k, (dlmAfter msgOf addr heard order G μ ρ x0 (k + 1)).x = (dlmDoc heard G μ ρ x0 k).1 ∧
      (dlmAfter msgOf addr heard order G μ ρ x0 (k + 1)).y = (dlmDoc heard G μ ρ x0 k).2 ∧
      (dlmAfter msgOf addr heard order G μ ρ x0 (k + 1)).s = disagreement heard (dlmDoc heard G μ ρ x0 k).1 := by
    intro k
    induction k with
    | zero =>
      refine ⟨rfl, rfl, ?_⟩
      simp only [dlmAfter, dlmStep, if_true, dlmInit]
      exact hgather x0 _ (fun _ _ => rfl)
    | succ k ih =>
      obtain ⟨e1, e2, e3⟩ := ih
      have hx : (dlmAfter msgOf addr heard order G μ ρ x0 (k + 1 + 1)).x = (dlmDoc heard G μ ρ x0 (k + 1)).1 := by
        funext i
        show (dlmStep msgOf addr heard order G μ ρ (k + 1) (dlmAfter msgOf addr heard order G μ ρ x0 (k + 1))).x i = _
        simp only [dlmStep, Nat.add_one_ne_zero, if_false, hall i, if_true, e1, e2, e3]
        rfl
      have hsx : (dlmAfter msgOf addr heard order G μ ρ x0 (k + 1 + 1)).s =
          disagreement heard (dlmDoc heard G μ ρ x0 (k + 1)).1 := by
        rw [← hx]
        have := hgather (dlmAfter msgOf addr heard order G μ ρ x0 (k + 1 + 1)).x
          (dlmAfter msgOf addr heard order G μ ρ x0 (k + 1)).s (fun i he => by rw [e3]; simp [disagreement, he])
        rw [← this]
        show (dlmStep msgOf addr heard order G μ ρ (k + 1) (dlmAfter msgOf addr heard order G μ ρ x0 (k + 1))).s =
          (gather addr heard (dlmStep msgOf addr heard order G μ ρ (k + 1)
            (dlmAfter msgOf addr heard order G μ ρ x0 (k + 1))).x order _ _).1
        simp only [dlmStep, Nat.add_one_ne_zero, if_false]
        rfl
      refine ⟨hx, ?_, hsx⟩
      funext i
      have hy : (dlmAfter msgOf addr heard order G μ ρ x0 (k + 1 + 1)).y i =
          (dlmAfter msgOf addr heard order G μ ρ x0 (k + 1)).y i +
            ρ • (dlmAfter msgOf addr heard order G μ ρ x0 (k + 1 + 1)).s i := by
        show (dlmStep msgOf addr heard order G μ ρ (k + 1) (dlmAfter msgOf addr heard order G μ ρ x0 (k + 1))).y i =
          _ + ρ • (dlmStep msgOf addr heard order G μ ρ (k + 1) (dlmAfter msgOf addr heard order G μ ρ x0 (k + 1))).s i
        simp only [dlmStep, Nat.add_one_ne_zero, if_false, hall i, if_true]
      rw [hy, e2, hsx]; rfl
  rw [(key k).1]

/-- messages owned by their receivers (additive noise) never share accumulators -/
theorem owned_safe (heard : A → List A) (order : List A) (hnd : ∀ i, (heard i).Nodup) (m : Nat) :
    NoSharedAccumulator (owned : A → A → A × A) heard order m := by
  refine ⟨fun i _ => (hnd i).map (fun a b h => by simpa [owned] using h), ?_⟩
  intro i _ _ j _ i' _ hne j' _ he
  simp only [owned, Prod.mk.injEq] at he
  exact hne he.2

/-- if nobody hears more than one neighbour, the in-place sum never writes -/
theorem single_safe (addr : A → A → L) (heard : A → List A) (order : List A) (h1 : ∀ i, (heard i).length ≤ 1) :
    NoSharedAccumulator addr heard order 2 := by
  refine ⟨fun i _ => ?_, fun i _ h => absurd (h1 i) (by omega)⟩
  have := h1 i
  match hh : heard i with
  | [] => simp
  | [a] => simp
  | a :: b :: t => rw [hh] at this; simp at this

/-- DLM with receiver-owned messages computes its documented recursion on every network. -/
theorem C27_dlm_owned (heard : A → List A) (hnd : ∀ i, (heard i).Nodup) (order : List A) (ho : order.Nodup)
    (hall : ∀ i, i ∈ order) (G : A → E → E) (μ ρ : ℝ) (x0 : A → E) (k : Nat) (i : A) :
    (dlmAfter Prod.fst owned heard order G μ ρ x0 (k + 1)).x i = (dlmDoc heard G μ ρ x0 k).1 i :=
  C27_dlm_documented _ _ heard order (owned_safe heard order hnd 2) (fun _ _ => rfl) ho hall G μ ρ x0 k i

/-- DLM with shared messages is right when every agent has at most one neighbour. -/
theorem C27_dlm_single_neighbour (heard : A → List A) (h1 : ∀ i, (heard i).length ≤ 1) (order : List A) (ho : order.Nodup)
    (hall : ∀ i, i ∈ order) (G : A → E → E) (μ ρ : ℝ) (x0 : A → E) (k : Nat) (i : A) :
    (dlmAfter id shared heard order G μ ρ x0 (k + 1)).x i = (dlmDoc heard G μ ρ x0 k).1 i :=
  C27_dlm_documented _ _ heard order (single_safe shared heard order h1) (fun _ _ => rfl) ho hall G μ ρ x0 k i

/-! ## DiNNO -/

/-- documented inner loop of DiNNO: `psi ← psi - μ (∇f(psi) + p + 2 ρ Σ_j (psi - (x_i + x_j)/2))` -/
noncomputable def dinnoInnerDoc (G : E → E) (μ ρ : ℝ) (xi p : E) (nb : List E) : Nat → E → E
  | 0, psi => psi
  | B + 1, psi => dinnoInnerDoc G μ ρ xi p nb B
      (psi - μ • (G psi + p + (2 * ρ) • (nb.map (fun xj => psi - (1 / 2 : ℝ) • (xi + xj))).sum))

/-- documented DiNNO iteration -/
noncomputable def dinnoDoc (heard : A → List A) (G : A → E → E) (μ ρ : ℝ) (B : Nat) (st : Dinno A E) : Dinno A E :=
  let p' := fun i => st.p i + ρ • disagreement heard st.x i
  ⟨fun i => dinnoInnerDoc (G i) μ ρ (st.x i) (p' i) ((heard i).map st.x) B (st.x i), p'⟩

theorem dinnoDual_spec (addr : A → A → L) (heard : A → List A) (order : List A) (hs : NoSharedAccumulator addr heard order 2)
    (ρ : ℝ) (x v : A → E) (l : List A) (hl : l.Nodup) (hsub : ∀ i ∈ l, i ∈ order) (h : L → E) (p : A → E)
    (hh : ∀ i ∈ l, ∀ j ∈ heard i, h (addr j i) = v j) :
    (∀ i, (dinnoDual addr heard ρ x l h p).1 i =
      if i ∈ l then p i + ρ • (if heard i = [] then 0 else (heard i).length • x i - ((heard i).map v).sum) else p i) ∧
    (∀ i ∈ l, ∀ j0 t, heard i = j0 :: t → (dinnoDual addr heard ρ x l h p).2 (addr j0 i) = ((heard i).map v).sum ∧
      ∀ j ∈ t, (dinnoDual addr heard ρ x l h p).2 (addr j i) = v j) ∧
    (∀ i ∈ order, i ∉ l → ∀ j ∈ heard i, (dinnoDual addr heard ρ x l h p).2 (addr j i) = h (addr j i)) := by
  induction l generalizing h p with
  | nil => exact ⟨by simp [dinnoDual], by simp, by simp [dinnoDual]⟩
  | cons a t ih =>
    have hat := (List.nodup_cons.1 hl).1
    have hao := hsub a (by simp)
    rcases sumInPlace_spec h ((heard a).map (fun j => addr j a)) (hs.nodup a hao) with
      ⟨he, hsum⟩ | ⟨b, r, h', he, hsum, hb, hne, htriv⟩
    · have hea : heard a = [] := by simpa using he
      obtain ⟨i1, i2, i3⟩ := ih (List.nodup_cons.1 hl).2 (fun i hi => hsub i (by simp [hi])) h p
        (fun i hi => hh i (by simp [hi]))
      simp only [dinnoDual, hsum]
      refine ⟨fun i => ?_, fun i hi j0 q hq => ?_, fun i hi hni => i3 i hi (fun e => hni (by simp [e]))⟩
      · rw [i1 i]
        by_cases hia : i = a
        · subst hia; simp [hat, hea]
        · simp [hia]
      · by_cases hia : i = a
        · subst hia; rw [hea] at hq; cases hq
        · exact i2 i (by simpa [hia] using hi) j0 q hq
    · have hea : heard a ≠ [] := by intro e; rw [e] at he; simp at he
      have hval : h' b = ((heard a).map v).sum := by
        rw [hb, List.map_map]
        congr 1
        exact List.map_congr_left (fun j hj => hh a (by simp) j hj)
      have hframe : ∀ i ∈ order, i ≠ a → ∀ j ∈ heard i, h' (addr j i) = h (addr j i) := fun i hi hia j hj =>
        sum_frame addr heard order hs a hao h h' b r he hne htriv i hi hia j hj
      obtain ⟨i1, i2, i3⟩ := ih (List.nodup_cons.1 hl).2 (fun i hi => hsub i (by simp [hi])) h'
        (upd p a (p a + ρ • ((heard a).length • x a - h' b))) (fun i hi j hj => by
          rw [hframe i (hsub i (by simp [hi])) (fun e => hat (e ▸ hi)) j hj]; exact hh i (by simp [hi]) j hj)
      simp only [dinnoDual, hsum]
      refine ⟨fun i => ?_, fun i hi j0 q hq => ?_, fun i hi hni j hj => ?_⟩
      · rw [i1 i]
        by_cases hia : i = a
        · subst hia; simp [hat, hea, hval, upd]
        · simp [hia, upd]
      · by_cases hia : i = a
        · subst hia
          have hnd := hs.nodup i hao
          rw [hq] at hnd he
          simp only [List.map_cons, List.cons.injEq] at he
          constructor
          · rw [i3 i hao hat j0 (by rw [hq]; simp), he.1, hval]
          · intro j hj
            rw [i3 i hao hat j (by rw [hq]; simp [hj])]
            have hjb : addr j i ≠ b := by
              rw [← he.1]
              intro e
              simp only [List.map_cons] at hnd
              exact (List.nodup_cons.1 hnd).1 (e ▸ List.mem_map.2 ⟨j, hj, rfl⟩)
            rw [hne _ hjb]
            exact hh i (by simp) j (by rw [hq]; simp [hj])
        · exact i2 i (by simpa [hia] using hi) j0 q hq
      · have hia : i ≠ a := fun e => hni (by simp [e])
        rw [i3 i hi (fun e => hni (by simp [e])) j hj, hframe i hi hia j hj]

theorem dinnoHalf_spec (addr : A → A → L) (heard : A → List A) (order : List A) (hs : NoSharedAccumulator addr heard order 1)
    (u : A → A → E) (l : List A) (hl : l.Nodup) (hsub : ∀ i ∈ l, i ∈ order) (h : L → E) (w : A → Option E)
    (hh : ∀ i ∈ l, ∀ j ∈ heard i, h (addr j i) = u j i) :
    ∀ i, (dinnoHalf addr heard l h w).1 i =
      if i ∈ l ∧ heard i ≠ [] then some ((1 / 2 : ℝ) • ((heard i).map (fun j => u j i)).sum) else w i := by
  induction l generalizing h w with
  | nil => intro i; simp [dinnoHalf]
  | cons a t ih =>
    intro i
    have hat := (List.nodup_cons.1 hl).1
    have hao := hsub a (by simp)
    rcases sumInPlace_spec h ((heard a).map (fun j => addr j a)) (hs.nodup a hao) with
      ⟨he, hsum⟩ | ⟨b, r, h', he, hsum, hb, hne, htriv⟩
    · have hea : heard a = [] := by simpa using he
      simp only [dinnoHalf, hsum]
      rw [ih (List.nodup_cons.1 hl).2 (fun i hi => hsub i (by simp [hi])) h w (fun i hi => hh i (by simp [hi])) i]
      by_cases hia : i = a
      · subst hia; simp [hat, hea]
      · simp [hia]
    · have hea : heard a ≠ [] := by intro e; rw [e] at he; simp at he
      have hval : h' b = ((heard a).map (fun j => u j a)).sum := by
        rw [hb, List.map_map]
        congr 1
        exact List.map_congr_left (fun j hj => hh a (by simp) j hj)
      obtain ⟨j0, q, hq⟩ : ∃ j0 q, heard a = j0 :: q := by
        cases hx : heard a with
        | nil => exact absurd hx hea
        | cons j0 q => exact ⟨j0, q, rfl⟩
      have hb0 : addr j0 a = b := by
        rw [hq] at he; simp only [List.map_cons, List.cons.injEq] at he; exact he.1
      simp only [dinnoHalf, hsum]
      rw [ih (List.nodup_cons.1 hl).2 (fun i hi => hsub i (by simp [hi])) _ _ (fun i hi j hj => by
        have hia : i ≠ a := fun e => hat (e ▸ hi)
        have hjb : addr j i ≠ b := by
          rw [← hb0]
          exact hs.private_ a hao (by rw [hq]; simp) j0 (by rw [hq]; rfl) i (hsub i (by simp [hi])) hia j hj
        simp only [upd, hjb, if_false]
        rw [hne _ hjb]
        exact hh i (by simp [hi]) j hj) i]
      by_cases hia : i = a
      · subst hia; simp [hat, hea, hval, upd]
      · simp [hia, upd]

/-- Even with receiver-owned messages DiNNO does not perform its documented primal step: the dual step is right, but the
neighbour sum used in the primal step of agent `i` is `(2 S - x_{j0}) / 2`, where `S` is the sum of the received states and
`j0` the first sender, instead of `S / 2`. -/
theorem C27_dinno_owned_double_count (heard : A → List A) (hnd : ∀ i, (heard i).Nodup) (order : List A) (ho : order.Nodup)
    (hall : ∀ i, i ∈ order) (G : A → E → E) (μ ρ : ℝ) (B : Nat) (st : Dinno A E) (i : A) :
    (dinnoStep Prod.fst owned heard order G μ ρ B st).p i = st.p i + ρ • disagreement heard st.x i ∧
    (dinnoStep Prod.fst owned heard order G μ ρ B st).x i =
      dinnoLocal (G i) μ ρ (heard i).length (st.x i) (st.p i + ρ • disagreement heard st.x i)
        ((heard i).head?.map (fun j0 => (1 / 2 : ℝ) • ((2 : ℝ) • ((heard i).map st.x).sum - st.x j0))) B (st.x i) := by
  obtain ⟨d1, d2, _⟩ := dinnoDual_spec (owned : A → A → A × A) heard order (owned_safe heard order hnd 2) ρ st.x st.x order ho
    (fun _ h => h) (heapOf Prod.fst st.x) st.p (fun i _ j _ => rfl)
  have hp : (dinnoDual owned heard ρ st.x order (heapOf Prod.fst st.x) st.p).1 i =
      st.p i + ρ • disagreement heard st.x i := by
    rw [d1 i, if_pos (hall i)]
    by_cases he : heard i = []
    · simp [he, disagreement]
    · rw [if_neg he]; simp [disagreement, sum_const_sub]
  have hhalf := dinnoHalf_spec (owned : A → A → A × A) heard order (owned_safe heard order hnd 1)
    (fun j i => (dinnoDual owned heard ρ st.x order (heapOf Prod.fst st.x) st.p).2 (owned j i)) order ho (fun _ h => h)
    (dinnoDual owned heard ρ st.x order (heapOf Prod.fst st.x) st.p).2 (fun _ => none) (fun i _ j _ => rfl) i
  refine ⟨hp, ?_⟩
  unfold dinnoStep
  simp only [hall i, if_true, hp]
  congr 1
  rw [hhalf]
  cases hq : heard i with
  | nil => simp
  | cons j0 t =>
    obtain ⟨e1, e2⟩ := d2 i (hall i) j0 t hq
    have et : t.map (fun j => (dinnoDual owned heard ρ st.x order (heapOf Prod.fst st.x) st.p).2 (owned j i)) = t.map st.x :=
      List.map_congr_left (fun j hj => e2 j hj)
    rw [if_pos ⟨hall i, by simp⟩]
    simp only [List.map_cons, List.sum_cons, List.head?_cons, Option.map_some, Option.some.injEq, et, e1, hq]
    module

theorem dinnoLocal_doc (G : E → E) (μ ρ : ℝ) (xi p : E) (nb : List E) (half : Option E)
    (hn : nb = [] → half = none) (hsome : nb ≠ [] → half = some ((1 / 2 : ℝ) • nb.sum)) (B : Nat) (psi : E) :
    dinnoLocal G μ ρ nb.length xi p half B psi = dinnoInnerDoc G μ ρ xi p nb B psi := by
  induction B generalizing psi with
  | zero => rfl
  | succ B ih =>
    simp only [dinnoLocal, dinnoInnerDoc]
    rw [ih]
    congr 2
    have hsum : (nb.map (fun xj => psi - (1 / 2 : ℝ) • (xi + xj))).sum =
        nb.length • (psi - (1 / 2 : ℝ) • xi) - (1 / 2 : ℝ) • nb.sum := by
      clear hn hsome ih
      induction nb with
      | nil => simp
      | cons a t ih =>
        rw [List.map_cons, List.sum_cons, List.sum_cons, List.length_cons, ih, add_smul, one_smul, smul_add, smul_add]
        abel
    by_cases he : nb = []
    · subst he; rw [hn rfl]; simp
    · rw [hsome he, hsum]

/-- DiNNO performs its documented iteration when every agent heard at most one neighbour and owns that message. -/
theorem C27_dinno_single_owned (heard : A → List A) (h1 : ∀ i, (heard i).length ≤ 1) (order : List A) (ho : order.Nodup)
    (hall : ∀ i, i ∈ order) (G : A → E → E) (μ ρ : ℝ) (B : Nat) (st : Dinno A E) (i : A) :
    (dinnoStep Prod.fst owned heard order G μ ρ B st).x i = (dinnoDoc heard G μ ρ B st).x i ∧
    (dinnoStep Prod.fst owned heard order G μ ρ B st).p i = (dinnoDoc heard G μ ρ B st).p i := by
  have hnd : ∀ i, (heard i).Nodup := by
    intro i
    have := h1 i
    match hh : heard i with
    | [] => simp
    | [a] => simp
    | a :: b :: t => rw [hh] at this; simp at this
  obtain ⟨e1, e2⟩ := C27_dinno_owned_double_count heard hnd order ho hall G μ ρ B st i
  refine ⟨?_, e1⟩
  rw [e2]
  unfold dinnoDoc
  simp only
  rw [← dinnoLocal_doc (G i) μ ρ (st.x i) _ ((heard i).map st.x)
    ((heard i).head?.map (fun j0 => (1 / 2 : ℝ) • ((2 : ℝ) • ((heard i).map st.x).sum - st.x j0)))]
  · rw [List.length_map]
  · intro he
    have : heard i = [] := by simpa using he
    simp [this]
  · intro he
    have := h1 i
    match hh : heard i with
    | [] => rw [hh] at he; simp at he
    | [a] => simp; module
    | a :: b :: t => rw [hh] at this; simp at this

end

/-! ## Refutations with shared messages (no noise) -/

/-- everyone hears everyone else: a triangle -/
def triHeard (i : Nat) : List Nat := [0, 1, 2].filter (fun j => decide (j ≠ i))

/-- On a triangle the stored `Σ_j (x_2 - x_j)` of agent 2 after the first communication round is wrong for *every* choice of
states with `x_2 ≠ 0`: the sum it subtracts is `x_0 + x_1 + 2 x_2`. -/
theorem C27_dlm_shared_refuted (x : Nat → ℝ) (G : Nat → ℝ → ℝ) (μ ρ : ℝ) :
    (dlmAfter id shared triHeard [0, 1, 2] G μ ρ x 1).s 2 = 2 * x 2 - (x 0 + x 1 + 2 * x 2) ∧
    disagreement triHeard x 2 = 2 * x 2 - (x 0 + x 1) := by
  constructor
  · show (gather shared triHeard x [0, 1, 2] (heapOf id x) (fun _ => 0)).1 2 = _
    simp [gather, triHeard, sumInPlace, shared, upd, heapOf]
    ring
  · simp [disagreement, triHeard]; ring

/-- ... so after the second iteration agent 2's state differs from the documented `x_{2,1}`. -/
theorem C27_dlm_shared_wrong_state (x : Nat → ℝ) (G : Nat → ℝ → ℝ) (μ ρ : ℝ) (hμ : 0 < μ) (hρ : 0 < ρ) (hx : x 2 ≠ 0) :
    (dlmAfter id shared triHeard [0, 1, 2] G μ ρ x 2).x 2 ≠ (dlmDoc triHeard G μ ρ x 1).1 2 := by
  obtain ⟨h1, h2⟩ := C27_dlm_shared_refuted x G μ ρ
  have e1 : (dlmAfter id shared triHeard [0, 1, 2] G μ ρ x 2).x 2 =
      x 2 - μ • (G 2 (x 2) + ρ • (dlmAfter id shared triHeard [0, 1, 2] G μ ρ x 1).s 2 + 0) := by
    show (dlmStep id shared triHeard [0, 1, 2] G μ ρ 1 (dlmAfter id shared triHeard [0, 1, 2] G μ ρ x 1)).x 2 = _
    have hx1 : (dlmAfter id shared triHeard [0, 1, 2] G μ ρ x 1).x = x := by simp [dlmAfter, dlmStep, dlmInit]
    have hy1 : (dlmAfter id shared triHeard [0, 1, 2] G μ ρ x 1).y = fun _ => 0 := by simp [dlmAfter, dlmStep, dlmInit]
    simp only [dlmStep]
    simp [hx1, hy1]
  have e2 : (dlmDoc triHeard G μ ρ x 1).1 2 = x 2 - μ • (G 2 (x 2) + ρ • disagreement triHeard x 2 + 0) := rfl
  rw [e1, e2, h1, h2]
  intro h
  have h3 : μ * ρ * (2 * x 2) = 0 := by
    simp only [smul_eq_mul] at h
    nlinarith [h]
  rcases mul_eq_zero.1 h3 with h4 | h4
  · exact absurd h4 (by positivity)
  · exact hx (by linarith)

/-- a path 0 - 1 - 2 -/
def pathHeard (i : Nat) : List Nat := if i = 1 then [0, 2] else [1]

/-- On a path (no noise) DiNNO's agent 2 uses `x_1 / 4` where the documentation has `x_1 / 2`: agent 0 has already halved the
shared message in place. One local step then differs from the documented one whenever `x_1 ≠ 0`. -/
theorem C27_dinno_shared_refuted (st : Dinno Nat ℝ) (G : Nat → ℝ → ℝ) (μ ρ : ℝ) (hμ : 0 < μ) (hρ : 0 < ρ)
    (hx : st.x 1 ≠ 0) :
    (dinnoStep id shared pathHeard [0, 1, 2] G μ ρ 1 st).x 2 ≠ (dinnoDoc pathHeard G μ ρ 1 st).x 2 := by
  have e1 : (dinnoStep id shared pathHeard [0, 1, 2] G μ ρ 1 st).x 2 = st.x 2 - μ * (G 2 (st.x 2) +
      (st.p 2 + ρ * (st.x 2 - st.x 1)) + 2 * ρ * ((st.x 2 - 1 / 2 * st.x 2) - 1 / 4 * st.x 1)) := by
    simp [dinnoStep, dinnoDual, dinnoHalf, dinnoLocal, pathHeard, sumInPlace, shared, upd, heapOf]
    left; left; ring
  have e2 : (dinnoDoc pathHeard G μ ρ 1 st).x 2 = st.x 2 - μ * (G 2 (st.x 2) +
      (st.p 2 + ρ * (st.x 2 - st.x 1)) + 2 * ρ * (st.x 2 - 1 / 2 * (st.x 2 + st.x 1))) := by
    simp [dinnoDoc, dinnoInnerDoc, disagreement, pathHeard]
  rw [e1, e2]
  intro h
  have h3 : μ * ρ * st.x 1 = 0 := by nlinarith [h]
  rcases mul_eq_zero.1 h3 with h4 | h4
  · exact absurd h4 (by positivity)
  · exact hx h4

-- the hypotheses of the positive statements are met: a triangle with owned messages, a pair with shared ones
example (x0 : Fin 3 → ℝ) (G : Fin 3 → ℝ → ℝ) (k : Nat) (i : Fin 3) :
    (dlmAfter Prod.fst owned (fun i => [0, 1, 2].filter (fun j => decide (j ≠ i))) [0, 1, 2] G (1 / 10) 1 x0 (k + 1)).x i =
      (dlmDoc (fun i => [0, 1, 2].filter (fun j => decide (j ≠ i))) G (1 / 10) 1 x0 k).1 i :=
  C27_dlm_owned _ (by decide) _ (by decide) (by decide) G _ _ x0 k i

example (x0 : Fin 2 → ℝ) (G : Fin 2 → ℝ → ℝ) (k : Nat) (i : Fin 2) :
    (dlmAfter id shared (fun i => [1 - i]) [0, 1] G (1 / 10) 1 x0 (k + 1)).x i =
      (dlmDoc (fun i => [1 - i]) G (1 / 10) 1 x0 k).1 i :=
  C27_dlm_single_neighbour _ (by simp) _ (by decide) (by decide) G _ _ x0 k i

end Verif.Props
