import Verif.Model.Agent
import Verif.Model.Counting
/-! # C04 (call counters, no_count) and C05 (initialize) -/
set_option linter.unusedSectionVars false
namespace Verif.Props
open Verif

/-! ## C04 specification: block-structured, no depth counters -/
section C04
open Verif.Counting
variable {K A : Type} [DecidableEq K] [DecidableEq A]

/-- The completed evaluations made outside every `no_count` block naming the evaluating agent, in order, and whether
the program raises. `silent a`: an enclosing block names `a`. An evaluation is (agent, method, samples used). -/
def visible (own : K → Option A) (emp : K → Bool) : (A → Bool) → Prog K A → List (A × Method × Nat) × Bool
  | _, .skip => ([], false)
  | _, .raise => ([], true)
  | sl, .seq p q =>
    let r := visible own emp sl p
    if r.2 then r else (r.1 ++ (visible own emp sl q).1, (visible own emp sl q).2)
  | sl, .eval c m inner n =>
    let r := visible own emp sl inner
    if r.2 then r   -- a raising evaluation is not counted
    else match own c with
      | none => r
      | some a => if sl a then r else (r.1 ++ [(a, m, if emp c then n else 1)], false)
  | sl, .noCount agents body => visible own emp (fun a => sl a || agents.contains a) body
  | sl, .tryExcept body handler =>
    let r := visible own emp sl body
    if r.2 then (r.1 ++ (visible own emp sl handler).1, (visible own emp sl handler).2) else r

/-- total samples used by agent `a` in method `m` -/
def total (ev : List (A × Method × Nat)) (a : A) (m : Method) : Nat :=
  ((ev.filter (fun e => decide (e.1 = a ∧ e.2.1 = m))).map (fun e => e.2.2)).sum

theorem total_append (e1 e2 : List (A × Method × Nat)) (a : A) (m : Method) :
    total (e1 ++ e2) a m = total e1 a m + total e2 a m := by
  simp [total, List.filter_append]

theorem addDepth_count (s : State A) (l : List A) (d : Int) : (addDepth s l d).count = s.count := by
  unfold addDepth
  induction l generalizing s with
  | nil => rfl
  | cons a t ih => simp only [List.foldl_cons]; rw [ih]

theorem addDepth_depth (s : State A) (l : List A) (d : Int) (a : A) :
    (addDepth s l d).depth a = s.depth a + d * (l.count a : Int) := by
  unfold addDepth
  induction l generalizing s with
  | nil => simp
  | cons b t ih =>
    simp only [List.foldl_cons]
    rw [ih]
    by_cases h : a = b
    · subst h
      simp only [if_true, List.count_cons_self]
      push_cast
      rw [Int.mul_add]; omega
    · simp [h, List.count_cons_of_ne (fun e => h e.symm)]

theorem exec_spec (own : K → Option A) (emp : K → Bool) (p : Prog K A) (s : State A) (sl : A → Bool)
    (hsl : ∀ a, sl a = decide (0 < s.depth a)) (hd : ∀ a, 0 ≤ s.depth a) :
    (exec own emp p s).2 = (visible own emp sl p).2 ∧
    (∀ a m, (exec own emp p s).1.count a m = s.count a m + total (visible own emp sl p).1 a m) ∧
    (∀ a, (exec own emp p s).1.depth a = s.depth a) := by
  induction p generalizing s sl with
  | skip => simp [exec, visible, total]
  | raise => simp [exec, visible, total]
  | seq p q ihp ihq =>
    obtain ⟨h1, h2, h3⟩ := ihp s sl hsl hd
    simp only [exec, visible]
    cases hr : (exec own emp p s).2 with
    | true =>
      rw [hr] at h1
      simp only [if_true, ← h1]
      exact ⟨trivial, h2, h3⟩
    | false =>
      rw [hr] at h1
      simp only [← h1, Bool.false_eq_true, if_false]
      obtain ⟨g1, g2, g3⟩ := ihq (exec own emp p s).1 sl (by intro a; rw [h3]; exact hsl a)
        (by intro a; rw [h3]; exact hd a)
      refine ⟨g1, fun a m => ?_, fun a => by rw [g3, h3]⟩
      rw [g2, h2, total_append]; omega
  | eval c m inner n ih =>
    obtain ⟨h1, h2, h3⟩ := ih s sl hsl hd
    simp only [exec, visible]
    cases hr : (exec own emp inner s).2 with
    | true =>
      rw [hr] at h1
      simp only [if_true, ← h1]
      exact ⟨trivial, h2, h3⟩
    | false =>
      rw [hr] at h1
      simp only [← h1, Bool.false_eq_true, if_false]
      cases ho : own c with
      | none => exact ⟨h1, h2, h3⟩
      | some a =>
        dsimp only
        by_cases hq : 0 < s.depth a
        · have : sl a = true := by rw [hsl]; exact decide_eq_true hq
          rw [if_pos (by rw [h3]; exact hq), if_pos this]
          exact ⟨h1, h2, h3⟩
        · have : ¬ (sl a = true) := by rw [hsl]; simpa using Int.not_lt.1 hq
          rw [if_neg (by rw [h3]; exact hq), if_neg this]
          refine ⟨rfl, fun b m' => ?_, h3⟩
          simp only [addCount, total_append]
          by_cases hb : b = a ∧ m' = m
          · obtain ⟨rfl, rfl⟩ := hb
            simp only [and_self, if_true, h2]
            simp [total]; omega
          · rw [if_neg hb, h2]
            have : ¬ (a = b ∧ m = m') := fun ⟨e1, e2⟩ => hb ⟨e1.symm, e2.symm⟩
            simp [total, this]
  | noCount agents body ih =>
    simp only [exec, visible]
    have hnn : ∀ a, 0 ≤ (addDepth s agents 1).depth a := by
      intro a; rw [addDepth_depth]; have := hd a; omega
    obtain ⟨h1, h2, h3⟩ := ih (addDepth s agents 1) (fun a => sl a || agents.contains a) (by
      intro a
      rw [addDepth_depth, hsl]
      by_cases hm : a ∈ agents
      · have : 0 < agents.count a := List.count_pos_iff.2 hm
        have h0 := hd a
        have h2 : 0 < s.depth a + 1 * (agents.count a : Int) := by omega
        rw [Int.one_mul] at h2
        simp [hm]; exact h2
      · have : agents.count a = 0 := List.count_eq_zero.2 hm
        simp [hm, this]) hnn
    refine ⟨h1, fun a m => ?_, fun a => ?_⟩
    · rw [addDepth_count, h2, addDepth_count]
    · rw [addDepth_depth, h3, addDepth_depth]; omega
  | tryExcept p q ihp ihq =>
    obtain ⟨h1, h2, h3⟩ := ihp s sl hsl hd
    simp only [exec, visible]
    cases hr : (exec own emp p s).2 with
    | false =>
      rw [hr] at h1
      simp only [← h1, Bool.false_eq_true, if_false]
      exact ⟨trivial, h2, h3⟩
    | true =>
      rw [hr] at h1
      simp only [if_true, ← h1]
      obtain ⟨g1, g2, g3⟩ := ihq (exec own emp p s).1 sl (by intro a; rw [h3]; exact hsl a)
        (by intro a; rw [h3]; exact hd a)
      refine ⟨g1, fun a m => ?_, fun a => by rw [g3, h3]⟩
      rw [g2, h2, total_append]; omega

/-- From the state after `initialize` (counters zero, counting enabled), running any program - with arbitrarily nested
`no_count` blocks and exceptions - leaves each counter equal to the samples used by the completed evaluations made
outside every block naming the agent, and leaves counting enabled. -/
theorem C04_counters (own : K → Option A) (emp : K → Bool) (p : Prog K A) (a : A) (m : Method) :
    let s0 : State A := ⟨fun _ => 0, fun _ _ => 0⟩
    (exec own emp p s0).1.count a m = total (visible own emp (fun _ => false) p).1 a m ∧
    (exec own emp p s0).1.depth a = 0 := by
  have := exec_spec own emp p ⟨fun _ => 0, fun _ _ => 0⟩ (fun _ => false) (by simp) (by simp)
  exact ⟨by simpa using this.2.1 a m, by simpa using this.2.2 a⟩

/-- Leaving any piece of code - normally or by an exception - restores counting exactly as before it, from any state. -/
theorem C04_depth_restored (own : K → Option A) (emp : K → Bool) (p : Prog K A) (s : State A)
    (hd : ∀ a, 0 ≤ s.depth a) (a : A) : (exec own emp p s).1.depth a = s.depth a :=
  (exec_spec own emp p s (fun a => decide (0 < s.depth a)) (fun _ => rfl) hd).2.2 a

/-- Nothing inside a `no_count` block naming `a` is ever counted for `a`, even if the block raises. -/
theorem C04_block_silent (own : K → Option A) (emp : K → Bool) (agents : List A) (body : Prog K A) (s : State A)
    (hd : ∀ a, 0 ≤ s.depth a) (a : A) (ha : a ∈ agents) (m : Method) :
    (exec own emp (.noCount agents body) s).1.count a m = s.count a m := by
  have hsil : ∀ (p : Prog K A) (sl : A → Bool), sl a = true → total (visible own emp sl p).1 a m = 0 := by
    intro p
    induction p with
    | skip => intros; rfl
    | raise => intros; rfl
    | seq p q ihp ihq =>
      intro sl h
      simp only [visible]
      split
      · exact ihp sl h
      · rw [total_append, ihp sl h, ihq sl h]
    | eval c m' inner n ih =>
      intro sl h
      simp only [visible]
      split
      · exact ih sl h
      · split
        · exact ih sl h
        · rename_i b _
          split
          · exact ih sl h
          · rename_i hb
            rw [total_append, ih sl h]
            have : ¬ (b = a ∧ m' = m) := by rintro ⟨rfl, _⟩; exact hb h
            simp [total, this]
    | noCount l body ih => intro sl h; simp only [visible]; exact ih _ (by simp [h])
    | tryExcept p q ihp ihq =>
      intro sl h
      simp only [visible]
      split
      · rw [total_append, ihp sl h, ihq sl h]
      · exact ihp sl h
  have := (exec_spec own emp (.noCount agents body) s (fun a => decide (0 < s.depth a)) (fun _ => rfl) hd).2.1 a m
  rw [this]
  simp only [visible]
  rw [hsil body _ (by simp [ha])]
  omega

/-- Each agent counts the evaluations of its own cost as long as no two agents were given the same cost object. -/
theorem C04_own_cost (ctor : List (A × K)) (hinj : (ctor.map Prod.snd).Nodup) (a : A) (c : K) (h : (a, c) ∈ ctor) :
    owner ctor c = some a := by
  unfold owner
  have gen : ∀ (l : List (A × K)) (acc : Option A), (l.map Prod.snd).Nodup →
      ((a, c) ∈ l → l.foldl (fun acc p => if p.2 = c then some p.1 else acc) acc = some a) ∧
      ((c ∉ l.map Prod.snd) → l.foldl (fun acc p => if p.2 = c then some p.1 else acc) acc = acc) := by
    intro l
    induction l with
    | nil => intro acc _; simp
    | cons p t ih =>
      intro acc hn
      simp only [List.map_cons, List.nodup_cons] at hn
      refine ⟨fun hm => ?_, fun hm => ?_⟩
      · rcases List.mem_cons.1 hm with rfl | hm
        · simp only [List.foldl_cons, if_true]; exact (ih _ hn.2).2 hn.1
        · simp only [List.foldl_cons]; exact (ih _ hn.2).1 hm
      · simp only [List.map_cons, List.mem_cons, not_or] at hm
        simp only [List.foldl_cons, if_neg (fun e : p.2 = c => hm.1 e.symm)]
        exact (ih _ hn.2).2 hm.2
  exact (gen ctor none hinj).1 h

/-- Refutation: two agents built on one cost object. The evaluation made by the first agent through its own cost is
counted for the second agent, not for the first. -/
theorem C04_shared_cost_miscounts :
    let ctor : List (Nat × Char) := [(1, 'c'), (2, 'c')]
    let s := (exec (owner ctor) (fun _ => false) (.eval 'c' .gradient .skip 0)
      (⟨fun _ => 0, fun _ _ => 0⟩ : State Nat)).1
    s.count 1 .gradient = 0 ∧ s.count 2 .gradient = 1 := by decide

-- a program with nesting, an exception inside a block, and an evaluation afterwards
example : (exec (K := Char) (A := Nat) (fun c => if c = 'a' then some 1 else some 2) (fun c => c = 'a')
    (.seq (.tryExcept (.noCount [1, 2] (.seq (.noCount [1] (.eval 'a' .gradient .skip 5)) .raise)) .skip)
      (.seq (.eval 'a' .gradient .skip 5) (.eval 'b' .proximal (.eval 'b' .gradient .skip 9) 9)))
    ⟨fun _ => 0, fun _ _ => 0⟩).1.count 1 .gradient = 5 := by decide
end C04

/-! ## C05 -/
section C05
variable {A C V K S Act : Type} [DecidableEq A] [DecidableEq C] [DecidableEq S]

/-- agents that agree on everything fixed at construction (identity, cost, period, role, activation object) and on the
`no_count` nesting, but have arbitrary different pasts -/
structure SameBuild (a b : Agent A C V K S Act) : Prop where
  id : a.id = b.id
  index : a.index = b.index
  period : a.period = b.period
  costShape : a.costShape = b.costShape
  activation : a.activation = b.activation
  isServer : a.isServer = b.isServer
  depth : a.noCountDepth = b.noCountDepth

/-- `initialize(x, aux)` erases the past: two agents built alike end in the same state whatever they did before. -/
theorem C05_initialize_erases_past (shapeOf : V → S) (copy : V → V) (a b : Agent A C V K S Act) (h : SameBuild a b)
    (x : V) (hx : shapeOf x = b.costShape) (aux : Option (PyDict String (Aux K V))) :
    a.init shapeOf copy (some x) aux = b.init shapeOf copy (some x) aux := by
  obtain ⟨h1, h2, h3, h4, h5, h6, h7⟩ := h
  cases a; cases b
  simp only at *
  subst h1 h2 h3 h4 h5 h6 h7
  simp [Agent.init, hx, History.setX]

/-- the state it ends in: history `{0: x}`, current `x`, empty inbox, zero counters, the given auxiliary variables -/
theorem C05_initialize_state (shapeOf : V → S) (a : Agent A C V K S Act) (x : V) (hx : shapeOf x = a.costShape)
    (aux : PyDict String (Aux K V)) :
    let r := a.init shapeOf (fun v => v) (some x) (some aux)
    r.2 = .ok () ∧ r.1.x = some x ∧ r.1.history.keysList = [0] ∧ r.1.history.getX 0 = .ok x ∧
    (∀ c s, r.1.message s c = .error .keyError) ∧
    r.1.aux.keys = aux.keys ∧
    r.1.nXUpdates = 0 ∧ r.1.nSent = 0 ∧ r.1.nReceived = 0 ∧ r.1.nDropped = 0 ∧ r.1.nSelected = 0 ∧
    r.1.nFunction = 0 ∧ r.1.nGradient = 0 ∧ r.1.nHessian = 0 ∧ r.1.nProximal = 0 := by
  simp [Agent.init, hx, History.setX, History.empty, PyDict.contains, insort, bisectRight, History.keysList,
    History.getX, PyDict.getItem, Agent.message, Inbox.get, Inbox.empty, PyDict.keys, Function.comp_def,
    bind, Except.bind]

/-- with a wrong-shaped `x` it raises ValueError (after the resets), for every agent -/
theorem C05_initialize_bad_shape (shapeOf : V → S) (copy : V → V) (a : Agent A C V K S Act) (x : V)
    (hx : shapeOf x ≠ a.costShape) (aux : Option (PyDict String (Aux K V))) :
    (a.init shapeOf copy (some x) aux).2 = .error .valueError := by
  simp [Agent.init, hx]

mutual
theorem copyAux_id {K V : Type} : ∀ (a : Aux K V), a.copyAux (fun v => v) = a
  | .arr v => rfl
  | .map l => by rw [Aux.copyAux, copyAuxList_id l]
theorem copyAuxList_id {K V : Type} : ∀ (l : List (K × Aux K V)), Aux.copyAuxList (fun v => v) l = l
  | [] => rfl
  | (k, a) :: t => by rw [Aux.copyAuxList, copyAux_id a, copyAuxList_id t]
end

/-- auxiliary variables, arbitrarily nested, are stored with the same content -/
theorem C05_aux_preserved (shapeOf : V → S) (a : Agent A C V K S Act) (x : V) (hx : shapeOf x = a.costShape)
    (aux : PyDict String (Aux K V)) : (a.init shapeOf (fun v => v) (some x) (some aux)).1.aux = aux := by
  simp [Agent.init, hx, History.setX, copyAux_id]

/-- Stale state: without `x` the previous `x` survives, and the history is empty, so reading the history raises while
reading `x` does not. -/
theorem C05_initialize_without_x_keeps_x (shapeOf : V → S) (copy : V → V) (a : Agent A C V K S Act) :
    let r := a.init shapeOf copy none none
    r.2 = .ok () ∧ r.1.x = a.x ∧ r.1.history.getX 0 = .error .valueError ∧ r.1.history.getX (-1) = .error .valueError := by
  simp [Agent.init, History.getX, History.empty, PyDict.contains, PyDict.get?, PyDict.empty, PyDict.lookupL,
    bisectRight, History.max, bind, Except.bind]

/-- Hence `initialize()` without `x` does not erase the past: two agents built alike end in different states. -/
theorem C05_without_x_not_fresh : ∃ (a b : Agent Nat Nat Nat Nat Nat Nat), SameBuild a b ∧
    (a.init (fun _ => 0) id none none).1.x ≠ (b.init (fun _ => 0) id none none).1.x := by
  let a : Agent Nat Nat Nat Nat Nat Nat :=
    { id := 0, index := 0, period := 1, costShape := 0, activation := 0, isServer := false, noCountDepth := 0,
      x := some 1, history := History.empty, aux := PyDict.empty, inbox := Inbox.empty, nXUpdates := 0, nSent := 0,
      nReceived := 0, nDropped := 0, nSelected := 0, nFunction := 0, nGradient := 0, nHessian := 0, nProximal := 0 }
  exact ⟨a, a.setX 2, ⟨rfl, rfl, rfl, rfl, rfl, rfl, rfl⟩, by simp [a, Agent.init, Agent.setX]⟩

/-- Assigning `x`: the value is readable afterwards, and since `initialize` the number of x updates is exactly the number of
assignments; nothing else changes. -/
theorem C04_x_updates (shapeOf : V → S) (a : Agent A C V K S Act) (x : V) (hx : shapeOf x = a.costShape) (vs : List V) :
    let a0 := (a.init shapeOf (fun v => v) (some x) none).1
    let a' := vs.foldl Agent.setX a0
    a'.nXUpdates = vs.length ∧ a'.getX = .ok ((x :: vs).getLast (by simp)) ∧
      { a' with x := a0.x, nXUpdates := a0.nXUpdates } = a0 := by
  have key : ∀ (vs : List V) (b : Agent A C V K S Act) (y : V), b.x = some y →
      (vs.foldl Agent.setX b).nXUpdates = b.nXUpdates + vs.length ∧
      (vs.foldl Agent.setX b).getX = .ok ((y :: vs).getLast (by simp)) ∧
      { vs.foldl Agent.setX b with x := b.x, nXUpdates := b.nXUpdates } = b := by
    intro vs
    induction vs with
    | nil => intro b y hb; exact ⟨rfl, by simp [Agent.getX, hb], rfl⟩
    | cons v t ih =>
      intro b y _
      obtain ⟨h1, h2, h3⟩ := ih (b.setX v) v rfl
      rw [List.foldl_cons]
      refine ⟨?_, ?_, ?_⟩
      · rw [h1]; simp only [Agent.setX, List.length_cons]; omega
      · rw [h2]; simp
      · have := congrArg (fun c : Agent A C V K S Act => { c with x := b.x, nXUpdates := b.nXUpdates }) h3
        exact this
  intro a0 a'
  have hx0 : a0.x = some x := by simp [a0, Agent.init, hx, History.setX]
  have hn0 : a0.nXUpdates = 0 := by simp [a0, Agent.init, hx, History.setX]
  obtain ⟨h1, h2, h3⟩ := key vs a0 x hx0
  exact ⟨by rw [h1, hn0, Nat.zero_add], h2, h3⟩

/-- the constructor rejects non-positive snapshot periods and yields an unindexed agent otherwise -/
theorem C05_new (id : A) (sh : S) (act : Act) (p : Int) :
    (p ≤ 0 → (Agent.new id sh act p : Py (Agent A C V K S Act)) = .error .valueError) ∧
    (0 < p → ∃ a : Agent A C V K S Act, Agent.new id sh act p = .ok a ∧ a.index = -1 ∧ a.getX = .error .runtimeError) := by
  constructor
  · intro h; simp [Agent.new, h]
  · intro h
    refine ⟨_, by rw [Agent.new, if_neg (Int.not_le.2 h)], rfl, rfl⟩

example : ∃ a b : Agent Nat Nat Nat Nat Nat Nat, SameBuild a b ∧ a.x ≠ b.x ∧ (fun _ => 0) (5 : Nat) = b.costShape := by
  let a : Agent Nat Nat Nat Nat Nat Nat :=
    { id := 0, index := 0, period := 1, costShape := 0, activation := 0, isServer := false, noCountDepth := 0,
      x := some 1, history := History.empty, aux := PyDict.empty, inbox := Inbox.empty, nXUpdates := 0, nSent := 0,
      nReceived := 0, nDropped := 0, nSelected := 0, nFunction := 0, nGradient := 0, nHessian := 0, nProximal := 0 }
  exact ⟨a, a.setX 2, ⟨rfl, rfl, rfl, rfl, rfl, rfl, rfl⟩, by simp [a, Agent.setX], rfl⟩
end C05
end Verif.Props
