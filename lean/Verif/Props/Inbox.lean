import Verif.Lemmas.Inbox
/-! # C03: the inbox is a map keyed by (channel, sender) -/
namespace Verif.Props
open Verif Verif.Inbox
variable {C A M : Type} [DecidableEq C] [DecidableEq A]

/-! ## Specification: a plain function `channel → sender → Option message` -/

/-- which senders a `clear` call addresses -/
def senderMatches : SenderArg A → A → Prop
  | .none, _ => True
  | .one s, a => a = s
  | .many l, a => a ∈ l

/-- which channels a `clear` call addresses -/
def channelMatches : Option C → C → Prop
  | none, _ => True
  | some c', c => c = c'

/-- the last event concerning `(c, a)` decides: `Holds ops c a m` iff some `put a m c` occurs in `ops` and no later
event is a `put` for `(c, a)` or a `clear` matching `(c, a)` -/
def Holds (ops : List (Inbox.Op C A M)) (c : C) (a : A) (m : M) : Prop :=
  ∃ pre post, ops = pre ++ Inbox.Op.put a m c :: post ∧
    ∀ op ∈ post, match op with
      | .put s _ ch => ¬ (ch = c ∧ s = a)
      | .clear s ch => ¬ (senderMatches s a ∧ channelMatches ch c)

open Classical in
/-- the abstract map after one event -/
noncomputable def specStep (f : C → A → Option M) : Inbox.Op C A M → C → A → Option M
  | .put s m ch => fun c a => if c = ch ∧ a = s then some m else f c a
  | .clear s ch => fun c a => if senderMatches s a ∧ channelMatches ch c then none else f c a

/-! ## Properties -/

theorem abs_step (b : Inbox C A M) (h : b.Inv) (op : Inbox.Op C A M) :
    (b.step op).abs = specStep b.abs op := by
  funext c a
  cases op with
  | put s m ch => exact abs_put b s m ch c a
  | clear s ch =>
    cases s with
    | none =>
      cases ch with
      | none => simp [Inbox.step, clear, specStep, senderMatches, channelMatches, Inbox.abs]
      | some c' =>
        simp only [Inbox.step, clear, specStep, senderMatches, channelMatches, Inbox.abs, PyDict.get?_pop, true_and]
        by_cases hc : c = c' <;> simp [hc]
    | one s =>
      cases ch with
      | none =>
        have := abs_clear_none b h [s] c a
        simpa [Inbox.step, clear, senderList, specStep, senderMatches, channelMatches] using this
      | some c' =>
        have := abs_clear_some b [s] c' c a
        refine Eq.trans this ?_
        simp only [specStep, senderMatches, channelMatches]
        by_cases h1 : c = c' <;> by_cases h2 : a = s <;> simp [h1, h2]
    | many l =>
      cases ch with
      | none =>
        have := abs_clear_none b h l c a
        simpa [Inbox.step, clear, senderList, specStep, senderMatches, channelMatches] using this
      | some c' =>
        have := abs_clear_some b l c' c a
        refine Eq.trans this ?_
        simp only [specStep, senderMatches, channelMatches]
        by_cases h1 : c = c' <;> by_cases h2 : a ∈ l <;> simp [h1, h2]

theorem inv_run (b : Inbox C A M) (h : b.Inv) (ops : List (Inbox.Op C A M)) : (b.run ops).Inv := by
  induction ops generalizing b with
  | nil => exact h
  | cons op t ih =>
    refine ih _ ?_
    cases op with
    | put s m c => exact inv_put b s m c h
    | clear s c => exact inv_clear b s c h

theorem abs_run (b : Inbox C A M) (h : b.Inv) (ops : List (Inbox.Op C A M)) :
    (b.run ops).abs = ops.foldl specStep b.abs := by
  induction ops generalizing b with
  | nil => rfl
  | cons op t ih =>
    have hinv : (b.step op).Inv := inv_run b h [op]
    have := ih (b.step op) hinv
    simp only [Inbox.run, List.foldl_cons] at *
    rw [this, abs_step b h]

theorem spec_holds (ops : List (Inbox.Op C A M)) (c : C) (a : A) (m : M) :
    ops.foldl specStep (fun _ _ => none) c a = some m ↔ Holds ops c a m := by
  have key : ∀ n (ops : List (Inbox.Op C A M)), ops.length = n →
      (ops.foldl specStep (fun _ _ => none) c a = some m ↔ Holds ops c a m) := by
    intro n
    induction n with
    | zero =>
      intro ops h
      have : ops = [] := List.length_eq_zero_iff.1 h
      subst this
      simp [Holds]
    | succ n ih =>
      intro ops h
      have hne : ops ≠ [] := by intro e; subst e; simp at h
      have hs := List.dropLast_concat_getLast hne
      have hlen : ops.dropLast.length = n := by rw [List.length_dropLast]; omega
      have ih' := ih _ hlen
      generalize ops.dropLast = pre at hs ih'
      generalize ops.getLast hne = op at hs
      subst hs
      rw [List.foldl_append]
      simp only [List.foldl_cons, List.foldl_nil]
      generalize List.foldl specStep (fun _ _ => none) pre = g at ih' ⊢
      clear h hlen hne ih
      -- the last event is `op`
      have ext : (¬ (match op with
          | .put s _ ch => ch = c ∧ s = a
          | .clear s ch => senderMatches s a ∧ channelMatches ch c)) →
          (Holds (pre ++ [op]) c a m ↔ Holds pre c a m) := by
        intro hno
        constructor
        · rintro ⟨p, q, he, hq⟩
          rcases List.eq_nil_or_concat q with rfl | ⟨q', x, rfl⟩
          · have := List.append_inj' he rfl
            simp only [List.cons.injEq, and_true] at this
            obtain ⟨_, rfl⟩ := this
            simp at hno
          · have he' : pre ++ [op] = (p ++ Op.put a m c :: q') ++ [x] := by simpa using he
            have := List.append_inj' he' rfl
            exact ⟨p, q', this.1, fun o ho => hq o (by simp [ho])⟩
        · rintro ⟨p, q, rfl, hq⟩
          refine ⟨p, q ++ [op], by simp, ?_⟩
          intro o ho
          rcases List.mem_append.1 ho with ho | ho
          · exact hq o ho
          · simp only [List.mem_singleton] at ho
            subst ho
            cases o <;> exact hno
      cases op with
      | put s m' ch =>
        unfold specStep
        by_cases hh : c = ch ∧ a = s
        · obtain ⟨rfl, rfl⟩ := hh
          simp only [and_self, if_true, Option.some.injEq]
          constructor
          · rintro rfl; exact ⟨pre, [], rfl, by simp⟩
          · rintro ⟨p, q, he, hq⟩
            rcases List.eq_nil_or_concat q with rfl | ⟨q', x, rfl⟩
            · have := List.append_inj' he rfl
              simp only [List.cons.injEq, and_true, Op.put.injEq, true_and] at this
              exact this.2
            · have he' : pre ++ [Op.put a m' c] = (p ++ Op.put a m c :: q') ++ [x] := by simpa using he
              have := List.append_inj' he' rfl
              simp only [List.cons.injEq, and_true] at this
              have hx := hq x (by simp)
              rw [← this.2] at hx
              simp at hx
        · simp only [hh, if_false]
          rw [ih', ext]
          rintro ⟨rfl, rfl⟩; exact hh ⟨rfl, rfl⟩
      | clear s ch =>
        unfold specStep
        by_cases hh : senderMatches s a ∧ channelMatches ch c
        · simp only [hh, and_self, if_true, reduceCtorEq, false_iff]
          rintro ⟨p, q, he, hq⟩
          rcases List.eq_nil_or_concat q with rfl | ⟨q', x, rfl⟩
          · have := List.append_inj' he rfl
            simp at this
          · have he' : pre ++ [Op.clear s ch] = (p ++ Op.put a m c :: q') ++ [x] := by simpa using he
            have := List.append_inj' he' rfl
            simp only [List.cons.injEq, and_true] at this
            have hx := hq x (by simp)
            rw [← this.2] at hx
            exact hx hh
        · simp only [hh, if_false]
          rw [ih', ext]
          exact hh
  exact key _ ops rfl

/-- After any sequence of deliveries and clears, `get` returns `m` iff `m` is the last delivery for (channel, sender)
and it has not been cleared since. -/
theorem C03_get (ops : List (Inbox.Op C A M)) (a : A) (c : C) (m : M) :
    (Inbox.empty.run ops).get a c = .ok m ↔ Holds ops c a m := by
  rw [get_eq, abs_run _ inv_empty, ← spec_holds]
  have : (Inbox.empty : Inbox C A M).abs = fun _ _ => none := rfl
  rw [this]
  split <;> simp_all

/-- Looking up an absent message raises `KeyError`, and that is the only error. -/
theorem C03_get_absent (ops : List (Inbox.Op C A M)) (a : A) (c : C) :
    ((Inbox.empty.run ops).get a c = .error .keyError ↔ ∀ m, ¬ Holds ops c a m) ∧
    (∀ e, (Inbox.empty.run ops).get a c = .error e → e = .keyError) := by
  constructor
  · constructor
    · intro h m hm
      rw [(C03_get ops a c m).2 hm] at h; cases h
    · intro h
      cases hg : (Inbox.empty.run ops).get a c with
      | ok m => exact absurd ((C03_get ops a c m).1 hg) (h m)
      | error e =>
        rw [get_eq] at hg
        split at hg <;> cases hg
        rfl
  · intro e he
    rw [get_eq] at he
    split at he <;> cases he
    rfl

/-- `has` answers exactly whether a message is held. -/
theorem C03_has (ops : List (Inbox.Op C A M)) (a : A) (c : C) :
    (Inbox.empty.run ops).has a c = true ↔ ∃ m, Holds ops c a m := by
  rw [has_eq, abs_run _ inv_empty, Option.isSome_iff_exists]
  simp only [← spec_holds]
  rfl

/-- `by_channel` lists every sender at most once, with exactly the held messages of that channel. -/
theorem C03_by_channel (ops : List (Inbox.Op C A M)) (c : C) :
    ((Inbox.empty.run ops).byChannel c).keys.Nodup ∧
    ∀ a m, (a, m) ∈ ((Inbox.empty.run ops).byChannel c).entries ↔ Holds ops c a m := by
  have hi := inv_run _ (inv_empty (C := C) (A := A) (M := M)) ops
  have hw : ((Inbox.empty.run ops).byChannel c).WF := by
    unfold Inbox.byChannel
    cases h : (Inbox.empty.run ops).messages.get? c with
    | none => exact PyDict.wf_empty
    | some d => exact hi.bucket c d h
  refine ⟨hw, fun a m => ?_⟩
  rw [PyDict.mem_entries_iff _ hw, get?_byChannel, abs_run _ inv_empty, ← spec_holds]
  rfl

/-- `clear` removes exactly the matching entries and nothing else; `put` changes exactly one entry. -/
theorem C03_step_exact (ops : List (Inbox.Op C A M)) (s : SenderArg A) (ch : Option C) (a : A) (c : C) :
    (senderMatches s a ∧ channelMatches ch c →
      ((Inbox.empty.run ops).clear s ch).get a c = .error .keyError) ∧
    (¬ (senderMatches s a ∧ channelMatches ch c) →
      ((Inbox.empty.run ops).clear s ch).get a c = (Inbox.empty.run ops).get a c) := by
  have hi := inv_run _ (inv_empty (C := C) (A := A) (M := M)) ops
  have h1 : ((Inbox.empty.run ops).clear s ch).abs = specStep (Inbox.empty.run ops).abs (.clear s ch) :=
    abs_step _ hi (.clear s ch)
  constructor
  · intro h
    rw [get_eq, h1]; simp [specStep, h]
  · intro h
    rw [get_eq, get_eq, h1]; simp [specStep, h]

/-! ## Non-vacuity -/

example : Holds [Op.put 1 "a" 'c', .put 2 "b" 'c', .clear (.one 1) none, .put 1 "z" 'd'] 'c' (2 : Nat) "b" :=
  ⟨[.put 1 "a" 'c'], [.clear (.one 1) none, .put 1 "z" 'd'], rfl, by
    simp [senderMatches, channelMatches]⟩
example : (Inbox.empty.run [Op.put 1 "a" 'c', .put 2 "b" 'c', .clear (.one 1) none, .put 1 "z" 'd']).get 1 'c'
    = .error .keyError := by rfl
example : (Inbox.empty.run [Op.put 1 "a" 'c', .put 2 "b" 'c', .clear (.one 1) none, .put 1 "z" 'd']).get 2 'c'
    = .ok "b" := by rfl

end Verif.Props
