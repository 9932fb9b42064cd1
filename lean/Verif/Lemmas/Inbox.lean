import Verif.Model.Inbox
namespace Verif
namespace Inbox
variable {C A M : Type} [DecidableEq C] [DecidableEq A]

/-- the message stored under `(c, a)` -/
def abs (b : Inbox C A M) (c : C) (a : A) : Option M := (b.messages.get? c).bind (fun d => d.get? a)

theorem get?_byChannel (b : Inbox C A M) (c : C) (a : A) : (b.byChannel c).get? a = b.abs c a := by
  unfold byChannel abs
  cases b.messages.get? c <;> simp

theorem get_eq (b : Inbox C A M) (c : C) (a : A) :
    b.get a c = match b.abs c a with | some m => .ok m | none => .error .keyError := by
  unfold get abs PyDict.getItem
  cases h : b.messages.get? c with
  | none => simp [bind, Except.bind]
  | some d => simp only [bind, Except.bind, Option.bind_some]; cases d.get? a <;> rfl

theorem has_eq (b : Inbox C A M) (c : C) (a : A) : b.has a c = (b.abs c a).isSome := by
  unfold has abs PyDict.contains
  cases h : b.messages.get? c <;> simp

@[simp] theorem abs_empty (c : C) (a : A) : (empty : Inbox C A M).abs c a = none := rfl

theorem abs_put (b : Inbox C A M) (s : A) (m : M) (ch c : C) (a : A) :
    (b.put s m ch).abs c a = if c = ch ∧ a = s then some m else b.abs c a := by
  unfold put abs
  by_cases hc : b.messages.contains ch = true
  · obtain ⟨d, hd⟩ := Option.isSome_iff_exists.1 hc
    simp only [hc, if_true, hd]
    by_cases h : c = ch
    · subst h
      simp only [PyDict.get?_set, if_true, Option.bind_some, hd, true_and]
    · simp [h]
  · have hd : b.messages.get? ch = none := by
      unfold PyDict.contains at hc
      cases h : b.messages.get? ch <;> simp_all
    simp only [hc, Bool.false_eq_true, if_false, PyDict.get?_set, if_true]
    by_cases h : c = ch
    · subst h
      simp only [if_true, Option.bind_some, PyDict.get?_set, PyDict.get?_empty, hd, Option.bind_none, true_and]
    · simp [h]

theorem get?_popAll (d : PyDict A M) (ss : List A) (a : A) :
    (popAll d ss).get? a = if a ∈ ss then none else d.get? a := by
  unfold popAll
  induction ss generalizing d with
  | nil => simp
  | cons s t ih =>
    simp only [List.foldl_cons, ih, PyDict.get?_pop, List.mem_cons]
    by_cases h1 : a ∈ t <;> by_cases h2 : a = s <;> simp [h1, h2]

theorem get?_of_len_zero (d : PyDict A M) (h : d.len = 0) (a : A) : d.get? a = none := by
  have : d.entries = [] := List.length_eq_zero_iff.1 h
  simp [PyDict.get?, this, PyDict.lookupL]

omit [DecidableEq A] in
theorem lookupL_map (f : PyDict A M → PyDict A M) (c : C) (l : List (C × PyDict A M)) :
    PyDict.lookupL c (l.map (fun e => (e.1, f e.2))) = (PyDict.lookupL c l).map f := by
  induction l with
  | nil => rfl
  | cons e t ih =>
    obtain ⟨k, d⟩ := e
    by_cases h : c = k <;> simp [PyDict.lookupL, h, ih]

theorem get?_foldl_pop {V : Type} (cs : List C) (d : PyDict C V) (c : C) :
    (cs.foldl (fun d c => d.pop c) d).get? c = if c ∈ cs then none else d.get? c := by
  induction cs generalizing d with
  | nil => simp
  | cons s t ih =>
    simp only [List.foldl_cons, ih, PyDict.get?_pop, List.mem_cons]
    by_cases h1 : c ∈ t <;> by_cases h2 : c = s <;> simp [h1, h2]

theorem wf_foldl_pop {K V : Type} [DecidableEq K] (cs : List K) (d : PyDict K V) (h : d.WF) :
    (cs.foldl (fun d c => d.pop c) d).WF := by
  induction cs generalizing d with
  | nil => exact h
  | cons s t ih => exact ih _ (PyDict.wf_pop _ _ h)

/-- invariant: no duplicate channel, no duplicate sender in a bucket -/
structure Inv (b : Inbox C A M) : Prop where
  wf : b.messages.WF
  bucket : ∀ c d, b.messages.get? c = some d → d.WF

omit [DecidableEq A] in
theorem inv_empty : (empty : Inbox C A M).Inv := ⟨PyDict.wf_empty, by simp [empty]⟩

theorem inv_put (b : Inbox C A M) (s : A) (m : M) (ch : C) (h : b.Inv) : (b.put s m ch).Inv := by
  unfold put
  by_cases hc : b.messages.contains ch = true
  · obtain ⟨d, hd⟩ := Option.isSome_iff_exists.1 hc
    simp only [hc, if_true, hd]
    refine ⟨PyDict.wf_set _ _ _ h.wf, ?_⟩
    intro c d' hd'
    simp only [PyDict.get?_set] at hd'
    split at hd'
    · cases hd'; exact PyDict.wf_set _ _ _ (h.bucket _ _ hd)
    · exact h.bucket _ _ hd'
  · simp only [hc, Bool.false_eq_true, if_false, PyDict.get?_set, if_true]
    refine ⟨PyDict.wf_set _ _ _ (PyDict.wf_set _ _ _ h.wf), ?_⟩
    intro c d' hd'
    simp only [PyDict.get?_set] at hd'
    split at hd'
    · cases hd'; exact PyDict.wf_set _ _ _ PyDict.wf_empty
    · exact h.bucket _ _ hd'

theorem inv_clear (b : Inbox C A M) (s : SenderArg A) (ch : Option C) (h : b.Inv) : (b.clear s ch).Inv := by
  have hscoped : ∀ c (ss : List A), (match b.messages.get? c with
      | none => b
      | some bucket =>
        let bucket' := popAll bucket ss
        if bucket'.len = 0 then (⟨b.messages.pop c⟩ : Inbox C A M) else ⟨b.messages.set c bucket'⟩).Inv := by
    intro c ss
    cases hb : b.messages.get? c with
    | none => exact h
    | some d =>
      dsimp only
      split
      · refine ⟨PyDict.wf_pop _ _ h.wf, ?_⟩
        intro c' d' hd'
        simp only [PyDict.get?_pop] at hd'
        split at hd'
        · cases hd'
        · exact h.bucket _ _ hd'
      · refine ⟨PyDict.wf_set _ _ _ h.wf, ?_⟩
        intro c' d' hd'
        simp only [PyDict.get?_set] at hd'
        split at hd'
        · cases hd'; exact wf_foldl_pop _ _ (h.bucket _ _ hb)
        · exact h.bucket _ _ hd'
  have all : ∀ (ss : List A), (let d : PyDict C (PyDict A M) :=
        ⟨b.messages.entries.map (fun e => (e.1, popAll e.2 ss))⟩
      let emptyChannels := (d.entries.filter (fun e => decide (e.2.len = 0))).map Prod.fst
      (⟨emptyChannels.foldl (fun d c => d.pop c) d⟩ : Inbox C A M)).Inv := by
    intro ss
    refine ⟨wf_foldl_pop _ _ ?_, ?_⟩
    · have := h.wf
      unfold PyDict.WF PyDict.keys at *
      simpa [List.map_map, Function.comp_def] using this
    · intro c d' hd'
      dsimp only at hd'
      rw [get?_foldl_pop] at hd'
      split at hd'
      · cases hd'
      · unfold PyDict.get? at hd'
        dsimp only at hd'
        rw [lookupL_map (fun d => popAll d ss)] at hd'
        cases hl : PyDict.lookupL c b.messages.entries with
        | none => rw [hl] at hd'; cases hd'
        | some d =>
          rw [hl] at hd'; cases hd'
          exact wf_foldl_pop _ _ (h.bucket c d hl)
  cases s with
  | none =>
    cases ch with
    | none => exact inv_empty
    | some c =>
      refine ⟨PyDict.wf_pop _ _ h.wf, ?_⟩
      intro c' d' hd'
      simp only [clear, PyDict.get?_pop] at hd'
      split at hd'
      · cases hd'
      · exact h.bucket _ _ hd'
  | one a =>
    cases ch with
    | none => exact all [a]
    | some c => exact hscoped c [a]
  | many l =>
    cases ch with
    | none => exact all l
    | some c => exact hscoped c l

theorem abs_clear_none (b : Inbox C A M) (h : b.Inv) (ss : List A) (c : C) (a : A) :
    (let d : PyDict C (PyDict A M) := ⟨b.messages.entries.map (fun e => (e.1, popAll e.2 ss))⟩
      let emptyChannels := (d.entries.filter (fun e => decide (e.2.len = 0))).map Prod.fst
      (⟨emptyChannels.foldl (fun d c => d.pop c) d⟩ : Inbox C A M)).abs c a =
    if a ∈ ss then none else b.abs c a := by
  dsimp only
  unfold abs
  dsimp only
  rw [get?_foldl_pop]
  have hg : (⟨b.messages.entries.map (fun e => (e.1, popAll e.2 ss))⟩ : PyDict C (PyDict A M)).get? c =
      (b.messages.get? c).map (fun d => popAll d ss) := lookupL_map (fun d => popAll d ss) c _
  split
  · rename_i hmem
    obtain ⟨e, he, rfl⟩ := List.mem_map.1 hmem
    rw [List.mem_filter] at he
    obtain ⟨he1, he2⟩ := he
    have hlen := of_decide_eq_true he2
    obtain ⟨e0, he0, rfl⟩ := List.mem_map.1 he1
    have hd : b.messages.get? e0.1 = some e0.2 := PyDict.lookupL_of_mem h.wf he0
    have := get?_of_len_zero _ hlen a
    rw [get?_popAll] at this
    simp only [hd, Option.bind_none, Option.bind_some]
    exact this.symm
  · rw [hg]
    cases b.messages.get? c with
    | none => simp
    | some d => simp [get?_popAll]

theorem abs_clear_some (b : Inbox C A M) (ss : List A) (ch c : C) (a : A) :
    (match b.messages.get? ch with
      | none => b
      | some bucket =>
        let bucket' := popAll bucket ss
        if bucket'.len = 0 then (⟨b.messages.pop ch⟩ : Inbox C A M) else ⟨b.messages.set ch bucket'⟩).abs c a =
    if c = ch ∧ a ∈ ss then none else b.abs c a := by
  cases hb : b.messages.get? ch with
  | none =>
    dsimp only
    split
    · rename_i hh
      obtain ⟨rfl, _⟩ := hh
      simp [abs, hb]
    · rfl
  | some d =>
    dsimp only
    split
    · rename_i hlen
      unfold abs
      simp only [PyDict.get?_pop]
      by_cases hc : c = ch
      · subst hc
        have := get?_of_len_zero _ hlen a
        rw [get?_popAll] at this
        simp only [if_true, Option.bind_none, true_and, hb, Option.bind_some]
        exact this.symm
      · simp [hc]
    · unfold abs
      simp only [PyDict.get?_set]
      by_cases hc : c = ch
      · subst hc
        simp [hb, get?_popAll]
      · simp [hc]

end Inbox
end Verif
