import Verif.Model.Network
import Verif.Lemmas.Inbox
import Mathlib.Tactic.Ring
import Mathlib.Tactic.Linarith
import Mathlib.Algebra.Order.Field.Rat
set_option linter.unusedSectionVars false
namespace Verif

section upd
variable {A B : Type} [DecidableEq A]
@[simp] theorem upd_same (f : A → B) (a : A) (b : B) : upd f a b a = b := by simp [upd]
theorem upd_ne (f : A → B) {a x : A} (b : B) (h : x ≠ a) : upd f a b x = f x := by simp [upd, h]
theorem upd_apply (f : A → B) (a x : A) (b : B) : upd f a b x = if x = a then b else f x := rfl

theorem sum_upd (l : List A) (hn : l.Nodup) (f : A → Rat) (a : A) (ha : a ∈ l) (d : Rat) :
    (l.map (upd f a (f a + d))).sum = (l.map f).sum + d := by
  induction l with
  | nil => simp at ha
  | cons b t ih =>
    rw [List.nodup_cons] at hn
    simp only [List.map_cons, List.sum_cons]
    rcases List.mem_cons.1 ha with rfl | ha
    · have : t.map (upd f a (f a + d)) = t.map f := by
        apply List.map_congr_left
        intro x hx
        exact upd_ne _ _ (fun e => hn.1 (e ▸ hx))
      rw [this, upd_same]; ring
    · have : b ≠ a := fun e => hn.1 (e ▸ ha)
      rw [ih hn.2 ha, upd_ne _ _ this]; ring
end upd

namespace NetState
variable {A C V Ω : Type} [DecidableEq A] [DecidableEq C]

/-- communication fields of all agents agree -/
structure SameAgents (s s' : NetState A C V Ω) : Prop where
  inbox : s'.inbox = s.inbox
  sent : s'.nSent = s.nSent
  received : s'.nReceived = s.nReceived
  dropped : s'.nDropped = s.nDropped

theorem SameAgents.refl (s : NetState A C V Ω) : SameAgents s s := ⟨rfl, rfl, rfl, rfl⟩
theorem SameAgents.trans {s t u : NetState A C V Ω} (h : SameAgents s t) (g : SameAgents t u) : SameAgents s u :=
  ⟨g.inbox.trans h.inbox, g.sent.trans h.sent, g.received.trans h.received, g.dropped.trans h.dropped⟩

/-- the active set of the current iteration, as a query in `s` would report it -/
def activeNow (w : World A V Ω) (n : Net A) (s : NetState A C V Ω) : List A := (s.activeAgents w n).1

theorem filterActive_sub (w : World A V Ω) (it : Int) (l : List A) (ω : Ω) :
    ∀ a ∈ (filterActive w it l ω).1, a ∈ l := by
  induction l generalizing ω with
  | nil => simp [filterActive]
  | cons b t ih =>
    intro a ha
    simp only [filterActive] at ha
    split at ha
    · rcases List.mem_cons.1 ha with rfl | ha
      · simp
      · exact List.mem_cons_of_mem _ (ih _ a ha)
    · exact List.mem_cons_of_mem _ (ih _ a ha)

/-- cache coherence -/
structure CInv (n : Net A) (s : NetState A C V Ω) : Prop where
  active : ∀ act, s.activeCache = some act → ∀ a ∈ act, a ∈ n.queryAgents
  conn : ∀ a l, s.connCache.get? a = some l →
    ∃ act, s.activeCache = some act ∧ l = (n.nbrs a).filter (fun b => decide (b ∈ act))

theorem cinv_of_empty (n : Net A) (s : NetState A C V Ω) (h1 : s.activeCache = none)
    (h2 : s.connCache = PyDict.empty) : CInv n s :=
  ⟨by simp [h1], by simp [h2]⟩

theorem activeAgents_spec (w : World A V Ω) (n : Net A) (s : NetState A C V Ω) (h : CInv n s) :
    let r := s.activeAgents w n
    r.2.activeCache = some r.1 ∧ SameAgents s r.2 ∧ CInv n r.2 ∧ r.2.iteration = s.iteration ∧
    r.2.connCache = s.connCache ∧ (∀ a ∈ r.1, a ∈ n.queryAgents) ∧
    (∀ act, s.activeCache = some act → r = (act, s)) := by
  simp only [activeAgents]
  cases hc : s.activeCache with
  | some l =>
    exact ⟨hc, SameAgents.refl s, h, rfl, rfl, h.active l hc, by intro act ha; cases ha; rfl⟩
  | none =>
    refine ⟨rfl, ⟨rfl, rfl, rfl, rfl⟩, ⟨?_, ?_⟩, rfl, rfl, filterActive_sub w _ _ _, by intro act ha; cases ha⟩
    · intro act ha a hm
      cases ha
      exact filterActive_sub w _ _ _ a hm
    · intro a l hl
      obtain ⟨act, ha, _⟩ := h.conn a l hl
      rw [hc] at ha; cases ha

theorem activeConnected_spec (w : World A V Ω) (n : Net A) (a : A) (s : NetState A C V Ω) (h : CInv n s) :
    let r := s.activeConnected w n a
    r.1 = (n.nbrs a).filter (fun b => decide (b ∈ s.activeNow w n)) ∧
    r.2.activeCache = some (s.activeNow w n) ∧ SameAgents s r.2 ∧ CInv n r.2 ∧ r.2.iteration = s.iteration ∧
    r.2.ω = (s.activeAgents w n).2.ω := by
  obtain ⟨h1, h2, h3, h4, h5, h6, h7⟩ := activeAgents_spec w n s h
  simp only [activeConnected]
  cases hc : s.connCache.get? a with
  | some l =>
    obtain ⟨act, hact, hl⟩ := h.conn a l hc
    have he := h7 act hact
    have hn : s.activeNow w n = act := by unfold activeNow; rw [he]
    refine ⟨by rw [hn]; exact hl, by rw [hn]; exact hact, SameAgents.refl s, h, rfl, by rw [he]⟩
  | none =>
    refine ⟨rfl, h1, ⟨h2.inbox, h2.sent, h2.received, h2.dropped⟩, ⟨?_, ?_⟩, h4, rfl⟩
    · exact h3.active
    · intro b l hl
      simp only [PyDict.get?_set] at hl
      split at hl
      · cases hl
        rename_i hb
        subst hb
        exact ⟨_, h1, rfl⟩
      · exact h3.conn b l hl

theorem activeNow_of_cache (w : World A V Ω) (n : Net A) (s : NetState A C V Ω) (act : List A)
    (h : s.activeCache = some act) : s.activeNow w n = act := by
  simp [activeNow, activeAgents, h]

/-! ### delivery -/

theorem confirm_sub (w : World A V Ω) (sender : A) (l : List A) (ω : Ω) :
    ∀ a ∈ (confirm w sender l ω).1, a ∈ l := by
  induction l generalizing ω with
  | nil => simp [confirm]
  | cons b t ih =>
    intro a ha
    simp only [confirm] at ha
    split at ha
    · exact List.mem_cons_of_mem _ (ih _ a ha)
    · rcases List.mem_cons.1 ha with rfl | ha
      · simp
      · exact List.mem_cons_of_mem _ (ih _ a ha)

theorem confirm_length_le (w : World A V Ω) (sender : A) (l : List A) (ω : Ω) :
    (confirm w sender l ω).1.length ≤ l.length := by
  induction l generalizing ω with
  | nil => simp [confirm]
  | cons b t ih =>
    simp only [confirm]
    split
    · have := ih (w.shouldDrop sender ω).2; simp only [List.length_cons]; omega
    · have := ih (w.shouldDrop sender ω).2; simp only [List.length_cons]; omega

theorem transmit_frame (w : World A V Ω) (sender : A) (ch : C) (inc : Rat) (msg : V) (ν : Option (Nat → V))
    (i : Nat) (l : List A) (s : NetState A C V Ω) :
    let s' := transmit w sender ch inc msg ν i l s
    s'.nSent = s.nSent ∧ s'.nDropped = s.nDropped ∧ s'.activeCache = s.activeCache ∧ s'.connCache = s.connCache ∧
    s'.iteration = s.iteration ∧ s'.ω = s.ω := by
  induction l generalizing i s with
  | nil => simp [transmit]
  | cons r t ih =>
    simp only [transmit]
    exact ih (i + 1) { s with
      inbox := upd s.inbox r ((s.inbox r).put sender (sentMsg w msg ν i) ch),
      nReceived := upd s.nReceived r (s.nReceived r + inc) }

theorem transmit_received_sum (w : World A V Ω) (sender : A) (ch : C) (inc : Rat) (msg : V) (ν : Option (Nat → V))
    (nodes : List A) (hn : nodes.Nodup) (i : Nat) (l : List A) (hl : ∀ a ∈ l, a ∈ nodes) (s : NetState A C V Ω) :
    (nodes.map (transmit w sender ch inc msg ν i l s).nReceived).sum =
      (nodes.map s.nReceived).sum + inc * (l.length : Rat) := by
  induction l generalizing i s with
  | nil => simp [transmit]
  | cons r t ih =>
    simp only [transmit]
    rw [ih (i + 1) (fun a ha => hl a (List.mem_cons_of_mem _ ha))]
    dsimp only
    rw [sum_upd nodes hn s.nReceived r (hl r (by simp))]
    simp only [List.length_cons]
    push_cast
    ring

/-- the last index at which `b` occurs among the confirmed receivers decides the stored message -/
theorem transmit_inbox_ne (w : World A V Ω) (sender : A) (ch : C) (inc : Rat) (msg : V) (ν : Option (Nat → V))
    (i : Nat) (l : List A) (s : NetState A C V Ω) (b : A) (c : C) (a : A) (h : ¬ (c = ch ∧ a = sender)) :
    ((transmit w sender ch inc msg ν i l s).inbox b).abs c a = (s.inbox b).abs c a := by
  induction l generalizing i s with
  | nil => rfl
  | cons r t ih =>
    simp only [transmit]
    rw [ih]
    dsimp only
    by_cases hb : b = r
    · subst hb; rw [upd_same, Inbox.abs_put, if_neg h]
    · rw [upd_ne _ _ hb]

theorem transmit_inbox_notin (w : World A V Ω) (sender : A) (ch : C) (inc : Rat) (msg : V) (ν : Option (Nat → V))
    (i : Nat) (l : List A) (s : NetState A C V Ω) (b : A) (h : b ∉ l) :
    (transmit w sender ch inc msg ν i l s).inbox b = s.inbox b := by
  induction l generalizing i s with
  | nil => rfl
  | cons r t ih =>
    simp only [List.mem_cons, not_or] at h
    simp only [transmit]
    rw [ih _ _ h.2]
    exact upd_ne _ _ h.1

theorem transmit_inbox_in (w : World A V Ω) (sender : A) (ch : C) (inc : Rat) (msg : V) (ν : Option (Nat → V))
    (i : Nat) (l : List A) (s : NetState A C V Ω) (b : A) (h : b ∈ l) :
    ∃ j, l[j]? = some b ∧ (∀ j', j < j' → l[j']? ≠ some b) ∧
    ((transmit w sender ch inc msg ν i l s).inbox b).abs ch sender = some (sentMsg w msg ν (i + j)) := by
  induction l generalizing i s with
  | nil => simp at h
  | cons r t ih =>
    by_cases ht : b ∈ t
    · obtain ⟨j, hj, hlast, hm⟩ := ih (i + 1) { s with
        inbox := upd s.inbox r ((s.inbox r).put sender (sentMsg w msg ν i) ch),
        nReceived := upd s.nReceived r (s.nReceived r + inc) } ht
      refine ⟨j + 1, by simpa using hj, ?_, ?_⟩
      · intro j' hj'
        cases j' with
        | zero => omega
        | succ k => simpa using hlast k (by omega)
      · have e : i + (j + 1) = i + 1 + j := by omega
        rw [e]; exact hm
    · have hb : b = r := by
        rcases List.mem_cons.1 h with h | h
        · exact h
        · exact absurd h ht
      subst hb
      refine ⟨0, by simp, ?_, ?_⟩
      · intro j' hj'
        cases j' with
        | zero => omega
        | succ k =>
          intro e
          simp only [List.getElem?_cons_succ] at e
          exact ht (List.mem_of_getElem? e)
      · simp only [transmit]
        rw [transmit_inbox_notin _ _ _ _ _ _ _ _ _ _ ht]
        dsimp only
        rw [upd_same, Inbox.abs_put]
        simp

/-- summary of `deliver` -/
theorem deliver_spec (w : World A V Ω) (sender : A) (l : List A) (m : V) (ch : C) (s : NetState A C V Ω) :
    let s' := s.deliver w sender l m ch
    let c := (confirm w sender l s.ω).1
    let inc := w.compSize sender m / w.costSize sender
    let cm := (w.compress sender m (confirm w sender l s.ω).2)
    let ν := (w.makeNoise sender c.length cm.1 cm.2).1
    s'.nSent = upd s.nSent sender (s.nSent sender + inc * (l.length : Rat)) ∧
    s'.nDropped = upd s.nDropped sender (s.nDropped sender + inc * ((l.length : Rat) - (c.length : Rat))) ∧
    s'.activeCache = s.activeCache ∧ s'.connCache = s.connCache ∧ s'.iteration = s.iteration ∧
    (∀ nodes : List A, nodes.Nodup → (∀ a ∈ l, a ∈ nodes) →
      (nodes.map s'.nReceived).sum = (nodes.map s.nReceived).sum + inc * (c.length : Rat)) ∧
    (∀ b, b ∉ c → s'.inbox b = s.inbox b) ∧
    (∀ b c' a, ¬ (c' = ch ∧ a = sender) → (s'.inbox b).abs c' a = (s.inbox b).abs c' a) ∧
    (∀ b ∈ c, ∃ j, c[j]? = some b ∧ (∀ j', j < j' → c[j']? ≠ some b) ∧
      (s'.inbox b).abs ch sender = some (sentMsg w cm.1 ν j)) := by
  intro s' c inc cm ν
  let s0 : NetState A C V Ω := { s with
      nSent := upd s.nSent sender (s.nSent sender + inc * (l.length : Rat)),
      nDropped := upd s.nDropped sender (s.nDropped sender + inc * ((l.length : Rat) - (c.length : Rat))),
      ω := (w.makeNoise sender c.length cm.1 cm.2).2 }
  have hs' : s' = transmit w sender ch inc cm.1 ν 0 c s0 := rfl
  obtain ⟨h1, h2, h3, h4, h5, h6⟩ := transmit_frame w sender ch inc cm.1 ν 0 c s0
  rw [hs']
  refine ⟨h1, h2, h3, h4, h5, ?_, ?_, ?_, ?_⟩
  · intro nodes hn hl
    exact transmit_received_sum w sender ch inc cm.1 ν nodes hn 0 c
      (fun a ha => hl a (confirm_sub w sender l s.ω a ha)) s0
  · intro b hb; exact transmit_inbox_notin w sender ch inc cm.1 ν 0 c s0 b hb
  · intro b c' a h; exact transmit_inbox_ne w sender ch inc cm.1 ν 0 c s0 b c' a h
  · intro b hb
    obtain ⟨j, hj, hl, hm⟩ := transmit_inbox_in w sender ch inc cm.1 ν 0 c s0 b hb
    exact ⟨j, hj, hl, by simpa using hm⟩

theorem deliver_cinv (w : World A V Ω) (n : Net A) (sender : A) (l : List A) (m : V) (ch : C) (s : NetState A C V Ω)
    (h : CInv n s) : CInv n (s.deliver w sender l m ch) := by
  obtain ⟨_, _, h3, h4, _⟩ := deliver_spec w sender l m ch s
  refine ⟨?_, ?_⟩
  · intro act ha; rw [h3] at ha; exact h.active act ha
  · intro a l' hl; rw [h4] at hl; obtain ⟨act, h1, h2⟩ := h.conn a l' hl; exact ⟨act, by rw [h3]; exact h1, h2⟩

/-- what is needed of an `_allowed_receivers` implementation -/
structure AllowedOK (n : Net A) (allowed : A → NetState A C V Ω → List A × NetState A C V Ω) : Prop where
  ok : ∀ sender s, CInv n s → SameAgents s (allowed sender s).2 ∧ CInv n (allowed sender s).2 ∧
    (allowed sender s).2.iteration = s.iteration
  mem : ∀ sender s, CInv n s → sender ∈ n.nodes → ∀ a ∈ (allowed sender s).1, a ∈ n.nodes

theorem allowedBase_ok (w : World A V Ω) (n : Net A) (hw : n.WF) :
    AllowedOK n (allowedBase w n : A → NetState A C V Ω → _) := by
  refine ⟨fun sender s h => ?_, fun sender s h _ a ha => ?_⟩
  · obtain ⟨_, _, h3, h4, h5, _⟩ := activeConnected_spec w n sender s h
    exact ⟨h3, h4, h5⟩
  · obtain ⟨h1, _⟩ := activeConnected_spec w n sender s h
    unfold allowedBase at ha
    rw [h1] at ha
    exact hw.nbrs_mem sender a (List.mem_filter.1 ha).1

/-- every call of `send` either fails without touching an agent or delivers to allowed receivers -/
theorem sendBase_cases (w : World A V Ω) (n : Net A)
    (allowed : A → NetState A C V Ω → List A × NetState A C V Ω) (hal : AllowedOK n allowed)
    (sender : A) (rcv : Recv A) (msg : Option V) (ch : C) (s : NetState A C V Ω) (h : CInv n s) :
    (∃ s', sendBase w n allowed sender rcv msg ch s = (s', .error .valueError) ∧ SameAgents s s' ∧ CInv n s' ∧
      s'.iteration = s.iteration) ∨
    (∃ m l s0, msg = some m ∧ sender ∈ n.nodes ∧
      sendBase w n allowed sender rcv msg ch s = ((allowed sender s0).2.deliver w sender l m ch, .ok ()) ∧
      SameAgents s s0 ∧ CInv n s0 ∧ s0.iteration = s.iteration ∧
      (∀ r ∈ l, r ∈ (allowed sender s0).1) ∧
      (rcv = .none → s0 = (s.activeConnected w n sender).2 ∧ l = (s.activeConnected w n sender).1) ∧
      (rcv ≠ .none → s0 = s) ∧
      (∀ a, rcv = .one a → l = [a] ∧ a ∈ n.nbrs sender) ∧ (∀ l', rcv = .many l' → l = l')) := by
  unfold sendBase
  cases msg with
  | none => exact Or.inl ⟨s, rfl, SameAgents.refl s, h, rfl⟩
  | some m =>
    dsimp only
    by_cases hs : sender ∈ n.nodes
    · rw [if_neg (not_not.2 hs)]
      have core : ∀ (l : List A) (s0 : NetState A C V Ω), SameAgents s s0 → CInv n s0 → s0.iteration = s.iteration →
          (∃ s', (if l.all (fun r => decide (r ∈ (allowed sender s0).1)) = true
              then ((allowed sender s0).2.deliver w sender l m ch, (.ok () : Py Unit))
              else ((allowed sender s0).2, .error .valueError)) = (s', .error .valueError) ∧
              SameAgents s s' ∧ CInv n s' ∧ s'.iteration = s.iteration) ∨
          ((if l.all (fun r => decide (r ∈ (allowed sender s0).1)) = true
              then ((allowed sender s0).2.deliver w sender l m ch, (.ok () : Py Unit))
              else ((allowed sender s0).2, .error .valueError)) =
              ((allowed sender s0).2.deliver w sender l m ch, .ok ()) ∧
            ∀ r ∈ l, r ∈ (allowed sender s0).1) := by
        intro l s0 h1 h2 h3
        obtain ⟨g1, g2, g3⟩ := hal.ok sender s0 h2
        by_cases hall : l.all (fun r => decide (r ∈ (allowed sender s0).1)) = true
        · rw [if_pos hall]
          refine Or.inr ⟨rfl, fun r hr => ?_⟩
          simpa using List.all_eq_true.1 hall r hr
        · rw [if_neg hall]
          exact Or.inl ⟨_, rfl, h1.trans g1, g2, g3.trans h3⟩
      cases rcv with
      | none =>
        obtain ⟨_, _, h3, h4, h5, _⟩ := activeConnected_spec w n sender s h
        rcases core (s.activeConnected w n sender).1 (s.activeConnected w n sender).2 h3 h4 h5 with hc | hc
        · exact Or.inl hc
        · refine Or.inr ⟨m, _, _, rfl, hs, hc.1, h3, h4, h5, hc.2, fun _ => ⟨rfl, rfl⟩, fun hh => absurd rfl hh, ?_, ?_⟩
          · intro a hh; cases hh
          · intro a hh; cases hh
      | one a =>
        dsimp only
        by_cases ha : a ∈ n.nbrs sender
        · rw [if_neg (not_not.2 ha)]
          rcases core [a] s (SameAgents.refl s) h rfl with hc | hc
          · exact Or.inl hc
          · refine Or.inr ⟨m, _, _, rfl, hs, hc.1, SameAgents.refl s, h, rfl, hc.2, ?_, fun _ => rfl, ?_, ?_⟩
            · intro hh; cases hh
            · intro b hb; cases hb; exact ⟨rfl, ha⟩
            · intro l' hl'; cases hl'
        · rw [if_pos ha]
          exact Or.inl ⟨s, rfl, SameAgents.refl s, h, rfl⟩
      | many l =>
        dsimp only
        rcases core l s (SameAgents.refl s) h rfl with hc | hc
        · exact Or.inl hc
        · refine Or.inr ⟨m, _, _, rfl, hs, hc.1, SameAgents.refl s, h, rfl, hc.2, ?_, fun _ => rfl, ?_, ?_⟩
          · intro hh; cases hh
          · intro b hb; cases hb
          · intro l' hl'; cases hl'; rfl
    · rw [if_pos hs]
      exact Or.inl ⟨s, rfl, SameAgents.refl s, h, rfl⟩

/-- cache coherence is preserved by every operation -/
theorem cinv_exec (w : World A V Ω) (n : Net A) (hw : n.WF) (s : NetState A C V Ω) (h : CInv n s) (op : Op A C V) :
    CInv n (exec w n s op) := by
  cases op with
  | step it => exact cinv_of_empty n _ rfl rfl
  | queryActive => exact (activeAgents_spec w n s h).2.2.1
  | queryConnected a => exact (activeConnected_spec w n a s h).2.2.2.1
  | send a r m c =>
    rcases sendBase_cases w n (allowedBase w n) (allowedBase_ok w n hw) a r m c s h with
      ⟨s', he, _, hc, _⟩ | ⟨m', l, s0, _, _, he, _, hc, _⟩
    · simp only [exec, send, he]; exact hc
    · simp only [exec, send, he]
      exact deliver_cinv w n _ _ _ _ _ ((allowedBase_ok w n hw).ok a s0 hc).2.1
  | clear rs ss => exact ⟨h.active, h.conn⟩
  | reset => exact ⟨h.active, h.conn⟩

theorem cinv_run (w : World A V Ω) (n : Net A) (hw : n.WF) (s : NetState A C V Ω) (h : CInv n s)
    (ops : List (Op A C V)) : CInv n (run w n s ops) := by
  induction ops generalizing s with
  | nil => exact h
  | cons op t ih => exact ih _ (cinv_exec w n hw s h op)

theorem cinv_fresh (n : Net A) (ω : Ω) : CInv n (fresh ω : NetState A C V Ω) := cinv_of_empty n _ rfl rfl

theorem allowedFed_ok (w : World A V Ω) (n : Net A) (hw : n.WF) (server : A) (hserver : server ∈ n.nodes) :
    AllowedOK n (allowedFed w n server : A → NetState A C V Ω → _) := by
  refine ⟨fun sender s h => ?_, fun sender s h hs a ha => ?_⟩
  · unfold allowedFed
    split
    · exact ⟨⟨rfl, rfl, rfl, rfl⟩, ⟨h.active, h.conn⟩, rfl⟩
    · obtain ⟨_, _, h3, h4, h5, _⟩ := activeConnected_spec w n sender s h
      exact ⟨h3, h4, h5⟩
  · unfold allowedFed at ha
    split at ha
    · dsimp only at ha
      split at ha
      · simp at ha; subst ha; exact hserver
      · simp at ha
    · obtain ⟨h1, _⟩ := activeConnected_spec w n sender s h
      rw [h1] at ha
      exact hw.nbrs_mem sender a (List.mem_filter.1 ha).1

theorem sendFed_cases (w : World A V Ω) (n : Net A) (server sender : A) (r : Recv A) (m : Option V) (c : C)
    (s : NetState A C V Ω) :
    sendFed w n server sender r m c s = (s, .error .valueError) ∨
    ∃ r', sendFed w n server sender r m c s = sendBase w n (allowedFed w n server) sender r' m c s ∧
      (sender ≠ server → r' = .one server) ∧
      (sender = server → (r' = r) ∧ (∀ a, r = .one a → a ≠ server) ∧ (∀ l, r = .many l → server ∉ l)) := by
  unfold sendFed
  cases r with
  | none =>
    dsimp only
    by_cases h : sender = server
    · rw [if_neg (not_not.2 h)]
      exact Or.inr ⟨.none, rfl, fun hh => absurd h hh, fun _ => ⟨rfl, by simp, by simp⟩⟩
    · rw [if_pos h]
      exact Or.inr ⟨.one server, rfl, fun _ => rfl, fun hh => absurd hh h⟩
  | one a =>
    dsimp only
    split
    · exact Or.inl rfl
    · rename_i h1
      split
      · exact Or.inl rfl
      · rename_i h2
        refine Or.inr ⟨.one a, rfl, fun hh => ?_, fun hh => ⟨rfl, ?_, by simp⟩⟩
        · have : a = server := by
            by_contra ha; exact h2 ⟨hh, ha⟩
          rw [this]
        · intro b hb; cases hb; exact fun e => h1 ⟨hh, e⟩
  | many l =>
    dsimp only
    split
    · exact Or.inl rfl
    · rename_i h1
      split
      · exact Or.inl rfl
      · rename_i h2
        refine Or.inr ⟨.many l, rfl, fun hh => absurd hh h1, fun hh => ⟨rfl, by simp, ?_⟩⟩
        intro l' hl'; cases hl'
        intro hm; exact h2 (List.any_eq_true.2 ⟨server, hm, by simp⟩)

theorem cinv_execFed (w : World A V Ω) (n : Net A) (hw : n.WF) (server : A) (hserver : server ∈ n.nodes)
    (s : NetState A C V Ω) (h : CInv n s) (op : Op A C V) : CInv n (execFed w n server s op) := by
  cases op with
  | send a r m c =>
    simp only [execFed]
    rcases sendFed_cases w n server a r m c s with he | ⟨r', he, _⟩
    · rw [he]; exact h
    · rw [he]
      rcases sendBase_cases w n _ (allowedFed_ok w n hw server hserver) a r' m c s h with
        ⟨s', he', _, hc, _⟩ | ⟨m', l, s0, _, _, he', _, hc, _⟩
      · rw [he']; exact hc
      · rw [he']
        exact deliver_cinv w n _ _ _ _ _ ((allowedFed_ok w n hw server hserver).ok a s0 hc).2.1
  | step it => exact cinv_exec w n hw s h (.step it)
  | queryActive => exact cinv_exec w n hw s h .queryActive
  | queryConnected a => exact cinv_exec w n hw s h (.queryConnected a)
  | clear rs ss => exact cinv_exec w n hw s h (.clear rs ss)
  | reset => exact cinv_exec w n hw s h .reset

theorem cinv_runFed (w : World A V Ω) (n : Net A) (hw : n.WF) (server : A) (hserver : server ∈ n.nodes)
    (s : NetState A C V Ω) (h : CInv n s) (ops : List (Op A C V)) : CInv n (runFed w n server s ops) := by
  induction ops generalizing s with
  | nil => exact h
  | cons op t ih => exact ih _ (cinv_execFed w n hw server hserver s h op)

end NetState
end Verif
