import Verif.Lemmas.Network
import Mathlib.Algebra.BigOperators.Group.List.Basic
import Mathlib.Data.List.Nodup
/-! # C06 message conservation, C07 delivery safety, C08 stable active set, C09 inactive sender, C11 federated traffic -/
set_option linter.unusedSectionVars false
namespace Verif.Props
open Verif Verif.NetState
variable {A C V Ω : Type} [DecidableEq A] [DecidableEq C]

/-! ## C06 -/

/-- total of a counter over the agents of the network -/
def totalOver (n : Net A) (f : A → Rat) : Rat := (n.nodes.map f).sum

/-- conservation as an equation between states -/
def Conserved (n : Net A) (s : NetState A C V Ω) : Prop :=
  totalOver n s.nSent = totalOver n s.nReceived + totalOver n s.nDropped

theorem conserved_same (n : Net A) {s s' : NetState A C V Ω} (h : SameAgents s s') (hc : Conserved n s) :
    Conserved n s' := by
  unfold Conserved at *
  rw [h.sent, h.received, h.dropped]; exact hc

theorem conserved_deliver (w : World A V Ω) (n : Net A) (hn : n.nodes.Nodup) (sender : A) (hs : sender ∈ n.nodes)
    (l : List A) (hl : ∀ a ∈ l, a ∈ n.nodes) (m : V) (ch : C) (s : NetState A C V Ω) (hc : Conserved n s) :
    Conserved n (s.deliver w sender l m ch) := by
  obtain ⟨h1, h2, _, _, _, h6, _⟩ := deliver_spec w sender l m ch s
  unfold Conserved totalOver at *
  rw [h1, h2, h6 n.nodes hn hl, sum_upd n.nodes hn s.nSent sender hs, sum_upd n.nodes hn s.nDropped sender hs, hc]
  ring

theorem conserved_sendBase (w : World A V Ω) (n : Net A) (hw : n.WF)
    (allowed : A → NetState A C V Ω → List A × NetState A C V Ω) (hal : AllowedOK n allowed)
    (a : A) (r : Recv A) (m : Option V) (c : C) (s : NetState A C V Ω) (h : CInv n s) (hc : Conserved n s) :
    Conserved n (sendBase w n allowed a r m c s).1 := by
  rcases sendBase_cases w n allowed hal a r m c s h with
    ⟨s', he, hs, _⟩ | ⟨m', l, s0, _, hm, he, hs, hci, _, hl, _⟩
  · rw [he]; exact conserved_same n hs hc
  · rw [he]
    refine conserved_deliver w n hw.nodup a hm l (fun b hb => hal.mem a s0 hci hm b (hl b hb)) m' c _ ?_
    exact conserved_same n ((hs.trans (hal.ok a s0 hci).1)) hc

theorem conserved_reset (n : Net A) (s : NetState A C V Ω) : Conserved n (s.resetAgents n) := by
  have z : ∀ (f : A → Rat) (l : List A), (∀ a ∈ l, a ∈ n.nodes) →
      (l.map (fun a => if a ∈ n.nodes then 0 else f a)).sum = 0 := by
    intro f l
    induction l with
    | nil => intro _; rfl
    | cons b t ih =>
      intro h
      simp only [List.map_cons, List.sum_cons]
      rw [ih (fun a ha => h a (List.mem_cons_of_mem _ ha)), if_pos (h b (by simp))]
      ring
  unfold Conserved totalOver resetAgents
  dsimp only
  rw [z _ _ (fun a h => h), z _ _ (fun a h => h), z _ _ (fun a h => h)]
  ring

theorem conserved_exec (w : World A V Ω) (n : Net A) (hw : n.WF) (s : NetState A C V Ω) (h : CInv n s)
    (hc : Conserved n s) (op : Op A C V) : Conserved n (exec w n s op) := by
  cases op with
  | step it => exact hc
  | queryActive => exact conserved_same n (activeAgents_spec w n s h).2.1 hc
  | queryConnected a => exact conserved_same n (activeConnected_spec w n a s h).2.2.1 hc
  | send a r m c => exact conserved_sendBase w n hw _ (allowedBase_ok w n hw) a r m c s h hc
  | clear rs ss => exact hc
  | reset => exact conserved_reset n s

theorem conserved_execFed (w : World A V Ω) (n : Net A) (hw : n.WF) (server : A) (hserver : server ∈ n.nodes)
    (s : NetState A C V Ω) (h : CInv n s) (hc : Conserved n s) (op : Op A C V) :
    Conserved n (execFed w n server s op) := by
  cases op with
  | send a r m c =>
    simp only [execFed]
    rcases sendFed_cases w n server a r m c s with he | ⟨r', he, _⟩
    · rw [he]; exact hc
    · rw [he]; exact conserved_sendBase w n hw _ (allowedFed_ok w n hw server hserver) a r' m c s h hc
  | step it => exact conserved_exec w n hw s h hc (.step it)
  | queryActive => exact conserved_exec w n hw s h hc .queryActive
  | queryConnected a => exact conserved_exec w n hw s h hc (.queryConnected a)
  | clear rs ss => exact conserved_exec w n hw s h hc (.clear rs ss)
  | reset => exact conserved_exec w n hw s h hc .reset

/-- In every execution of a peer-to-peer network (any world, any sequence of sends, queries, steps, clears and
re-initialisations): total sent = total received + total dropped. -/
theorem C06_conservation_p2p (w : World A V Ω) (n : Net A) (hw : n.WF) (_hsize : ∀ a, w.costSize a ≠ 0) (ω : Ω)
    (ops : List (Op A C V)) :
    let s := run w n (fresh ω) ops
    totalOver n s.nSent = totalOver n s.nReceived + totalOver n s.nDropped := by
  have gen : ∀ (ops : List (Op A C V)) (s : NetState A C V Ω), CInv n s → Conserved n s →
      Conserved n (run w n s ops) := by
    intro ops
    induction ops with
    | nil => intro s _ h; exact h
    | cons op t ih => intro s h1 h2; exact ih _ (cinv_exec w n hw s h1 op) (conserved_exec w n hw s h1 h2 op)
  refine gen ops _ (cinv_fresh n ω) ?_
  simp [Conserved, totalOver, fresh]

/-- The same for every execution of a federated network. -/
theorem C06_conservation_fed (w : World A V Ω) (n : Net A) (hw : n.WF) (_hsize : ∀ a, w.costSize a ≠ 0)
    (server : A) (hserver : server ∈ n.nodes) (ω : Ω) (ops : List (Op A C V)) :
    let s := runFed w n server (fresh ω) ops
    totalOver n s.nSent = totalOver n s.nReceived + totalOver n s.nDropped := by
  have gen : ∀ (ops : List (Op A C V)) (s : NetState A C V Ω), CInv n s → Conserved n s →
      Conserved n (runFed w n server s ops) := by
    intro ops
    induction ops with
    | nil => intro s _ h; exact h
    | cons op t ih =>
      intro s h1 h2
      exact ih _ (cinv_execFed w n hw server hserver s h1 op) (conserved_execFed w n hw server hserver s h1 h2 op)
  refine gen ops _ (cinv_fresh n ω) ?_
  simp [Conserved, totalOver, fresh]

/-- `0 ≤ dropped ≤ sent` for one agent -/
def DropLe (s : NetState A C V Ω) : Prop := ∀ a, 0 ≤ s.nDropped a ∧ s.nDropped a ≤ s.nSent a

theorem dropLe_deliver (w : World A V Ω) (hs : ∀ a v, 0 ≤ w.compSize a v) (hc : ∀ a, 0 < w.costSize a)
    (sender : A) (l : List A) (m : V) (ch : C) (s : NetState A C V Ω) (h : DropLe s) :
    DropLe (s.deliver w sender l m ch) := by
  obtain ⟨h1, h2, _⟩ := deliver_spec w sender l m ch s
  intro a
  rw [h1, h2]
  by_cases ha : a = sender
  · subst ha
    rw [upd_same, upd_same]
    obtain ⟨g1, g2⟩ := h a
    have hinc : 0 ≤ w.compSize a m / w.costSize a := div_nonneg (hs a m) (le_of_lt (hc a))
    have hle : ((confirm w a l s.ω).1.length : Rat) ≤ (l.length : Rat) := by
      exact_mod_cast confirm_length_le w a l s.ω
    have hnn : (0 : Rat) ≤ ((confirm w a l s.ω).1.length : Rat) := by exact_mod_cast Nat.zero_le _
    constructor
    · have := mul_nonneg hinc (sub_nonneg.2 hle); linarith
    · have := mul_nonneg hinc hnn
      have e : w.compSize a m / w.costSize a * ((l.length : Rat) - ((confirm w a l s.ω).1.length : Rat)) =
        w.compSize a m / w.costSize a * (l.length : Rat) -
        w.compSize a m / w.costSize a * ((confirm w a l s.ω).1.length : Rat) := by ring
      rw [e]; linarith
  · rw [upd_ne _ _ ha, upd_ne _ _ ha]; exact h a

theorem dropLe_same {s s' : NetState A C V Ω} (h : SameAgents s s') (hc : DropLe s) : DropLe s' := by
  intro a; rw [h.sent, h.dropped]; exact hc a

/-- Each agent's dropped count is non-negative and never exceeds its sent count, in every execution. -/
theorem C06_dropped_le_sent (w : World A V Ω) (n : Net A) (hw : n.WF)
    (hs : ∀ a v, 0 ≤ w.compSize a v) (hc : ∀ a, 0 < w.costSize a) (ω : Ω) (ops : List (Op A C V)) (a : A) :
    let s := run w n (fresh ω) ops
    0 ≤ s.nDropped a ∧ s.nDropped a ≤ s.nSent a := by
  have gen : ∀ (ops : List (Op A C V)) (s : NetState A C V Ω), CInv n s → DropLe s → DropLe (run w n s ops) := by
    intro ops
    induction ops with
    | nil => intro s _ h; exact h
    | cons op t ih =>
      intro s h1 h2
      refine ih _ (cinv_exec w n hw s h1 op) ?_
      cases op with
      | step it => exact h2
      | queryActive => exact dropLe_same (activeAgents_spec w n s h1).2.1 h2
      | queryConnected a => exact dropLe_same (activeConnected_spec w n a s h1).2.2.1 h2
      | send a r m c =>
        simp only [exec, send]
        rcases sendBase_cases w n _ (allowedBase_ok w n hw) a r m c s h1 with
          ⟨s', he, hsame, _⟩ | ⟨m', l, s0, _, hm, he, hsame, hci, _⟩
        · rw [he]; exact dropLe_same hsame h2
        · rw [he]
          exact dropLe_deliver w hs hc a l m' c _
            (dropLe_same (hsame.trans ((allowedBase_ok w n hw).ok a s0 hci).1) h2)
      | clear rs ss => exact h2
      | reset =>
        intro b
        simp only [exec, resetAgents]
        by_cases hb : b ∈ n.nodes
        · simp [hb]
        · simp only [hb, if_false]; exact h2 b
  exact gen ops _ (cinv_fresh n ω) (by intro b; simp [fresh]) a

/-! ## C07 -/

/-- the receivers a call addresses -/
def requested (w : World A V Ω) (n : Net A) (s : NetState A C V Ω) (sender : A) : Recv A → List A
  | .none => (n.nbrs sender).filter (fun b => decide (b ∈ s.activeNow w n))
  | .one a => [a]
  | .many l => l

/-- outcomes of `k` successive drop decisions of the sender's scheme -/
def outcomes (w : World A V Ω) (sender : A) : Nat → Ω → List Bool
  | 0, _ => []
  | k + 1, ω => (w.shouldDrop sender ω).1 :: outcomes w sender k (w.shouldDrop sender ω).2

/-- `v` is what the sender's compression and noise schemes make of `m` -/
def Transmitted (w : World A V Ω) (sender : A) (m v : V) : Prop :=
  ∃ ω k, (v = (w.compress sender m ω).1 ∧
      (w.makeNoise sender k (w.compress sender m ω).1 (w.compress sender m ω).2).1 = none) ∨
    ∃ ν j, j < k ∧ (w.makeNoise sender k (w.compress sender m ω).1 (w.compress sender m ω).2).1 = some ν ∧
      v = w.add (w.compress sender m ω).1 (ν j)

/-- requested receiver `b` gets through: some position at which it is requested is not dropped -/
def GetsThrough (l : List A) (outs : List Bool) (b : A) : Prop :=
  ∃ i : Nat, l[i]? = some b ∧ outs[i]? = some false

theorem confirm_iff (w : World A V Ω) (sender : A) (l : List A) (ω : Ω) (b : A) :
    b ∈ (confirm w sender l ω).1 ↔ GetsThrough l (outcomes w sender l.length ω) b := by
  induction l generalizing ω with
  | nil => simp [confirm, GetsThrough]
  | cons a t ih =>
    have hg : GetsThrough (a :: t) (outcomes w sender (a :: t).length ω) b ↔
        (a = b ∧ (w.shouldDrop sender ω).1 = false) ∨
        GetsThrough t (outcomes w sender t.length (w.shouldDrop sender ω).2) b := by
      unfold GetsThrough
      simp only [List.length_cons, outcomes]
      constructor
      · rintro ⟨i, h1, h2⟩
        cases i with
        | zero => simp at h1 h2; exact Or.inl ⟨h1, h2⟩
        | succ i => simp at h1 h2; exact Or.inr ⟨i, h1, h2⟩
      · rintro (⟨rfl, h⟩ | ⟨i, h1, h2⟩)
        · exact ⟨0, by simp, by simp [h]⟩
        · exact ⟨i + 1, by simpa using h1, by simpa using h2⟩
    rw [hg, ← ih]
    simp only [confirm]
    cases hd : (w.shouldDrop sender ω).1 with
    | true => simp
    | false => simp [eq_comm]

/-- In every reachable state, a send that raises leaves every agent (inboxes and counters) unchanged, and the exception
is ValueError. -/
theorem C07_error_changes_nothing (w : World A V Ω) (n : Net A) (hw : n.WF) (ω : Ω) (ops : List (Op A C V))
    (sender : A) (r : Recv A) (m : Option V) (ch : C) (e : PyErr)
    (he : (send w n sender r m ch (run w n (fresh ω) ops)).2 = .error e) :
    let s := run w n (fresh ω) ops
    let s' := (send w n sender r m ch s).1
    e = .valueError ∧ s'.inbox = s.inbox ∧ s'.nSent = s.nSent ∧ s'.nReceived = s.nReceived ∧ s'.nDropped = s.nDropped := by
  intro s s'
  have hci : CInv n s := cinv_run w n hw _ (cinv_fresh n ω) ops
  rcases sendBase_cases w n _ (allowedBase_ok w n hw) sender r m ch s hci with
    ⟨s1, h1, hs, _⟩ | ⟨m', l, s0, _, hm, h1, _⟩
  · have hs' : s' = s1 := by simp only [s', send, h1]
    unfold send at he
    rw [h1] at he
    cases he
    rw [hs']
    exact ⟨rfl, hs.inbox, hs.sent, hs.received, hs.dropped⟩
  · unfold send at he; rw [h1] at he; cases he

/-- A send succeeds iff a message is given, the sender is in the network, and every requested receiver is connected to
the sender and active in the current iteration. -/
theorem C07_success_iff (w : World A V Ω) (n : Net A) (hw : n.WF) (ω : Ω) (ops : List (Op A C V))
    (sender : A) (r : Recv A) (m : Option V) (ch : C) :
    let s := run w n (fresh ω) ops
    (send w n sender r m ch s).2 = .ok () ↔
      m.isSome = true ∧ sender ∈ n.nodes ∧
      ∀ b ∈ requested w n s sender r, b ∈ n.nbrs sender ∧ b ∈ s.activeNow w n := by
  intro s
  have hci : CInv n s := cinv_run w n hw _ (cinv_fresh n ω) ops
  obtain ⟨c1, c2, c3, c4, c5, _⟩ := activeConnected_spec w n sender s hci
  unfold send sendBase
  cases m with
  | none => simp
  | some m =>
    dsimp only
    by_cases hs : sender ∈ n.nodes
    · rw [if_neg (not_not.2 hs)]
      have core : ∀ (l : List A) (s0 : NetState A C V Ω), (s0.activeConnected w n sender).1 =
          (n.nbrs sender).filter (fun b => decide (b ∈ s.activeNow w n)) →
          ((if l.all (fun r => decide (r ∈ (allowedBase w n sender s0).1)) = true
              then ((allowedBase w n sender s0).2.deliver w sender l m ch, (.ok () : Py Unit))
              else ((allowedBase w n sender s0).2, .error .valueError)).2 = .ok () ↔
            ∀ b ∈ l, b ∈ n.nbrs sender ∧ b ∈ s.activeNow w n) := by
        intro l s0 h0
        unfold allowedBase
        rw [h0]
        by_cases hall : l.all (fun r => decide (r ∈ (n.nbrs sender).filter (fun b => decide (b ∈ s.activeNow w n)))) = true
        · rw [if_pos hall]
          simp only [true_iff]
          intro b hb
          have := List.all_eq_true.1 hall b hb
          simpa using this
        · rw [if_neg hall]
          simp only [reduceCtorEq, false_iff]
          intro hh
          apply hall
          rw [List.all_eq_true]
          intro b hb
          simpa using hh b hb
      cases r with
      | none =>
        dsimp only
        have h2 := activeConnected_spec w n sender (s.activeConnected w n sender).2 c4
        have hn : (s.activeConnected w n sender).2.activeNow w n = s.activeNow w n :=
          activeNow_of_cache w n _ _ c2
        rw [core _ _ (by rw [h2.1, hn]), c1]
        simp only [requested, Option.isSome_some, hs, true_and]
      | one a =>
        dsimp only
        by_cases ha : a ∈ n.nbrs sender
        · rw [if_neg (not_not.2 ha), core _ _ c1]
          simp only [requested, Option.isSome_some, hs, true_and]
        · rw [if_pos ha]
          simp [requested, ha]
      | many l =>
        dsimp only
        rw [core _ _ c1]
        simp only [requested, Option.isSome_some, hs, true_and]
    · rw [if_pos hs]
      simp [hs]

/-- A successful send stores, under (channel, sender), a transmitted version of the message in the inbox of exactly those
requested receivers whose message the sender's drop scheme did not drop; no other inbox entry of any agent changes.
Drop decisions are taken once per requested receiver, in order, from the world state after the activity query. -/
theorem C07_delivery (w : World A V Ω) (n : Net A) (hw : n.WF) (ω : Ω) (ops : List (Op A C V))
    (sender : A) (r : Recv A) (m : V) (ch : C) :
    let s := run w n (fresh ω) ops
    let s' := (send w n sender r (some m) ch s).1
    let l := requested w n s sender r
    let outs := outcomes w sender l.length (s.activeAgents w n).2.ω
    (send w n sender r (some m) ch s).2 = .ok () →
    (∀ b, GetsThrough l outs b → ∃ v, Transmitted w sender m v ∧ (s'.inbox b).get sender ch = .ok v) ∧
    (∀ b, ¬ GetsThrough l outs b → s'.inbox b = s.inbox b) ∧
    (∀ b a c, ¬ (a = sender ∧ c = ch) → (s'.inbox b).get a c = (s.inbox b).get a c) := by
  intro s s' l outs hok
  have hci : CInv n s := cinv_run w n hw _ (cinv_fresh n ω) ops
  rcases sendBase_cases w n _ (allowedBase_ok w n hw) sender r (some m) ch s hci with
    ⟨s1, h1, _⟩ | ⟨m', l', s0, hmm, hm, h1, hsame, hci0, _, hl, hnone, hne, hone, hmany⟩
  · unfold send at hok; rw [h1] at hok; cases hok
  · cases hmm
    have hs' : s' = (allowedBase w n sender s0).2.deliver w sender l' m ch := by
      simp only [s', send, h1]
    obtain ⟨c1, c2, c3, c4, c5, c6⟩ := activeConnected_spec w n sender s hci
    obtain ⟨d1, d2, d3, d4, d5, d6⟩ := activeConnected_spec w n sender s0 hci0
    -- the state in which the delivery happens
    have hω : (allowedBase w n sender s0).2.ω = (s.activeAgents w n).2.ω ∧ l' = l := by
      cases r with
      | none =>
        obtain ⟨e1, e2⟩ := hnone rfl
        refine ⟨?_, by rw [e2, c1]; rfl⟩
        have := (activeAgents_spec w n s0 hci0).2.2.2.2.2.2 _ (by rw [e1]; exact c2)
        unfold allowedBase
        rw [d6, this, e1, c6]
      | one a =>
        have e1 := hne (by intro h; cases h)
        obtain ⟨e2, _⟩ := hone a rfl
        exact ⟨by unfold allowedBase; rw [d6, e1], e2⟩
      | many q =>
        have e1 := hne (by intro h; cases h)
        exact ⟨by unfold allowedBase; rw [d6, e1], hmany q rfl⟩
    obtain ⟨hω, hl'⟩ := hω
    obtain ⟨_, _, _, _, _, _, g7, g8, g9⟩ := deliver_spec w sender l' m ch (allowedBase w n sender s0).2
    have hinb : (allowedBase w n sender s0).2.inbox = s.inbox := by
      have := (hsame.trans d3).inbox; exact this
    rw [hs']
    rw [hl', hω] at g7 g9
    refine ⟨?_, ?_, ?_⟩
    · intro b hb
      have hbc := (confirm_iff w sender l _ b).2 hb
      obtain ⟨j, hj, _, hv⟩ := g9 b hbc
      refine ⟨_, ⟨(confirm w sender l (s.activeAgents w n).2.ω).2,
        (confirm w sender l (s.activeAgents w n).2.ω).1.length, ?_⟩, by rw [Inbox.get_eq, hl', hv]⟩
      · cases hν : (w.makeNoise sender (confirm w sender l (s.activeAgents w n).2.ω).1.length
            (w.compress sender m (confirm w sender l (s.activeAgents w n).2.ω).2).1
            (w.compress sender m (confirm w sender l (s.activeAgents w n).2.ω).2).2).1 with
        | none => exact Or.inl ⟨by simp [sentMsg], rfl⟩
        | some ν =>
          refine Or.inr ⟨ν, j, ?_, rfl, by simp [sentMsg]⟩
          exact (List.getElem?_eq_some_iff.1 hj).1
    · intro b hb
      have hbc : b ∉ (confirm w sender l (s.activeAgents w n).2.ω).1 := fun h => hb ((confirm_iff w sender l _ b).1 h)
      rw [hl', g7 b hbc, hinb]
    · intro b a c h
      rw [Inbox.get_eq, Inbox.get_eq, g8 b c a (fun hh => h ⟨hh.2, hh.1⟩), hinb]

/-- After the network advances, no agent can read any earlier message. -/
theorem C07_step_clears (n : Net A) (s : NetState A C V Ω) (it : Int) (a : A) (ha : a ∈ n.nodes) (b : A) (c : C) :
    ((s.step n it).inbox a).get b c = .error .keyError ∧ ((s.step n it).inbox a).has b c = false ∧
    ((s.step n it).inbox a).byChannel c = PyDict.empty := by
  simp [step, ha, Inbox.clear, Inbox.get, Inbox.has, Inbox.byChannel, PyDict.getItem, bind, Except.bind]

/-! ## C08 -/

/-- the operations that do not start a new iteration -/
def NoStep : Op A C V → Prop
  | .step _ => False
  | _ => True

theorem cache_stable (w : World A V Ω) (n : Net A) (s : NetState A C V Ω) (h : CInv n s) (act : List A)
    (hact : s.activeCache = some act) (op : Op A C V) (hop : NoStep op) :
    (exec w n s op).activeCache = some act := by
  have q : ∀ a, (s.activeConnected w n a).2.activeCache = some act := by
    intro a
    rw [(activeConnected_spec w n a s h).2.1, activeNow_of_cache w n s act hact]
  cases op with
  | step it => exact absurd hop id
  | queryActive =>
    have := (activeAgents_spec w n s h).2.2.2.2.2.2 act hact
    simp only [exec]; rw [this]; exact hact
  | queryConnected a => exact q a
  | send a r m c =>
    simp only [exec, send]
    unfold sendBase
    cases m with
    | none => exact hact
    | some m =>
      dsimp only
      split
      · exact hact
      · have core : ∀ (l : List A) (s0 : NetState A C V Ω), CInv n s0 → s0.activeCache = some act →
            (if l.all (fun r => decide (r ∈ (allowedBase w n a s0).1)) = true
              then ((allowedBase w n a s0).2.deliver w a l m c, (.ok () : Py Unit))
              else ((allowedBase w n a s0).2, .error .valueError)).1.activeCache = some act := by
          intro l s0 h0 h1
          have e : (allowedBase w n a s0).2.activeCache = some act := by
            unfold allowedBase
            rw [(activeConnected_spec w n a s0 h0).2.1, activeNow_of_cache w n s0 act h1]
          split
          · rw [(deliver_spec w a l m c _).2.2.1]; exact e
          · exact e
        cases r with
        | none => exact core _ _ (activeConnected_spec w n a s h).2.2.2.1 (q a)
        | one b =>
          dsimp only
          split
          · exact hact
          · exact core _ _ h hact
        | many l => exact core _ _ h hact
  | clear rs ss => exact hact
  | reset => exact hact

/-- Within an iteration all queries agree: in any reachable state, whatever operations other than advancing the network
happen after a query of the active agents, a later query returns the same list. -/
theorem C08_active_stable (w : World A V Ω) (n : Net A) (hw : n.WF) (ω : Ω) (ops ops' : List (Op A C V))
    (hns : ∀ op ∈ ops', NoStep op) :
    let s := run w n (fresh ω) ops
    let s1 := (s.activeAgents w n).2
    ((run w n s1 ops').activeAgents w n).1 = (s.activeAgents w n).1 := by
  intro s s1
  have hci : CInv n s := cinv_run w n hw _ (cinv_fresh n ω) ops
  obtain ⟨h1, _, h3, _⟩ := activeAgents_spec w n s hci
  have gen : ∀ (ops' : List (Op A C V)) (t : NetState A C V Ω), CInv n t → t.activeCache = some (s.activeAgents w n).1 →
      (∀ op ∈ ops', NoStep op) → (run w n t ops').activeCache = some (s.activeAgents w n).1 := by
    intro ops'
    induction ops' with
    | nil => intro t _ h _; exact h
    | cons op q ih =>
      intro t hc ht hns
      exact ih _ (cinv_exec w n hw t hc op) (cache_stable w n t hc _ ht op (hns op (by simp)))
        (fun o ho => hns o (List.mem_cons_of_mem _ ho))
  exact activeNow_of_cache w n _ _ (gen ops' s1 h3 h1 hns)

/-- The active-neighbour query always returns exactly the neighbours in the active set of the iteration. -/
theorem C08_neighbours_agree (w : World A V Ω) (n : Net A) (hw : n.WF) (ω : Ω) (ops : List (Op A C V)) (a b : A) :
    let s := run w n (fresh ω) ops
    b ∈ (s.activeConnected w n a).1 ↔ b ∈ n.nbrs a ∧ b ∈ (s.activeAgents w n).1 := by
  intro s
  have hci : CInv n s := cinv_run w n hw _ (cinv_fresh n ω) ops
  rw [(activeConnected_spec w n a s hci).1, List.mem_filter]
  exact and_congr_right (fun _ => by rw [decide_eq_true_iff]; rfl)

/-- A world whose activation consultations are logged. -/
def logged (f : A → Int → Ω → Bool × Ω) (w : World A V Ω) : World A V (List (A × Int) × Ω) where
  isActive a it ω := ((f a it ω.2).1, (ω.1 ++ [(a, it)], (f a it ω.2).2))
  shouldDrop a ω := ((w.shouldDrop a ω.2).1, (ω.1, (w.shouldDrop a ω.2).2))
  compSize := w.compSize
  compress a v ω := ((w.compress a v ω.2).1, (ω.1, (w.compress a v ω.2).2))
  makeNoise a k v ω := ((w.makeNoise a k v ω.2).1, (ω.1, (w.makeNoise a k v ω.2).2))
  add := w.add
  costSize := w.costSize

theorem filterActive_log (f : A → Int → Ω → Bool × Ω) (w : World A V Ω) (it : Int) (l : List A)
    (ω : List (A × Int) × Ω) :
    (filterActive (logged f w) it l ω).2.1 = ω.1 ++ l.map (fun a => (a, it)) := by
  induction l generalizing ω with
  | nil => simp [filterActive]
  | cons a t ih =>
    simp only [filterActive]
    rw [ih]
    simp [logged]

theorem confirm_log (f : A → Int → Ω → Bool × Ω) (w : World A V Ω) (sender : A) (l : List A)
    (ω : List (A × Int) × Ω) : (confirm (logged f w) sender l ω).2.1 = ω.1 := by
  induction l generalizing ω with
  | nil => simp [confirm]
  | cons a t ih => simp only [confirm]; rw [ih]; rfl

theorem transmit_ω (w : World A V Ω) (sender : A) (ch : C) (inc : Rat) (msg : V) (ν : Option (Nat → V))
    (i : Nat) (l : List A) (s : NetState A C V Ω) : (transmit w sender ch inc msg ν i l s).ω = s.ω :=
  (transmit_frame w sender ch inc msg ν i l s).2.2.2.2.2

theorem deliver_log (f : A → Int → Ω → Bool × Ω) (w : World A V Ω) (sender : A) (l : List A) (m : V) (ch : C)
    (s : NetState A C V (List (A × Int) × Ω)) : (s.deliver (logged f w) sender l m ch).ω.1 = s.ω.1 := by
  unfold deliver
  dsimp only
  rw [transmit_ω]
  show (confirm (logged f w) sender l s.ω).2.1 = s.ω.1
  exact confirm_log f w sender l s.ω

/-- log invariant: before the first query of an iteration nothing was logged for it; afterwards each client once -/
def LogOK (n : Net A) (pre : List (A × Int)) (it : Int) (s : NetState A C V (List (A × Int) × Ω)) : Prop :=
  s.iteration = it ∧
  ((s.activeCache = none ∧ s.ω.1 = pre) ∨
   (s.activeCache.isSome = true ∧ s.ω.1 = pre ++ n.queryAgents.map (fun a => (a, it))))

theorem logOK_activeAgents (f : A → Int → Ω → Bool × Ω) (w : World A V Ω) (n : Net A) (pre : List (A × Int)) (it : Int)
    (s : NetState A C V (List (A × Int) × Ω)) (h : LogOK n pre it s) :
    LogOK n pre it (s.activeAgents (logged f w) n).2 := by
  unfold activeAgents
  obtain ⟨hi, ⟨h1, h2⟩ | ⟨h1, h2⟩⟩ := h
  · rw [h1]
    refine ⟨hi, Or.inr ⟨rfl, ?_⟩⟩
    dsimp only
    rw [filterActive_log, h2, hi]
  · cases hc : s.activeCache with
    | none => rw [hc] at h1; cases h1
    | some l => exact ⟨hi, Or.inr ⟨by simp [hc], h2⟩⟩

theorem logOK_activeConnected (f : A → Int → Ω → Bool × Ω) (w : World A V Ω) (n : Net A) (pre : List (A × Int))
    (it : Int) (a : A) (s : NetState A C V (List (A × Int) × Ω)) (h : LogOK n pre it s) :
    LogOK n pre it (s.activeConnected (logged f w) n a).2 := by
  unfold activeConnected
  cases s.connCache.get? a with
  | some l => exact h
  | none => exact logOK_activeAgents f w n pre it s h

theorem logOK_exec (f : A → Int → Ω → Bool × Ω) (w : World A V Ω) (n : Net A) (pre : List (A × Int)) (it : Int)
    (s : NetState A C V (List (A × Int) × Ω)) (h : LogOK n pre it s) (op : Op A C V) (hop : NoStep op) :
    LogOK n pre it (exec (logged f w) n s op) := by
  cases op with
  | step it => exact absurd hop id
  | queryActive => exact logOK_activeAgents f w n pre it s h
  | queryConnected a => exact logOK_activeConnected f w n pre it a s h
  | send a r m c =>
    simp only [exec, send]
    unfold sendBase
    cases m with
    | none => exact h
    | some m =>
      dsimp only
      split
      · exact h
      · have core : ∀ (l : List A) (s0 : NetState A C V (List (A × Int) × Ω)), LogOK n pre it s0 →
            LogOK n pre it (if l.all (fun r => decide (r ∈ (allowedBase (logged f w) n a s0).1)) = true
              then ((allowedBase (logged f w) n a s0).2.deliver (logged f w) a l m c, (.ok () : Py Unit))
              else ((allowedBase (logged f w) n a s0).2, .error .valueError)).1 := by
          intro l s0 h0
          have e := logOK_activeConnected f w n pre it a s0 h0
          split
          · obtain ⟨g1, g2, g3, g4, g5, _⟩ := deliver_spec (logged f w) a l m c (allowedBase (logged f w) n a s0).2
            have g6 := deliver_log f w a l m c (allowedBase (logged f w) n a s0).2
            unfold LogOK
            rw [g3, g5, g6]
            exact e
          · exact e
        cases r with
        | none => exact core _ _ (logOK_activeConnected f w n pre it a s h)
        | one b =>
          dsimp only
          split
          · exact h
          · exact core _ _ h
        | many l => exact core _ _ h
  | clear rs ss => exact h
  | reset => exact h

/-- Each agent's activation scheme is consulted at most once per iteration: after advancing to iteration `it` and then
performing any operations short of the next advance, the consultations made are none, or exactly one per agent. -/
theorem C08_consulted_once (f : A → Int → Ω → Bool × Ω) (w : World A V Ω) (n : Net A) (hw : n.WF)
    (s : NetState A C V (List (A × Int) × Ω)) (it : Int) (ops : List (Op A C V)) (hns : ∀ op ∈ ops, NoStep op) :
    ∃ new, (run (logged f w) n (s.step n it) ops).ω.1 = s.ω.1 ++ new ∧ new.Nodup ∧ (∀ p ∈ new, p.2 = it) ∧
      (new = [] ∨ new = n.queryAgents.map (fun a => (a, it))) := by
  have gen : ∀ (ops : List (Op A C V)) (t : NetState A C V (List (A × Int) × Ω)), LogOK n s.ω.1 it t →
      (∀ op ∈ ops, NoStep op) → LogOK n s.ω.1 it (run (logged f w) n t ops) := by
    intro ops
    induction ops with
    | nil => intro t h _; exact h
    | cons op q ih =>
      intro t h hns
      exact ih _ (logOK_exec f w n _ it t h op (hns op (by simp))) (fun o ho => hns o (List.mem_cons_of_mem _ ho))
  have h0 : LogOK n s.ω.1 it (s.step n it) := ⟨rfl, Or.inl ⟨rfl, rfl⟩⟩
  obtain ⟨_, ⟨_, h⟩ | ⟨_, h⟩⟩ := gen ops _ h0 hns
  · exact ⟨[], by simpa using h, List.nodup_nil, by simp, Or.inl rfl⟩
  · refine ⟨_, h, ?_, ?_, Or.inr rfl⟩
    · exact List.Nodup.map (fun a b e => (Prod.mk.inj e).1) hw.query_nodup
    · intro p hp
      obtain ⟨a, _, rfl⟩ := List.mem_map.1 hp
      rfl

/-! ## C09 -/

/-- two connected agents `0 - 1`; agent 0 is never active -/
def sleepyWorld : World Nat Nat Unit where
  isActive a _ ω := (decide (a ≠ 0), ω)
  shouldDrop _ ω := (false, ω)
  compSize _ _ := 1
  compress _ v ω := (v, ω)
  makeNoise _ _ _ ω := (none, ω)
  add := (· + ·)
  costSize _ := 1

/-- the graph `0 - 1` -/
def pairNet : Net Nat := ⟨[0, 1], fun a => if a = 0 then [1] else if a = 1 then [0] else [], [0, 1]⟩

/-- The documented check "raises if the sender is not active" is not performed: there is a network and an iteration in
which agent 0 is not active, yet its send succeeds and the message is delivered. -/
theorem C09_inactive_sender_accepted :
    let s : NetState Nat Nat Nat Unit := (fresh ()).step pairNet 0
    let r := send sleepyWorld pairNet 0 (.one 1) (some 42) 7 s
    0 ∉ (s.activeAgents sleepyWorld pairNet).1 ∧ r.2 = .ok () ∧ (r.1.inbox 1).get 0 7 = .ok 42 := by
  refine ⟨by decide, by rfl, by rfl⟩

/-- The receiver half of the documented check holds in every reachable state: a send to an inactive agent raises. -/
theorem C09_inactive_receiver_rejected (w : World A V Ω) (n : Net A) (hw : n.WF) (ω : Ω) (ops : List (Op A C V))
    (sender b : A) (m : Option V) (ch : C)
    (hb : b ∉ ((run w n (fresh ω) ops : NetState A C V Ω).activeAgents w n).1) :
    (send w n sender (.one b) m ch (run w n (fresh ω) ops)).2 = .error .valueError := by
  cases h : (send w n sender (.one b) m ch (run w n (fresh ω) ops)).2 with
  | ok u =>
    cases u
    have := (C07_success_iff w n hw ω ops sender (.one b) m ch).1 h
    exact absurd (this.2.2 b (by simp [requested])).2 hb
  | error e => rw [(C07_error_changes_nothing w n hw ω ops sender (.one b) m ch e h).1]

/-! ## C11 -/

/-- the star graph of a federated network: server connected to every client (networks.py 538-540), `agents()` = clients -/
structure IsFed (n : Net A) (server : A) (clients : List A) : Prop where
  wf : n.WF
  nodes : n.nodes = server :: clients
  server_nbrs : n.nbrs server = clients
  client_nbrs : ∀ c ∈ clients, n.nbrs c = [server]
  query : n.queryAgents = clients

theorem IsFed.server_not_client {n : Net A} {server : A} {clients : List A} (h : IsFed n server clients) :
    server ∉ clients := by
  have := h.wf.nodup
  rw [h.nodes, List.nodup_cons] at this
  exact this.1

/-- every stored message has the server as sender or receiver -/
def ServerTraffic (server : A) (s : NetState A C V Ω) : Prop :=
  ∀ b a c m, (s.inbox b).get a c = .ok m → (a = server ↔ b ≠ server)

theorem serverTraffic_deliver (w : World A V Ω) (server sender : A) (l : List A) (m : V) (ch : C)
    (s : NetState A C V Ω) (h : ServerTraffic server s) (hl : ∀ b ∈ l, (sender = server ↔ b ≠ server)) :
    ServerTraffic server (s.deliver w sender l m ch) := by
  obtain ⟨_, _, _, _, _, _, g7, g8, g9⟩ := deliver_spec w sender l m ch s
  intro b a c m' hm
  by_cases hb : b ∈ (confirm w sender l s.ω).1
  · by_cases hac : c = ch ∧ a = sender
    · obtain ⟨rfl, rfl⟩ := hac
      exact hl b (confirm_sub w a l s.ω b hb)
    · rw [Inbox.get_eq, g8 b c a hac, ← Inbox.get_eq] at hm
      exact h b a c m' hm
  · rw [g7 b hb] at hm
    exact h b a c m' hm

theorem serverTraffic_same {server : A} {s s' : NetState A C V Ω} (h : SameAgents s s') (hs : ServerTraffic server s) :
    ServerTraffic server s' := by
  intro b a c m hm; rw [h.inbox] at hm; exact hs b a c m hm

theorem serverTraffic_send (w : World A V Ω) (n : Net A) (server : A) (clients : List A) (hf : IsFed n server clients)
    (a : A) (r : Recv A) (m : Option V) (c : C) (s : NetState A C V Ω) (h1 : CInv n s) (h2 : ServerTraffic server s) :
    ServerTraffic server (sendFed w n server a r m c s).1 := by
  have hserver : server ∈ n.nodes := by rw [hf.nodes]; simp
  rcases sendFed_cases w n server a r m c s with he | ⟨r', he, hclient, hserv⟩
  · rw [he]; exact h2
  · rw [he]
    have hok := allowedFed_ok (C := C) w n hf.wf server hserver
    rcases sendBase_cases w n _ hok a r' m c s h1 with
      ⟨s', he', hsame, _⟩ | ⟨m', l, s0, _, hm, he', hsame, hci, _, hl, hnone, hne, hone, hmany⟩
    · rw [he']; exact serverTraffic_same hsame h2
    · rw [he']
      refine serverTraffic_deliver w server a l m' c _ (serverTraffic_same (hsame.trans (hok.ok a s0 hci).1) h2) ?_
      intro b hb
      by_cases ha : a = server
      · refine ⟨fun _ => ?_, fun _ => ha⟩
        have hal := hl b hb
        unfold allowedFed at hal
        rw [if_neg (not_not.2 ha)] at hal
        rw [(activeConnected_spec w n a s0 hci).1, ha, hf.server_nbrs] at hal
        exact fun e => hf.server_not_client (e ▸ (List.mem_filter.1 hal).1)
      · refine ⟨fun e => absurd e ha, fun hbne => ?_⟩
        obtain ⟨e1, _⟩ := hone server (hclient ha)
        rw [e1] at hb
        simp at hb
        exact absurd hb hbne

theorem serverTraffic_clear {server : A} (n : Net A) (s : NetState A C V Ω) (h : ServerTraffic server s) :
    (∀ it, ServerTraffic server (s.step n it)) ∧ ServerTraffic server (s.resetAgents n) := by
  constructor
  · intro it b a c m hm
    simp only [step] at hm
    split at hm
    · simp [Inbox.clear, Inbox.get, PyDict.getItem, bind, Except.bind] at hm
    · exact h b a c m hm
  · intro b a c m hm
    simp only [resetAgents] at hm
    split at hm
    · simp [Inbox.empty, Inbox.get, PyDict.getItem, bind, Except.bind] at hm
    · exact h b a c m hm

/-- inboxes keep their representation invariant -/
theorem inboxInv_execFed (w : World A V Ω) (n : Net A) (server : A) (hw : n.WF) (hserver : server ∈ n.nodes)
    (s : NetState A C V Ω) (hc : CInv n s) (h : ∀ a, (s.inbox a).Inv) (op : Op A C V) :
    ∀ a, ((execFed w n server s op).inbox a).Inv := by
  have tr : ∀ (sender : A) (ch : C) (inc : Rat) (msg : V) (ν : Option (Nat → V)) (l : List A) (i : Nat)
      (t : NetState A C V Ω), (∀ a, (t.inbox a).Inv) → ∀ a, ((transmit w sender ch inc msg ν i l t).inbox a).Inv := by
    intro sender ch inc msg ν l
    induction l with
    | nil => intro i t ht; exact ht
    | cons r q ih =>
      intro i t ht
      refine ih (i + 1) _ ?_
      intro a
      dsimp only
      by_cases ha : a = r
      · subst ha; rw [upd_same]; exact Inbox.inv_put _ _ _ _ (ht a)
      · rw [upd_ne _ _ ha]; exact ht a
  cases op with
  | send a r m c =>
    simp only [execFed]
    rcases sendFed_cases w n server a r m c s with he | ⟨r', he, _⟩
    · rw [he]; exact h
    · rw [he]
      rcases sendBase_cases w n _ (allowedFed_ok w n hw server hserver) a r' m c s hc with
        ⟨s', he', hsame, _⟩ | ⟨m', l, s0, _, _, he', hsame, hci, _⟩
      · rw [he']; intro b; rw [hsame.inbox]; exact h b
      · rw [he']
        refine tr _ _ _ _ _ _ _ _ ?_
        intro b
        dsimp only
        rw [(hsame.trans ((allowedFed_ok w n hw server hserver).ok a s0 hci).1).inbox]
        exact h b
  | step it =>
    intro a; simp only [execFed, exec, step]
    split
    · exact Inbox.inv_clear _ _ _ (h a)
    · exact h a
  | queryActive => intro a; simp only [execFed, exec]; rw [(activeAgents_spec w n s hc).2.1.inbox]; exact h a
  | queryConnected b => intro a; simp only [execFed, exec]; rw [(activeConnected_spec w n b s hc).2.2.1.inbox]; exact h a
  | clear rs ss =>
    intro a; simp only [execFed, exec, clearReceived]
    split
    · exact Inbox.inv_clear _ _ _ (h a)
    · exact h a
  | reset =>
    intro a; simp only [execFed, exec, resetAgents]
    split
    · exact Inbox.inv_empty
    · exact h a

/-- In every execution of a federated network, every message any agent can read was sent by the server to a client or by
a client to the server. -/
theorem C11_no_client_to_client (w : World A V Ω) (n : Net A) (server : A) (clients : List A)
    (hf : IsFed n server clients) (ω : Ω) (ops : List (Op A C V)) (b a : A) (c : C) (m : V)
    (h : ((runFed w n server (fresh ω) ops).inbox b).get a c = .ok m) : a = server ↔ b ≠ server := by
  have hserver : server ∈ n.nodes := by rw [hf.nodes]; simp
  have gen : ∀ (ops : List (Op A C V)) (s : NetState A C V Ω), CInv n s → (∀ a, (s.inbox a).Inv) →
      ServerTraffic server s → ServerTraffic server (runFed w n server s ops) := by
    intro ops
    induction ops with
    | nil => intro s _ _ h; exact h
    | cons op t ih =>
      intro s h1 hinv h2
      refine ih _ (cinv_execFed w n hf.wf server hserver s h1 op)
        (inboxInv_execFed w n server hf.wf hserver s h1 hinv op) ?_
      cases op with
      | send a r m c => exact serverTraffic_send w n server clients hf a r m c s h1 h2
      | step it => exact (serverTraffic_clear n s h2).1 it
      | queryActive => exact serverTraffic_same (activeAgents_spec w n s h1).2.1 h2
      | queryConnected a => exact serverTraffic_same (activeConnected_spec w n a s h1).2.2.1 h2
      | clear rs ss =>
        intro b a c m hm
        simp only [execFed, exec, clearReceived] at hm
        split at hm
        · have key : (((s.inbox b).clear (.many ss) none).abs c a) =
              if a ∈ ss then none else (s.inbox b).abs c a := Inbox.abs_clear_none (s.inbox b) (hinv b) ss c a
          rw [Inbox.get_eq, key] at hm
          by_cases ha : a ∈ ss
          · rw [if_pos ha] at hm; cases hm
          · rw [if_neg ha, ← Inbox.get_eq] at hm; exact h2 b a c m hm
        · exact h2 b a c m hm
      | reset => exact (serverTraffic_clear n s h2).2
  have h0 : ServerTraffic server (fresh ω : NetState A C V Ω) := by
    intro b a c m hm
    simp [fresh, Inbox.empty, Inbox.get, PyDict.getItem, bind, Except.bind] at hm
  exact gen ops _ (cinv_fresh n ω) (fun a => Inbox.inv_empty) h0 b a c m h

/-- Client-to-client, server-to-server and client multi-receiver sends raise ValueError and change nothing at all. -/
theorem C11_rejected (w : World A V Ω) (n : Net A) (server : A) (s : NetState A C V Ω) (m : Option V) (ch : C) :
    (∀ a b, a ≠ server → b ≠ server → sendFed w n server a (.one b) m ch s = (s, .error .valueError)) ∧
    (sendFed w n server server (.one server) m ch s = (s, .error .valueError)) ∧
    (∀ a l, a ≠ server → sendFed w n server a (.many l) m ch s = (s, .error .valueError)) ∧
    (∀ l, server ∈ l → sendFed w n server server (.many l) m ch s = (s, .error .valueError)) := by
  refine ⟨?_, ?_, ?_, ?_⟩
  · intro a b ha hb; simp [sendFed, ha, hb]
  · simp [sendFed]
  · intro a l ha; simp [sendFed, ha]
  · intro l hl
    have : l.any (fun r => decide (r = server)) = true := List.any_eq_true.2 ⟨server, hl, by simp⟩
    simp [sendFed, this]

/-- A client's send without receiver is the send to the server; the server's goes to the active clients. With an
always-active server (enforced by the constructor) it never fails for activity reasons. -/
theorem C11_client_default_receiver (w : World A V Ω) (n : Net A) (server : A) (clients : List A)
    (hf : IsFed n server clients) (hact : ∀ it ω, w.isActive server it ω = (true, ω))
    (s : NetState A C V Ω) (a : A) (ha : a ∈ clients) (m : V) (ch : C) :
    (sendFed w n server a .none (some m) ch s).2 = .ok () ∧
    sendFed w n server a .none (some m) ch s = sendFed w n server a (.one server) (some m) ch s := by
  have hne : a ≠ server := fun e => hf.server_not_client (e ▸ ha)
  have hmem : a ∈ n.nodes := by rw [hf.nodes]; exact List.mem_cons_of_mem _ ha
  have hnb : server ∈ n.nbrs a := by rw [hf.client_nbrs a ha]; simp
  constructor
  · simp [sendFed, hne, sendBase, hmem, hnb, allowedFed, hact]
  · simp [sendFed, hne]

/-! ## Non-vacuity -/

theorem pairNet_wf : pairNet.WF := by
  refine ⟨by decide, ?_, ?_, ?_, ?_, by decide⟩
  · intro a; simp only [pairNet]; split
    · simp
    · split <;> simp
  · intro a b; simp only [pairNet]; split
    · rintro hb; simp at hb; simp [hb]
    · split
      · intro hb; simp at hb; simp [hb]
      · intro hb; simp at hb
  · intro a b; simp only [pairNet]
    by_cases h0 : a = 0
    · subst h0; intro hb; simp at hb; subst hb; simp
    · by_cases h1 : a = 1
      · subst h1; intro hb; simp at hb; subst hb; simp
      · simp [h0, h1]
  · intro a ha; exact ha

-- an execution with real traffic
example : totalOver pairNet (run sleepyWorld pairNet (fresh () : NetState Nat Nat Nat Unit)
    [.step 0, .send 0 (.one 1) (some 42) 7, .send 1 .none (some 3) 7]).nSent = 1 := by decide +kernel
-- a state meeting the hypotheses of `C09_inactive_receiver_rejected`
example : (0 : Nat) ∉ ((run sleepyWorld pairNet (fresh () : NetState Nat Nat Nat Unit) [.step 0]).activeAgents
    sleepyWorld pairNet).1 := by decide

/-- one server (0) and two clients -/
def fedNet2 : Net Nat := ⟨[0, 1, 2], fun a => if a = 0 then [1, 2] else if a = 1 ∨ a = 2 then [0] else [], [1, 2]⟩

theorem fedNet2_isFed : IsFed fedNet2 0 [1, 2] := by
  refine ⟨⟨by decide, ?_, ?_, ?_, ?_, by decide⟩, rfl, rfl, ?_, rfl⟩
  · intro a; simp only [fedNet2]; split
    · simp
    · split <;> simp
  · intro a b; simp only [fedNet2]; split
    · intro hb; simp at hb; rcases hb with rfl | rfl <;> simp
    · split
      · intro hb; simp at hb; simp [hb]
      · intro hb; simp at hb
  · intro a b; simp only [fedNet2]
    by_cases h0 : a = 0
    · subst h0; intro hb; simp at hb; rcases hb with rfl | rfl <;> simp
    · by_cases h1 : a = 1 ∨ a = 2
      · rw [if_neg h0, if_pos h1]; intro hb; simp at hb; subst hb; simpa using h1
      · rw [if_neg h0, if_neg h1]; intro hb; simp at hb
  · intro a ha; simp [fedNet2] at ha ⊢; rcases ha with rfl | rfl <;> simp
  · intro c hc; simp at hc; rcases hc with rfl | rfl <;> rfl

end Verif.Props
