import Verif.Model.Logging
import Mathlib.Data.List.Basic
import Mathlib.Data.List.Perm.Basic
/-!
# C116: which log messages are printed
-/
set_option linter.unusedSectionVars false
namespace Verif
namespace Props
open Logging

/-! ### specification -/

/-- what the code of a call logs, in order -/
def said : List Act → List Rec
  | [] => []
  | .main r :: t => r :: said t
  | .trial r :: t => r :: said t
  | .deliver _ :: t => said t

/-- how the session stands: nothing configured yet, printing from a level on, or printing nothing -/
inductive Mode where
  | unset
  | from_ (level : Nat)
  | mute

/-- the records of level at least `level` -/
def atLeast (level : Nat) (l : List Rec) : List Rec := l.filter fun r => decide (level ≤ r.level)

/-- the mode during and after a call -/
def Mode.next : Mode → Call → Mode
  | .unset, .serial level _ => .from_ level
  | m, .serial _ _ => m
  | _, .parallel level _ returns => if returns then .mute else .from_ level

/-- what a call prints -/
def Mode.prints : Mode → Call → List Rec
  | .unset, .serial level acts => atLeast level (said acts)
  | .from_ level, .serial _ acts => atLeast level (said acts)
  | .mute, .serial _ _ => []
  | _, .parallel level acts _ => atLeast level (said acts)

/-- what a session prints -/
def printedIn : Mode → List Call → List Rec
  | _, [] => []
  | m, c :: cs => m.prints c ++ printedIn (m.next c) cs

/-- no exception left a parallel benchmark -/
def Returned (c : Call) : Prop := ∀ level acts r, c = .parallel level acts r → r = true

/-- every record of a running listener has been handled -/
def Settled (w : World) : Prop := ∀ k ∈ w.queues, k.alive = true → k.waiting = []

/-! ### one action -/

/-- the state of the main logger in a mode -/
def Stands (w : World) : Mode → Prop
  | .unset => w.main = ⟨[], 30⟩
  | .from_ level => w.main = ⟨[.console], level⟩ ∨ ∃ q ws, w.main = queueLogger q ∧ w.queues[q]? = some ⟨ws, level, true⟩
  | .mute => ∃ q ws lv, w.main = queueLogger q ∧ w.queues[q]? = some ⟨ws, lv, false⟩

/-- how often a record has been printed or will be, by a running listener -/
def queueDue (r : Rec) (k : Queue) : Nat := if k.alive then (accepted k).count r else 0

def tally (w : World) (r : Rec) : Nat := w.shown.count r + (w.queues.map (queueDue r)).sum

theorem sum_modify {α : Type} (g : α → Nat) (f : α → α) : ∀ (l : List α) (i : Nat) (a : α), l[i]? = some a →
    ((l.modify i f).map g).sum + g a = (l.map g).sum + g (f a) := by
  intro l
  induction l with
  | nil => intro i a h; simp at h
  | cons x t ih =>
    intro i a h
    cases i with
    | zero =>
      simp at h; subst h
      simp [List.modify]; omega
    | succ j =>
      simp at h
      have := ih j a h
      simp only [List.modify_succ_cons, List.map_cons, List.sum_cons]
      omega

theorem sum_set {α : Type} (g : α → Nat) (b : α) : ∀ (l : List α) (i : Nat) (a : α), l[i]? = some a →
    ((l.set i b).map g).sum + g a = (l.map g).sum + g b := by
  intro l
  induction l with
  | nil => intro i a h; simp at h
  | cons x t ih =>
    intro i a h
    cases i with
    | zero =>
      simp at h; subst h
      simp; omega
    | succ j =>
      simp at h
      have := ih j a h
      simp only [List.set_cons_succ, List.map_cons, List.sum_cons]
      omega

theorem log_queue {w : World} {q : Nat} (r : Rec) :
    log (queueLogger q) r w = { w with queues := w.queues.modify q fun k => { k with waiting := k.waiting ++ [r] } } := by
  simp [log, queueLogger, handle]

theorem tally_queue {w : World} {q : Nat} {ws : List Rec} {lv : Nat} {al : Bool} (hq : w.queues[q]? = some ⟨ws, lv, al⟩) (r x : Rec) :
    tally (log (queueLogger q) r w) x = tally w x + (if al then (atLeast lv [r]).count x else 0) := by
  rw [log_queue]
  have h := sum_modify (queueDue x) (fun k : Queue => { k with waiting := k.waiting ++ [r] }) w.queues q _ hq
  have e : queueDue x (⟨ws ++ [r], lv, al⟩ : Queue) = queueDue x (⟨ws, lv, al⟩ : Queue) + (if al then (atLeast lv [r]).count x else 0) := by
    unfold queueDue accepted atLeast
    cases al
    · simp
    · simp only [if_true, List.filter_append, List.count_append]
  unfold tally
  simp only at h e ⊢
  omega

theorem deliver_some {w : World} {q lv : Nat} {r : Rec} {rest : List Rec} (h : w.queues[q]? = some ⟨r :: rest, lv, true⟩) :
    deliver q w = { w with queues := w.queues.set q ⟨rest, lv, true⟩, shown := w.shown ++ (if lv ≤ r.level then [r] else []) } := by
  unfold deliver; rw [h]

theorem deliver_cases (q : Nat) (w : World) : deliver q w = w ∨ ∃ r rest lv, w.queues[q]? = some ⟨r :: rest, lv, true⟩ := by
  unfold deliver
  split
  · rename_i r rest lv h; exact Or.inr ⟨r, rest, lv, h⟩
  · exact Or.inl rfl

theorem tally_deliver (q : Nat) (w : World) (x : Rec) : tally (deliver q w) x = tally w x := by
  rcases deliver_cases q w with h | ⟨r, rest, lv, h⟩
  · rw [h]
  · rw [deliver_some h]
    have e := sum_set (queueDue x) (⟨rest, lv, true⟩ : Queue) w.queues q _ h
    have e2 : queueDue x (⟨r :: rest, lv, true⟩ : Queue) = (if lv ≤ r.level then [r] else []).count x + queueDue x (⟨rest, lv, true⟩ : Queue) := by
      unfold queueDue accepted
      simp only [if_true, List.filter_cons]
      by_cases hl : lv ≤ r.level
      · simp [hl, List.count_cons]; omega
      · simp [hl]
    unfold tally
    simp only [List.count_append]
    omega

theorem tally_stop (q : Nat) (w : World) (x : Rec) : tally (stop q w) x = tally w x := by
  unfold stop
  split
  · rename_i ws lv h
    have e := sum_set (queueDue x) (⟨[], lv, false⟩ : Queue) w.queues q _ h
    have e2 : queueDue x (⟨[], lv, false⟩ : Queue) = 0 := by simp [queueDue]
    have e3 : queueDue x (⟨ws, lv, true⟩ : Queue) = (accepted ⟨ws, lv, true⟩).count x := by simp [queueDue]
    unfold tally
    simp only [List.count_append]
    omega
  · rfl

theorem queue_kept_log {w : World} {p q lv : Nat} {al : Bool} (r : Rec) (h : ∃ ws, w.queues[q]? = some ⟨ws, lv, al⟩) :
    ∃ ws, (log (queueLogger p) r w).queues[q]? = some ⟨ws, lv, al⟩ := by
  obtain ⟨ws, h⟩ := h
  rw [log_queue]
  simp only [List.getElem?_modify, h]
  by_cases hp : p = q
  · simp [hp]
  · simp [hp]

theorem queue_kept_deliver {w : World} {p q lv : Nat} {al : Bool} (h : ∃ ws, w.queues[q]? = some ⟨ws, lv, al⟩) :
    ∃ ws, (deliver p w).queues[q]? = some ⟨ws, lv, al⟩ := by
  obtain ⟨ws, h⟩ := h
  rcases deliver_cases p w with h1 | ⟨r, rest, lv', h1⟩
  · rw [h1]; exact ⟨ws, h⟩
  · rw [deliver_some h1]
    by_cases hp : p = q
    · subst hp
      rw [h] at h1
      have h2 := Option.some.inj h1
      injection h2 with _ h3 h4
      subst h3; subst h4
      refine ⟨rest, ?_⟩
      show (w.queues.set p _)[p]? = _
      rw [List.getElem?_set_self]
      exact (List.getElem?_eq_some_iff.mp h).1
    · refine ⟨ws, ?_⟩
      show (w.queues.set p _)[q]? = _
      rw [List.getElem?_set_ne hp]; exact h

theorem main_deliver (q : Nat) (w : World) : (deliver q w).main = w.main := by unfold deliver; split <;> rfl

theorem main_log_queue (w : World) (q : Nat) (r : Rec) : (log (queueLogger q) r w).main = w.main := by rw [log_queue]

/-- actions of a serial call -/
theorem serial_acts (m : Mode) (hm : m ≠ .unset) (acts : List Act) : ∀ w, Stands w m →
    Stands (acts.foldl (act fun w => w.main) w) m ∧
    ∀ x, tally (acts.foldl (act fun w => w.main) w) x = tally w x + (m.prints (.serial 0 acts)).count x := by
  have say : ∀ (r : Rec) (w : World), Stands w m → Stands (log w.main r w) m ∧
      ∀ x, tally (log w.main r w) x = tally w x + (m.prints (.serial 0 [.main r])).count x := by
    intro r w hw
    cases m with
    | unset => exact absurd rfl hm
    | from_ lv =>
      rcases hw with hw | ⟨q, ws, hw, hq⟩
      · refine ⟨?_, ?_⟩
        · refine Or.inl ?_
          rw [hw]; unfold log; split
          · exact hw
          · exact hw
        · intro x
          rw [hw]
          unfold log Mode.prints said atLeast
          by_cases hl : r.level < lv
          · have : ¬ lv ≤ r.level := by omega
            simp [hl, this, said]
          · have : lv ≤ r.level := by omega
            simp [hl, this, said, handle, tally, List.count_append]; omega
      · rw [hw]
        refine ⟨Or.inr ?_, ?_⟩
        · obtain ⟨ws', h'⟩ := queue_kept_log (p := q) r ⟨ws, hq⟩
          exact ⟨q, ws', by rw [main_log_queue]; exact hw, h'⟩
        · intro x
          rw [tally_queue hq]
          simp [Mode.prints, said]
    | mute =>
      obtain ⟨q, ws, lv, hw, hq⟩ := hw
      rw [hw]
      refine ⟨?_, ?_⟩
      · obtain ⟨ws', h'⟩ := queue_kept_log (p := q) r ⟨ws, hq⟩
        exact ⟨q, ws', lv, by rw [main_log_queue]; exact hw, h'⟩
      · intro x
        rw [tally_queue hq]
        simp [Mode.prints]
  have del : ∀ (q : Nat) (w : World), Stands w m → Stands (deliver q w) m := by
    intro p w hw
    cases m with
    | unset => exact absurd rfl hm
    | from_ lv =>
      rcases hw with hw | ⟨q, ws, hw, hq⟩
      · exact Or.inl (by rw [main_deliver]; exact hw)
      · obtain ⟨ws', h'⟩ := queue_kept_deliver (p := p) ⟨ws, hq⟩
        exact Or.inr ⟨q, ws', by rw [main_deliver]; exact hw, h'⟩
    | mute =>
      obtain ⟨q, ws, lv, hw, hq⟩ := hw
      obtain ⟨ws', h'⟩ := queue_kept_deliver (p := p) ⟨ws, hq⟩
      exact ⟨q, ws', lv, by rw [main_deliver]; exact hw, h'⟩
  have count_cons : ∀ (a : Act) (t : List Act) (x : Rec),
      (m.prints (.serial 0 (a :: t))).count x = (m.prints (.serial 0 [a])).count x + (m.prints (.serial 0 t)).count x := by
    intro a t x
    have hs : said (a :: t) = said [a] ++ said t := by cases a <;> rfl
    cases m with
    | unset => exact absurd rfl hm
    | from_ lv => simp only [Mode.prints, hs, atLeast, List.filter_append, List.count_append]
    | mute => simp [Mode.prints]
  induction acts with
  | nil =>
    intro w hw
    refine ⟨hw, fun x => ?_⟩
    cases m <;> simp [Mode.prints, said, atLeast]
  | cons a t ih =>
    intro w hw
    rw [List.foldl_cons]
    cases a with
    | main r =>
      obtain ⟨h1, h2⟩ := say r w hw
      obtain ⟨h3, h4⟩ := ih _ h1
      refine ⟨h3, fun x => ?_⟩
      rw [count_cons]
      have h5 := h4 x
      have h6 := h2 x
      show tally (t.foldl _ (log w.main r w)) x = _
      omega
    | trial r =>
      obtain ⟨h1, h2⟩ := say r w hw
      obtain ⟨h3, h4⟩ := ih _ h1
      refine ⟨h3, fun x => ?_⟩
      rw [count_cons]
      have h5 := h4 x
      have h6 := h2 x
      have h7 : m.prints (.serial 0 [.trial r]) = m.prints (.serial 0 [.main r]) := by cases m <;> rfl
      rw [h7]
      show tally (t.foldl _ (log w.main r w)) x = _
      omega
    | deliver q =>
      obtain ⟨h3, h4⟩ := ih _ (del q w hw)
      refine ⟨h3, fun x => ?_⟩
      rw [count_cons]
      have h5 := h4 x
      have h6 := tally_deliver q w x
      have h7 : (m.prints (.serial 0 [.deliver q])).count x = 0 := by cases m <;> simp [Mode.prints, said, atLeast]
      show tally (t.foldl _ (deliver q w)) x = _
      omega

/-- actions of a parallel call -/
theorem parallel_acts (q lv : Nat) (acts : List Act) : ∀ w, w.main = queueLogger q → (∃ ws, w.queues[q]? = some ⟨ws, lv, true⟩) →
    let w' := acts.foldl (act fun _ => queueLogger q) w
    w'.main = queueLogger q ∧ (∃ ws, w'.queues[q]? = some ⟨ws, lv, true⟩) ∧
    ∀ x, tally w' x = tally w x + (atLeast lv (said acts)).count x := by
  induction acts with
  | nil => intro w h1 h2; exact ⟨h1, h2, fun x => by simp [said, atLeast]⟩
  | cons a t ih =>
    intro w h1 h2
    have say : ∀ r, ∀ x, tally (log (queueLogger q) r w) x = tally w x + (atLeast lv [r]).count x := by
      intro r x
      obtain ⟨ws, hq⟩ := h2
      rw [tally_queue hq]; simp
    rw [List.foldl_cons]
    have step : ∀ r, act (fun _ => queueLogger q) w a = log (queueLogger q) r w → said (a :: t) = r :: said t →
        let w' := t.foldl (act fun _ => queueLogger q) (act (fun _ => queueLogger q) w a)
        w'.main = queueLogger q ∧ (∃ ws, w'.queues[q]? = some ⟨ws, lv, true⟩) ∧
        ∀ x, tally w' x = tally w x + (atLeast lv (said (a :: t))).count x := by
      intro r e1 e2
      rw [e1, e2]
      obtain ⟨k1, k2, k3⟩ := ih (log (queueLogger q) r w) (by rw [main_log_queue]; exact h1) (queue_kept_log r h2)
      refine ⟨k1, k2, fun x => ?_⟩
      rw [k3 x, say r x]
      have : atLeast lv (r :: said t) = atLeast lv [r] ++ atLeast lv (said t) := by
        unfold atLeast; rw [← List.filter_append]; rfl
      rw [this, List.count_append]; omega
    cases a with
    | main r => exact step r (by show log w.main r w = _; rw [h1]) rfl
    | trial r => exact step r rfl rfl
    | deliver p =>
      obtain ⟨k1, k2, k3⟩ := ih (deliver p w) (by rw [main_deliver]; exact h1) (queue_kept_deliver h2)
      refine ⟨k1, k2, fun x => ?_⟩
      have := k3 x
      have h6 := tally_deliver p w x
      show tally (t.foldl _ (deliver p w)) x = _
      rw [this, h6]; rfl

theorem tally_startListener (lv : Nat) (w : World) (x : Rec) : tally (startListener lv w) x = tally w x := by
  unfold startListener tally
  simp [queueDue, accepted]

/-- one call -/
theorem call_spec (m : Mode) (c : Call) (w : World) (hw : Stands w m) :
    Stands (c.run w) (m.next c) ∧ ∀ x, tally (c.run w) x = tally w x + (m.prints c).count x := by
  cases c with
  | serial level acts =>
    cases m with
    | unset =>
      have h1 : startLogger level w = { w with main := ⟨[.console], level⟩ } := by
        unfold startLogger; rw [show w.main.handlers = [] by rw [hw]]
      have h2 : Stands (startLogger level w) (.from_ level) := Or.inl (by rw [h1])
      have h3 := serial_acts (.from_ level) (by intro h; cases h) acts _ h2
      refine ⟨h3.1, fun x => ?_⟩
      have := h3.2 x
      rw [h1] at this
      show tally (acts.foldl _ (startLogger level w)) x = _
      rw [h1]
      exact this
    | from_ lv =>
      have h1 : startLogger level w = w := by
        unfold startLogger
        rcases hw with hw | ⟨q, ws, hw, _⟩ <;> rw [hw] <;> rfl
      have h3 := serial_acts (.from_ lv) (by intro h; cases h) acts w hw
      show Stands (acts.foldl _ (startLogger level w)) (.from_ lv) ∧ _
      refine ⟨by rw [h1]; exact h3.1, fun x => ?_⟩
      show tally (acts.foldl _ (startLogger level w)) x = _
      rw [h1]; exact h3.2 x
    | mute =>
      have h1 : startLogger level w = w := by
        unfold startLogger
        obtain ⟨q, ws, lv, hw, _⟩ := hw
        rw [hw]; rfl
      have h3 := serial_acts .mute (by intro h; cases h) acts w hw
      show Stands (acts.foldl _ (startLogger level w)) .mute ∧ _
      refine ⟨by rw [h1]; exact h3.1, fun x => ?_⟩
      show tally (acts.foldl _ (startLogger level w)) x = _
      rw [h1]; exact h3.2 x
  | parallel level acts returns =>
    have hp : m.prints (.parallel level acts returns) = atLeast level (said acts) := by cases m <;> rfl
    have hn : m.next (.parallel level acts returns) = if returns then .mute else .from_ level := by cases m <;> rfl
    obtain ⟨k1, ⟨ws, k2⟩, k3⟩ := parallel_acts w.queues.length level acts (startListener level w) rfl ⟨[], by simp [startListener]⟩
    rw [hp, hn]
    simp only [tally_startListener] at k3
    cases returns with
    | true =>
      show Stands (stop _ (acts.foldl (act fun _ => queueLogger w.queues.length) (startListener level w))) .mute ∧ _
      refine ⟨?_, fun x => ?_⟩
      · refine ⟨w.queues.length, [], level, ?_, ?_⟩
        · unfold stop; split
          · exact k1
          · exact k1
        · unfold stop
          rw [k2]
          simp only []
          rw [List.getElem?_set_self (List.getElem?_eq_some_iff.mp k2).1]
      · show tally (stop _ (acts.foldl (act fun _ => queueLogger w.queues.length) (startListener level w))) x = _
        rw [tally_stop]; exact k3 x
    | false =>
      exact ⟨Or.inr ⟨w.queues.length, ws, k1, k2⟩, k3⟩

theorem session_spec (cs : List Call) : ∀ (m : Mode) (w : World), Stands w m →
    ∀ x, tally (session w cs) x = tally w x + (printedIn m cs).count x := by
  induction cs with
  | nil => intro m w _ x; simp [session, printedIn]
  | cons c t ih =>
    intro m w hw x
    obtain ⟨h1, h2⟩ := call_spec m c w hw
    have h3 := ih (m.next c) _ h1 x
    have h4 := h2 x
    show tally (session (c.run w) t) x = _
    simp only [printedIn, List.count_append]
    omega

/-! ### C116 -/

/-- For every session of calls in a new process, with every number of messages, every interleaving of the processes and the listener threads
and whichever calls raise: every message is printed, or waits to be printed by a running listener, exactly as often as `printedIn` says;
in particular none is ever printed twice. -/
theorem C116_history (cs : List Call) (x : Rec) : tally (session fresh cs) x = (printedIn .unset cs).count x := by
  have h := session_spec cs .unset fresh rfl x
  have h0 : tally fresh x = 0 := by simp [tally, fresh]
  omega

/-- Once the running listeners have handled what is waiting, exactly the visible messages have been printed. -/
theorem C116_settled (cs : List Call) (hs : Settled (session fresh cs)) : (session fresh cs).shown.Perm (printedIn .unset cs) := by
  rw [List.perm_iff_count]
  intro x
  rw [← C116_history cs x]
  have : ((session fresh cs).queues.map (queueDue x)).sum = 0 := by
    have key : ∀ l : List Queue, (∀ k ∈ l, queueDue x k = 0) → (l.map (queueDue x)).sum = 0 := by
      intro l
      induction l with
      | nil => intro _; rfl
      | cons k t ih => intro h; simp [h k (by simp), ih fun j hj => h j (by simp [hj])]
    apply key
    intro k hk
    unfold queueDue
    split
    · rename_i ha
      have hw : k.waiting = [] := hs k hk ha
      simp [accepted, hw]
    · rfl
  unfold tally
  omega

/-- nothing runs in the background -/
def Idle (w : World) : Prop := ∀ k ∈ w.queues, k.alive = false

theorem idle_settled {w : World} (h : Idle w) : Settled w := by
  intro k hk ha
  rw [h k hk] at ha
  cases ha

theorem idle_deliver {w : World} (h : Idle w) (q : Nat) : deliver q w = w := by
  rcases deliver_cases q w with h1 | ⟨r, rest, lv, h1⟩
  · exact h1
  · have := h _ (List.mem_of_getElem? h1)
    cases this

theorem idle_log {w : World} (h : Idle w) (q : Nat) (r : Rec) : Idle (log (queueLogger q) r w) := by
  rw [log_queue]
  intro k hk
  obtain ⟨i, hi⟩ := List.mem_iff_getElem?.mp hk
  rw [List.getElem?_modify] at hi
  cases hw : w.queues[i]? with
  | none => rw [hw] at hi; cases hi
  | some k' =>
    rw [hw] at hi
    have hal := h k' (List.mem_of_getElem? hw)
    have hi := Option.some.inj hi
    rw [← hi]
    split <;> exact hal

/-- a serial call while nothing runs in the background -/
theorem serial_idle (m : Mode) (hm : m ≠ .unset) (acts : List Act) : ∀ w, Stands w m → Idle w →
    Idle (acts.foldl (act fun w => w.main) w) ∧
    (acts.foldl (act fun w => w.main) w).shown = w.shown ++ m.prints (.serial 0 acts) := by
  have say : ∀ (r : Rec) (w : World), Stands w m → Idle w → Stands (log w.main r w) m ∧ Idle (log w.main r w) ∧
      (log w.main r w).shown = w.shown ++ m.prints (.serial 0 [.main r]) := by
    intro r w hw hi
    have hst := (serial_acts m hm [.main r] w hw).1
    refine ⟨hst, ?_⟩
    cases m with
    | unset => exact absurd rfl hm
    | from_ lv =>
      rcases hw with hw | ⟨q, ws, hw, hq⟩
      · rw [hw]
        unfold log Mode.prints said atLeast
        by_cases hl : r.level < lv
        · have : ¬ lv ≤ r.level := by omega
          simp [hl, this, said]; exact hi
        · have : lv ≤ r.level := by omega
          simp [hl, this, said, handle]; exact hi
      · have := hi _ (List.mem_of_getElem? hq)
        cases this
    | mute =>
      obtain ⟨q, ws, lv, hw, hq⟩ := hw
      rw [hw]
      refine ⟨idle_log hi q r, ?_⟩
      rw [log_queue]; simp [Mode.prints]
  have cons : ∀ (a : Act) (t : List Act), m.prints (.serial 0 (a :: t)) = m.prints (.serial 0 [a]) ++ m.prints (.serial 0 t) := by
    intro a t
    have hs : said (a :: t) = said [a] ++ said t := by cases a <;> rfl
    cases m with
    | unset => exact absurd rfl hm
    | from_ lv => simp only [Mode.prints, hs, atLeast, List.filter_append]
    | mute => simp [Mode.prints]
  induction acts with
  | nil =>
    intro w _ hi
    refine ⟨hi, ?_⟩
    cases m <;> simp [Mode.prints, said, atLeast]
  | cons a t ih =>
    intro w hw hi
    rw [List.foldl_cons, cons]
    cases a with
    | main r =>
      obtain ⟨h1, h2, h3⟩ := say r w hw hi
      obtain ⟨h4, h5⟩ := ih _ h1 h2
      refine ⟨h4, ?_⟩
      show (t.foldl _ (log w.main r w)).shown = _
      rw [h5, h3, List.append_assoc]
    | trial r =>
      obtain ⟨h1, h2, h3⟩ := say r w hw hi
      obtain ⟨h4, h5⟩ := ih _ h1 h2
      refine ⟨h4, ?_⟩
      have h7 : m.prints (.serial 0 [.trial r]) = m.prints (.serial 0 [.main r]) := by cases m <;> rfl
      rw [h7]
      show (t.foldl _ (log w.main r w)).shown = _
      rw [h5, h3, List.append_assoc]
    | deliver q =>
      have h7 : m.prints (.serial 0 [.deliver q]) = [] := by cases m <;> simp [Mode.prints, said, atLeast]
      rw [h7, List.nil_append]
      show Idle (t.foldl _ (deliver q w)) ∧ (t.foldl _ (deliver q w)).shown = _
      rw [idle_deliver hi]
      exact ih w hw hi

/-- a parallel call that starts with nothing in the background: what has been printed and what waits -/
theorem parallel_idle (old : List Queue) (ho : ∀ k ∈ old, k.alive = false) (lv : Nat) (acts : List Act) : ∀ (w : World) (ws : List Rec),
    w.main = queueLogger old.length → w.queues = old ++ [⟨ws, lv, true⟩] →
    ∃ ws', (acts.foldl (act fun _ => queueLogger old.length) w).main = queueLogger old.length ∧
      (acts.foldl (act fun _ => queueLogger old.length) w).queues = old ++ [⟨ws', lv, true⟩] ∧
      (acts.foldl (act fun _ => queueLogger old.length) w).shown ++ atLeast lv ws' = w.shown ++ atLeast lv ws ++ atLeast lv (said acts) := by
  induction acts with
  | nil => intro w ws h1 h2; exact ⟨ws, h1, h2, by simp [said, atLeast]⟩
  | cons a t ih =>
    intro w ws h1 h2
    rw [List.foldl_cons]
    have step : ∀ r, act (fun _ => queueLogger old.length) w a = log (queueLogger old.length) r w → said (a :: t) = r :: said t →
        ∃ ws', (t.foldl (act fun _ => queueLogger old.length) (act (fun _ => queueLogger old.length) w a)).main = queueLogger old.length ∧
        (t.foldl (act fun _ => queueLogger old.length) (act (fun _ => queueLogger old.length) w a)).queues = old ++ [⟨ws', lv, true⟩] ∧
        (t.foldl (act fun _ => queueLogger old.length) (act (fun _ => queueLogger old.length) w a)).shown ++ atLeast lv ws' =
          w.shown ++ atLeast lv ws ++ atLeast lv (said (a :: t)) := by
      intro r e1 e2
      rw [e1, e2]
      have hq : (log (queueLogger old.length) r w).queues = old ++ [⟨ws ++ [r], lv, true⟩] := by
        rw [log_queue]
        show w.queues.modify _ _ = _
        rw [h2]
        apply List.ext_getElem?
        intro i
        rw [List.getElem?_modify]
        by_cases hi : i < old.length
        · have hne : old.length ≠ i := by omega
          rw [List.getElem?_append_left hi, List.getElem?_append_left hi]; simp [hne]
        · rw [List.getElem?_append_right (by omega), List.getElem?_append_right (by omega)]
          by_cases hi2 : i = old.length
          · subst hi2; simp
          · have : ([⟨ws, lv, true⟩] : List Queue)[i - old.length]? = none := by
              apply List.getElem?_eq_none; simp; omega
            rw [this]
            symm
            apply List.getElem?_eq_none; simp; omega
      obtain ⟨ws', k1, k2, k3⟩ := ih (log (queueLogger old.length) r w) (ws ++ [r]) (by rw [main_log_queue]; exact h1) hq
      refine ⟨ws', k1, k2, ?_⟩
      rw [k3]
      have hsh : (log (queueLogger old.length) r w).shown = w.shown := by rw [log_queue]
      rw [hsh]
      have : atLeast lv (r :: said t) = atLeast lv [r] ++ atLeast lv (said t) := by
        unfold atLeast; rw [← List.filter_append]; rfl
      rw [this]
      simp only [atLeast, List.filter_append, List.append_assoc]
    cases a with
    | main r => exact step r (by show log w.main r w = _; rw [h1]) rfl
    | trial r => exact step r rfl rfl
    | deliver p =>
      show ∃ ws', (t.foldl _ (deliver p w)).main = _ ∧ (t.foldl _ (deliver p w)).queues = _ ∧ (t.foldl _ (deliver p w)).shown ++ _ = _
      by_cases hp : p = old.length
      · subst hp
        cases ws with
        | nil =>
          have : deliver old.length w = w := by
            unfold deliver; rw [h2]; simp
          rw [this]
          exact ih w [] h1 h2
        | cons r rest =>
          have h3 : w.queues[old.length]? = some ⟨r :: rest, lv, true⟩ := by rw [h2]; simp
          rw [deliver_some h3]
          obtain ⟨ws', k1, k2, k3⟩ := ih { w with queues := w.queues.set old.length ⟨rest, lv, true⟩, shown := w.shown ++ (if lv ≤ r.level then [r] else []) } rest h1
            (by rw [h2, List.set_append_right _ _ (Nat.le_refl _)]; simp)
          refine ⟨ws', k1, k2, ?_⟩
          rw [k3]
          have : atLeast lv (r :: rest) = (if lv ≤ r.level then [r] else []) ++ atLeast lv rest := by
            unfold atLeast
            rw [List.filter_cons]
            by_cases hl : lv ≤ r.level <;> simp [hl]
          rw [this]
          simp only [List.append_assoc]
          rfl
      · have : deliver p w = w := by
          rcases deliver_cases p w with h3 | ⟨r, rest, lv', h3⟩
          · exact h3
          · exfalso
            rw [h2] at h3
            by_cases hlt : p < old.length
            · rw [List.getElem?_append_left hlt] at h3
              have := ho _ (List.mem_of_getElem? h3)
              cases this
            · rw [List.getElem?_eq_none (by simp; omega)] at h3
              cases h3
        rw [this]
        exact ih w ws h1 h2

/-- one call that returns, while nothing runs in the background -/
theorem call_idle (m : Mode) (c : Call) (hc : Returned c) (w : World) (hw : Stands w m) (hi : Idle w) :
    Idle (c.run w) ∧ (c.run w).shown = w.shown ++ m.prints c := by
  cases c with
  | serial level acts =>
    show Idle (acts.foldl _ (startLogger level w)) ∧ (acts.foldl _ (startLogger level w)).shown = _
    cases m with
    | unset =>
      have h1 : startLogger level w = { w with main := ⟨[.console], level⟩ } := by
        unfold startLogger; rw [show w.main.handlers = [] by rw [hw]]
      have := serial_idle (.from_ level) (by intro h; cases h) acts (startLogger level w) (Or.inl (by rw [h1])) (by rw [h1]; exact hi)
      refine ⟨this.1, ?_⟩
      rw [this.2, h1]
      rfl
    | from_ lv =>
      have h1 : startLogger level w = w := by
        unfold startLogger
        rcases hw with hw | ⟨q, ws, hw, _⟩ <;> rw [hw] <;> rfl
      rw [h1]
      exact serial_idle (.from_ lv) (by intro h; cases h) acts w hw hi
    | mute =>
      have h1 : startLogger level w = w := by
        unfold startLogger
        obtain ⟨q, ws, lv, hw, _⟩ := hw
        rw [hw]; rfl
      rw [h1]
      exact serial_idle .mute (by intro h; cases h) acts w hw hi
  | parallel level acts returns =>
    have hr : returns = true := hc level acts returns rfl
    subst hr
    have hp : m.prints (.parallel level acts true) = atLeast level (said acts) := by cases m <;> rfl
    rw [hp]
    obtain ⟨ws', k1, k2, k3⟩ := parallel_idle w.queues hi level acts (startListener level w) [] rfl rfl
    show Idle (stop w.queues.length (acts.foldl (act fun _ => queueLogger w.queues.length) (startListener level w))) ∧
      (stop w.queues.length (acts.foldl (act fun _ => queueLogger w.queues.length) (startListener level w))).shown = _
    have hq : (acts.foldl (act fun _ => queueLogger w.queues.length) (startListener level w)).queues[w.queues.length]? = some ⟨ws', level, true⟩ := by
      rw [k2]; simp
    unfold stop
    rw [hq]
    simp only []
    refine ⟨?_, ?_⟩
    · intro k hk
      simp only [k2] at hk
      rw [List.set_append_right _ _ (Nat.le_refl _)] at hk
      simp only [Nat.sub_self, List.set_cons_zero, List.mem_append, List.mem_singleton] at hk
      rcases hk with hk | rfl
      · exact hi k hk
      · rfl
    · have : accepted (⟨ws', level, true⟩ : Queue) = atLeast level ws' := rfl
      rw [this, k3]
      simp [startListener, atLeast]

/-- If no parallel benchmark raised, the messages on the console are exactly the visible ones, in the order they were logged, whatever the
interleaving of the processes and of the listener threads. -/
theorem C116_returned (cs : List Call) (hr : ∀ c ∈ cs, Returned c) : (session fresh cs).shown = printedIn .unset cs := by
  have key : ∀ (cs : List Call) (m : Mode) (w : World), (∀ c ∈ cs, Returned c) → Stands w m → Idle w →
      (session w cs).shown = w.shown ++ printedIn m cs := by
    intro cs
    induction cs with
    | nil => intro m w _ _ _; simp [session, printedIn]
    | cons c t ih =>
      intro m w hr hw hi
      obtain ⟨h1, h2⟩ := call_idle m c (hr c (by simp)) w hw hi
      show (session (c.run w) t).shown = _
      rw [ih (m.next c) _ (fun k hk => hr k (by simp [hk])) (call_spec m c w hw).1 h1, h2, List.append_assoc]
      rfl
  have := key cs .unset fresh hr rfl (by intro k hk; cases hk)
  simpa [fresh] using this

/-- A parallel benchmark prints exactly the messages from its own `log_level` on, from the main process and from every worker, each once and
in the order they were logged, whatever was configured or called before. -/
theorem C116_parallel (before : List Call) (hr : ∀ c ∈ before, Returned c) (level : Nat) (acts : List Act) :
    (session fresh (before ++ [.parallel level acts true])).shown = (session fresh before).shown ++ atLeast level (said acts) := by
  rw [C116_returned _ (by
    intro c hc
    rcases List.mem_append.mp hc with h | h
    · exact hr c h
    · rw [List.mem_singleton] at h; subst h; intro l a r h; injection h with _ _ h; exact h.symm), C116_returned _ hr]
  have key : ∀ (cs : List Call) (m : Mode), printedIn m (cs ++ [.parallel level acts true]) = printedIn m cs ++ atLeast level (said acts) := by
    intro cs
    induction cs with
    | nil => intro m; cases m <;> simp [printedIn, Mode.prints]
    | cons c t ih => intro m; simp only [List.cons_append, printedIn, ih, List.append_assoc]
  exact key before .unset

/-- the calls other than parallel benchmarks -/
def IsSerial (c : Call) : Prop := ∃ level acts, c = .serial level acts

/-- In a session without parallel benchmarks the `log_level` of the first call that configures the logger decides for all of them. -/
theorem C116_first_level (level : Nat) (acts : List Act) (rest : List Call) (hs : ∀ c ∈ rest, IsSerial c) :
    ∃ later, (session fresh (.serial level acts :: rest)).shown = atLeast level (said acts ++ later) ∧
      later = rest.flatMap fun c => match c with
        | .serial _ a => said a
        | .parallel _ a _ => said a := by
  refine ⟨_, ?_, rfl⟩
  rw [C116_returned]
  · show atLeast level (said acts) ++ printedIn (.from_ level) rest = _
    have key : ∀ rest : List Call, (∀ c ∈ rest, IsSerial c) → printedIn (.from_ level) rest = atLeast level (rest.flatMap fun c => match c with
        | .serial _ a => said a
        | .parallel _ a _ => said a) := by
      intro rest
      induction rest with
      | nil => intro _; rfl
      | cons c t ih =>
        intro hs
        obtain ⟨l, a, rfl⟩ := hs c (by simp)
        simp only [printedIn, Mode.next, Mode.prints, List.flatMap_cons]
        rw [ih fun k hk => hs k (by simp [hk])]
        simp only [atLeast, List.filter_append]
    rw [key rest hs]
    simp only [atLeast, List.filter_append]
  · intro c hc
    rcases List.mem_cons.mp hc with rfl | hc
    · intro l a r h; cases h
    · obtain ⟨l, a, rfl⟩ := hs c hc
      intro l a r h; cases h

/-- The documentation calls `log_level` the "minimum level to log"; it is not, in any call but the first: if the first call (creating a
problem, say, which uses INFO) configured a higher level, every message of a later call between its own level and that one is dropped. -/
theorem C116_later_level_refuted (first later : Nat) (acts : List Act) (r : Rec) (h1 : later ≤ r.level) (h2 : r.level < first) (hr : r ∈ said acts) :
    r ∈ atLeast later (said acts) ∧ r ∉ (session fresh [.serial first [], .serial later acts]).shown := by
  refine ⟨by unfold atLeast; rw [List.mem_filter]; exact ⟨hr, by simpa using h1⟩, ?_⟩
  rw [C116_returned _ (by
    intro c hc l a b h
    rcases List.mem_cons.mp hc with rfl | hc
    · cases h
    · rw [List.mem_singleton] at hc; subst hc; cases h)]
  simp only [printedIn, Mode.next, Mode.prints, said, atLeast, List.filter_nil, List.nil_append, List.append_nil, List.mem_filter]
  rintro ⟨_, h⟩
  have := of_decide_eq_true h
  omega

/-- After a parallel benchmark has returned, nothing is printed any more by any call that is not a parallel benchmark, whatever its
`log_level`: the table that `display_metrics` prints through the logger does not appear. -/
theorem C116_silent_after_parallel_refuted (before : List Call) (hb : ∀ c ∈ before, Returned c) (level : Nat) (acts : List Act) (rest : List Call)
    (hs : ∀ c ∈ rest, IsSerial c) :
    (session fresh (before ++ .parallel level acts true :: rest)).shown = (session fresh (before ++ [.parallel level acts true])).shown := by
  have hser : ∀ c ∈ rest, Returned c := by
    intro c hc l a r h
    obtain ⟨l', a', rfl⟩ := hs c hc
    cases h
  have hpar : Returned (.parallel level acts true) := by intro l a r h; injection h with _ _ h; exact h.symm
  rw [C116_returned, C116_returned]
  · have key : ∀ (cs : List Call) (m : Mode), printedIn m (cs ++ .parallel level acts true :: rest) = printedIn m (cs ++ [.parallel level acts true]) := by
      intro cs
      induction cs with
      | nil =>
        intro m
        have hm : ∀ rest : List Call, (∀ c ∈ rest, IsSerial c) → printedIn .mute rest = [] := by
          intro rest
          induction rest with
          | nil => intro _; rfl
          | cons c t ih =>
            intro hs
            obtain ⟨l, a, rfl⟩ := hs c (by simp)
            simp only [printedIn, Mode.next, Mode.prints, List.nil_append]
            exact ih fun k hk => hs k (by simp [hk])
        have hn : m.next (.parallel level acts true) = .mute := by cases m <;> rfl
        simp only [List.nil_append, printedIn, hn, hm rest hs]
      | cons c t ih => intro m; simp only [List.cons_append, printedIn, ih]
    exact key before .unset
  · intro c hc
    rcases List.mem_append.mp hc with h | h
    · exact hb c h
    · rw [List.mem_singleton] at h; subst h; exact hpar
  · intro c hc
    rcases List.mem_append.mp hc with h | h
    · exact hb c h
    · rcases List.mem_cons.mp h with rfl | h
      · exact hpar
      · exact hser c h

/-- A parallel benchmark that raises leaves its listener running: later calls do print, from the level of the failed call on. -/
theorem C116_after_failure (level : Nat) (acts : List Act) (later : Nat) (acts' : List Act)
    (hs : Settled (session fresh [.parallel level acts false, .serial later acts'])) :
    (session fresh [.parallel level acts false, .serial later acts']).shown.Perm (atLeast level (said acts ++ said acts')) := by
  have := C116_settled _ hs
  refine this.trans (List.Perm.of_eq ?_)
  simp [printedIn, Mode.next, Mode.prints, atLeast]

/-! ### examples -/

/-- a table printed at level INFO -/
def tableRec : Rec := ⟨20, "table"⟩

example : (session fresh [.serial 20 [.main tableRec]]).shown = [tableRec] := by decide
example : (session fresh [.parallel 20 [.trial ⟨30, "trial"⟩, .deliver 0, .trial ⟨10, "debug"⟩] true, .serial 20 [.main tableRec]]).shown =
    [⟨30, "trial"⟩] := by decide
example : Settled (session fresh [.parallel 20 [] false, .serial 30 [.main tableRec, .deliver 0]]) ∧
    (session fresh [.parallel 20 [] false, .serial 30 [.main tableRec, .deliver 0]]).shown = [tableRec] := by
  refine ⟨?_, by decide⟩
  intro k hk _
  have : (session fresh [.parallel 20 [] false, .serial 30 [.main tableRec, .deliver 0]]).queues = [⟨[], 20, true⟩] := rfl
  rw [this, List.mem_singleton] at hk
  rw [hk]

end Props
end Verif
