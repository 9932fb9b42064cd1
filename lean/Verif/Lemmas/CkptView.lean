import Verif.Lemmas.Checkpoint
/-!
# Sessions seen through a projection of the state

The file operations of a session do not depend on the contents of the state, so a projection of the state that commutes
with the trial's steps commutes with whole sessions. Used to compare runs with different numbers of iterations, whose
states differ only in the histories.
-/
set_option linter.unusedSectionVars false
namespace Verif.Ckpt
open Verif
variable {S T : Type}

/-- `f` carries the trial `t` to the trial `u` -/
structure View (t : Trial S) (u : Trial T) (f : S → T) : Prop where
  fresh : f t.fresh = u.fresh
  setup : ∀ s, u.setup (f s) = (f (t.setup s).1, (t.setup s).2)
  body : ∀ n k s, u.body n k (f s) = (f (t.body n k s).1, (t.body n k s).2)
  metric : ∀ k s, u.metric k (f s) = f (t.metric k s)
  tidy : ∀ s, u.tidy (f s) = f (t.tidy s)

/-- the projected dictionary of checkpoints -/
def mapCkpt (f : S → T) (c : PyDict Nat (Option S)) : PyDict Nat (Option T) := ⟨c.entries.map (fun e => (e.1, e.2.map f))⟩

/-- the projected directory -/
def Dir.map (f : S → T) (d : Dir S) : Dir T := ⟨mapCkpt f d.ckpt, d.progress, d.complete⟩

/-- the projected operation -/
def FsOp.map (f : S → T) : FsOp S → FsOp T
  | .openCkpt i => .openCkpt i
  | .writeCkpt i s => .writeCkpt i (f s)
  | .openProgress => .openProgress
  | .writeProgress i => .writeProgress i
  | .unlink i => .unlink i
  | .openComplete => .openComplete
  | .writeComplete i => .writeComplete i

/-- the projected outcome -/
def Outcome.map (f : S → T) (o : Outcome S) : Outcome T := ⟨o.ops.map (FsOp.map f), f o.state, o.done⟩

variable (f : S → T)

theorem keys_mapCkpt (c : PyDict Nat (Option S)) : (mapCkpt f c).keys = c.keys := by
  simp [mapCkpt, PyDict.keys, Function.comp_def]

theorem get?_mapCkpt (c : PyDict Nat (Option S)) (k : Nat) : (mapCkpt f c).get? k = (c.get? k).map (Option.map f) := by
  obtain ⟨l⟩ := c
  simp only [mapCkpt, PyDict.get?]
  induction l with
  | nil => rfl
  | cons e t ih =>
    simp only [List.map_cons, PyDict.lookupL]
    split
    · rfl
    · exact ih

theorem set_mapCkpt (c : PyDict Nat (Option S)) (k : Nat) (v : Option S) :
    (mapCkpt f c).set k (v.map f) = mapCkpt f (c.set k v) := by
  obtain ⟨l⟩ := c
  simp only [mapCkpt, PyDict.set, PyDict.mk.injEq]
  induction l with
  | nil => rfl
  | cons e t ih =>
    simp only [List.map_cons, PyDict.setL]
    split
    · rfl
    · simp only [List.map_cons, ih]

theorem pop_mapCkpt (c : PyDict Nat (Option S)) (k : Nat) : (mapCkpt f c).pop k = mapCkpt f (c.pop k) := by
  obtain ⟨l⟩ := c
  simp only [mapCkpt, PyDict.pop, List.filter_map, Function.comp_def]

theorem apply_map (o : FsOp S) (d : Dir S) : (o.map f).apply (d.map f) = (o.apply d).map f := by
  cases o with
  | openCkpt i => simp only [FsOp.map, FsOp.apply, Dir.map]; rw [← set_mapCkpt]; rfl
  | writeCkpt i s => simp only [FsOp.map, FsOp.apply, Dir.map]; rw [← set_mapCkpt]; rfl
  | unlink i => simp only [FsOp.map, FsOp.apply, Dir.map]; rw [← pop_mapCkpt]
  | _ => rfl

theorem applyAll_map (l : List (FsOp S)) (d : Dir S) : applyAll (l.map (FsOp.map f)) (d.map f) = (applyAll l d).map f := by
  induction l generalizing d with
  | nil => rfl
  | cons o l ih => rw [List.map_cons, applyAll_cons, apply_map, ih]; rfl

theorem writeOps_map (m : Manager) (d : Dir S) (i : Nat) (s : S) :
    m.writeOps (d.map f) i (f s) = (m.writeOps d i s).map (FsOp.map f) := by
  have e : ([.openCkpt i, .writeCkpt i (f s), .openProgress, .writeProgress i] : List (FsOp T)) =
      ([.openCkpt i, .writeCkpt i s, .openProgress, .writeProgress i] : List (FsOp S)).map (FsOp.map f) := rfl
  have hs : ∀ d' : Dir S, m.stale (d'.map f) = m.stale d' := by
    intro d'; simp only [Manager.stale, Dir.map, keys_mapCkpt]
  simp only [Manager.writeOps]
  rw [e, applyAll_map, hs, List.map_append, List.map_map]
  rfl

theorem saveOps_map (m : Manager) (d : Dir S) (i : Nat) (s : S) :
    m.saveOps (d.map f) i (f s) = (m.saveOps d i s).map (List.map (FsOp.map f)) := by
  have hc : (d.map f).ckpt.contains i = d.ckpt.contains i := by
    simp [PyDict.contains, Dir.map, get?_mapCkpt]
  have hp : (d.map f).progress = d.progress := rfl
  simp only [Manager.saveOps, hc, hp, writeOps_map]
  split
  · cases d.progress with
    | none => rfl
    | some p =>
      cases p with
      | none => rfl
      | some p => simp only; split <;> rfl
  · rfl

theorem markOps_map (m : Manager) (d : Dir S) (i : Nat) (s : S) :
    m.markOps (d.map f) i (f s) = (m.markOps d i s).map (List.map (FsOp.map f)) := by
  simp only [Manager.markOps, saveOps_map]
  cases m.saveOps d i s with
  | error e => rfl
  | ok l => simp [Except.map, FsOp.map]

variable {f} {t : Trial S} {u : Trial T}

theorem loop_map (v : View t u f) (m : Manager) (total : Nat) (n k : Nat) (s : S) (d : Dir S) :
    loop m u total n k (f s) (d.map f) = (loop m t total n k s d).map f := by
  induction n generalizing k s d with
  | zero => rfl
  | succ n ih =>
    simp only [loop, v.body]
    split
    · rfl
    · split
      · rw [saveOps_map]
        cases m.saveOps d k (t.body total k s).1 with
        | error e => rfl
        | ok l =>
          simp only [Except.map]
          rw [applyAll_map, v.metric, ih]
          simp [Outcome.map]
      · rw [v.metric, ih]

theorem finish_map (v : View t u f) (m : Manager) (total : Nat) (d : Dir S) (o : Outcome S) :
    finish m u total (d.map f) (o.map f) = (finish m t total d o).map f := by
  have h1 : (o.map f).done = o.done := rfl
  have h2 : (o.map f).ops = o.ops.map (FsOp.map f) := rfl
  have h3 : (o.map f).state = f o.state := rfl
  simp only [finish, h1, h2, h3, applyAll_map, markOps_map]
  split
  · cases m.markOps (applyAll o.ops d) (total - 1) o.state with
    | error e => rfl
    | ok l => simp [Except.map, Outcome.map, v.tidy]
  · rfl

theorem read_map (d : Dir S) (i : Nat) : (d.map f).read i = (d.read i).map f := by
  simp only [Dir.read, Dir.map, get?_mapCkpt]
  cases d.ckpt.get? i with
  | none => rfl
  | some o => cases o <;> rfl

theorem load_map (d : Dir S) : (d.map f).load = d.load.map (Option.map (fun p => (p.1, f p.2))) := by
  have hp : (d.map f).progress = d.progress := rfl
  simp only [Dir.load, hp, read_map]
  cases d.progress with
  | none => rfl
  | some p =>
    cases p with
    | none => rfl
    | some p => simp only; cases d.read p <;> rfl

theorem result_map (d : Dir S) : (d.map f).result = d.result.map f := by
  have hp : (d.map f).complete = d.complete := rfl
  simp only [Dir.result, hp, read_map]
  cases d.complete with
  | none => rfl
  | some p => cases p <;> rfl

theorem runTrial_map (v : View t u f) (m : Manager) (total : Nat) (d : Dir S) :
    runTrial m u total (d.map f) = (runTrial m t total d).map (Outcome.map f) := by
  simp only [runTrial, load_map]
  cases d.load with
  | error e => rfl
  | ok r =>
    cases r with
    | none =>
      simp only [Except.map, Option.map, ← v.fresh, v.setup]
      split
      · rfl
      · rw [loop_map v, finish_map v]
    | some p =>
      obtain ⟨p, s⟩ := p
      simp only [Except.map, Option.map]
      split
      · rfl
      · rw [loop_map v, finish_map v]

theorem session_map (v : View t u f) (m : Manager) (total : Nat) (d : Dir S) :
    session m u total (d.map f) = (session m t total d).map (Outcome.map f) := by
  have hp : (d.map f).complete = d.complete := rfl
  simp only [session, hp]
  split
  · rw [result_map]
    cases d.result <;> rfl
  · exact runTrial_map v m total d

theorem inWindow_map (l : List (FsOp S)) (c : Nat) : InWindow (l.map (FsOp.map f)) c ↔ InWindow l c := by
  unfold InWindow
  rw [← List.map_take, List.getLast?_map]
  cases (l.take c).getLast? with
  | none => simp
  | some o => cases o <;> simp [FsOp.map]

/-! ### a trial whose steps do not depend on the number of iterations -/

theorem straight_total {u : Trial T} (hu : ∀ n n' k s, u.body n k s = u.body n' k s) (n n' k : Nat) :
    straight u n k = straight u n' k := by
  induction k with
  | zero => rfl
  | succ k ih => simp only [straight, ih, hu n n' k]

/-- raising the number of iterations keeps the invariant -/
theorem InvRun.extend {u : Trial T} (hu : ∀ n n' k s, u.body n k s = u.body n' k s) {m : Manager} {n n' : Nat} (hn : n ≤ n')
    {d : Dir T} {q : Nat} (h : InvRun m u n d q) : InvRun m u n' d q := by
  refine ⟨h.wf, Nat.le_trans h.le hn, h.zero, ?_, ?_, h.open_, fun j hj => Nat.lt_of_lt_of_le (h.bound j hj) hn⟩
  · intro hq
    rw [straight_total hu n' n]
    exact h.pos hq
  · intro j hj i hs hq
    rcases Nat.lt_or_ge i n with hi | hi
    · rcases hs.2 with e | e
      · exact h.files j hj i ⟨hi, .inl e⟩ hq
      · have := h.bound j hj; omega
    · have := h.bound j hj; omega

theorem Inv.reopen {u : Trial T} {m : Manager} {n : Nat} {d : Dir T} (h : Inv m u n d) :
    ∃ q, InvRun m u n { d with complete := none } q := by
  rcases h with ⟨q, h⟩ | ⟨_, h⟩
  · refine ⟨q, ?_⟩
    have : ({ d with complete := none } : Dir T) = d := by
      have := h.open_
      cases d; simp only at this; subst this; rfl
    rwa [this]
  · exact ⟨n, h⟩

end Verif.Ckpt
