import Verif.Lemmas.Checkpoint
/-!
# C36, C37, C38: crash and resume of a checkpointed trial

`straight t total total` (Lemmas/Checkpoint.lean) is the specification: the trial's iterations one after the other, without
checkpoints, ended early by an exception. `InWindow ops c`: the crash point `c` lies between opening (truncating) a JSON
record and finishing it.
-/
set_option linter.unusedSectionVars false
namespace Verif.Props
open Verif Verif.Ckpt

variable {S : Type}

/-- no crash of the sequence falls inside the write of `progress.json` or `complete.json` -/
def SafeCrashes (m : Manager) (t : Trial S) (total : Nat) : List Nat → Dir S → Prop
  | [], _ => True
  | c :: cs, d => ∀ o, session m t total d = .ok o →
      ¬ InWindow o.ops c ∧ SafeCrashes m t total cs (applyAll (o.ops.take c) d)

theorem crashes_inv (m : Manager) (hk : 0 < m.keep) (t : Trial S) (hm : ∀ k s, t.metric k s = s) (total : Nat) (ht : 0 < total)
    (cs : List Nat) (d : Dir S) (h : Inv m t total d) (safe : SafeCrashes m t total cs d) :
    ∃ d', crashes m t total cs d = .ok d' ∧ Inv m t total d' := by
  induction cs generalizing d with
  | nil => exact ⟨d, rfl, h⟩
  | cons c cs ih =>
    obtain ⟨o, ho, _, _, h3, _⟩ := session_inv hk hm ht h
    obtain ⟨hw, hs⟩ := safe o ho
    obtain ⟨d', h1, h2⟩ := ih _ (h3 c hw) hs
    exact ⟨d', by simp [crashes, crash, ho, h1], h2⟩

/-- **C36.** Kill a checkpointed trial any number of times, after any number of file operations each time (outside the two
JSON write windows), then let it run: it completes exactly when the uninterrupted trial does, ends in the same state, and
leaves a completed trial on disk that loads as that state. For every checkpoint step, every number of kept files, every
algorithm and problem, and trials that raise. -/
theorem C36_crash_resume (m : Manager) (hk : 0 < m.keep) (t : Trial S) (hm : ∀ k s, t.metric k s = s) (total : Nat)
    (ht : 0 < total) (cs : List Nat) (safe : SafeCrashes m t total cs Dir.empty) :
    ∃ d o, crashes m t total cs Dir.empty = .ok d ∧ session m t total d = .ok o ∧
      o.done = !(straight t total total).2 ∧
      o.state = (if d.complete.isNone && o.done then t.tidy (straight t total total).1 else (straight t total total).1) ∧
      (o.done = true → (applyAll o.ops d).result = .ok (straight t total total).1) := by
  obtain ⟨d, h1, h2⟩ := crashes_inv m hk t hm total ht cs _ (.inl ⟨0, inv_empty m t total⟩) safe
  obtain ⟨o, ho, h3, h4, _, h6⟩ := session_inv hk hm ht h2
  refine ⟨d, o, h1, ho, h3, h4, fun hd => ?_⟩
  obtain ⟨hc, hi⟩ := h6 hd
  rcases hi with ⟨q, hq⟩ | ⟨_, hq⟩
  · rw [hq.open_] at hc; simp at hc
  · have : (applyAll o.ops d).ckpt.get? (total - 1) = some (some (straight t total total).1) := (hq.pos ht).2.1
    simp [Dir.result, hc, Dir.read, this]

/-- **C36**, in particular: two different crash histories give the same outcome. -/
theorem C36_histories_agree (m m' : Manager) (hk : 0 < m.keep) (hk' : 0 < m'.keep) (t : Trial S)
    (hm : ∀ k s, t.metric k s = s) (total : Nat) (ht : 0 < total) (cs cs' : List Nat)
    (safe : SafeCrashes m t total cs Dir.empty) (safe' : SafeCrashes m' t total cs' Dir.empty)
    (d d' : Dir S) (o o' : Outcome S)
    (hd : crashes m t total cs Dir.empty = .ok d) (hd' : crashes m' t total cs' Dir.empty = .ok d')
    (ho : session m t total d = .ok o) (ho' : session m' t total d' = .ok o') :
    o.done = o'.done ∧ (o.done = true → (applyAll o.ops d).result = (applyAll o'.ops d').result) ∧
      (o.done = false → o.state = o'.state) := by
  obtain ⟨e, p, h1, h2, h3, h4, h5⟩ := C36_crash_resume m hk t hm total ht cs safe
  obtain ⟨e', p', h1', h2', h3', h4', h5'⟩ := C36_crash_resume m' hk' t hm total ht cs' safe'
  rw [hd] at h1; cases h1; rw [hd'] at h1'; cases h1'
  rw [ho] at h2; cases h2; rw [ho'] at h2'; cases h2'
  refine ⟨by rw [h3, h3'], fun hdn => ?_, fun hdn => ?_⟩
  · rw [h5 hdn, h5' (by rw [h3'] ; rw [h3] at hdn; exact hdn)]
  · have hdn' : o'.done = false := by rw [h3']; rw [h3] at hdn; exact hdn
    rw [h4, h4', hdn, hdn']; simp

/-! ### a concrete trial: the state is the list of iterations done; 5 iterations -/

/-- records the iterations it performs -/
def logTrial : Trial (List Nat) := ⟨[], fun s => (s, false), fun _ k s => (s ++ [k], false), fun _ s => s, fun s => s⟩

-- a directory after two kills: the second session resumed from iteration 1 (files 0..1) and was killed inside a save
example : (crashes ⟨some 2, 1⟩ logTrial 5 [5, 3] Dir.empty) =
    .ok ⟨⟨[(1, some [0, 1]), (3, some [0, 1, 2, 3])]⟩, some none, none⟩ := by rfl
example : straight logTrial 5 5 = ([0, 1, 2, 3, 4], false) := by decide +kernel
-- the hypothesis of C36 holds for crash points that are not write windows
instance (ops : List (FsOp S)) [DecidableEq S] (c : Nat) : Decidable (InWindow ops c) := by
  unfold InWindow; infer_instance

example : SafeCrashes ⟨some 2, 1⟩ logTrial 5 [5, 2, 4] Dir.empty := by
  intro o ho
  cases ho
  refine ⟨by decide +kernel, ?_⟩
  intro o ho
  cases ho
  refine ⟨by decide +kernel, ?_⟩
  intro o ho
  cases ho
  exact ⟨by decide +kernel, trivial⟩

/-! ## C37 -/

/-- **C37.** At every crash point outside the two JSON write windows, after any number of crashes, the directory has no
progress record, or one naming an existing, complete checkpoint that holds exactly the state reached after that iteration;
and a trial marked complete has its final checkpoint. -/
theorem C37_consistent (m : Manager) (hk : 0 < m.keep) (t : Trial S) (hm : ∀ k s, t.metric k s = s) (total : Nat)
    (ht : 0 < total) (cs : List Nat) (safe : SafeCrashes m t total cs Dir.empty) :
    ∃ d, crashes m t total cs Dir.empty = .ok d ∧
      (d.load = .ok none ∨ ∃ p, p < total ∧ d.load = .ok (some (p, (straight t total (p + 1)).1)) ∧
        (straight t total (p + 1)).2 = false) ∧
      (d.complete = none ∨ d.result = .ok (straight t total total).1) := by
  obtain ⟨d, h1, h2⟩ := crashes_inv m hk t hm total ht cs _ (.inl ⟨0, inv_empty m t total⟩) safe
  refine ⟨d, h1, ?_⟩
  have aux : ∀ (e : Dir S) q, InvRun m t total e q → (e.load = .ok none ∨
      ∃ p, p < total ∧ e.load = .ok (some (p, (straight t total (p + 1)).1)) ∧ (straight t total (p + 1)).2 = false) := by
    intro e q h
    rcases Nat.eq_zero_or_pos q with hq | hq
    · left; simp [Dir.load, h.zero hq]
    · right
      have hp := h.pos hq
      have hl := h.le
      refine ⟨q - 1, by omega, ?_, ?_⟩
      · rw [Nat.sub_add_cancel hq]; simp [Dir.load, hp.1, Dir.read, hp.2.1]
      · rw [Nat.sub_add_cancel hq]; exact hp.2.2
  rcases h2 with ⟨q, h⟩ | ⟨hc, h⟩
  · exact ⟨aux d q h, .inl h.open_⟩
  · refine ⟨?_, .inr ?_⟩
    · have := aux _ _ h
      exact this
    · have : d.ckpt.get? (total - 1) = some (some (straight t total total).1) := (h.pos ht).2.1
      simp [Dir.result, hc, Dir.read, this]

theorem loop_first (m : Manager) (t : Trial S) (total : Nat) (n k : Nat) (s : S) (d : Dir S) (hp : d.progress = none) :
    (loop m t total n k s d).ops = [] ∨ ∃ i v r, (loop m t total n k s d).ops = m.writeOps d i v ++ r := by
  induction n generalizing k s with
  | zero => left; rfl
  | succ n ih =>
    rw [loop]
    by_cases h1 : (t.body total k s).2 = true
    · left; simp [h1]
    · by_cases h2 : m.should k = true
      · right
        have : m.saveOps d k (t.body total k s).1 = .ok (m.writeOps d k (t.body total k s).1) := by
          unfold Manager.saveOps; split <;> simp [hp]
        simp only [h1, h2, this, Bool.false_eq_true, if_false, if_true]
        exact ⟨_, _, _, rfl⟩
      · simp only [h1, h2, Bool.false_eq_true, if_false]
        exact ih _ _

/-- **C37, refutation of the unrestricted claim.** Every trial that would complete has a crash point, inside its first write
of `progress.json`, after which the next session raises `JSONDecodeError` instead of resuming or starting over; and so do
all further sessions. -/
theorem C37_truncation_refuted (m : Manager) (hk : 0 < m.keep) (t : Trial S) (hm : ∀ k s, t.metric k s = s) (total : Nat)
    (ht : 0 < total) (hok : (straight t total total).2 = false) :
    ∃ c d, crash m t total c Dir.empty = .ok d ∧ d.ckpt.keys ≠ [] ∧ session m t total d = .error .jsonDecodeError := by
  obtain ⟨o, ho, h1, _, _, h5⟩ := session_inv (t := t) hk hm ht (.inl ⟨0, inv_empty m t total⟩)
  have hset : (t.setup t.fresh).2 = false := by
    by_contra hne
    have hne' : (straight t total 0).2 = true := by simpa [straight] using hne
    have := straight_absorb t total 0 hne' total
    rw [Nat.zero_add] at this
    rw [this] at hok; rw [hok] at hne'; simp at hne'
  -- the first three operations
  have key : ∃ i v r, o.ops = m.writeOps (Dir.empty : Dir S) i v ++ r := by
    have e : session m t total Dir.empty = .ok (finish m t total Dir.empty (loop m t total total 0 (t.setup t.fresh).1 Dir.empty)) := by
      simp [session, Dir.empty, runTrial, Dir.load, hset]
    rw [e] at ho; cases ho
    have hd : (finish m t total Dir.empty (loop m t total total 0 (t.setup t.fresh).1 Dir.empty)).done = true := by
      rw [h1, hok]; rfl
    rcases loop_first m t total total 0 (t.setup t.fresh).1 Dir.empty rfl with hl | ⟨i, v, r, hl⟩
    · unfold finish at hd ⊢
      split at hd
      · rename_i hdone
        have hmk : m.markOps (Dir.empty : Dir S) (total - 1) (loop m t total total 0 (t.setup t.fresh).1 Dir.empty).state
            = .ok (m.writeOps Dir.empty (total - 1) (loop m t total total 0 (t.setup t.fresh).1 Dir.empty).state
              ++ [.openComplete, .writeComplete (total - 1)]) := by
          simp [Manager.markOps, Manager.saveOps, Dir.empty, PyDict.contains]
        rw [if_pos hdone, hl]
        simp only [applyAll_nil, hmk, List.nil_append]
        exact ⟨_, _, _, rfl⟩
      · rename_i hdone
        rw [hd] at hdone; simp at hdone
    · unfold finish at hd ⊢
      split at hd
      · rename_i hdone
        rw [if_pos hdone]
        split
        · exact ⟨i, v, r, hl⟩
        · rename_i l _
          exact ⟨i, v, r ++ l, by simp [hl]⟩
      · rename_i hdone
        rw [hd] at hdone; simp at hdone
  obtain ⟨i, v, r, hops⟩ := key
  refine ⟨3, applyAll (o.ops.take 3) Dir.empty, by simp only [crash, ho], ?_, ?_⟩
  · rw [hops]
    have : (m.writeOps (Dir.empty : Dir S) i v ++ r).take 3 = [.openCkpt i, .writeCkpt i v, .openProgress] := by
      simp [Manager.writeOps]
    rw [this]
    simp [applyAll, FsOp.apply, Dir.empty, PyDict.keys, PyDict.empty, PyDict.set, PyDict.setL]
  · rw [hops]
    have : (m.writeOps (Dir.empty : Dir S) i v ++ r).take 3 = [.openCkpt i, .writeCkpt i v, .openProgress] := by
      simp [Manager.writeOps]
    rw [this]
    simp [session, applyAll, FsOp.apply, Dir.empty, runTrial, Dir.load]

/-- the same for `complete.json`: killed between opening and writing it, the trial counts as complete but cannot be loaded -/
theorem C37_complete_window_refuted (m : Manager) (t : Trial S) (total : Nat) (d : Dir S) (l : List (FsOp S)) :
    let d' := applyAll (l ++ [.openComplete]) d
    d'.complete.isSome = true ∧ session m t total d' = .error .jsonDecodeError := by
  simp [applyAll_append, applyAll, FsOp.apply, session, Dir.result]

/-- **C37, unchanged step needed.** With one kept file, killing a run with `checkpoint_step = 2` between writing a checkpoint
and recording it, and resuming with `checkpoint_step = 3`, the next save deletes its own file: the progress record names a
missing checkpoint although no crash fell into a write window. -/
theorem C37_step_change_refuted :
    ∃ c c' d d', crash ⟨some 2, 1⟩ logTrial 4 c Dir.empty = .ok d ∧ crash ⟨some 3, 1⟩ logTrial 4 c' d = .ok d' ∧
      (∀ o, session ⟨some 2, 1⟩ logTrial 4 Dir.empty = .ok o → ¬ InWindow o.ops c) ∧
      (∀ o, session ⟨some 3, 1⟩ logTrial 4 d = .ok o → ¬ InWindow o.ops c') ∧
      session ⟨some 3, 1⟩ logTrial 4 d' = .error .fileNotFound := by
  refine ⟨6, 6, _, _, rfl, rfl, ?_, ?_, ?_⟩
  · intro o ho; cases ho; decide +kernel
  · intro o ho; cases ho; decide +kernel
  · rfl

/-! ## C38 -/

theorem keys_unlink (l : List Nat) (d : Dir S) :
    (applyAll (l.map .unlink) d).ckpt.keys = d.ckpt.keys.filter (fun a => !decide (a ∈ l)) := by
  induction l generalizing d with
  | nil => simp
  | cons a t ih =>
    rw [List.map_cons, applyAll_cons, ih]
    simp only [FsOp.apply, PyDict.keys_pop, List.filter_filter]
    congr 1
    funext x
    by_cases hx : x = a <;> by_cases ht : x ∈ t <;> simp [hx, ht]

/-- **C38.** After a save that writes (any directory, any iteration, any number of kept files): the remaining checkpoint
files are among the previous ones and the new one, at most `keep_n_checkpoints` of them - exactly that many if there were
enough - and every deleted file is older than every remaining one. -/
theorem C38_retention (m : Manager) (hk : 0 < m.keep) (d : Dir S) (hw : d.ckpt.WF) (i : Nat) (s : S) :
    let before := if i ∈ d.ckpt.keys then d.ckpt.keys else d.ckpt.keys ++ [i]
    let after := (applyAll (m.writeOps d i s) d).ckpt.keys
    after.length = min m.keep before.length ∧ (∀ j ∈ after, j ∈ before) ∧
      (∀ j ∈ before, j ∉ after → ∀ j' ∈ after, j < j') := by
  intro before after
  set w : List (FsOp S) := [.openCkpt i, .writeCkpt i s, .openProgress, .writeProgress i] with hwdef
  have hkeys : (applyAll w d).ckpt.keys = before := by
    show ((d.ckpt.set i none).set i (some s)).keys = before
    simp only [PyDict.keys_set, before]
    by_cases h : i ∈ d.ckpt.keys <;> simp [h]
  have hnd : before.Nodup := by
    rw [← hkeys]; exact PyDict.wf_set _ _ _ (PyDict.wf_set _ _ _ hw)
  have hafter : after = before.filter (fun a => !decide (a ∈ m.stale (applyAll w d))) := by
    show (applyAll (m.writeOps d i s) d).ckpt.keys = _
    rw [Manager.writeOps, applyAll_append, keys_unlink, hkeys]
  set L := pySorted (fun a b : Nat => decide (b ≤ a)) before with hL
  have hperm : L.Perm before := pySorted_perm _ _
  have hsort : L.Pairwise (fun a b => b ≤ a) := mem_stale_iff_aux before
  have hLn : L.Nodup := hperm.nodup_iff.2 hnd
  have hst : m.stale (applyAll w d) = L.drop m.keep := by rw [Manager.stale, hkeys]
  rw [hst] at hafter
  have htd : L.take m.keep ++ L.drop m.keep = L := List.take_append_drop _ _
  have hdisj : ∀ a ∈ L.take m.keep, a ∉ L.drop m.keep := by
    rw [← htd, List.nodup_append] at hLn
    exact fun a ha hb => hLn.2.2 a ha a hb rfl
  have hp2 : after.Perm (L.take m.keep) := by
    rw [hafter]
    refine (hperm.symm.filter _).trans ?_
    have e0 : L.filter (fun a => !decide (a ∈ L.drop m.keep)) = (L.take m.keep).filter (fun a => !decide (a ∈ L.drop m.keep))
        ++ (L.drop m.keep).filter (fun a => !decide (a ∈ L.drop m.keep)) := by
      rw [← List.filter_append, htd]
    rw [e0]
    have e1 : (L.take m.keep).filter (fun a => !decide (a ∈ L.drop m.keep)) = L.take m.keep := by
      rw [List.filter_eq_self]; intro a ha; simp [hdisj a ha]
    have e2 : (L.drop m.keep).filter (fun a => !decide (a ∈ L.drop m.keep)) = [] := by
      rw [List.filter_eq_nil_iff]; intro a ha; simp [ha]
    rw [e1, e2, List.append_nil]
  refine ⟨?_, ?_, ?_⟩
  · rw [hp2.length_eq, List.length_take, hperm.length_eq]
  · intro j hj; rw [hafter] at hj; exact (List.mem_filter.1 hj).1
  · intro j hj hja j' hj'
    have h1 : j' ∈ L.take m.keep := hp2.mem_iff.1 hj'
    have h2 : j ∈ L.drop m.keep := by
      have := hperm.mem_iff.2 hj
      rw [← htd, List.mem_append] at this
      rcases this with h | h
      · exact absurd (hp2.mem_iff.2 h) hja
      · exact h
    rw [← htd, List.pairwise_append] at hsort
    have hle := hsort.2.2 j' h1 j h2
    have hne : j ≠ j' := fun e => hdisj j' h1 (e ▸ h2)
    omega

/-- **C38.** The checkpoint just written survives its own cleanup, readable and with the saved state, if no file with a
larger iteration is present. -/
theorem C38_newest_kept (m : Manager) (hk : 0 < m.keep) (d : Dir S) (hw : d.ckpt.WF) (i : Nat) (s : S)
    (hnew : ∀ j ∈ d.ckpt.keys, j ≤ i) :
    (applyAll (m.writeOps d i s) d).load = .ok (some (i, s)) := by
  set w : List (FsOp S) := [.openCkpt i, .writeCkpt i s, .openProgress, .writeProgress i] with hwdef
  have hkeys : ∀ j ∈ (applyAll w d).ckpt.keys, j ≤ i := by
    intro j hj
    have hj : j ∈ ((d.ckpt.set i none).set i (some s)).keys := hj
    simp only [PyDict.keys_set] at hj
    by_cases h : i ∈ d.ckpt.keys
    · simp [h] at hj; exact hnew j hj
    · simp [h] at hj
      rcases hj with hj | hj
      · exact hnew j hj
      · omega
  have hwf : (applyAll w d).ckpt.WF := PyDict.wf_set _ _ _ (PyDict.wf_set _ _ _ hw)
  have hik : i ∈ (applyAll w d).ckpt.keys := by
    show i ∈ ((d.ckpt.set i none).set i (some s)).keys
    rw [PyDict.mem_keys_iff]; simp
  have hs := mem_stale_le m hk (applyAll w d) hwf i hik hkeys
  have hget : ∀ (l : List Nat) (e : Dir S), i ∉ l → (applyAll (l.map .unlink) e).ckpt.get? i = e.ckpt.get? i ∧
      (applyAll (l.map .unlink) e).progress = e.progress := by
    intro l
    induction l with
    | nil => intro e _; exact ⟨rfl, rfl⟩
    | cons a t ih =>
      intro e hi
      rw [List.map_cons, applyAll_cons]
      have hia : i ≠ a := fun h => hi (by simp [h])
      obtain ⟨h1, h2⟩ := ih (FsOp.apply (.unlink a) e) (fun h => hi (List.mem_cons_of_mem _ h))
      refine ⟨h1.trans ?_, h2⟩
      simp [FsOp.apply, hia]
  obtain ⟨g1, g2⟩ := hget _ (applyAll w d) hs
  have e : applyAll (m.writeOps d i s) d = applyAll ((m.stale (applyAll w d)).map .unlink) (applyAll w d) := by
    rw [Manager.writeOps, applyAll_append]
  have g1' : (applyAll ((m.stale (applyAll w d)).map .unlink) (applyAll w d)).ckpt.get? i = some (some s) := by
    rw [g1]; show ((d.ckpt.set i none).set i (some s)).get? i = _; simp
  have g2' : (applyAll ((m.stale (applyAll w d)).map .unlink) (applyAll w d)).progress = some (some i) := g2
  rw [e]
  simp [Dir.load, g2', Dir.read, g1']

/-- **C38, refutation for saves that are skipped.** Killed between recording the final checkpoint and the cleanup, the resumed
session finds the checkpoint already recorded and skips the cleanup: the completed trial keeps more than
`keep_n_checkpoints` files. -/
theorem C38_skipped_cleanup_refuted :
    ∃ c d o, crash ⟨some 1, 1⟩ logTrial 2 c Dir.empty = .ok d ∧ session ⟨some 1, 1⟩ logTrial 2 d = .ok o ∧ o.done = true ∧
      (applyAll o.ops d).ckpt.keys = [0, 1] := by
  refine ⟨8, _, _, rfl, rfl, by decide +kernel, by decide +kernel⟩

example : ((applyAll (Manager.writeOps ⟨some 1, 2⟩ (⟨⟨[(0, some [0]), (1, some [0, 1])]⟩, some (some 1), none⟩ : Dir (List Nat)) 2 [0,1,2])
  (⟨⟨[(0, some [0]), (1, some [0, 1])]⟩, some (some 1), none⟩ : Dir (List Nat))).ckpt.keys) = [1, 2] := by decide +kernel

/-- `CheckpointManager(...)` accepts exactly positive steps (or none) and positive retention, so `0 < keep` holds for every
manager that was constructed. -/
theorem C38_constructed (step : Option Int) (keep : Int) (m : Manager) (h : Manager.ctor step keep = .ok m) :
    0 < m.keep ∧ (∀ k, m.step = some k → 0 < k) ∧ (m.keep : Int) = keep := by
  cases step with
  | none =>
    by_cases hk : keep ≤ 0
    · simp [Manager.ctor, hk] at h
    · simp [Manager.ctor, hk] at h
      subst h
      refine ⟨by simp; omega, by simp, by simp; omega⟩
  | some v =>
    by_cases hv : v ≤ 0
    · simp [Manager.ctor, hv] at h
    · by_cases hk : keep ≤ 0
      · simp [Manager.ctor, hk] at h
      · simp [Manager.ctor, hk, hv] at h
        subst h
        refine ⟨by simp; omega, by simp; omega, by simp; omega⟩

/-! ### which iterations are saved -/

/-- iterations whose checkpoint file is completely written by a list of operations, in order -/
def written (ops : List (FsOp S)) : List Nat := ops.filterMap (fun o => match o with | .writeCkpt i _ => some i | _ => none)

theorem written_append (a b : List (FsOp S)) : written (a ++ b) = written a ++ written b := List.filterMap_append

theorem written_writeOps (m : Manager) (d : Dir S) (i : Nat) (s : S) : written (m.writeOps d i s) = [i] := by
  have : ∀ l : List Nat, written (l.map FsOp.unlink : List (FsOp S)) = [] := by
    intro l; induction l with
    | nil => rfl
    | cons a t ih => exact ih
  rw [Manager.writeOps, written_append, this]
  rfl

theorem keys_writeOps (m : Manager) (d : Dir S) (i : Nat) (s : S) (j : Nat)
    (hj : j ∈ (applyAll (m.writeOps d i s) d).ckpt.keys) : j ∈ d.ckpt.keys ∨ j = i := by
  rw [Manager.writeOps, applyAll_append, keys_unlink] at hj
  have hj := (List.mem_filter.1 hj).1
  have hj : j ∈ ((d.ckpt.set i none).set i (some s)).keys := hj
  simp only [PyDict.keys_set] at hj
  by_cases h : i ∈ d.ckpt.keys
  · simp [h] at hj; exact .inl hj
  · simp [h] at hj; exact hj

theorem wf_writeOps (m : Manager) (d : Dir S) (hw : d.ckpt.WF) (i : Nat) (s : S) :
    (applyAll (m.writeOps d i s) d).ckpt.WF := by
  rw [Manager.writeOps, applyAll_append]
  unfold PyDict.WF
  rw [keys_unlink]
  refine List.Nodup.filter _ ?_
  exact PyDict.wf_set _ _ _ (PyDict.wf_set _ _ _ hw)

theorem loop_written (m : Manager) (hk : 0 < m.keep) (t : Trial S) (total n k : Nat) (s : S) (d : Dir S) (hw : d.ckpt.WF)
    (hlt : ∀ j ∈ d.ckpt.keys, j < k) (hdone : (loop m t total n k s d).done = true) :
    written (loop m t total n k s d).ops = (List.range' k n).filter m.should ∧
    (∀ j ∈ (applyAll (loop m t total n k s d).ops d).ckpt.keys, j ∈ d.ckpt.keys ∨ m.should j = true) ∧
    (0 < n → m.should (k + n - 1) = true → ∃ v, (applyAll (loop m t total n k s d).ops d).load = .ok (some (k + n - 1, v))) := by
  induction n generalizing k s d with
  | zero => exact ⟨rfl, fun j hj => .inl hj, fun h => absurd h (Nat.lt_irrefl 0)⟩
  | succ n ih =>
    rw [loop] at hdone ⊢
    by_cases h1 : (t.body total k s).2 = true
    · simp [h1] at hdone
    · by_cases h2 : m.should k = true
      · have hnc : d.ckpt.contains k = false := by
          cases hc : d.ckpt.contains k with
          | false => rfl
          | true => exact absurd (hlt k ((PyDict.contains_iff _ _).1 hc)) (Nat.lt_irrefl k)
        have hso : m.saveOps d k (t.body total k s).1 = .ok (m.writeOps d k (t.body total k s).1) := by
          simp [Manager.saveOps, hnc]
        simp only [h1, h2, hso, Bool.false_eq_true, if_false, if_true] at hdone ⊢
        set v := (t.body total k s).1 with hv
        have hnew := C38_newest_kept m hk d hw k v (fun j hj => Nat.le_of_lt (hlt j hj))
        obtain ⟨e1, e2, e3⟩ := ih (k + 1) (t.metric k v) (applyAll (m.writeOps d k v) d) (wf_writeOps m d hw k v)
          (fun j hj => by
            rcases keys_writeOps m d k v j hj with h | h
            · have := hlt j h; omega
            · omega) hdone
        refine ⟨?_, ?_, ?_⟩
        · rw [written_append, written_writeOps, e1, List.range'_succ, List.filter_cons, if_pos h2]; rfl
        · intro j hj
          rw [applyAll_append] at hj
          rcases e2 j hj with h | h
          · rcases keys_writeOps m d k v j h with h | h
            · exact .inl h
            · exact .inr (h ▸ h2)
          · exact .inr h
        · intro _ hs
          rw [applyAll_append]
          rcases Nat.eq_zero_or_pos n with hn | hn
          · subst hn
            exact ⟨v, by simpa [loop] using hnew⟩
          · have ek : k + 1 + n - 1 = k + (n + 1) - 1 := by omega
            rw [← ek] at hs ⊢
            exact e3 hn hs
      · simp only [h1, h2, Bool.false_eq_true, if_false] at hdone ⊢
        obtain ⟨e1, e2, e3⟩ := ih (k + 1) (t.metric k (t.body total k s).1) d hw
          (fun j hj => Nat.lt_succ_of_lt (hlt j hj)) hdone
        refine ⟨?_, e2, ?_⟩
        · rw [e1, List.range'_succ, List.filter_cons, if_neg h2]
        · intro _ hs
          rcases Nat.eq_zero_or_pos n with hn | hn
          · subst hn; exact absurd hs h2
          · have ek : k + 1 + n - 1 = k + (n + 1) - 1 := by omega
            rw [← ek] at hs ⊢
            exact e3 hn hs

/-- **C38.** A trial that runs from an empty directory to its end writes a checkpoint after the iterations `i` with
`i + 1` divisible by `checkpoint_step` and after the last one, each exactly once and in order - only the last one when
`checkpoint_step` is `None`. -/
theorem C38_schedule (m : Manager) (hk : 0 < m.keep) (t : Trial S) (total : Nat) (ht : 0 < total) (o : Outcome S)
    (h : session m t total Dir.empty = .ok o) (hdone : o.done = true) :
    written o.ops = (List.range total).filter (fun i => decide ((∃ k, m.step = some k ∧ k ∣ i + 1) ∨ i + 1 = total)) := by
  have hsh : ∀ i, m.should i = decide (∃ k, m.step = some k ∧ k ∣ i + 1) := by
    intro i
    unfold Manager.should
    cases m.step with
    | none => simp
    | some k => simp [Nat.dvd_iff_mod_eq_zero]
  have hl : (Dir.empty : Dir S).load = .ok none := rfl
  simp only [session, Dir.empty, Option.isSome_none, Bool.false_eq_true, if_false] at h
  simp only [runTrial] at h
  rw [show (⟨PyDict.empty, none, none⟩ : Dir S) = Dir.empty from rfl, hl] at h
  simp only at h
  split at h
  · cases h; simp at hdone
  · cases h
    set lo := loop m t total total 0 (t.setup t.fresh).1 Dir.empty with hlo
    have hld : lo.done = true := by
      unfold finish at hdone
      by_contra hne
      simp [hne] at hdone
    obtain ⟨e1, e2, e3⟩ := loop_written m hk t total total 0 (t.setup t.fresh).1 Dir.empty PyDict.wf_empty
      (by simp [Dir.empty, PyDict.empty, PyDict.keys]) hld
    rw [← hlo] at e1 e2 e3
    have hsplit : (List.range total).filter (fun i => decide ((∃ k, m.step = some k ∧ k ∣ i + 1) ∨ i + 1 = total)) =
        (List.range total).filter m.should ++ (if m.should (total - 1) then [] else [total - 1]) := by
      obtain ⟨T, rfl⟩ : ∃ T, total = T + 1 := ⟨total - 1, by omega⟩
      rw [List.range_succ, List.filter_append, List.filter_append]
      have a1 : (List.range T).filter (fun i => decide ((∃ k, m.step = some k ∧ k ∣ i + 1) ∨ i + 1 = T + 1)) =
          (List.range T).filter m.should := by
        refine List.filter_congr ?_
        intro i hi
        have : i ≠ T := by have := List.mem_range.1 hi; omega
        rw [hsh i]
        simp [this]
      rw [a1, List.append_assoc]
      congr 1
      simp only [Nat.add_sub_cancel]
      by_cases hs : m.should T = true
      · simp [hs]
      · simp [hs]
    have hr : List.range' 0 total = List.range total := List.range_eq_range'.symm
    rw [hr] at e1
    unfold finish at hdone ⊢
    rw [if_pos hld] at hdone ⊢
    by_cases hs : m.should (total - 1) = true
    · obtain ⟨v, hv⟩ := e3 ht (by simpa using hs)
      have hv' : (applyAll lo.ops Dir.empty).progress = some (some (total - 1)) ∧
          (applyAll lo.ops Dir.empty).ckpt.contains (total - 1) = true := by
        simp only [Nat.zero_add] at hv
        unfold Dir.load at hv
        cases hp : (applyAll lo.ops Dir.empty).progress with
        | none => rw [hp] at hv; cases hv
        | some p =>
          cases p with
          | none => rw [hp] at hv; cases hv
          | some p =>
            rw [hp] at hv
            simp only at hv
            cases hrd : (applyAll lo.ops Dir.empty).read p with
            | error e => rw [hrd] at hv; cases hv
            | ok x =>
              rw [hrd] at hv
              cases hv
              refine ⟨rfl, ?_⟩
              unfold Dir.read at hrd
              unfold PyDict.contains
              cases hg : (applyAll lo.ops Dir.empty).ckpt.get? (total - 1) with
              | none => rw [hg] at hrd; cases hrd
              | some y => rfl
      have hmk : m.markOps (applyAll lo.ops Dir.empty) (total - 1) lo.state =
          .ok ([] ++ [.openComplete, .writeComplete (total - 1)]) := by
        simp [Manager.markOps, Manager.saveOps, hv'.1, hv'.2]
      rw [hmk, hsplit]
      simp only [hs, if_true]
      rw [written_append, e1]
      rfl
    · have hnc : (applyAll lo.ops Dir.empty).ckpt.contains (total - 1) = false := by
        cases hc : (applyAll lo.ops Dir.empty).ckpt.contains (total - 1) with
        | false => rfl
        | true =>
          rcases e2 _ ((PyDict.contains_iff _ _).1 hc) with h | h
          · simp [Dir.empty, PyDict.empty, PyDict.keys] at h
          · exact absurd h hs
      have hmk : m.markOps (applyAll lo.ops Dir.empty) (total - 1) lo.state =
          .ok (m.writeOps (applyAll lo.ops Dir.empty) (total - 1) lo.state ++ [.openComplete, .writeComplete (total - 1)]) := by
        simp [Manager.markOps, Manager.saveOps, hnc]
      rw [hmk, hsplit]
      simp only [hs]
      rw [written_append, e1, written_append, written_writeOps]
      rfl

example : ∃ o, session ⟨some 2, 1⟩ logTrial 5 Dir.empty = .ok o ∧ o.done = true ∧ written o.ops = [1, 3, 4] :=
  ⟨_, rfl, rfl, by decide +kernel⟩

end Verif.Props
