import Verif.Lemmas.CkptNames
import Verif.Props.Checkpoint
import Mathlib.Data.List.Infix
/-!
# C120: checkpoint files by name

The theorems C36-C38 speak of checkpoints by iteration number; here the same directory is a set of named files.
-/
set_option linter.unusedSectionVars false
set_option linter.unusedSimpArgs false
namespace Verif.Props
open Verif Verif.Ckpt Verif.Names

variable {S : Type}

/-! ### names and numbers -/

/-- C120: the name of a checkpoint determines its iteration and can be read back, for every number of digits; the names of different files of
a trial differ, and different trials have different directories -/
theorem C120_names :
    (∀ i, iterationOf (zstName i) = .ok i ∧ iterationOf (pklName i) = .ok i) ∧
    (∀ i j, zstName i = zstName j → i = j) ∧ (∀ i j, pklName i = pklName j → i = j) ∧ (∀ i j, zstName i ≠ pklName j) ∧
    (∀ i, zstName i ≠ progressName ∧ zstName i ≠ completeName ∧ pklName i ≠ progressName ∧ pklName i ≠ completeName) ∧
    ∀ a b a' b', trialPath a b = trialPath a' b' → a = a' ∧ b = b' := by
  refine ⟨fun i => ⟨iterationOf_zst i, iterationOf_pkl i⟩, fun _ _ => zst_inj, fun _ _ => pkl_inj, zst_ne_pkl,
    fun i => ⟨pre_not_progress _, pre_not_complete _, pre_not_progress _, pre_not_complete _⟩, ?_⟩
  intro a b a' b' h
  unfold trialPath at h
  injection h with h1 h2
  injection h2 with h2 _
  have h1 := List.append_cancel_left h1
  have h2 := List.append_cancel_left h2
  exact ⟨by rw [← Nat.ofDigitChars_ten_toDigits (n := a), h1, Nat.ofDigitChars_ten_toDigits],
    by rw [← Nat.ofDigitChars_ten_toDigits (n := b), h2, Nat.ofDigitChars_ten_toDigits]⟩

example : zstName 42 = "checkpoint_0000042.pkl.zst".toList := by decide +kernel
example : zstName 123456789 = "checkpoint_123456789.pkl.zst".toList := by decide +kernel
example : trialPath 3 11 = ["algorithm_3".toList, "trial_11".toList] := by decide +kernel

/-- SPEC: `checkpoint_`, some digits, `.pkl` or `.pkl.zst` -/
def IsCheckpointName (f : Name) (ds : Name) : Prop := ds ≠ [] ∧ (∀ c ∈ ds, c.isDigit = true) ∧ (f = pre ++ (ds ++ pkl) ∨ f = pre ++ (ds ++ zst))

theorem digits_of_takeWhile : ∀ (r : Name) (c : Char), c ∈ r.takeWhile Char.isDigit → c.isDigit = true
  | [], c, h => by cases h
  | a :: r, c, h => by
    rw [List.takeWhile_cons] at h
    split at h
    · rename_i ha
      rcases List.mem_cons.1 h with rfl | h
      · exact ha
      · exact digits_of_takeWhile r c h
    · cases h

/-- C120: of the files the clean-up looks at, exactly those with a number in their name have an iteration; any other makes it raise ValueError -/
theorem C120_numbers (f : Name) (hg : globs pkl f = true ∨ globs zst f = true) :
    (∀ ds, IsCheckpointName f ds → iterationOf f = .ok (Nat.ofDigitChars 10 ds 0)) ∧ ((∀ ds, ¬ IsCheckpointName f ds) → iterationOf f = .error .valueError) := by
  refine ⟨fun ds h => ?_, fun h => ?_⟩
  · obtain ⟨h1, h2, h3 | h3⟩ := h
    · rw [h3]; exact iterationOf_digits h2 h1 (.inl rfl)
    · rw [h3]; exact iterationOf_digits h2 h1 (.inr rfl)
  · have e : ∃ r x, f = pre ++ r ∧ r = x ∧ (pkl <:+ r ∨ zst <:+ r) := by
      rcases hg with hg | hg
      · obtain ⟨mid, rfl⟩ := (globs_iff _ _).1 hg
        exact ⟨_, _, rfl, rfl, .inl (List.suffix_append _ _)⟩
      · obtain ⟨mid, rfl⟩ := (globs_iff _ _).1 hg
        exact ⟨_, _, rfl, rfl, .inr (List.suffix_append _ _)⟩
    obtain ⟨r, _, rfl, _, hr⟩ := e
    unfold iterationOf
    rw [if_pos (List.isPrefixOf_iff_prefix.2 (List.prefix_append _ _)), List.drop_left]
    dsimp only
    rw [if_neg]
    rintro ⟨h1, h2⟩
    have hsplit : r = r.takeWhile Char.isDigit ++ r.dropWhile Char.isDigit := (List.takeWhile_append_dropWhile).symm
    have hd : ∀ c ∈ r.takeWhile Char.isDigit, c.isDigit = true := fun c hc => digits_of_takeWhile r c hc
    have nl : ∀ x : Name, r ≠ x ++ ['\n'] := by
      intro x hx
      have s2 : ['\n'] <:+ r := by rw [hx]; exact List.suffix_append _ _
      rcases hr with hr | hr
      · have := List.suffix_of_suffix_length_le s2 hr (by rw [pkl_eq]; decide)
        rw [pkl_eq] at this; revert this; decide
      · have := List.suffix_of_suffix_length_le s2 hr (by rw [zst_eq]; decide)
        rw [zst_eq] at this; revert this; decide
    rcases h2 with h2 | h2 | h2 | h2
    · exact h _ ⟨h1, hd, .inl (by rw [← h2, ← hsplit])⟩
    · exact h _ ⟨h1, hd, .inr (by rw [← h2, ← hsplit])⟩
    · refine nl (r.takeWhile Char.isDigit ++ pkl) ?_
      rw [List.append_assoc, ← h2, ← hsplit]
    · refine nl (r.takeWhile Char.isDigit ++ zst) ?_
      rw [List.append_assoc, ← h2, ← hsplit]

example : iterationOf "checkpoint_best.pkl".toList = .error .valueError := by decide +kernel
example : iterationOf "checkpoint_7.pkl".toList = .ok 7 := by decide +kernel

/-! ### the directory by numbers and by names -/

/-- SPEC: the named files are those of the numbered directory; beyond them there are only files `u` the clean-up does not look at -/
structure Mirrors (u : Name → Option (Option (Body S))) (f : Folder S) (d : Dir S) : Prop where
  wf : f.WF
  dwf : d.ckpt.WF
  ckpt : ∀ i, f.get? (zstName i) = (d.ckpt.get? i).map (Option.map Body.state)
  progress : f.get? progressName = d.progress.map (Option.map Body.progress)
  complete : f.get? completeName = d.complete.map (Option.map fun i => Body.complete (zstName i))
  own : ∀ n ∈ f.keys, (globs pkl n = true ∨ globs zst n = true) → ∃ i, n = zstName i
  others : ∀ n, (∀ i, n ≠ zstName i) → n ≠ progressName → n ≠ completeName → f.get? n = u n

/-- an operation on the numbered directory, by name -/
def opOf : FsOp S → Names.Op S
  | .openCkpt i => .openFile (zstName i)
  | .writeCkpt i s => .write (zstName i) (.state s)
  | .openProgress => .openFile progressName
  | .writeProgress i => .write progressName (.progress i)
  | .unlink i => .unlink (zstName i)
  | .openComplete => .openFile completeName
  | .writeComplete i => .write completeName (.complete (zstName i))

theorem mirrors_set {u : Name → Option (Option (Body S))} {f : Folder S} {d : Dir S} (h : Mirrors u f d) (i : Nat) (o : Option S) :
    Mirrors u (f.set (zstName i) (o.map Body.state)) { d with ckpt := d.ckpt.set i o } where
  wf := PyDict.wf_set _ _ _ h.wf
  dwf := PyDict.wf_set _ _ _ h.dwf
  ckpt j := by
    rw [PyDict.get?_set, PyDict.get?_set]
    by_cases hj : j = i
    · subst hj; simp
    · have : zstName j ≠ zstName i := fun e => hj (zst_inj e)
      have h2 : ¬ (i = j) := fun e => hj e.symm
      have h3 : ¬ (zstName i = zstName j) := fun e => this e.symm
      simp [hj, h2, h3, this, h.ckpt j]
  progress := by
    rw [PyDict.get?_set]
    have h1 : zstName i ≠ progressName := pre_not_progress _
    simp [h1, h1.symm, h.progress]
  complete := by
    rw [PyDict.get?_set]
    have h1 : zstName i ≠ completeName := pre_not_complete _
    simp [h1, h1.symm, h.complete]
  own n hn hg := by
    rw [PyDict.keys_set] at hn
    split at hn
    · exact h.own n hn hg
    · rcases List.mem_append.1 hn with hn | hn
      · exact h.own n hn hg
      · exact ⟨i, List.mem_singleton.1 hn⟩
  others n h1 h2 h3 := by
    rw [PyDict.get?_set]
    have h4 := h1 i
    have h5 : zstName i ≠ n := fun e => h4 e.symm
    simp [h4, h5, h.others n h1 h2 h3]

theorem mirrors_pop {u : Name → Option (Option (Body S))} {f : Folder S} {d : Dir S} (h : Mirrors u f d) (i : Nat) :
    Mirrors u (f.pop (zstName i)) { d with ckpt := d.ckpt.pop i } where
  wf := PyDict.wf_pop _ _ h.wf
  dwf := PyDict.wf_pop _ _ h.dwf
  ckpt j := by
    rw [PyDict.get?_pop, PyDict.get?_pop]
    by_cases hj : j = i
    · subst hj; simp
    · have : zstName j ≠ zstName i := fun e => hj (zst_inj e)
      have h2 : ¬ (i = j) := fun e => hj e.symm
      have h3 : ¬ (zstName i = zstName j) := fun e => this e.symm
      simp [hj, h2, h3, this, h.ckpt j]
  progress := by
    rw [PyDict.get?_pop]
    have h1 : zstName i ≠ progressName := pre_not_progress _
    simp [h1, h1.symm, h.progress]
  complete := by
    rw [PyDict.get?_pop]
    have h1 : zstName i ≠ completeName := pre_not_complete _
    simp [h1, h1.symm, h.complete]
  own n hn hg := by
    rw [PyDict.keys_pop] at hn
    exact h.own n (List.mem_of_mem_filter hn) hg
  others n h1 h2 h3 := by
    rw [PyDict.get?_pop]
    have h4 := h1 i
    have h5 : zstName i ≠ n := fun e => h4 e.symm
    simp [h4, h5, h.others n h1 h2 h3]

theorem own_set {f : Folder S} {k : Name} {v : Option (Body S)} (hk : globs pkl k = false ∧ globs zst k = false)
    (h : ∀ n ∈ f.keys, (globs pkl n = true ∨ globs zst n = true) → ∃ i, n = zstName i) :
    ∀ n ∈ (f.set k v).keys, (globs pkl n = true ∨ globs zst n = true) → ∃ i, n = zstName i := by
  intro n hn hg
  rw [PyDict.keys_set] at hn
  split at hn
  · exact h n hn hg
  · rcases List.mem_append.1 hn with hn | hn
    · exact h n hn hg
    · rw [List.mem_singleton.1 hn] at hg
      rw [hk.1, hk.2] at hg
      rcases hg with hg | hg <;> cases hg

theorem mirrors_progress {u : Name → Option (Option (Body S))} {f : Folder S} {d : Dir S} (h : Mirrors u f d) (o : Option Nat) :
    Mirrors u (f.set progressName (o.map Body.progress)) { d with progress := some o } where
  wf := PyDict.wf_set _ _ _ h.wf
  dwf := h.dwf
  ckpt j := by
    rw [PyDict.get?_set]
    have h1 : zstName j ≠ progressName := pre_not_progress _
    simp [h1, h1.symm, h.ckpt j]
  progress := by rw [PyDict.get?_set]; simp
  complete := by
    rw [PyDict.get?_set]
    simp [progress_ne_complete, progress_ne_complete.symm, h.complete]
  own := own_set ⟨globs_progress _, globs_progress _⟩ h.own
  others n h1 h2 h3 := by
    rw [PyDict.get?_set]
    have h5 : progressName ≠ n := fun e => h2 e.symm
    simp [h2, h5, h.others n h1 h2 h3]

theorem mirrors_complete {u : Name → Option (Option (Body S))} {f : Folder S} {d : Dir S} (h : Mirrors u f d) (o : Option Nat) :
    Mirrors u (f.set completeName (o.map fun i => Body.complete (zstName i))) { d with complete := some o } where
  wf := PyDict.wf_set _ _ _ h.wf
  dwf := h.dwf
  ckpt j := by
    rw [PyDict.get?_set]
    have h1 : zstName j ≠ completeName := pre_not_complete _
    simp [h1, h1.symm, h.ckpt j]
  progress := by
    rw [PyDict.get?_set]
    simp [progress_ne_complete, progress_ne_complete.symm, h.progress]
  complete := by rw [PyDict.get?_set]; simp
  own := own_set ⟨globs_complete _, globs_complete _⟩ h.own
  others n h1 h2 h3 := by
    rw [PyDict.get?_set]
    have h5 : completeName ≠ n := fun e => h3 e.symm
    simp [h3, h5, h.others n h1 h2 h3]

theorem mirrors_apply {u : Name → Option (Option (Body S))} {f : Folder S} {d : Dir S} (h : Mirrors u f d) (o : FsOp S) :
    Mirrors u ((opOf o).apply f) (o.apply d) := by
  cases o with
  | openCkpt i => exact mirrors_set h i none
  | writeCkpt i s => exact mirrors_set h i (some s)
  | openProgress => exact mirrors_progress h none
  | writeProgress i => exact mirrors_progress h (some i)
  | unlink i => exact mirrors_pop h i
  | openComplete => exact mirrors_complete h none
  | writeComplete i => exact mirrors_complete h (some i)

theorem mirrors_all {u : Name → Option (Option (Body S))} (l : List (FsOp S)) : ∀ {f : Folder S} {d : Dir S}, Mirrors u f d →
    Mirrors u (applyOps (l.map opOf) f) (applyAll l d) := by
  induction l with
  | nil => intro f d h; exact h
  | cons o l ih => intro f d h; exact ih (mirrors_apply h o)

/-- SPEC: a glob lists every file once, in some order -/
def Lists (scan : List Name → List Name) : Prop := ∀ l, (scan l).Perm l

theorem mapM_ok_of {α β : Type} (g : α → Py β) (v : α → β) : ∀ l : List α, (∀ a ∈ l, g a = .ok (v a)) → l.mapM g = .ok (l.map v)
  | [], _ => rfl
  | a :: l, h => by
    rw [List.mapM_cons, h a List.mem_cons_self, mapM_ok_of g v l fun b hb => h b (List.mem_cons_of_mem _ hb)]
    rfl

theorem mirrors_stale {u : Name → Option (Option (Body S))} {f : Folder S} {d : Dir S} (h : Mirrors u f d) (m : Manager) {scan : List Name → List Name} (hs : Lists scan) :
    Names.stale m scan f = .ok ((m.stale d).map zstName) := by
  have e1 : (scan f.keys).filter (globs pkl) = [] := by
    rw [List.filter_eq_nil_iff]
    intro n hn hg
    obtain ⟨i, rfl⟩ := h.own n ((hs _).mem_iff.1 hn) (.inl hg)
    rw [globs_pkl_zst] at hg; cases hg
  have mem : ∀ n, n ∈ (scan f.keys).filter (globs zst) ↔ ∃ i, i ∈ d.ckpt.keys ∧ zstName i = n := by
    intro n
    rw [List.mem_filter, (hs _).mem_iff]
    constructor
    · rintro ⟨h1, h2⟩
      obtain ⟨i, rfl⟩ := h.own n h1 (.inr h2)
      refine ⟨i, ?_, rfl⟩
      rw [PyDict.mem_keys_iff] at h1 ⊢
      rw [h.ckpt i] at h1
      cases hc : d.ckpt.get? i
      · rw [hc] at h1; cases h1
      · rfl
    · rintro ⟨i, hi, rfl⟩
      refine ⟨?_, globs_zst i⟩
      rw [PyDict.mem_keys_iff] at hi ⊢
      rw [h.ckpt i]
      cases hc : d.ckpt.get? i
      · rw [hc] at hi; cases hi
      · rfl
  have nd : ((scan f.keys).filter (globs zst)).Nodup := ((hs _).nodup_iff.2 h.wf).filter _
  have nd2 : (d.ckpt.keys.map zstName).Nodup := List.Nodup.map (fun _ _ => zst_inj) h.dwf
  have perm : ((scan f.keys).filter (globs zst)).Perm (d.ckpt.keys.map zstName) :=
    (List.perm_ext_iff_of_nodup nd nd2).2 fun n => by rw [mem n, List.mem_map]
  unfold Names.stale
  dsimp only
  rw [e1, List.nil_append]
  obtain ⟨num, hnum⟩ : ∃ num : Name → Nat, ∀ i, num (zstName i) = i := by
    refine ⟨fun f => match iterationOf f with | .ok i => i | .error _ => 0, fun i => ?_⟩
    simp only [iterationOf_zst]
  rw [mapM_ok_of _ (fun n => (num n, n))]
  · dsimp only
    have p2 : (((scan f.keys).filter (globs zst)).map fun n => (num n, n)).Perm (d.ckpt.keys.map fun i => (i, zstName i)) := by
      have := perm.map fun n => (num n, n)
      rw [List.map_map] at this
      refine this.trans (List.Perm.of_eq (List.map_congr_left fun i _ => ?_))
      simp [hnum i]
    rw [sorted_names zstName _ h.dwf _ p2]
    unfold Manager.stale
    rw [← List.map_drop, List.map_map]
    rfl
  · intro n hn
    obtain ⟨i, _, rfl⟩ := (mem n).1 hn
    rw [iterationOf_zst, hnum]
    rfl

theorem mirrors_write {u : Name → Option (Option (Body S))} {f : Folder S} {d : Dir S} (h : Mirrors u f d) (m : Manager) {scan : List Name → List Name} (hs : Lists scan)
    (i : Nat) (s : S) : Names.writeFiles m scan f i s = ⟨(m.writeOps d i s).map opOf, none⟩ := by
  have h2 : Mirrors u (applyOps [.openFile (zstName i), .write (zstName i) (.state s), .openFile progressName, .write progressName (.progress i)] f)
      (applyAll [.openCkpt i, .writeCkpt i s, .openProgress, .writeProgress i] d) := mirrors_all [.openCkpt i, .writeCkpt i s, .openProgress, .writeProgress i] h
  unfold Names.writeFiles Manager.writeOps
  dsimp only
  rw [mirrors_stale h2 m hs]
  dsimp only
  rw [List.map_append, List.map_map, List.map_map]
  rfl

/-- what a save did, when the numbered model says `r` -/
def didOf : Py (List (FsOp S)) → Names.Did S
  | .ok l => ⟨l.map opOf, none⟩
  | .error e => ⟨[], some e⟩

theorem mirrors_save {u : Name → Option (Option (Body S))} {f : Folder S} {d : Dir S} (h : Mirrors u f d) (m : Manager) {scan : List Name → List Name} (hs : Lists scan)
    (i : Nat) (s : S) : Names.save m scan f i s = didOf (m.saveOps d i s) := by
  unfold Names.save Manager.saveOps
  have c1 : f.contains (zstName i) = d.ckpt.contains i := by
    unfold PyDict.contains; rw [h.ckpt i, Option.isSome_map]
  have c2 : f.contains progressName = d.progress.isSome := by
    unfold PyDict.contains; rw [h.progress, Option.isSome_map]
  rw [c1, c2, h.progress, mirrors_write h m hs]
  cases hc : d.ckpt.contains i
  · rfl
  · cases hp : d.progress with
    | none => rfl
    | some o =>
      cases o with
      | none => rfl
      | some p =>
        simp only [Option.isSome_some, Bool.and_self, if_true, Option.map_some]
        by_cases hpi : p = i
        · rw [if_pos hpi, if_pos hpi]; rfl
        · rw [if_neg hpi, if_neg hpi]; rfl

theorem mirrors_mark {u : Name → Option (Option (Body S))} {f : Folder S} {d : Dir S} (h : Mirrors u f d) (m : Manager) {scan : List Name → List Name} (hs : Lists scan)
    (i : Nat) (s : S) : Names.mark m scan f i s = didOf (m.markOps d i s) := by
  unfold Names.mark Manager.markOps
  rw [mirrors_save h m hs]
  cases m.saveOps d i s with
  | error e => rfl
  | ok l => simp [didOf, opOf]

theorem mirrors_read {u : Name → Option (Option (Body S))} {f : Folder S} {d : Dir S} (h : Mirrors u f d) (i : Nat) : Names.readState f (zstName i) = d.read i := by
  unfold Names.readState Dir.read
  rw [h.ckpt i]
  rcases d.ckpt.get? i with _ | _ | s <;> rfl

theorem mirrors_resolve {u : Name → Option (Option (Body S))} {f : Folder S} {d : Dir S} (h : Mirrors u f d) (i : Nat) : Names.resolve f i = zstName i := by
  unfold Names.resolve
  have : f.contains (pklName i) = false := by
    cases hc : f.contains (pklName i)
    · rfl
    · obtain ⟨j, hj⟩ := h.own _ ((PyDict.contains_iff _ _).1 hc) (.inl (globs_pkl i))
      exact (zst_ne_pkl j i hj.symm).elim
  rw [this]
  split <;> rfl

theorem mirrors_load {u : Name → Option (Option (Body S))} {f : Folder S} {d : Dir S} (h : Mirrors u f d) : Names.load f = d.load := by
  unfold Names.load Dir.load
  rw [h.progress]
  rcases d.progress with _ | _ | p
  · rfl
  · rfl
  · simp only [Option.map_some]
    rw [mirrors_resolve h, mirrors_read h]
    cases d.read p <;> rfl

theorem mirrors_result {u : Name → Option (Option (Body S))} {f : Folder S} {d : Dir S} (h : Mirrors u f d) : Names.result f = d.result := by
  unfold Names.result Dir.result
  rw [h.complete]
  rcases d.complete with _ | _ | p
  · rfl
  · rfl
  · simp only [Option.map_some]
    rw [mirrors_read h]

/-- a run by name, from a run by number -/
def ranOf (o : Outcome S) : Names.Ran S := ⟨o.ops.map opOf, o.state, o.done⟩

theorem mirrors_loop {u : Name → Option (Option (Body S))} (m : Manager) {scan : List Name → List Name} (hs : Lists scan) (t : Trial S) (total : Nat) :
    ∀ (n k : Nat) (s : S) {f : Folder S} {d : Dir S}, Mirrors u f d → Names.loop m scan t total n k s f = ranOf (Ckpt.loop m t total n k s d) := by
  intro n
  induction n with
  | zero => intro k s f d h; rfl
  | succ n ih =>
    intro k s f d h
    unfold Names.loop Ckpt.loop
    dsimp only
    by_cases hb : (t.body total k s).2 = true
    · rw [if_pos hb, if_pos hb]; rfl
    · rw [if_neg hb, if_neg hb]
      by_cases hk : m.should k = true
      · rw [if_pos hk, if_pos hk, mirrors_save h m hs]
        cases m.saveOps d k (t.body total k s).1 with
        | error e => rfl
        | ok l =>
          simp only [didOf]
          rw [ih (k + 1) _ (mirrors_all l h)]
          simp [ranOf]
      · rw [if_neg hk, if_neg hk]
        exact ih (k + 1) _ h

theorem mirrors_finish {u : Name → Option (Option (Body S))} (m : Manager) {scan : List Name → List Name} (hs : Lists scan) (t : Trial S) (total : Nat)
    {f : Folder S} {d : Dir S} (h : Mirrors u f d) (o : Outcome S) : Names.finish m scan t total f (ranOf o) = ranOf (Ckpt.finish m t total d o) := by
  unfold Names.finish Ckpt.finish
  by_cases hd : o.done = true
  · rw [if_pos hd, if_pos (show (ranOf o).done = true from hd)]
    dsimp only
    rw [mirrors_mark (mirrors_all o.ops h) m hs (f := applyOps (ranOf o).ops f)]
    rw [show (ranOf o).state = o.state from rfl]
    cases m.markOps (applyAll o.ops d) (total - 1) o.state with
    | error e => simp [didOf, ranOf]
    | ok l => simp [didOf, ranOf]
  · rw [if_neg hd, if_neg (show ¬ (ranOf o).done = true from hd)]

theorem mirrors_session {u : Name → Option (Option (Body S))} (m : Manager) {scan : List Name → List Name} (hs : Lists scan) (t : Trial S) (total : Nat)
    {f : Folder S} {d : Dir S} (h : Mirrors u f d) : Names.session m scan t total f = (Ckpt.session m t total d).map ranOf := by
  unfold Names.session Ckpt.session
  have c : f.contains completeName = d.complete.isSome := by
    unfold PyDict.contains; rw [h.complete, Option.isSome_map]
  rw [c, mirrors_result h]
  by_cases hd : d.complete.isSome = true
  · rw [if_pos hd, if_pos hd]
    cases d.result <;> rfl
  · rw [if_neg hd, if_neg hd]
    unfold Names.runTrial Ckpt.runTrial
    rw [mirrors_load h]
    cases hl : d.load with
    | error e => rfl
    | ok v =>
      rcases v with _ | ⟨p, s⟩
      · dsimp only
        by_cases hf : (t.setup t.fresh).2 = true
        · rw [if_pos hf, if_pos hf]; rfl
        · rw [if_neg hf, if_neg hf, mirrors_loop m hs t total _ _ _ h, mirrors_finish m hs t total h]; rfl
      · dsimp only
        by_cases hf : total < p + 1
        · rw [if_pos hf, if_pos hf]; rfl
        · rw [if_neg hf, if_neg hf, mirrors_loop m hs t total _ _ _ h, mirrors_finish m hs t total h]; rfl

/-- C120: whatever the order in which directories are listed and however many digits the numbers have, any history of killed and resumed sessions does
to the named files what the numbered model does, ends the same way, and does not touch other files -/
theorem C120_histories {u : Name → Option (Option (Body S))} (m : Manager) {scan : List Name → List Name} (hs : Lists scan) (t : Trial S) (total : Nat) (cs : List Nat)
    {f : Folder S} {d : Dir S} (h : Mirrors u f d) :
    (∀ e, Ckpt.crashes m t total cs d = .error e → Names.crashes m scan t total cs f = .error e) ∧
    ∀ d', Ckpt.crashes m t total cs d = .ok d' → ∃ f', Names.crashes m scan t total cs f = .ok f' ∧ Mirrors u f' d' ∧
      Names.session m scan t total f' = (Ckpt.session m t total d').map ranOf ∧ Names.load f' = d'.load ∧ Names.result f' = d'.result := by
  induction cs generalizing f d with
  | nil =>
    refine ⟨fun e he => (by cases he), fun d' hd' => ?_⟩
    cases hd'
    exact ⟨f, rfl, h, mirrors_session m hs t total h, mirrors_load h, mirrors_result h⟩
  | cons c cs ih =>
    unfold Ckpt.crashes Names.crashes Ckpt.crash
    rw [mirrors_session m hs t total h]
    cases Ckpt.session m t total d with
    | error e => exact ⟨fun e' he => by cases he; rfl, fun d' hd' => by cases hd'⟩
    | ok o =>
      have : Mirrors u (applyOps ((ranOf o).ops.take c) f) (applyAll (o.ops.take c) d) := by
        have := mirrors_all (o.ops.take c) h
        rwa [List.map_take] at this
      exact ih this

/-- C120: so, started in a directory with no checkpoint files, a trial resumed after kills outside the write windows leaves files from which
`load_trial_result` reads what an uninterrupted trial computes -/
theorem C120_crash_resume (m : Manager) (hk : 0 < m.keep) {scan : List Name → List Name} (hs : Lists scan) (t : Trial S) (hm : ∀ k s, t.metric k s = s) (total : Nat)
    (ht : 0 < total) (cs : List Nat) (safe : SafeCrashes m t total cs Dir.empty) (f : Folder S) (hwf : f.WF)
    (clean : ∀ n ∈ f.keys, globs pkl n = false ∧ globs zst n = false ∧ n ≠ progressName ∧ n ≠ completeName) :
    ∃ f' o, Names.crashes m scan t total cs f = .ok f' ∧ Names.session m scan t total f' = .ok o ∧ o.done = !(Ckpt.straight t total total).2 ∧
      (o.done = true → Names.result (applyOps o.ops f') = .ok (Ckpt.straight t total total).1) ∧ ∀ n ∈ f.keys, (applyOps o.ops f').get? n = f.get? n := by
  have none_of : ∀ n, n ∉ f.keys → f.get? n = none := by
    intro n hn
    cases hg : f.get? n
    · rfl
    · exact (hn ((PyDict.mem_keys_iff _ _).2 (by rw [hg]; rfl))).elim
  have h0 : Mirrors f.get? f Dir.empty := by
    refine ⟨hwf, PyDict.wf_empty, fun i => ?_, ?_, ?_, ?_, fun _ _ _ _ => rfl⟩
    · rw [none_of _ fun hn => by have := (clean _ hn).2.1; rw [globs_zst] at this; cases this]; rfl
    · rw [none_of _ fun hn => (clean _ hn).2.2.1 rfl]; rfl
    · rw [none_of _ fun hn => (clean _ hn).2.2.2 rfl]; rfl
    · intro n hn hg
      rw [(clean n hn).1, (clean n hn).2.1] at hg
      rcases hg with hg | hg <;> cases hg
  obtain ⟨d, o, h1, h2, h3, h4, h5⟩ := C36_crash_resume m hk t hm total ht cs safe
  obtain ⟨f', hf', hh, hses, _, _⟩ := (C120_histories m hs t total cs h0).2 d h1
  refine ⟨f', ranOf o, hf', by rw [hses, h2]; rfl, h3, fun hd => ?_, fun n hn => ?_⟩
  · have := mirrors_all o.ops hh
    exact (mirrors_result this).trans (h5 hd)
  · have := mirrors_all o.ops hh
    refine this.others n (fun i e => ?_) (clean n hn).2.2.1 (clean n hn).2.2.2
    have := (clean n hn).2.1
    rw [e, globs_zst] at this; cases this

/-- C120: the files kept are the newest by number, not by name -/
theorem C120_newest {u : Name → Option (Option (Body S))} (m : Manager) (hk : 0 < m.keep) {scan : List Name → List Name} (hs : Lists scan) {f : Folder S} {d : Dir S} (h : Mirrors u f d)
    (i : Nat) (s : S) :
    let after := applyOps (Names.writeFiles m scan f i s).ops f
    (Names.writeFiles m scan f i s).err = none ∧
    ∀ j j', zstName j ∈ f.keys ∨ j = i → zstName j ∉ after.keys → zstName j' ∈ after.keys → j < j' := by
  intro after
  rw [show Names.writeFiles m scan f i s = _ from mirrors_write h m hs i s] at *
  refine ⟨rfl, ?_⟩
  have hh : Mirrors u after (applyAll (m.writeOps d i s) d) := by
    have := mirrors_all (m.writeOps d i s) h
    show Mirrors u (applyOps (Names.writeFiles m scan f i s).ops f) _
    rw [mirrors_write h m hs]
    exact this
  have key : ∀ {g : Folder S} {e : Dir S}, Mirrors u g e → ∀ j, zstName j ∈ g.keys ↔ j ∈ e.ckpt.keys := by
    intro g e hg j
    rw [PyDict.mem_keys_iff, PyDict.mem_keys_iff, hg.ckpt j, Option.isSome_map]
  obtain ⟨_, _, h3⟩ := C38_retention m hk d h.dwf i s
  intro j j' hj hja hj'
  rw [key hh] at hja hj'
  refine h3 j ?_ hja j' hj'
  rw [key h] at hj
  by_cases hi : i ∈ d.ckpt.keys
  · rw [if_pos hi]
    rcases hj with hj | rfl
    · exact hj
    · exact hi
  · rw [if_neg hi]
    rcases hj with hj | rfl
    · exact List.mem_append_left _ hj
    · exact List.mem_append_right _ List.mem_cons_self

/-! ### files of older versions -/

/-- C120: `load_checkpoint` reads the recorded checkpoint from the `.pkl` file when there is no `.pkl.zst` file, and prefers the latter -/
theorem C120_legacy_load (f : Folder S) (p : Nat) (hp : f.get? progressName = some (some (.progress p))) (s : S) :
    (f.get? (zstName p) = none → f.get? (pklName p) = some (some (.state s)) → Names.load f = .ok (some (p, s))) ∧
    (f.get? (zstName p) = some (some (.state s)) → Names.load f = .ok (some (p, s))) := by
  unfold Names.load Names.resolve PyDict.contains Names.readState
  constructor
  · intro h1 h2
    simp [hp, h1, h2]
  · intro h1
    simp [hp, h1]

/-- SPEC: the directory an older version left when it was killed after saving its last checkpoint and before marking the trial complete -/
structure LegacyEnd (f : Folder S) (p : Nat) (s : S) : Prop where
  wf : f.WF
  files : ∀ n ∈ f.keys, (globs pkl n = true ∨ globs zst n = true) → ∃ i, i ≤ p ∧ n = pklName i
  last : f.get? (pklName p) = some (some (.state s))
  progress : f.get? progressName = some (some (.progress p))
  open_ : f.get? completeName = none

theorem second_of_pair {α : Type} {a b : α} : ∀ {l : List α}, [a, b].Sublist l → b ∈ l.drop 1
  | _, .cons x h => by
    have := h.subset (List.mem_cons_of_mem _ List.mem_cons_self)
    simpa using this
  | _, .cons_cons x h => by
    have := h.subset List.mem_cons_self
    simpa using this

/-- what the clean-up finds after the trial's last state was saved again under the new name -/
theorem legacy_keyed {f : Folder S} {p : Nat} {s : S} (h : LegacyEnd f p s) (m : Manager) {scan : List Name → List Name} (hs : Lists scan) (s' : S) :
    ∃ keyed : List (Nat × Name), Names.stale m scan (applyOps [.openFile (zstName p), .write (zstName p) (.state s'), .openFile progressName, .write progressName (.progress p)] f)
        = .ok (((pySorted (fun a b => decide (b.1 ≤ a.1)) keyed).drop m.keep).map Prod.snd) ∧ [(p, pklName p), (p, zstName p)].Sublist keyed ∧ keyed.Nodup ∧
      (∀ e ∈ keyed, e.1 ≤ p ∧ (e.1 = p → e = (p, pklName p) ∨ e = (p, zstName p))) ∧ ∀ e ∈ keyed, e.2 = zstName p → e = (p, zstName p) := by
  obtain ⟨g, hg⟩ : ∃ g, g = applyOps [.openFile (zstName p), .write (zstName p) (.state s'), .openFile progressName, .write progressName (.progress p)] f := ⟨_, rfl⟩
  have hkeys : ∀ n, n ∈ g.keys ↔ n ∈ f.keys ∨ n = zstName p ∨ n = progressName := by
    intro n
    rw [hg]
    show n ∈ ((((f.set (zstName p) none).set (zstName p) (some (.state s'))).set progressName none).set progressName (some (.progress p))).keys ↔ _
    rw [PyDict.mem_keys_iff, PyDict.get?_set, PyDict.get?_set, PyDict.get?_set, PyDict.get?_set, PyDict.mem_keys_iff]
    by_cases h1 : n = progressName
    · simp [h1]
    · by_cases h2 : n = zstName p
      · have e3 : zstName p ≠ progressName := pre_not_progress _
        simp [h2, e3, e3.symm]
      · have h3 : ¬ progressName = n := fun e => h1 e.symm
        have h4 : ¬ zstName p = n := fun e => h2 e.symm
        simp [h1, h2, h3, h4]
  have gwf : g.WF := by
    rw [hg]
    exact PyDict.wf_set _ _ _ (PyDict.wf_set _ _ _ (PyDict.wf_set _ _ _ (PyDict.wf_set _ _ _ h.wf)))
  rw [← hg]
  obtain ⟨A, hA⟩ : ∃ A, A = (scan g.keys).filter (globs pkl) := ⟨_, rfl⟩
  obtain ⟨B, hB⟩ : ∃ B, B = (scan g.keys).filter (globs zst) := ⟨_, rfl⟩
  have mA : ∀ n, n ∈ A → ∃ i, i ≤ p ∧ n = pklName i := by
    intro n hn
    rw [hA, List.mem_filter, (hs _).mem_iff, hkeys] at hn
    rcases hn with ⟨hn | hn | hn, h2⟩
    · exact h.files n hn (.inl h2)
    · rw [hn, globs_pkl_zst] at h2; cases h2
    · rw [hn, globs_progress] at h2; cases h2
  have mB : ∀ n, n ∈ B → n = zstName p := by
    intro n hn
    rw [hB, List.mem_filter, (hs _).mem_iff, hkeys] at hn
    rcases hn with ⟨hn | hn | hn, h2⟩
    · obtain ⟨i, _, rfl⟩ := h.files n hn (.inr h2)
      rw [globs_zst_pkl] at h2; cases h2
    · exact hn
    · rw [hn, globs_progress] at h2; cases h2
  have pA : pklName p ∈ A := by
    rw [hA, List.mem_filter, (hs _).mem_iff, hkeys]
    exact ⟨.inl ((PyDict.mem_keys_iff _ _).2 (by rw [h.last]; rfl)), globs_pkl p⟩
  have zB : zstName p ∈ B := by
    rw [hB, List.mem_filter, (hs _).mem_iff, hkeys]
    exact ⟨.inr (.inl rfl), globs_zst p⟩
  have nA : A.Nodup := by rw [hA]; exact ((hs _).nodup_iff.2 gwf).filter _
  have nB : B.Nodup := by rw [hB]; exact ((hs _).nodup_iff.2 gwf).filter _
  obtain ⟨num, hn1, hn2⟩ : ∃ num : Name → Nat, (∀ i, num (pklName i) = i) ∧ ∀ i, num (zstName i) = i :=
    ⟨fun f => match iterationOf f with | .ok i => i | .error _ => 0, fun i => by simp only [iterationOf_pkl], fun i => by simp only [iterationOf_zst]⟩
  refine ⟨(A ++ B).map fun n => (num n, n), ?_, ?_, ?_, ?_, ?_⟩
  · unfold Names.stale
    dsimp only
    rw [← hA, ← hB, mapM_ok_of _ (fun n => (num n, n))]
    intro n hn
    rcases List.mem_append.1 hn with hn | hn
    · obtain ⟨i, _, rfl⟩ := mA n hn
      rw [iterationOf_pkl, hn1]; rfl
    · rw [mB n hn, iterationOf_zst, hn2]; rfl
  · have : [pklName p, zstName p].Sublist (A ++ B) := List.Sublist.append (List.singleton_sublist.2 pA) (List.singleton_sublist.2 zB)
    have := this.map fun n => (num n, n)
    simpa [hn1, hn2] using this
  · refine List.Nodup.map (fun a b hab => (Prod.ext_iff.1 hab).2) ?_
    refine nA.append nB fun n h1 h2 => ?_
    obtain ⟨i, _, rfl⟩ := mA n h1
    exact zst_ne_pkl p i (mB _ h2).symm
  · intro e he
    obtain ⟨n, hn, rfl⟩ := List.mem_map.1 he
    rcases List.mem_append.1 hn with hn | hn
    · obtain ⟨i, hi, rfl⟩ := mA n hn
      dsimp only
      rw [hn1]
      exact ⟨hi, fun e => .inl (by rw [e])⟩
    · rw [mB n hn]
      dsimp only
      rw [hn2]
      exact ⟨Nat.le_refl _, fun _ => .inr rfl⟩
  · intro e he hez
    obtain ⟨n, hn, rfl⟩ := List.mem_map.1 he
    dsimp only at hez
    rw [hez, hn2]

theorem unlinked_gone (gone : List Name) (n : Name) : ∀ g : Folder S, n ∈ gone → (applyOps (gone.map .unlink) g).get? n = none := by
  have stay : ∀ (l : List Name) (g : Folder S), g.get? n = none → (applyOps (l.map .unlink) g).get? n = none := by
    intro l
    induction l with
    | nil => intro g h; exact h
    | cons a l ih =>
      intro g h
      refine ih _ ?_
      show (g.pop a).get? n = none
      rw [PyDict.get?_pop]
      split <;> simp [h]
  induction gone with
  | nil => intro g h; cases h
  | cons a l ih =>
    intro g h
    rcases List.mem_cons.1 h with rfl | h
    · refine stay l _ ?_
      show (g.pop n).get? n = none
      rw [PyDict.get?_pop]; simp
    · exact ih _ h

theorem unlinked_kept (gone : List Name) (n : Name) : ∀ g : Folder S, n ∉ gone → (applyOps (gone.map .unlink) g).get? n = g.get? n := by
  induction gone with
  | nil => intro g _; rfl
  | cons a l ih =>
    intro g h
    have h1 : ¬ n = a := fun e => h (by rw [e]; exact List.mem_cons_self)
    have h2 : ¬ a = n := fun e => h1 e.symm
    refine (ih _ fun hn => h (List.mem_cons_of_mem _ hn)).trans ?_
    show (g.pop a).get? n = _
    rw [PyDict.get?_pop]
    simp [h1, h2]

/-- what a resumed session does to such a directory -/
theorem legacy_session {f : Folder S} {p : Nat} {s : S} (h : LegacyEnd f p s) (m : Manager) {scan : List Name → List Name} (hs : Lists scan) (t : Trial S) :
    ∃ gone : List Name, Names.session m scan t (p + 1) f = .ok ⟨[.openFile (zstName p), .write (zstName p) (.state s), .openFile progressName, .write progressName (.progress p)] ++
        gone.map .unlink ++ [.openFile completeName, .write completeName (.complete (zstName p))], t.tidy s, true⟩ ∧
      (m.keep = 1 → zstName p ∈ gone) ∧ (2 ≤ m.keep → zstName p ∉ gone) := by
  have hz : f.get? (zstName p) = none := by
    cases hc : f.get? (zstName p)
    · rfl
    · obtain ⟨i, _, hi⟩ := h.files (zstName p) ((PyDict.mem_keys_iff _ _).2 (by rw [hc]; rfl)) (.inr (globs_zst p))
      exact (zst_ne_pkl p i hi).elim
  obtain ⟨keyed, h1, h2, h3, h4, h5⟩ := legacy_keyed h m hs s
  refine ⟨((pySorted (fun a b => decide (b.1 ≤ a.1)) keyed).drop m.keep).map Prod.snd, ?_, ?_, ?_⟩
  · have hl := (C120_legacy_load f p h.progress s).1 hz h.last
    have hsave : Names.save m scan f p s = ⟨[.openFile (zstName p), .write (zstName p) (.state s), .openFile progressName, .write progressName (.progress p)] ++
        (((pySorted (fun a b => decide (b.1 ≤ a.1)) keyed).drop m.keep).map Prod.snd).map .unlink, none⟩ := by
      unfold Names.save PyDict.contains
      rw [hz]
      simp only [Option.isSome_none, Bool.false_and, Bool.false_eq_true, if_false]
      unfold Names.writeFiles
      dsimp only
      rw [h1]
    unfold Names.session PyDict.contains
    rw [h.open_]
    simp only [Option.isSome_none, Bool.false_eq_true, if_false]
    unfold Names.runTrial
    rw [hl]
    dsimp only
    rw [if_neg (by omega), Nat.sub_self]
    unfold Names.loop Names.finish Names.mark
    simp only [if_true, applyOps, List.foldl_nil, Nat.add_sub_cancel]
    rw [hsave]
    simp
  · intro hk
    rw [hk]
    have := second_of_pair (pair_sublist_pySorted (le := fun a b : Nat × Name => decide (b.1 ≤ a.1)) (by simp) h2)
    exact List.mem_map.2 ⟨_, this, rfl⟩
  · intro hk hmem
    obtain ⟨L, hL⟩ : ∃ L, L = pySorted (fun a b : Nat × Name => decide (b.1 ≤ a.1)) keyed := ⟨_, rfl⟩
    rw [← hL] at hmem
    have hp : L.Perm keyed := by rw [hL]; exact pySorted_perm _ _
    have hsort : L.Pairwise (fun a b => decide (b.1 ≤ a.1) = true) := by
      rw [hL]; exact pySorted_pairwise (by simp; omega) (by simp; omega) _
    have hnd : L.Nodup := hp.nodup_iff.2 h3
    obtain ⟨e, he, hez⟩ := List.mem_map.1 hmem
    have heq := h5 e (hp.mem_iff.1 (List.mem_of_mem_drop he)) hez
    subst heq
    have hcut : L = L.take m.keep ++ L.drop m.keep := (List.take_append_drop _ _).symm
    have hlen : m.keep < L.length := by
      have := List.length_pos_of_mem he
      rw [List.length_drop] at this
      omega
    rw [hcut] at hsort hnd
    have only : ∀ x ∈ L.take m.keep, x = (p, pklName p) := by
      intro x hx
      have h6 := (List.pairwise_append.1 hsort).2.2 x hx _ he
      have h7 := h4 x (hp.mem_iff.1 (List.mem_of_mem_take hx))
      simp only [decide_eq_true_eq] at h6
      rcases h7.2 (by omega) with h8 | h8
      · exact h8
      · exact ((List.nodup_append.1 hnd).2.2 x hx _ he h8).elim
    have hl2 : (L.take m.keep).length = m.keep := by rw [List.length_take]; omega
    have hnd2 := (List.nodup_append.1 hnd).1
    match hT : L.take m.keep, hl2, hnd2, only with
    | [], hl2, _, _ => rw [List.length_nil] at hl2; omega
    | [x], hl2, _, _ => rw [List.length_singleton] at hl2; omega
    | x :: y :: r, _, hnd2, only =>
      have e1 := only x List.mem_cons_self
      have e2 := only y (List.mem_cons_of_mem _ List.mem_cons_self)
      rw [e1, e2] at hnd2
      simp at hnd2

/-- C120, a defect. Resuming a trial whose last checkpoint an older version left as a `.pkl` file, with `keep_n_checkpoints = 1`: the trial is reported
done, but the clean-up keeps the old file and deletes the one just written, which is the one `complete.json` names: the result can never be loaded -/
theorem C120_legacy_refuted {f : Folder S} {p : Nat} {s : S} (h : LegacyEnd f p s) (m : Manager) (hk : m.keep = 1) {scan : List Name → List Name} (hs : Lists scan) (t : Trial S) :
    ∃ o, Names.session m scan t (p + 1) f = .ok o ∧ o.done = true ∧ Names.result (applyOps o.ops f) = .error .fileNotFound ∧
      Names.session m scan t (p + 1) (applyOps o.ops f) = .error .fileNotFound := by
  obtain ⟨gone, h1, h2, _⟩ := legacy_session h m hs t
  have hr : ∀ g : Folder S, Names.result (applyOps ([.openFile (zstName p), .write (zstName p) (.state s), .openFile progressName, .write progressName (.progress p)] ++
        gone.map .unlink ++ [.openFile completeName, .write completeName (.complete (zstName p))]) g) = .error .fileNotFound ∧
      (applyOps ([.openFile (zstName p), .write (zstName p) (.state s), .openFile progressName, .write progressName (.progress p)] ++
        gone.map .unlink ++ [.openFile completeName, .write completeName (.complete (zstName p))]) g).contains completeName = true := by
    intro g
    rw [applyOps_append, applyOps_append]
    obtain ⟨q, hq⟩ : ∃ q, q = applyOps (gone.map .unlink) (applyOps [.openFile (zstName p), .write (zstName p) (.state s), .openFile progressName, .write progressName (.progress p)] g) := ⟨_, rfl⟩
    have e1 : q.get? (zstName p) = none := by rw [hq]; exact unlinked_gone gone _ _ (h2 hk)
    rw [← hq]
    unfold Names.result Names.readState PyDict.contains applyOps
    simp only [List.foldl_cons, List.foldl_nil, Op.apply, PyDict.get?_set]
    have e3 : zstName p ≠ completeName := pre_not_complete _
    simp [e1, e3, e3.symm]
  refine ⟨_, h1, rfl, (hr f).1, ?_⟩
  unfold Names.session
  rw [if_pos (hr f).2, (hr f).1]

/-- C120: with `keep_n_checkpoints` of two or more the same trial is completed and its result is the old last state -/
theorem C120_legacy_completes {f : Folder S} {p : Nat} {s : S} (h : LegacyEnd f p s) (m : Manager) (hk : 2 ≤ m.keep) {scan : List Name → List Name} (hs : Lists scan) (t : Trial S) :
    ∃ o, Names.session m scan t (p + 1) f = .ok o ∧ o.done = true ∧ Names.result (applyOps o.ops f) = .ok s := by
  obtain ⟨gone, h1, _, h2⟩ := legacy_session h m hs t
  refine ⟨_, h1, rfl, ?_⟩
  dsimp only
  rw [applyOps_append, applyOps_append]
  have e1 : (applyOps (gone.map .unlink) (applyOps [.openFile (zstName p), .write (zstName p) (.state s), .openFile progressName, .write progressName (.progress p)] f)).get? (zstName p)
      = some (some (.state s)) := by
    rw [unlinked_kept gone _ _ (h2 hk)]
    unfold applyOps
    simp only [List.foldl_cons, List.foldl_nil, Op.apply, PyDict.get?_set]
    have e3 : zstName p ≠ progressName := pre_not_progress _
    simp [e3, e3.symm]
  generalize applyOps (gone.map .unlink) _ = q at e1 ⊢
  unfold Names.result Names.readState applyOps
  simp only [List.foldl_cons, List.foldl_nil, Op.apply, PyDict.get?_set]
  have e3 : zstName p ≠ completeName := pre_not_complete _
  simp [e1, e3, e3.symm]

/-- an old directory with three checkpoints -/
def oldFolder : Folder (List Nat) := ⟨[(pklName 9, some (.state [1])), (pklName 19, some (.state [1, 2])), (progressName, some (.progress 19))]⟩

theorem oldFolder_legacy : LegacyEnd oldFolder 19 [1, 2] where
  wf := by unfold PyDict.WF; decide +kernel
  files := by
    intro n hn hg
    have : n = pklName 9 ∨ n = pklName 19 ∨ n = progressName := by simpa [oldFolder, PyDict.keys] using hn
    rcases this with rfl | rfl | rfl
    · exact ⟨9, by decide, rfl⟩
    · exact ⟨19, by decide, rfl⟩
    · rw [globs_progress, globs_progress] at hg; rcases hg with hg | hg <;> cases hg
  last := by decide +kernel
  progress := by decide +kernel
  open_ := by decide +kernel

example (t : Trial (List Nat)) : ∃ o, Names.session ⟨some 10, 1⟩ id t 20 oldFolder = .ok o ∧ o.done = true ∧ Names.result (applyOps o.ops oldFolder) = .error .fileNotFound := by
  obtain ⟨o, h1, h2, h3, _⟩ := C120_legacy_refuted oldFolder_legacy ⟨some 10, 1⟩ rfl (scan := id) (fun _ => List.Perm.refl _) t
  exact ⟨o, h1, h2, h3⟩

/-! ### files of others -/

/-- SPEC: the directory has a file the clean-up lists but cannot number, such as `checkpoint_best.pkl` -/
def HasStray (f : Folder S) : Prop := ∃ n ∈ f.keys, (globs pkl n = true ∨ globs zst n = true) ∧ iterationOf n = .error .valueError

theorem iterationOf_error (f : Name) (e : PyErr) (h : iterationOf f = .error e) : e = .valueError := by
  unfold iterationOf at h
  split at h
  · dsimp only at h
    split at h
    · cases h
    · cases h; rfl
  · cases h; rfl

theorem mapM_stray : ∀ (l : List Name), (∃ n ∈ l, iterationOf n = .error .valueError) →
    l.mapM (fun f => (iterationOf f).map fun i => (i, f)) = .error .valueError
  | [], ⟨_, h, _⟩ => by cases h
  | a :: l, ⟨n, hn, he⟩ => by
    rw [List.mapM_cons]
    cases ha : iterationOf a with
    | error e => rw [iterationOf_error a e ha]; rfl
    | ok i =>
      have hl : n ∈ l := by
        rcases List.mem_cons.1 hn with rfl | hn
        · rw [ha] at he; cases he
        · exact hn
      rw [mapM_stray l ⟨n, hl, he⟩]
      rfl

theorem stray_stale {f : Folder S} (h : HasStray f) (m : Manager) {scan : List Name → List Name} (hs : Lists scan) : Names.stale m scan f = .error .valueError := by
  obtain ⟨n, hn, hg, he⟩ := h
  unfold Names.stale
  dsimp only
  rw [mapM_stray _ ⟨n, ?_, he⟩]
  rw [List.mem_append, List.mem_filter, List.mem_filter, (hs _).mem_iff]
  rcases hg with hg | hg
  · exact .inl ⟨hn, hg⟩
  · exact .inr ⟨hn, hg⟩

theorem keys_mono {f : Folder S} {n k : Name} {v : Option (Body S)} (h : n ∈ f.keys) : n ∈ (f.set k v).keys := by
  rw [PyDict.mem_keys_iff] at h ⊢
  rw [PyDict.get?_set]
  split <;> simp [h]

theorem stray_set {f : Folder S} (h : HasStray f) (k : Name) (v : Option (Body S)) : HasStray (f.set k v) := by
  obtain ⟨n, hn, hg, he⟩ := h
  exact ⟨n, keys_mono hn, hg, he⟩

/-- C120: with such a file in the directory every save that writes raises ValueError after it has written and recorded the checkpoint; nothing is
deleted, and the checkpoint can be loaded -/
theorem C120_stray_save {f : Folder S} (h : HasStray f) (m : Manager) {scan : List Name → List Name} (hs : Lists scan) (i : Nat) (s : S)
    (hnew : f.get? (zstName i) = none) :
    Names.save m scan f i s = ⟨[.openFile (zstName i), .write (zstName i) (.state s), .openFile progressName, .write progressName (.progress i)], some .valueError⟩ ∧
    Names.load (applyOps (Names.save m scan f i s).ops f) = .ok (some (i, s)) ∧ HasStray (applyOps (Names.save m scan f i s).ops f) ∧
    (Names.mark m scan f i s).err = some .valueError ∧ ∀ n, n ∈ f.keys → n ∈ (applyOps (Names.save m scan f i s).ops f).keys := by
  have hst : HasStray (applyOps [.openFile (zstName i), .write (zstName i) (.state s), .openFile progressName, .write progressName (.progress i)] f) :=
    stray_set (stray_set (stray_set (stray_set h _ _) _ _) _ _) _ _
  have e : Names.save m scan f i s = ⟨[.openFile (zstName i), .write (zstName i) (.state s), .openFile progressName, .write progressName (.progress i)], some .valueError⟩ := by
    unfold Names.save PyDict.contains
    rw [hnew]
    simp only [Option.isSome_none, Bool.false_and, Bool.false_eq_true, if_false]
    unfold Names.writeFiles
    dsimp only
    rw [stray_stale hst m hs]
  refine ⟨e, ?_, ?_, ?_, ?_⟩
  · rw [e]
    refine (C120_legacy_load _ i ?_ s).2 ?_
    · unfold applyOps
      simp only [List.foldl_cons, List.foldl_nil, Op.apply, PyDict.get?_set]
      simp
    · unfold applyOps
      simp only [List.foldl_cons, List.foldl_nil, Op.apply, PyDict.get?_set]
      have e3 : zstName i ≠ progressName := pre_not_progress _
      simp [e3, e3.symm]
  · rw [e]; exact hst
  · unfold Names.mark
    rw [e]
  · intro n hn
    rw [e]
    exact keys_mono (keys_mono (keys_mono (keys_mono hn)))

/-- C120: such a file stops a new trial at its first checkpoint: however long the trial, a session on the directory does not complete it -/
theorem C120_stray_session {f : Folder S} (h : HasStray f) (m : Manager) {scan : List Name → List Name} (hs : Lists scan) (t : Trial S) (total : Nat) (ht : 0 < total)
    (hfresh : ∀ i, f.get? (zstName i) = none) (hp : f.get? progressName = none) (hc : f.get? completeName = none) :
    ∃ o, Names.session m scan t total f = .ok o ∧ o.done = false ∧ (applyOps o.ops f).get? completeName = none := by
  have hload : Names.load f = .ok none := by unfold Names.load; rw [hp]
  have noC : ∀ i (s : S), (applyOps (Names.save m scan f i s).ops f).get? completeName = none := by
    intro i s
    rw [(C120_stray_save h m hs i s (hfresh i)).1]
    unfold applyOps
    simp only [List.foldl_cons, List.foldl_nil, Op.apply, PyDict.get?_set]
    have e3 : zstName i ≠ completeName := pre_not_complete _
    simp [e3, e3.symm, progress_ne_complete, progress_ne_complete.symm, hc]
  have hloop : ∀ (n k : Nat) (s : S), (Names.loop m scan t total n k s f).done = true ∧ (Names.loop m scan t total n k s f).ops = [] ∨
      (Names.loop m scan t total n k s f).done = false ∧ (applyOps (Names.loop m scan t total n k s f).ops f).get? completeName = none := by
    intro n
    induction n with
    | zero => intro k s; exact .inl ⟨rfl, rfl⟩
    | succ n ih =>
      intro k s
      unfold Names.loop
      dsimp only
      by_cases hb : (t.body total k s).2 = true
      · rw [if_pos hb]; exact .inr ⟨rfl, hc⟩
      · rw [if_neg hb]
        by_cases hk : m.should k = true
        · rw [if_pos hk]
          have := noC k (t.body total k s).1
          rw [(C120_stray_save h m hs k (t.body total k s).1 (hfresh k)).1] at this ⊢
          exact .inr ⟨rfl, this⟩
        · rw [if_neg hk]; exact ih _ _
  unfold Names.session PyDict.contains
  rw [hc]
  simp only [Option.isSome_none, Bool.false_eq_true, if_false]
  unfold Names.runTrial
  rw [hload]
  dsimp only
  by_cases hf : (t.setup t.fresh).2 = true
  · rw [if_pos hf]; exact ⟨_, rfl, rfl, hc⟩
  · rw [if_neg hf]
    refine ⟨_, rfl, ?_⟩
    obtain ⟨o, ho⟩ : ∃ o, o = Names.loop m scan t total total 0 (t.setup t.fresh).1 f := ⟨_, rfl⟩
    have := hloop total 0 (t.setup t.fresh).1
    rw [← ho] at this ⊢
    unfold Names.finish
    rcases this with ⟨h1, h2⟩ | ⟨h1, h2⟩
    · rw [if_pos h1, h2]
      have hm : Names.mark m scan f (total - 1) o.state = ⟨(Names.save m scan f (total - 1) o.state).ops, some .valueError⟩ := by
        unfold Names.mark
        rw [(C120_stray_save h m hs (total - 1) o.state (hfresh _)).1]
      show (match (Names.mark m scan f (total - 1) o.state).err with | some _ => _ | none => _ : Ran S).done = false ∧ _
      dsimp only [applyOps, List.foldl_nil]
      rw [hm]
      exact ⟨rfl, noC _ _⟩
    · rw [if_neg (by rw [h1]; simp)]
      exact ⟨h1, h2⟩

example : HasStray (⟨[("checkpoint_best.pkl".toList, some .other)]⟩ : Folder (List Nat)) :=
  ⟨"checkpoint_best.pkl".toList, by simp [PyDict.keys], .inl (by decide +kernel), by decide +kernel⟩

/-- C120: a checkpoint under either name counts as a started benchmark -/
theorem C120_started (f : Folder S) (i : Nat) (h : zstName i ∈ f.keys ∨ pklName i ∈ f.keys) : Names.started f = true := by
  unfold Names.started
  rw [List.any_eq_true]
  have key : ∀ suffix : Name, pkl <+: suffix → (pre.isPrefixOf (pre ++ (padded i ++ suffix)) &&
      ((pre ++ (padded i ++ suffix)).drop pre.length).tails.any fun t => pkl.isPrefixOf t) = true := by
    intro suffix hsu
    rw [Bool.and_eq_true]
    refine ⟨List.isPrefixOf_iff_prefix.2 (List.prefix_append _ _), ?_⟩
    rw [List.drop_left, List.any_eq_true]
    exact ⟨suffix, (List.mem_tails _ _).2 (List.suffix_append _ _), List.isPrefixOf_iff_prefix.2 hsu⟩
  rcases h with h | h
  · exact ⟨_, h, key zst ⟨['.', 'z', 's', 't'], by rfl⟩⟩
  · exact ⟨_, h, key pkl (List.prefix_refl _)⟩

/-- C120: both formats are read back whatever the file is called, as long as no plain pickle starts with the compressed magic number -/
theorem C120_formats (magic : List UInt8) (zip pickle : S → List UInt8) (unzip unpickle : List UInt8 → Option S) (h1 : ∀ s, unzip (zip s) = some s)
    (h2 : ∀ s, unpickle (pickle s) = some s) (h3 : ∀ s, magic <+: zip s) (h4 : ∀ s, ¬ magic <+: pickle s) (s : S) :
    Names.decode magic unzip unpickle (zip s) = some s ∧ Names.decode magic unzip unpickle (pickle s) = some s := by
  have e : ∀ l : List UInt8, l.take magic.length = magic ↔ magic <+: l := fun l =>
    ⟨fun h => by rw [← h]; exact List.take_prefix _ _, fun h => (List.prefix_iff_eq_take.1 h).symm⟩
  unfold Names.decode
  constructor
  · rw [if_pos ((e _).2 (h3 s)), h1]
  · rw [if_neg (fun h => h4 s ((e _).1 h)), h2]

end Verif.Props
