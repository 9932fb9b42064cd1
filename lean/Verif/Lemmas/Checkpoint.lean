import Verif.Model.Checkpoint
import Mathlib.Tactic.Ring
/-! Lemmas about checkpoint directories and crash-able trials. -/
set_option linter.unusedSectionVars false
namespace Verif.Ckpt
open Verif

variable {S : Type}

/-- The trial without checkpoints or interruptions: state after `k` iterations and whether an exception ended it. -/
def straight (t : Trial S) (total : Nat) : Nat → S × Bool
  | 0 => t.setup t.fresh
  | k + 1 => if (straight t total k).2 then straight t total k else t.body total k (straight t total k).1

/-- the crash point lies inside the write of `progress.json` or `complete.json` -/
def InWindow (ops : List (FsOp S)) (c : Nat) : Prop :=
  (ops.take c).getLast? = some .openProgress ∨ (ops.take c).getLast? = some .openComplete

theorem straight_absorb (t : Trial S) (total k : Nat) (h : (straight t total k).2 = true) (n : Nat) :
    straight t total (k + n) = straight t total k := by
  induction n with
  | zero => rfl
  | succ n ih => rw [← Nat.add_assoc, straight, ih, if_pos h]

@[simp] theorem applyAll_nil (d : Dir S) : applyAll [] d = d := rfl
theorem applyAll_append (a b : List (FsOp S)) (d : Dir S) : applyAll (a ++ b) d = applyAll b (applyAll a d) := by
  simp [applyAll, List.foldl_append]
theorem applyAll_cons (a : FsOp S) (b : List (FsOp S)) (d : Dir S) : applyAll (a :: b) d = applyAll b (a.apply d) := rfl

/-- iterations at which a trial of `total` iterations writes a checkpoint -/
def Save (m : Manager) (total i : Nat) : Prop := i < total ∧ (m.should i = true ∨ i + 1 = total)

/-- running invariant: `q` iterations are recorded in the directory -/
structure InvRun (m : Manager) (t : Trial S) (total : Nat) (d : Dir S) (q : Nat) : Prop where
  wf : d.ckpt.WF
  le : q ≤ total
  zero : q = 0 → d.progress = none
  pos : 0 < q → d.progress = some (some (q - 1)) ∧ d.ckpt.get? (q - 1) = some (some (straight t total q).1) ∧
    (straight t total q).2 = false
  files : ∀ j ∈ d.ckpt.keys, ∀ i, Save m total i → q ≤ i → j ≤ i
  open_ : d.complete = none
  bound : ∀ j ∈ d.ckpt.keys, j < total

/-- invariant between sessions -/
def Inv (m : Manager) (t : Trial S) (total : Nat) (d : Dir S) : Prop :=
  (∃ q, InvRun m t total d q) ∨
  (d.complete = some (some (total - 1)) ∧ InvRun m t total { d with complete := none } total)

theorem inv_empty (m : Manager) (t : Trial S) (total : Nat) : InvRun m t total Dir.empty 0 :=
  ⟨PyDict.wf_empty, Nat.zero_le _, fun _ => rfl, fun h => absurd h (Nat.lt_irrefl 0), by simp [Dir.empty, PyDict.empty, PyDict.keys], rfl,
    by simp [Dir.empty, PyDict.empty, PyDict.keys]⟩

theorem mem_stale_iff_aux (l : List Nat) : (pySorted (fun a b => decide (b ≤ a)) l).Pairwise (fun a b => b ≤ a) := by
  have := pySorted_pairwise (le := fun a b : Nat => decide (b ≤ a)) (by simp; omega) (by simp; omega) l
  simpa using this

theorem mem_stale_le (m : Manager) (hk : 0 < m.keep) (d : Dir S) (hw : d.ckpt.WF) (i : Nat) (hi : i ∈ d.ckpt.keys)
    (hmax : ∀ j ∈ d.ckpt.keys, j ≤ i) : i ∉ m.stale d := by
  intro h
  unfold Manager.stale at h
  have hp := pySorted_perm (fun a b : Nat => decide (b ≤ a)) d.ckpt.keys
  have hs := mem_stale_iff_aux d.ckpt.keys
  set L := pySorted (fun a b : Nat => decide (b ≤ a)) d.ckpt.keys with hL
  have hnd : L.Nodup := hp.nodup_iff.2 hw
  -- the head of L is i
  cases hLe : L with
  | nil => rw [hLe] at h; simp at h
  | cons a r =>
    rw [hLe] at h hs hnd
    have ha : a ≤ i := hmax a (hp.mem_iff.1 (by rw [hLe]; simp))
    have hi' : i ∈ a :: r := by rw [← hLe]; exact hp.mem_iff.2 hi
    have : i = a := by
      rcases List.mem_cons.1 hi' with e | e
      · exact e
      · have := (List.pairwise_cons.1 hs).1 i e; omega
    subst this
    have hr : i ∈ r := by
      obtain ⟨n, hn⟩ := Nat.exists_eq_succ_of_ne_zero hk.ne'
      rw [hn] at h
      simp only [List.drop_succ_cons] at h
      exact List.mem_of_mem_drop h
    exact (List.nodup_cons.1 hnd).1 hr

/-- removing files other than the recorded one keeps the invariant -/
theorem inv_unlink {m : Manager} {t : Trial S} {total : Nat} {d : Dir S} {q : Nat} (h : InvRun m t total d q)
    (l : List Nat) (hl : 0 < q → q - 1 ∉ l) : InvRun m t total (applyAll (l.map .unlink) d) q := by
  induction l generalizing d with
  | nil => exact h
  | cons a r ih =>
    rw [List.map_cons, applyAll_cons]
    refine ih ?_ (fun hq hm => hl hq (List.mem_cons_of_mem _ hm))
    refine ⟨PyDict.wf_pop _ _ h.wf, h.le, h.zero, ?_, ?_, h.open_, ?_⟩
    · intro hq
      refine ⟨(h.pos hq).1, ?_, (h.pos hq).2.2⟩
      have : q - 1 ≠ a := fun e => hl hq (by simp [e])
      simp only [FsOp.apply, PyDict.get?_pop, if_neg this]
      exact (h.pos hq).2.1
    · intro j hj
      simp only [FsOp.apply, PyDict.keys_pop, List.mem_filter] at hj
      exact h.files j hj.1
    · intro j hj
      simp only [FsOp.apply, PyDict.keys_pop, List.mem_filter] at hj
      exact h.bound j hj.1

theorem inv_setOther {m : Manager} {t : Trial S} {total : Nat} {d : Dir S} {q i : Nat} (h : InvRun m t total d q)
    (hi : q ≤ i) (hit : i < total) (hmin : ∀ i', Save m total i' → q ≤ i' → i ≤ i') (v : Option S) :
    InvRun m t total { d with ckpt := d.ckpt.set i v } q := by
  refine ⟨PyDict.wf_set _ _ _ h.wf, h.le, h.zero, ?_, ?_, h.open_, ?_⟩
  · intro hq
    refine ⟨(h.pos hq).1, ?_, (h.pos hq).2.2⟩
    have : q - 1 ≠ i := by omega
    simp only [PyDict.get?_set, if_neg this]
    exact (h.pos hq).2.1
  · intro j hj i' hs hq
    simp only [PyDict.keys_set] at hj
    split at hj
    · exact h.files j hj i' hs hq
    · rcases List.mem_append.1 hj with hj | hj
      · exact h.files j hj i' hs hq
      · simp only [List.mem_singleton] at hj; subst hj; exact hmin i' hs hq
  · intro j hj
    simp only [PyDict.keys_set] at hj
    split at hj
    · exact h.bound j hj
    · rcases List.mem_append.1 hj with hj | hj
      · exact h.bound j hj
      · simp only [List.mem_singleton] at hj; subst hj; exact hit

theorem take_map_unlink (l : List Nat) (n : Nat) : ((l.map FsOp.unlink).take n : List (FsOp S)) = (l.take n).map .unlink := by
  rw [List.map_take]

/-- writing the next due checkpoint -/
theorem save_block {m : Manager} (hk : 0 < m.keep) {t : Trial S} {total : Nat} {d : Dir S} {q i : Nat}
    (h : InvRun m t total d q) (hi : q ≤ i) (hs : Save m total i) (hmin : ∀ i', Save m total i' → q ≤ i' → i ≤ i')
    (hok : (straight t total (i + 1)).2 = false) :
    m.saveOps d i (straight t total (i + 1)).1 = .ok (m.writeOps d i (straight t total (i + 1)).1) ∧
    (∀ c, ¬ InWindow (m.writeOps d i (straight t total (i + 1)).1) c →
      ∃ q', InvRun m t total (applyAll ((m.writeOps d i (straight t total (i + 1)).1).take c) d) q') ∧
    InvRun m t total (applyAll (m.writeOps d i (straight t total (i + 1)).1) d) (i + 1) := by
  set s := (straight t total (i + 1)).1 with hsdef
  have hprog : d.progress = none ∨ ∃ p, d.progress = some (some p) ∧ p ≠ i := by
    rcases Nat.eq_zero_or_pos q with e | e
    · exact .inl (h.zero e)
    · exact .inr ⟨q - 1, (h.pos e).1, by omega⟩
  have h1 : InvRun m t total { d with ckpt := d.ckpt.set i none } q := inv_setOther h hi hs.1 hmin _
  have h2 : InvRun m t total { d with ckpt := (d.ckpt.set i none).set i (some s) } q := inv_setOther h1 hi hs.1 hmin _
  have h4 : InvRun m t total { d with ckpt := (d.ckpt.set i none).set i (some s), progress := some (some i) } (i + 1) := by
    refine ⟨h2.wf, hs.1, by simp, ?_, ?_, h2.open_, h2.bound⟩
    · intro _
      refine ⟨by simp, by simp [hsdef], hok⟩
    · intro j hj i' hs' hq
      have := h2.files j hj i hs hi
      omega
  have hmaxk : ∀ j ∈ ((d.ckpt.set i none).set i (some s)).keys, j ≤ i := fun j hj => h2.files j hj i hs hi
  have hik : i ∈ ((d.ckpt.set i none).set i (some s)).keys := by rw [PyDict.mem_keys_iff]; simp
  set d4 : Dir S := { d with ckpt := (d.ckpt.set i none).set i (some s), progress := some (some i) } with hd4
  have hstale : i ∉ m.stale d4 := mem_stale_le m hk d4 h4.wf i hik hmaxk
  have hw : applyAll [.openCkpt i, .writeCkpt i s, .openProgress, .writeProgress i] d = d4 := rfl
  have hops : m.writeOps d i s =
      [.openCkpt i, .writeCkpt i s, .openProgress, .writeProgress i] ++ (m.stale d4).map .unlink := by
    simp only [Manager.writeOps, hw]
  refine ⟨?_, ?_, ?_⟩
  · unfold Manager.saveOps
    split
    · rcases hprog with e | ⟨p, e, hp⟩
      · simp [e]
      · simp [e, hp]
    · rfl
  · intro c hc
    rw [hops] at hc ⊢
    match c, hc with
    | 0, _ => exact ⟨q, h⟩
    | 1, _ => exact ⟨q, h1⟩
    | 2, _ => exact ⟨q, h2⟩
    | 3, hc => exact absurd (Or.inl (by simp)) hc
    | c + 4, _ =>
      refine ⟨i + 1, ?_⟩
      have : ([FsOp.openCkpt i, .writeCkpt i s, .openProgress, .writeProgress i] ++ (m.stale d4).map FsOp.unlink).take (c + 4)
          = [.openCkpt i, .writeCkpt i s, .openProgress, .writeProgress i] ++ ((m.stale d4).take c).map FsOp.unlink := by
        simp [List.map_take]
      rw [this, applyAll_append, hw]
      exact inv_unlink h4 _ (fun _ hm => hstale (List.mem_of_mem_take (by simpa using hm)))
  · rw [hops, applyAll_append, hw]
    exact inv_unlink h4 _ (fun _ hm => hstale (by simpa using hm))

theorem inWindow_append {a b : List (FsOp S)} {c : Nat} (h : ¬ InWindow (a ++ b) c) :
    (c ≤ a.length ∧ (a ++ b).take c = a.take c ∧ ¬ InWindow a c) ∨
    (a.length < c ∧ (a ++ b).take c = a ++ b.take (c - a.length) ∧ ¬ InWindow b (c - a.length)) := by
  rcases Nat.lt_or_ge a.length c with hc | hc
  · right
    have e : (a ++ b).take c = a ++ b.take (c - a.length) := by
      rw [List.take_append, List.take_of_length_le (by omega)]
    refine ⟨hc, e, fun hw => h ?_⟩
    unfold InWindow at hw ⊢
    rw [e, List.getLast?_append]
    rcases hw with hw | hw <;> rw [hw] <;> simp
  · left
    have e : (a ++ b).take c = a.take c := by
      rw [List.take_append]; simp [Nat.sub_eq_zero_of_le hc]
    refine ⟨hc, e, fun hw => h ?_⟩
    unfold InWindow at hw ⊢
    rwa [e]

/-- the loop from a recorded or reached position -/
theorem loop_inv {m : Manager} (hk : 0 < m.keep) {t : Trial S} (hm : ∀ k s, t.metric k s = s) {total : Nat} :
    ∀ (n k : Nat) (d : Dir S) (q : Nat), k + n = total → InvRun m t total d q → q ≤ k →
      (straight t total k).2 = false → (∀ i, i < total → m.should i = true → q ≤ i → k ≤ i) →
      let o := loop m t total n k (straight t total k).1 d
      o.state = (straight t total total).1 ∧ o.done = !(straight t total total).2 ∧
      (∀ c, ¬ InWindow o.ops c → ∃ q', InvRun m t total (applyAll (o.ops.take c) d) q') ∧
      (∃ q', InvRun m t total (applyAll o.ops d) q' ∧
        (o.done = true → ∀ i, i < total → m.should i = true → q' ≤ i → False)) := by
  intro n
  induction n with
  | zero =>
    intro k d q hkn h hqk hok hmin
    have : k = total := by omega
    subst this
    refine ⟨rfl, by simp [loop, hok], fun c _ => ⟨q, by simpa [loop] using h⟩, q, by simpa [loop] using h, ?_⟩
    intro _ i hi hs hq
    exact absurd (hmin i hi hs hq) (by omega)
  | succ n ih =>
    intro k d q hkn h hqk hok hmin
    have hstep : straight t total (k + 1) = t.body total k (straight t total k).1 := by
      rw [straight, if_neg (by simp [hok])]
    by_cases hr : (t.body total k (straight t total k).1).2 = true
    · have hfin : straight t total total = straight t total (k + 1) := by
        have e : total = (k + 1) + n := by omega
        have := straight_absorb t total (k + 1) (by rw [hstep]; exact hr) n
        rw [← e] at this
        exact this
      have e : loop m t total (n + 1) k (straight t total k).1 d =
          ⟨[], (t.body total k (straight t total k).1).1, false⟩ := by simp [loop, hr]
      rw [e]
      refine ⟨by rw [hfin, hstep], by rw [hfin, hstep, hr]; rfl, fun c _ => ⟨q, by simpa using h⟩, q, by simpa using h,
        by simp⟩
    · have hr' : (straight t total (k + 1)).2 = false := by rw [hstep]; simpa using hr
      by_cases hsh : m.should k = true
      · have hsv : Save m total k := ⟨by omega, .inl hsh⟩
        have hmn : ∀ i', Save m total i' → q ≤ i' → k ≤ i' := by
          intro i' hs' hq
          rcases hs'.2 with e | e
          · exact hmin i' hs'.1 e hq
          · omega
        obtain ⟨b1, b2, b3⟩ := save_block hk h hqk hsv hmn hr'
        rw [hstep] at b1 b2 b3
        set l := m.writeOps d k (t.body total k (straight t total k).1).1 with hl
        have hn := ih (k + 1) (applyAll l d) (k + 1) (by omega) b3 (Nat.le_refl _) hr' (fun i _ _ hq => hq)
        have e : loop m t total (n + 1) k (straight t total k).1 d =
            (let rest := loop m t total n (k + 1) (straight t total (k + 1)).1 (applyAll l d)
             ⟨l ++ rest.ops, rest.state, rest.done⟩) := by
          rw [loop]
          simp only [hr, hsh, b1, hm, hstep, Bool.false_eq_true, if_false, if_true]
        rw [e]
        simp only at hn ⊢
        obtain ⟨e1, e2, e3, q', e4, e5⟩ := hn
        refine ⟨e1, e2, ?_, q', by rw [applyAll_append]; exact e4, e5⟩
        intro c hc
        rcases inWindow_append hc with ⟨_, ec, hw⟩ | ⟨_, ec, hw⟩
        · rw [ec]; exact b2 c hw
        · rw [ec, applyAll_append]; exact e3 _ hw
      · have e : loop m t total (n + 1) k (straight t total k).1 d =
            loop m t total n (k + 1) (straight t total (k + 1)).1 d := by
          rw [loop]
          simp only [hr, hsh, hm, hstep, Bool.false_eq_true, if_false]
        rw [e]
        exact ih (k + 1) d q (by omega) h (by omega) hr' (by
          intro i hi hs hq
          have := hmin i hi hs hq
          rcases Nat.eq_or_lt_of_le this with e | e
          · subst e; exact absurd hs hsh
          · exact e)

/-- marking the trial complete -/
theorem finish_inv {m : Manager} (hk : 0 < m.keep) {t : Trial S} {total : Nat} (ht : 0 < total) {d : Dir S} {o : Outcome S}
    (hst : o.state = (straight t total total).1) (hdn : o.done = !(straight t total total).2)
    (hcut : ∀ c, ¬ InWindow o.ops c → ∃ q', InvRun m t total (applyAll (o.ops.take c) d) q')
    (hend : ∃ q', InvRun m t total (applyAll o.ops d) q' ∧
        (o.done = true → ∀ i, i < total → m.should i = true → q' ≤ i → False)) :
    let f := finish m t total d o
    f.done = o.done ∧ f.state = (if o.done then t.tidy (straight t total total).1 else (straight t total total).1) ∧
    (∀ c, ¬ InWindow f.ops c → Inv m t total (applyAll (f.ops.take c) d)) ∧
    (o.done = true → (applyAll f.ops d).complete = some (some (total - 1)) ∧ ∃ l, f.ops = o.ops ++ l ++ [.openComplete, .writeComplete (total - 1)]) := by
  cases hd : o.done with
  | false =>
    have e : finish m t total d o = o := by simp [finish, hd]
    rw [e]
    refine ⟨hd, by simp [hst], fun c hc => .inl (hcut c hc), by simp⟩
  | true =>
    obtain ⟨q, h, hno⟩ := hend
    have hok : (straight t total total).2 = false := by rw [hd] at hdn; simpa using hdn.symm
    -- the save made while marking
    have key : ∃ l, m.saveOps (applyAll o.ops d) (total - 1) o.state = .ok l ∧
        (∀ c, ¬ InWindow l c → ∃ q', InvRun m t total (applyAll (l.take c) (applyAll o.ops d)) q') ∧
        InvRun m t total (applyAll l (applyAll o.ops d)) total := by
      rcases Nat.eq_or_lt_of_le h.le with hq | hq
      · subst hq
        refine ⟨[], ?_, fun c _ => ⟨q, by simpa using h⟩, by simpa using h⟩
        have hp := h.pos ht
        unfold Manager.saveOps
        have hc : (applyAll o.ops d).ckpt.contains (q - 1) = true := by
          simp [PyDict.contains, hp.2.1]
        rw [if_pos hc, hp.1]
        simp
      · have e : total - 1 + 1 = total := by omega
        have hb := save_block hk (i := total - 1) h (by omega) ⟨by omega, .inr e⟩
          (by
            intro i' hs' hq'
            rcases hs'.2 with e' | e'
            · exact absurd (hno hd i' hs'.1 e' hq') id
            · omega)
          (by rw [e]; exact hok)
        rw [e] at hb
        rw [hst]
        exact ⟨_, hb.1, hb.2.1, hb.2.2⟩
    obtain ⟨l, hl1, hl2, hl3⟩ := key
    have e : finish m t total d o = ⟨o.ops ++ (l ++ [.openComplete, .writeComplete (total - 1)]), t.tidy o.state, true⟩ := by
      simp [finish, hd, Manager.markOps, hl1]
    rw [e]
    have hfin : Inv m t total (applyAll (o.ops ++ (l ++ [.openComplete, .writeComplete (total - 1)])) d) := by
      right
      rw [applyAll_append, applyAll_append]
      refine ⟨rfl, ?_⟩
      have : ({ applyAll [.openComplete, .writeComplete (total - 1)] (applyAll l (applyAll o.ops d)) with complete := none } : Dir S)
          = applyAll l (applyAll o.ops d) := by
        have := hl3.open_
        cases hh : applyAll l (applyAll o.ops d) with
        | mk a b c => rw [hh] at this; simp only at this; subst this; rfl
      rw [this]
      exact hl3
    refine ⟨rfl, by simp [hst], ?_, fun _ => ⟨?_, l, by simp⟩⟩
    · intro c hc
      rcases inWindow_append hc with ⟨_, ec, hw⟩ | ⟨_, ec, hw⟩
      · rw [ec]; exact .inl (hcut c hw)
      · rw [ec, applyAll_append]
        rcases inWindow_append hw with ⟨_, ec2, hw2⟩ | ⟨hlt, ec2, hw2⟩
        · rw [ec2]; exact .inl (hl2 _ hw2)
        · rw [ec2, applyAll_append]
          generalize hcc : c - o.ops.length - l.length = cc at *
          match cc, hw2 with
          | 0, _ => exact .inl ⟨total, by simpa using hl3⟩
          | 1, hw2 => exact absurd (Or.inr (by simp)) hw2
          | cc + 2, _ =>
            rw [applyAll_append, applyAll_append] at hfin
            have : ([FsOp.openComplete, .writeComplete (total - 1)] : List (FsOp S)).take (cc + 2) = [.openComplete, .writeComplete (total - 1)] := by simp
            rw [this]; exact hfin
    · rw [applyAll_append, applyAll_append]; rfl

/-- one session from a consistent directory -/
theorem session_inv {m : Manager} (hk : 0 < m.keep) {t : Trial S} (hm : ∀ k s, t.metric k s = s) {total : Nat} (ht : 0 < total)
    {d : Dir S} (h : Inv m t total d) :
    ∃ o, session m t total d = .ok o ∧ o.done = !(straight t total total).2 ∧
      (o.state = if d.complete.isNone && o.done then t.tidy (straight t total total).1 else (straight t total total).1) ∧
      (∀ c, ¬ InWindow o.ops c → Inv m t total (applyAll (o.ops.take c) d)) ∧
      (o.done = true → (applyAll o.ops d).complete = some (some (total - 1)) ∧ Inv m t total (applyAll o.ops d)) := by
  rcases h with ⟨q, h⟩ | ⟨hc, h⟩
  · have hs : session m t total d = runTrial m t total d := by simp [session, h.open_]
    rw [hs]
    -- common continuation
    have cont : ∀ k, (straight t total k).2 = false → q ≤ k → k ≤ total →
        (∀ i, i < total → m.should i = true → q ≤ i → k ≤ i) →
        let o := finish m t total d (loop m t total (total - k) k (straight t total k).1 d)
        o.done = !(straight t total total).2 ∧
        (o.state = if d.complete.isNone && o.done then t.tidy (straight t total total).1 else (straight t total total).1) ∧
        (∀ c, ¬ InWindow o.ops c → Inv m t total (applyAll (o.ops.take c) d)) ∧
        (o.done = true → (applyAll o.ops d).complete = some (some (total - 1)) ∧ Inv m t total (applyAll o.ops d)) := by
      intro k hok hqk hkt hmin
      obtain ⟨a1, a2, a3, a4⟩ := loop_inv hk hm (total - k) k d q (by omega) h hqk hok hmin
      obtain ⟨f1, f2, f3, f4⟩ := finish_inv (t := t) hk ht a1 a2 a3 a4
      refine ⟨f1.trans a2, ?_, f3, fun hd => ⟨(f4 (f1 ▸ hd)).1, ?_⟩⟩
      · rw [f2, f1, h.open_]; simp
      · obtain ⟨_, l, hl⟩ := f4 (f1 ▸ hd)
        have := f3 (finish m t total d (loop m t total (total - k) k (straight t total k).1 d)).ops.length (by
          unfold InWindow
          rw [List.take_length, hl]
          simp [List.getLast?_append])
        rwa [List.take_length] at this
    rcases Nat.eq_zero_or_pos q with hq | hq
    · subst hq
      have hl : d.load = .ok none := by simp [Dir.load, h.zero rfl]
      unfold runTrial
      rw [hl]
      simp only
      split
      · rename_i hf
        have hfin : straight t total total = straight t total 0 := by
          have := straight_absorb t total 0 hf total
          simpa using this
        refine ⟨_, rfl, ?_, ?_, fun c _ => .inl ⟨0, by simpa using h⟩, by simp⟩
        · rw [hfin]; simp [straight, hf]
        · rw [hfin]; simp [straight]
      · rename_i hf
        have := cont 0 (by simpa [straight] using hf) (Nat.le_refl _) (Nat.zero_le _) (fun i _ _ hq => hq)
        exact ⟨_, rfl, this⟩
    · have hp := h.pos hq
      have hl : d.load = .ok (some (q - 1, (straight t total q).1)) := by
        simp [Dir.load, hp.1, Dir.read, hp.2.1]
      unfold runTrial
      rw [hl]
      have e : q - 1 + 1 = q := by omega
      have := h.le
      simp only [e]
      rw [if_neg (by omega)]
      exact ⟨_, rfl, cont q hp.2.2 (Nat.le_refl _) h.le (fun i _ _ hq => hq)⟩
  · have hp := h.pos ht
    have : d.result = .ok (straight t total total).1 := by
      have h2 : d.ckpt.get? (total - 1) = some (some (straight t total total).1) := hp.2.1
      simp [Dir.result, hc, Dir.read, h2]
    refine ⟨⟨[], (straight t total total).1, true⟩, by simp [session, hc, this], by simp [hp.2.2], by simp [hc], ?_,
      fun _ => ⟨by simpa using hc, by simpa using .inr ⟨hc, h⟩⟩⟩
    intro c _
    simp only [List.take_nil, applyAll_nil]
    exact .inr ⟨hc, h⟩

end Verif.Ckpt
