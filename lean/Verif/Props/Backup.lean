import Verif.Model.Backup
import Verif.Props.Metadata
set_option linter.unusedSectionVars false
/-!
# C133: with backups no kill loses the benchmark
-/
namespace Verif.Props
open Verif Meta Backup

variable {J : Type}

/-- SPEC: the directory, or else a complete archive, has readable metadata `m` -/
def Recoverable (st : Store J) (m : Content J) : Prop :=
  st.file = some (some m) ∨ (st.file = some none ∧ ∃ stamp, st.zips.get? stamp = some (some (some (some m))))

theorem applyOps_append (l l' : List (Op J)) (st : Store J) : Backup.applyOps (l ++ l') st = Backup.applyOps l' (Backup.applyOps l st) := by
  simp [Backup.applyOps, List.foldl_append]

/-- operations on the metadata only -/
theorem info_ops (W : List (File J)) (l : List (Op J)) (hl : ∀ o ∈ l, o = .openInfo ∨ ∃ m, o = .writeInfo m ∧ some (some m) ∈ W) (st : Store J) :
    (Backup.applyOps l st).zips = st.zips ∧
    ((Backup.applyOps l st).file = st.file ∨ (Backup.applyOps l st).file = some none ∨ (Backup.applyOps l st).file ∈ W) := by
  induction l generalizing st with
  | nil => exact ⟨rfl, Or.inl rfl⟩
  | cons o t ih =>
    obtain ⟨a, b⟩ := ih (fun o ho => hl o (by simp [ho])) (o.apply st)
    rcases hl o (by simp) with rfl | ⟨m, rfl, hm⟩
    · exact ⟨a, b.elim (fun h => Or.inr (Or.inl h)) Or.inr⟩
    · exact ⟨a, b.elim (fun h => Or.inr (Or.inr (by rw [show Backup.applyOps (.writeInfo m :: t) st = Backup.applyOps t ((Op.writeInfo m).apply st) from rfl, h]; exact hm))) Or.inr⟩

theorem saveOps_info (W : List (File J)) : ∀ o ∈ W.flatMap saveOps, o = .openInfo ∨ ∃ m, o = .writeInfo m ∧ some (some m) ∈ W := by
  intro o ho
  obtain ⟨f, hf, ho⟩ := List.mem_flatMap.1 ho
  match f, hf, ho with
  | none, _, ho => exact Or.inl (List.mem_singleton.1 ho)
  | some none, _, ho => exact Or.inl (List.mem_singleton.1 ho)
  | some (some m), hf, ho =>
    rcases List.mem_cons.1 ho with h | h
    · exact Or.inl h
    · exact Or.inr ⟨m, List.mem_singleton.1 h, hf⟩

theorem saveOps_last (W : List (File J)) (hW : ∀ f ∈ W, ∃ m, f = some (some m)) (st : Store J) :
    (Backup.applyOps (W.flatMap saveOps) st).file = W.getLast?.getD st.file := by
  induction W generalizing st with
  | nil => rfl
  | cons f t ih =>
    obtain ⟨m, rfl⟩ := hW f (by simp)
    rw [List.flatMap_cons, applyOps_append, ih (fun f hf => hW f (by simp [hf]))]
    cases t with
    | nil => rfl
    | cons g t => simp [List.getLast?_eq_some_getLast]

theorem iterationWrites_ok (C : Codec J) (i : Nat) (N n : Int) (seed : Option Int) (T I : Int) (m m' : Content J) (hm : m.seed = seed)
    (hI : ∀ inc : Nat, total C m "increased_iterations" inc = .ok (inc + I)) (h : CountsAre C m' n seed T I) :
    (∀ f ∈ iterationWrites C i m (some (some m')), ∃ m2, f = some (some m2) ∧ CountsAre C m2 n seed T (i + I)) ∧
    (iterationWrites C i m (some (some m'))).getLast?.getD (some (some m')) = (resumeIterations C i N m (some (some m'))).1 := by
  unfold iterationWrites resumeIterations
  rw [hI]
  dsimp only
  by_cases hi : i = 0
  · rw [if_neg (by simpa using hi), if_neg (by simpa using hi)]
    exact ⟨fun f hf => (by cases hf), rfl⟩
  · obtain ⟨m2, h2, h3, _⟩ := resumeIterations_ok C i N n seed T I m m' hm hI h
    obtain ⟨m1, m2', h1, _⟩ := append_num C m' h.stored "increased_iterations" (i + I)
    unfold resumeIterations at h2
    rw [hI] at h2
    dsimp only at h2
    rw [if_pos hi, h1] at h2
    have e : m2' = m2 := by
      have := congrArg Prod.fst h2
      simpa using this
    rw [if_pos hi, if_pos hi, h1]
    refine ⟨fun f hf => ?_, rfl⟩
    rw [List.mem_singleton.1 hf, e]
    exact ⟨m2, rfl, h3⟩

theorem writes_ok (C : Codec J) (i t : Nat) (n : Int) (seed : Option Int) (T I : Int) (m : Content J) (h : CountsAre C m n seed T I) :
    (∀ f ∈ writes C i t m (some (some m)), ∃ m2 I', f = some (some m2) ∧ CountsAre C m2 n seed (t + T) I') ∧
    (writes C i t m (some (some m))).getLast?.getD (some (some m)) = (Meta.resume C i t (some (some m))).1 := by
  unfold writes
  simp only [Meta.resume, load, h.trials, h.addT]
  by_cases ht : t = 0
  · subst ht
    rw [if_neg (by simp), if_neg (by simp)]
    obtain ⟨a, b⟩ := iterationWrites_ok C i (n + (((0 : Nat) : Int) + T)) n seed T I m m h.seed_ h.addI h
    refine ⟨fun f hf => ?_, b⟩
    obtain ⟨m2, e, c⟩ := a f hf
    refine ⟨m2, i + I, e, ?_⟩
    rw [Nat.cast_zero, zero_add]
    exact c
  · obtain ⟨m1, m2, h1, h2, h3, h4, h5⟩ := append_num C m h.stored "increased_trials" (t + T)
    have hI : ∀ x : Content J, (noteOf x "increased_iterations" = noteOf m "increased_iterations") → ∀ inc : Nat,
        total C x "increased_iterations" inc = .ok (inc + I) := fun x hx inc => by rw [total_note C m x _ hx, h.addI]
    have hc : CountsAre C m2 n seed (t + T) I := ⟨h2, h4.1.trans h.trials, h4.2.2.trans h.seed_,
        total_num C m2 _ _ (by rw [(h5 _).2, if_pos rfl]), hI m2 (by rw [(h5 _).2, if_neg (by decide)])⟩
    obtain ⟨a, b⟩ := iterationWrites_ok C i (n + (t + T)) n seed (t + T) I m1 m2 (h3.2.2.trans h.seed_)
      (hI m1 (by rw [(h5 _).1, if_neg (by decide)])) hc
    rw [if_pos ht, if_pos ht, h1]
    dsimp only
    refine ⟨fun f hf => ?_, ?_⟩
    · rcases List.mem_cons.1 hf with rfl | hf
      · exact ⟨m2, I, rfl, hc⟩
      · obtain ⟨m3, e, c⟩ := a f hf
        exact ⟨m3, _, e, c⟩
    · rw [← b]
      cases iterationWrites C i m1 (some (some m2)) with
      | nil => rfl
      | cons g l => simp [List.getLast?_eq_some_getLast]

/-- A resume with a backup that is not killed does to the metadata, and returns, what one without does, if the name of the archive is free;
the archive then holds the directory as it was before. -/
theorem C133_uninterrupted (C : Codec J) (n : Int) (seed : Option Int) (T I : Int) (m : Content J) (h : CountsAre C m n seed T I) (st : Store J)
    (hf : st.file = some (some m)) (stamp : String) (hs : st.zips.get? stamp = none) (i t : Nat) :
    (Call.run C st ⟨stamp, i, t, none⟩).file = (Meta.resume C i t st.file).1 ∧
    (resumeOps C stamp i t st).2 = (Meta.resume C i t st.file).2 ∧
    (Call.run C st ⟨stamp, i, t, none⟩).zips.get? stamp = some (some st.file) := by
  obtain ⟨a, b⟩ := writes_ok C i t n seed T I m h
  have e : resumeOps C stamp i t st = (backupOps stamp st.file ++ (writes C i t m st.file).flatMap saveOps, (Meta.resume C i t st.file).2) := by
    unfold resumeOps
    rw [show load st.file = .ok m by rw [hf]; rfl]
    simp only [h.trials, hs]
    rfl
  have hops : (⟨stamp, i, t, none⟩ : Call).ops C st = backupOps stamp st.file ++ (writes C i t m st.file).flatMap saveOps := by
    simp only [Call.ops, e]
  refine ⟨?_, by rw [e], ?_⟩
  · unfold Call.run
    rw [hops, applyOps_append, saveOps_last _ (fun f hm => by
      rw [hf] at hm
      obtain ⟨m2, _, e, _⟩ := a f hm
      exact ⟨m2, e⟩)]
    show (writes C i t m st.file).getLast?.getD st.file = _
    rw [hf]
    exact b
  · unfold Call.run
    rw [hops, applyOps_append, (info_ops _ _ (saveOps_info _) _).1]
    simp [backupOps, Backup.applyOps, Op.apply]

/-- A resume in the same second as an earlier backup is refused and changes nothing; nor does one of an unreadable directory. -/
theorem C133_refused (C : Codec J) (st : Store J) (c : Call) (h : (st.zips.get? c.stamp).isSome ∨ st.file = some none) :
    Call.run C st c = st ∧ c.works C st = false := by
  have e : ∃ x, resumeOps C c.stamp c.incI c.incT st = ([], .error x) := by
    unfold resumeOps
    cases hl : load st.file with
    | error _ => exact ⟨_, rfl⟩
    | ok m =>
      dsimp only
      cases m.nTrials with
      | none => exact ⟨_, rfl⟩
      | some n =>
        dsimp only
        rcases h with h | h
        · rw [if_pos h]; exact ⟨_, rfl⟩
        · rw [h] at hl; cases hl
  obtain ⟨x, e⟩ := e
  constructor
  · unfold Call.run Call.ops
    rw [e]
    cases c.kill <;> simp [Backup.applyOps]
  · unfold Call.works
    rw [e]
    cases c.kill <;> rfl

/-- what a call does to the archives and the metadata, killed or not -/
theorem call_effect (C : Codec J) (n : Int) (seed : Option Int) (T I : Int) (m : Content J) (h : CountsAre C m n seed T I) (st : Store J)
    (hf : st.file = some (some m)) (c : Call) (hs : st.zips.get? c.stamp = none) :
    (Call.run C st c).file = st.file ∨
    ((Call.run C st c).zips.get? c.stamp = some (some st.file) ∧
      ((Call.run C st c).file = some none ∨ ∃ m2 I', (Call.run C st c).file = some (some m2) ∧ CountsAre C m2 n seed (c.incT + T) I')) := by
  obtain ⟨a, _⟩ := writes_ok C c.incI c.incT n seed T I m h
  obtain ⟨W, hW⟩ : ∃ W, W = writes C c.incI c.incT m st.file := ⟨_, rfl⟩
  rw [← hf, ← hW] at a
  have e : (resumeOps C c.stamp c.incI c.incT st).1 = backupOps c.stamp st.file ++ W.flatMap saveOps := by
    unfold resumeOps
    rw [show load st.file = .ok m by rw [hf]; rfl]
    simp only [h.trials, hs, hW]
    rfl
  have key : ∀ l : List (Op J), (∀ o ∈ l, o ∈ W.flatMap saveOps) →
      (Backup.applyOps (backupOps c.stamp st.file ++ l) st).zips.get? c.stamp = some (some st.file) ∧
      ((Backup.applyOps (backupOps c.stamp st.file ++ l) st).file = st.file ∨ (Backup.applyOps (backupOps c.stamp st.file ++ l) st).file = some none ∨
        ∃ m2 I', (Backup.applyOps (backupOps c.stamp st.file ++ l) st).file = some (some m2) ∧ CountsAre C m2 n seed (c.incT + T) I') := by
    intro l hl
    obtain ⟨p, q⟩ := info_ops W l (fun o ho => saveOps_info W o (hl o ho)) (Backup.applyOps (backupOps c.stamp st.file) st)
    rw [applyOps_append]
    refine ⟨by rw [p]; simp [backupOps, Backup.applyOps, Op.apply], ?_⟩
    rcases q with q | q | q
    · exact Or.inl q
    · exact Or.inr (Or.inl q)
    · exact Or.inr (Or.inr (a _ q))
  have fin : ∀ l : List (Op J), (∀ o ∈ l, o ∈ W.flatMap saveOps) → c.ops C st = backupOps c.stamp st.file ++ l → _ := fun l hl hops => by
    have := key l hl
    rw [← hops] at this
    exact this
  have conv : ∀ x : Store J, x.zips.get? c.stamp = some (some st.file) ∧ (x.file = st.file ∨ x.file = some none ∨
        ∃ m2 I', x.file = some (some m2) ∧ CountsAre C m2 n seed (c.incT + T) I') →
      x.file = st.file ∨ (x.zips.get? c.stamp = some (some st.file) ∧
        (x.file = some none ∨ ∃ m2 I', x.file = some (some m2) ∧ CountsAre C m2 n seed (c.incT + T) I')) := by
    rintro x ⟨z, q | q⟩
    · exact Or.inl q
    · exact Or.inr ⟨z, q⟩
  unfold Call.run
  cases hk : c.kill with
  | none =>
    have hops : c.ops C st = backupOps c.stamp st.file ++ W.flatMap saveOps := by simp only [Call.ops, hk, e]
    exact conv _ (fin _ (fun o ho => ho) hops)
  | some k =>
    have hops : c.ops C st = (backupOps c.stamp st.file ++ W.flatMap saveOps).take k := by simp only [Call.ops, hk, e]
    match k, hops with
    | 0, hops => rw [hops]; exact Or.inl rfl
    | 1, hops => rw [hops]; exact Or.inl rfl
    | k + 2, hops => exact conv _ (fin ((W.flatMap saveOps).take k) (fun o ho => List.mem_of_mem_take ho) hops)

/-- Whatever resumes are made, and however they are killed, an archive once written never changes. -/
theorem C133_backup_kept (C : Codec J) (l : List Call) (st : Store J) (stamp : String) (x : Option (File J))
    (h : st.zips.get? stamp = some x) : (afterCalls C st l).zips.get? stamp = some x := by
  induction l generalizing st with
  | nil => exact h
  | cons c t ih =>
    refine ih (Call.run C st c) ?_
    cases hz : st.zips.get? c.stamp with
    | some y => rw [(C133_refused C st c (Or.inl (by rw [hz]; rfl))).1]; exact h
    | none =>
      have hne : stamp ≠ c.stamp := fun e => by rw [e, hz] at h; cases h
      have ops_ne : ∀ o ∈ c.ops C st, ∀ s, (Op.apply o s).zips.get? stamp = s.zips.get? stamp := by
        have all : ∀ o ∈ (resumeOps C c.stamp c.incI c.incT st).1, ∀ s, (Op.apply o s).zips.get? stamp = s.zips.get? stamp := by
          intro o ho s
          unfold resumeOps at ho
          cases hl : load st.file with
          | error _ => rw [hl] at ho; cases ho
          | ok m =>
            rw [hl] at ho
            dsimp only at ho
            cases hn : m.nTrials with
            | none => rw [hn] at ho; cases ho
            | some n =>
              rw [hn] at ho
              dsimp only at ho
              rw [hz, if_neg (by simp)] at ho
              rcases List.mem_append.1 ho with ho | ho
              · simp only [backupOps, List.mem_cons, List.not_mem_nil, or_false] at ho
                rcases ho with rfl | rfl <;> simp [Op.apply, hne]
              · rcases saveOps_info _ o ho with rfl | ⟨m2, rfl, _⟩ <;> rfl
        intro o ho
        unfold Call.ops at ho
        cases hk : c.kill with
        | none => rw [hk] at ho; exact all o ho
        | some k => rw [hk] at ho; exact all o (List.mem_of_mem_take ho)
      have run_ne : ∀ (os : List (Op J)) (s : Store J), (∀ o ∈ os, ∀ s, (Op.apply o s).zips.get? stamp = s.zips.get? stamp) →
          (Backup.applyOps os s).zips.get? stamp = s.zips.get? stamp := by
        intro os
        induction os with
        | nil => intro s _; rfl
        | cons o os iho => intro s hos; exact (iho (o.apply s) (fun o' ho' => hos o' (by simp [ho']))).trans (hos o (by simp) s)
      unfold Call.run
      rw [run_ne _ _ ops_ne]
      exact h

/-- However many resumes are made and wherever they are killed, the directory or an archive is readable; resuming from it runs the original
trials, at least all those added by the resumes that got to running trials and at most all that anyone asked for, with the same seed. -/
theorem C133_no_loss (C : Codec J) (n : Int) (seed : Option Int) (T I : Int) (m : Content J) (h : CountsAre C m n seed T I) (st : Store J)
    (hf : st.file = some (some m)) (l : List Call) :
    ∃ m' T', Recoverable (afterCalls C st l) m' ∧ T + trialsOfWorking C st l ≤ T' ∧ T' ≤ T + (l.map fun c => (c.incT : Int)).sum ∧
      ∀ t : Nat, ∃ f, Meta.resume C 0 t (some (some m')) = (f, .ok ⟨n + (t + T'), 0, seed⟩) := by
  have stuck : ∀ (l : List Call) (st : Store J), st.file = some none → afterCalls C st l = st ∧ trialsOfWorking C st l = 0 := by
    intro l
    induction l with
    | nil => intro st _; exact ⟨rfl, rfl⟩
    | cons c t ih =>
      intro st hst
      obtain ⟨r1, r2⟩ := C133_refused C st c (Or.inr hst)
      obtain ⟨i1, i2⟩ := ih st hst
      constructor
      · show afterCalls C (Call.run C st c) t = st
        rw [r1]; exact i1
      · simp only [trialsOfWorking, r2, r1, i2]; rfl
  have nonneg : ∀ l : List Call, 0 ≤ (l.map fun c => (c.incT : Int)).sum := by
    intro l
    induction l with
    | nil => simp
    | cons c t ih => simp only [List.map_cons, List.sum_cons]; omega
  have good : ∀ (m' : Content J) (T' I' : Int), CountsAre C m' n seed T' I' → ∀ t : Nat, ∃ f, Meta.resume C 0 t (some (some m')) = (f, .ok ⟨n + (t + T'), 0, seed⟩) := by
    intro m' T' I' hc t
    obtain ⟨m2, a, _⟩ := resume_ok C 0 t n seed T' I' m' hc
    exact ⟨_, by simpa using a⟩
  induction l generalizing st m T I with
  | nil => exact ⟨m, T, Or.inl hf, by simp [trialsOfWorking], by simp, good m T I h⟩
  | cons c t ih =>
    have hsum : ((c :: t).map fun c => (c.incT : Int)).sum = c.incT + (t.map fun c => (c.incT : Int)).sum := by simp
    have ha : afterCalls C st (c :: t) = afterCalls C (Call.run C st c) t := rfl
    have hnt := nonneg t
    cases hz : st.zips.get? c.stamp with
    | some y =>
      obtain ⟨r1, r2⟩ := C133_refused C st c (Or.inl (by rw [hz]; rfl))
      obtain ⟨m', T', a, b, d, e⟩ := ih T I m h st hf
      have hw : trialsOfWorking C st (c :: t) = trialsOfWorking C st t := by simp [trialsOfWorking, r1, r2]
      exact ⟨m', T', by rw [ha, r1]; exact a, by rw [hw]; exact b, by rw [hsum]; omega, e⟩
    | none =>
      by_cases hfile : c.works C st = true
      · -- not killed: the metadata are those of the resume
        have hk : c.kill = none := by
          unfold Call.works at hfile
          cases hk : c.kill with
          | none => rfl
          | some k => rw [hk] at hfile; simp at hfile
        have hcc : c = ⟨c.stamp, c.incI, c.incT, none⟩ := by
          cases c; simp only at hk; rw [hk]
        obtain ⟨u1, _, _⟩ := C133_uninterrupted C n seed T I m h st hf c.stamp hz c.incI c.incT
        rw [← hcc, hf] at u1
        obtain ⟨m2, v1, v2, _⟩ := resume_ok C c.incI c.incT n seed T I m h
        rw [v1] at u1
        obtain ⟨m', T', a, b, d, e⟩ := ih _ _ m2 v2 _ u1
        refine ⟨m', T', by rw [ha]; exact a, ?_, by rw [hsum]; omega, e⟩
        have : trialsOfWorking C st (c :: t) = c.incT + trialsOfWorking C (Call.run C st c) t := by simp [trialsOfWorking, hfile]
        rw [this]; omega
      · have hw : trialsOfWorking C st (c :: t) = trialsOfWorking C (Call.run C st c) t := by simp [trialsOfWorking, hfile]
        rcases call_effect C n seed T I m h st hf c hz with g | ⟨g1, g2 | ⟨m2, I', g2, g3⟩⟩
        · obtain ⟨m', T', a, b, d, e⟩ := ih T I m h _ (g.trans hf)
          exact ⟨m', T', by rw [ha]; exact a, by rw [hw]; exact b, by rw [hsum]; omega, e⟩
        · obtain ⟨s1, s2⟩ := stuck t _ g2
          refine ⟨m, T, Or.inr ⟨by rw [ha, s1]; exact g2, c.stamp, by rw [ha, s1, g1, hf]⟩, by rw [hw, s2]; omega, by rw [hsum]; omega, good m T I h⟩
        · obtain ⟨m', T', a, b, d, e⟩ := ih _ _ m2 g3 _ g2
          exact ⟨m', T', by rw [ha]; exact a, by rw [hw]; omega, by rw [hsum]; omega, e⟩

/-- What backups do not cover: `append_metadata` called otherwise (by a user, or by `compute_metrics` when it has saved its results) makes none.
If it is killed after opening the file and no archive exists, no readable metadata are left, whatever is called later. -/
theorem C133_append_refuted (C : Codec J) (e : List (String × J)) (st : Store J) (hz : st.zips = PyDict.empty) (m1 : Content J) (f1 : File J)
    (ha : Meta.append C e st.file = (f1, .ok m1)) (l : List Call) :
    ∃ m2, saveOps f1 = [.openInfo, .writeInfo m2] ∧
      (∀ m, ¬ Recoverable (afterCalls C (Backup.applyOps ((saveOps f1).take 1) st) l) m) ∧
      trialsOfWorking C (Backup.applyOps ((saveOps f1).take 1) st) l = 0 := by
  obtain ⟨m2, hm2⟩ : ∃ m2, f1 = some (some m2) := by
    unfold Meta.append at ha
    cases hl : load st.file with
    | error x => rw [hl] at ha; simp at ha
    | ok m =>
      rw [hl] at ha
      simp only [save] at ha
      cases hx : encEntries C (Meta.update (m.bench.getD PyDict.empty) e).entries with
      | none => rw [hx] at ha; simp at ha
      | some l' =>
        rw [hx] at ha
        exact ⟨_, (congrArg Prod.fst ha).symm⟩
  have hs : Backup.applyOps ((saveOps f1).take 1) st = ⟨some none, PyDict.empty⟩ := by
    rw [hm2, ← hz]; rfl
  have stuck : ∀ l : List Call, afterCalls C (⟨some none, PyDict.empty⟩ : Store J) l = ⟨some none, PyDict.empty⟩ ∧
      trialsOfWorking C (⟨some none, PyDict.empty⟩ : Store J) l = 0 := by
    intro l
    induction l with
    | nil => exact ⟨rfl, rfl⟩
    | cons c t ih =>
      obtain ⟨r1, r2⟩ := C133_refused C (⟨some none, PyDict.empty⟩ : Store J) c (Or.inr rfl)
      constructor
      · show afterCalls C (Call.run C _ c) t = _
        rw [r1]; exact ih.1
      · simp only [trialsOfWorking, r2, r1, ih.2]; rfl
  refine ⟨m2, by rw [hm2]; rfl, fun m hm => ?_, by rw [hs]; exact (stuck l).2⟩
  rw [hs, (stuck l).1] at hm
  rcases hm with h | ⟨_, s, h⟩
  · cases h
  · cases h

/-- a resume killed while it rewrites the metadata, and one that follows: the directory is unreadable, the archive is not -/
example : let st : Store Note := ⟨(start noteCodec 3 (.list []) (some 7) none).1, PyDict.empty⟩
    let st' := afterCalls noteCodec st [⟨"10:00", 0, 2, none⟩, ⟨"10:05", 0, 1, some 3⟩, ⟨"10:09", 4, 4, none⟩]
    st'.file.isSome = true ∧ (load st'.file).toOption.isSome = false ∧
    (st'.zips.get? "10:05").map (fun z => z.map fun f => (Meta.resume noteCodec 0 1 f).2) = some (some (.ok ⟨6, 0, some 7⟩)) := by
  decide +kernel

example : CountsAre noteCodec ⟨some 3, some (.list []), some 7, none⟩ 3 (some 7) 0 0 :=
  ⟨fun b h => (by cases h), rfl, rfl, fun inc => (by simp [total, PyDict.empty, PyDict.get?, PyDict.lookupL]),
    fun inc => (by simp [total, PyDict.empty, PyDict.get?, PyDict.lookupL])⟩

example : ∃ m1 f1, Meta.append noteCodec [("table_metrics", .str "x")] (start noteCodec 3 (.list []) (some 7) none).1 = (f1, .ok m1) :=
  ⟨_, _, rfl⟩

end Verif.Props
