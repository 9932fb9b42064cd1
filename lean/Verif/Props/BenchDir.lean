import Verif.Lemmas.BenchDir
import Verif.Props.Benchmark
import Verif.Props.Checkpoint
import Verif.Props.Metrics
set_option linter.unusedSectionVars false
/-!
# C108: a whole benchmark killed and resumed

Any number of algorithms and trials, run in any number of processes (any interleaving of their file operations), killed at any point,
resumed any number of times. `Ckpt.straight` (one trial without checkpoints) is the specification of a trial's result.
-/
namespace Verif.Props
open Verif BenchDir

section
variable {S P G M J : Type}

/-- a new directory: absent, or existing and empty -/
def newRoot (present : Bool) : Root S P G M J := ⟨present, none, none, none, none, false, [], fun _ _ => Ckpt.Dir.empty⟩

/-- SPEC: the kill left no half-written JSON record, left the initialisation undone or complete, and no change of the number of iterations was recorded -/
structure Readable (r : Root S P G M J) : Prop where
  info : r.info ≠ some none
  progress : ∀ i t, (r.trial i t).progress ≠ some none
  complete : ∀ i t, (r.trial i t).complete ≠ some none
  started : r.isEmpty = true ∨ ((∃ l, r.algs = some (some l)) ∧ (∃ p, r.problem = some (some p)) ∧ ∃ m, r.info = some (some m) ∧ m.incIters = 0)

/-- SPEC: directories reached by starting a benchmark on a new directory and resuming it, every call killed somewhere; the resuming calls may ask for more
trials, and for more iterations if they are killed before that is recorded -/
inductive History (m : Ckpt.Manager) (mk : P → G → Int → Ckpt.Trial S) (first : Call P G J) : Root S P G M J → Prop
  | start (b : Bool) : History m mk first (newRoot b)
  | killed {r : Root S P G M J} (h : History m mk first r) {c : Call P G J} (hc : c = first ∨ ∃ a b, c = .resume a b) {l : List (Op S P G M J)}
      {pl : Plan P G} {outs : List (Nat × Nat × Ckpt.Outcome S)} (e : Exec m mk r c l pl outs) (k : Nat) (hr : Readable (applyOps (l.take k) r)) :
      History m mk first (applyOps (l.take k) r)

/-- SPEC: a trial on its own: `Ckpt.straight` of algorithm `a` with the seed derived from the base seed, the algorithm's index and the trial's number -/
def alone (mk : P → G → Int → Ckpt.Trial S) (p : P) (s : Int) (i t : Nat) (a : Alg G) : S × Bool :=
  Ckpt.straight (mk p a.code (Bench.trialSeed (some s) 0 i t)) a.iterations a.iterations

/-! ## invariant -/

/-- the trials' directories are consistent -/
def TrialsOk (m : Ckpt.Manager) (mk : P → G → Int → Ckpt.Trial S) (algs : List (Alg G)) (p : P) (s : Int) (r : Root S P G M J) : Prop :=
  ∀ i a, algs[i]? = some a → ∀ t, Ckpt.Inv m (mk p a.code (Bench.trialSeed (some s) 0 i t)) a.iterations (r.trial i t)

/-- an initialised directory -/
structure Initialised (m : Ckpt.Manager) (mk : P → G → Int → Ckpt.Trial S) (algs : List (Alg G)) (p : P) (n : Nat) (s : Int) (r : Root S P G M J) : Prop where
  present : r.present = true
  info : ∃ md, r.info = some (some md) ∧ md.nTrials = n ∧ md.seed = some s ∧ md.incIters = 0
  code : r.algs = some (some algs)
  problem : r.problem = some (some p)
  trials : TrialsOk m mk algs p s r

theorem Initialised.nonempty {m : Ckpt.Manager} {mk : P → G → Int → Ckpt.Trial S} {algs : List (Alg G)} {p : P} {n : Nat} {s : Int} {r : Root S P G M J}
    (h : Initialised m mk algs p n s r) : r.isEmpty = false := by
  simp [Root.isEmpty, h.present, h.code]

section
variable {m : Ckpt.Manager} {mk : P → G → Int → Ckpt.Trial S} {algs : List (Alg G)} {p : P} {n : Nat} {s : Int}

/-- the run phase, killed or not -/
theorem run_phase (hk : 0 < m.keep) (hm : ∀ p g s k st, (mk p g s).metric k st = st) (hit : ∀ a ∈ algs, 0 < a.iterations) {r : Root S P G M J}
    (ht : TrialsOk m mk algs p s r) {N : Nat} {draw : Nat → Nat → Int} {outs : List (Nat × Nat × Ckpt.Outcome S)}
    (ho : outcomes m mk draw r ⟨algs, p, N, some s⟩ = .ok outs) {sched : List (Nat × Nat × Ckpt.FsOp S)} (hs : Schedule outs sched) :
    (∀ c, Readable (applyOps (tagged (sched.take c)) r) → TrialsOk m mk algs p s (applyOps (tagged (sched.take c)) r)) ∧
    (∀ i a t, algs[i]? = some a → t < N → ∃ o, (i, t, o) ∈ outs ∧ o.done = !(alone mk p s i t a).2 ∧
      o.state = (if r.done i t = false ∧ o.done = true then (mk p a.code (Bench.trialSeed (some s) 0 i t)).tidy (alone mk p s i t a).1 else (alone mk p s i t a).1) ∧
      (o.done = true → ((applyOps (tagged sched) r).trial i t).result = .ok (alone mk p s i t a).1) ∧ (applyOps (tagged sched) r).done i t = o.done) := by
  obtain ⟨hkeys, hall⟩ := outcomes_inv ho
  have hnod : (outs.map fun o => (o.1, o.2.1)).Nodup := by rw [hkeys]; exact pairs_nodup _ _
  -- what one trial does
  have one : ∀ i a t, algs[i]? = some a → t < N → ∃ o, (i, t, o) ∈ outs ∧ projectOps i t sched = o.ops ∧
      Ckpt.session m (mk p a.code (Bench.trialSeed (some s) 0 i t)) a.iterations (r.trial i t) = .ok o := by
    intro i a t ha htN
    obtain ⟨o, h1, h2⟩ := hall i t a ha htN
    exact ⟨o, h1, by rw [hs i t, project_sequential outs hnod i t o h1], h2⟩
  refine ⟨fun c hr i a ha t => ?_, fun i a t ha htN => ?_⟩
  · have hinv := ht i a ha t
    have hpr := hr.progress i t
    have hco := hr.complete i t
    rw [apply_tagged] at hpr hco ⊢
    dsimp only at hpr hco ⊢
    by_cases htN : t < N
    · obtain ⟨o, _, h2, h3⟩ := one i a t ha htN
      obtain ⟨c', hc'⟩ := project_take i t sched c
      rw [hc', h2] at hpr hco ⊢
      obtain ⟨o', e', _, _, h6, _⟩ := Ckpt.session_inv hk (fun k st => hm p a.code _ k st) (hit a (List.mem_of_getElem? ha)) hinv
      rw [h3] at e'
      injection e' with e'
      subst e'
      exact h6 c' (not_inWindow hpr hco)
    · have : projectOps i t sched = [] := by
        rw [hs i t]
        refine project_sequential_none outs i t fun o ho' hc => htN ?_
        have : (o.1, o.2.1) ∈ pairs algs.length N := by
          rw [← hkeys]; exact List.mem_map.2 ⟨o, ho', rfl⟩
        rw [hc.1, hc.2] at this
        exact ((mem_pairs _ _ _ _).1 this).2
      obtain ⟨c', hc'⟩ := project_take i t sched c
      rw [hc', this]
      simpa using hinv
  · obtain ⟨o, h1, h2, h3⟩ := one i a t ha htN
    obtain ⟨o', e', h4, h5, _, h7⟩ := Ckpt.session_inv hk (fun k st => hm p a.code _ k st) (hit a (List.mem_of_getElem? ha)) (ht i a ha t)
    rw [h3] at e'
    injection e' with e'
    subst e'
    refine ⟨o, h1, h4, ?_, fun hd => ?_, ?_⟩
    · rw [h5]
      unfold Root.done
      cases (r.trial i t).complete <;> simp [alone]
    rotate_left
    · rw [apply_tagged]
      unfold Root.done
      dsimp only
      rw [h2]
      cases hd : o.done with
      | true => rw [(h7 hd).1]; rfl
      | false => rw [session_failed _ _ _ _ _ h3 hd]; rfl
    · obtain ⟨h8, h9⟩ := h7 hd
      rw [apply_tagged]
      dsimp only
      rw [h2]
      rcases h9 with ⟨q, hq⟩ | ⟨_, hq⟩
      · rw [hq.open_] at h8; cases h8
      · have hpos := (hq.pos (hit a (List.mem_of_getElem? ha))).2.1
        simp only [Ckpt.Dir.result, h8, Ckpt.Dir.read]
        dsimp only at hpos
        rw [hpos]
        rfl

/-- operations of the bookkeeping part of a resumed benchmark -/
def Bookkeeping (md : MetaFile J) : Op S P G M J → Prop
  | .openInfo => True
  | .writeInfo md' => md'.nTrials = md.nTrials ∧ md'.seed = md.seed
  | .unmark _ _ => True
  | _ => False

theorem bookkeeping_keeps (md : MetaFile J) (hn : md.nTrials = n) (hsd : md.seed = some s) (l : List (Op S P G M J)) (hl : ∀ o ∈ l, Bookkeeping md o) (r : Root S P G M J)
    (hp : r.present = true) (hi : r.info = some none ∨ ∃ md', r.info = some (some md') ∧ md'.nTrials = n ∧ md'.seed = some s)
    (ha : r.algs = some (some algs)) (hpr : r.problem = some (some p)) (ht : TrialsOk m mk algs p s r) :
    (applyOps l r).present = true ∧ ((applyOps l r).info = some none ∨ ∃ md', (applyOps l r).info = some (some md') ∧ md'.nTrials = n ∧ md'.seed = some s) ∧
      (applyOps l r).algs = some (some algs) ∧ (applyOps l r).problem = some (some p) ∧ TrialsOk m mk algs p s (applyOps l r) := by
  induction l generalizing r with
  | nil => exact ⟨hp, hi, ha, hpr, ht⟩
  | cons o l ih =>
    rw [applyOps_cons]
    have ho := hl o (List.mem_cons_self ..)
    have hl' := fun x hx => hl x (List.mem_cons_of_mem _ hx)
    cases o with
    | openInfo => exact ih hl' _ hp (.inl rfl) ha hpr ht
    | writeInfo md' => exact ih hl' _ hp (.inr ⟨md', rfl, ho.1.trans hn, ho.2.trans hsd⟩) ha hpr ht
    | unmark i t =>
      refine ih hl' _ hp hi ha hpr ?_
      intro i' a' ha' t'
      have := ht i' a' ha' t'
      simp only [Op.apply, setTrial]
      split
      · rename_i h
        obtain ⟨rfl, rfl⟩ := h
        exact .inl (Ckpt.Inv.reopen this)
      · exact this
    | _ => exact absurd ho (by simp [Bookkeeping])

theorem resumeHead_bookkeeping (md : MetaFile J) (incI incT : Nat) : ∀ o ∈ (resumeHead md p algs incI incT : List (Op S P G M J) × Plan P G).1, Bookkeeping md o := by
  have h1 : ∀ b : MetaFile J, b.nTrials = md.nTrials → b.seed = md.seed → ∀ o ∈ (if incT ≠ 0 then [.openInfo, .writeInfo b] else [] : List (Op S P G M J)), Bookkeeping md o := by
    intro b hb hb' o ho
    split at ho
    · rcases List.mem_cons.1 ho with rfl | ho
      · trivial
      · rw [List.mem_singleton.1 ho]; exact ⟨hb, hb'⟩
    · simp at ho
  intro o ho
  unfold resumeHead at ho
  dsimp only at ho
  split at ho
  · rcases List.mem_append.1 ho with ho | ho
    · rcases List.mem_append.1 ho with ho | ho
      · exact h1 { md with incTrials := incT + md.incTrials } rfl rfl o ho
      · obtain ⟨x, _, rfl⟩ := List.mem_map.1 ho; trivial
    · rcases List.mem_cons.1 ho with rfl | ho
      · trivial
      · rw [List.mem_singleton.1 ho]
        split <;> exact ⟨rfl, rfl⟩
  · exact h1 { md with incTrials := incT + md.incTrials } rfl rfl o ho

theorem loadAll_ready {r : Root S P G M J} (h : Initialised m mk algs p n s r) :
    ∃ md, r.info = some (some md) ∧ md.nTrials = n ∧ md.seed = some s ∧ md.incIters = 0 ∧ r.loadAll = .ok (md, p, algs) := by
  obtain ⟨md, h1, h2, h3, h4⟩ := h.info
  refine ⟨md, h1, h2, h3, h4, ?_⟩
  simp only [Root.loadAll, Root.loadInfo, h1, h.problem, h.code, readFile, bind, Except.bind, asInvalid]

theorem resume_head {r : Root S P G M J} (h : Initialised m mk algs p n s r) {a b : Int} {hd : List (Op S P G M J)} {pl : Plan P G} (e : r.head (.resume a b) = .ok (hd, pl)) :
    0 ≤ a ∧ 0 ≤ b ∧ ∃ md, r.info = some (some md) ∧ md.nTrials = n ∧ md.seed = some s ∧ md.incIters = 0 ∧ (hd, pl) = resumeHead md p algs a.toNat b.toNat := by
  obtain ⟨md, h1, h2, h3, h4, h5⟩ := loadAll_ready h
  simp only [Root.head, h.present, h.nonempty, h5, Bool.true_eq_false, Bool.false_eq_true, if_false] at e
  split at e
  · cases e
  · split at e
    · cases e
    · rename_i ha hb
      injection e with e
      exact ⟨by omega, by omega, md, h1, h2, h3, h4, e.symm⟩

theorem resumeHead_zero (md : MetaFile J) (incT : Nat) : (resumeHead md p algs 0 incT : List (Op S P G M J) × Plan P G).2 = ⟨algs, p, md.nTrials + (incT + md.incTrials), md.seed⟩ := by
  simp [resumeHead]

theorem resumeHead_iters (md : MetaFile J) (incI incT : Nat) (hI : incI ≠ 0) (r : Root S P G M J) :
    ∃ md', (applyOps (resumeHead md p algs incI incT : List (Op S P G M J) × Plan P G).1 r).info = some (some md') ∧ md'.incIters = incI + md.incIters := by
  unfold resumeHead
  dsimp only
  rw [if_pos hI]
  dsimp only
  rw [applyOps_append]
  exact ⟨_, rfl, rfl⟩

theorem resume_killed (hk : 0 < m.keep) (hm : ∀ p g s k st, (mk p g s).metric k st = st) (hit : ∀ a ∈ algs, 0 < a.iterations) {r : Root S P G M J} (h : Initialised m mk algs p n s r)
    {a b : Int} {l : List (Op S P G M J)} {pl : Plan P G} {outs : List (Nat × Nat × Ckpt.Outcome S)} (e : Exec m mk r (.resume a b) l pl outs) (k : Nat)
    (hr : Readable (applyOps (l.take k) r)) : Initialised m mk algs p n s (applyOps (l.take k) r) := by
  obtain ⟨draw, hd, sched, e1, e2, e3, e4⟩ := e
  obtain ⟨ha, hb, md, i1, i2, i3, i4, i5⟩ := resume_head h e1
  have hbook : ∀ o ∈ hd, Bookkeeping md o := by
    have := resumeHead_bookkeeping (S := S) (M := M) (p := p) (algs := algs) md a.toNat b.toNat
    rw [← i5] at this
    exact this
  have hbk := bookkeeping_keeps (m := m) (mk := mk) (algs := algs) (p := p) (n := n) (s := s) md i2 i3 (hd.take k) (fun o ho => hbook o (List.mem_of_mem_take ho)) r h.present (.inr ⟨md, i1, i2, i3⟩) h.code h.problem h.trials
  have et : l.take k = hd.take k ++ tagged (sched.take (k - hd.length)) := by
    rw [e4, List.take_append]
    unfold tagged
    rw [List.map_take]
  rw [et, applyOps_append] at hr ⊢
  obtain ⟨r1, er1⟩ : ∃ r1, r1 = applyOps (hd.take k) r := ⟨_, rfl⟩
  rw [← er1] at hr hbk ⊢
  obtain ⟨b1, b2, b3, b4, b5⟩ := hbk
  -- the top of the directory is not touched by the trials
  have top : (applyOps (tagged (sched.take (k - hd.length))) r1).present = r1.present ∧ (applyOps (tagged (sched.take (k - hd.length))) r1).info = r1.info ∧
      (applyOps (tagged (sched.take (k - hd.length))) r1).algs = r1.algs ∧ (applyOps (tagged (sched.take (k - hd.length))) r1).problem = r1.problem := by
    rw [apply_tagged]; exact ⟨rfl, rfl, rfl, rfl⟩
  obtain ⟨t1, t2, t3, t4⟩ := top
  have hinfo : ∃ md', r1.info = some (some md') ∧ md'.nTrials = n ∧ md'.seed = some s ∧ md'.incIters = 0 := by
    rcases b2 with b2 | ⟨md', b2, b6, b7⟩
    · exact absurd (t2.trans b2) hr.info
    · refine ⟨md', b2, b6, b7, ?_⟩
      rcases hr.started with hs | ⟨_, _, md'', hs, hz⟩
      · simp [Root.isEmpty, t1, b1, t3, b3] at hs
      · rw [t2, b2] at hs
        injection hs with hs
        injection hs with hs
        rw [hs]; exact hz
  refine ⟨t1.trans b1, by rw [t2]; exact hinfo, t3.trans b3, t4.trans b4, ?_⟩
  by_cases hlen : k < hd.length
  · rw [Nat.sub_eq_zero_of_le hlen.le]
    exact b5
  · have hfull : hd.take k = hd := List.take_of_length_le (by omega)
    rw [hfull] at er1
    have hz : a.toNat = 0 := by
      by_contra hne
      obtain ⟨md', f1, f2⟩ := resumeHead_iters (p := p) (algs := algs) md a.toNat b.toNat hne r
      rw [← i5] at f1
      obtain ⟨md'', g1, _, _, g2⟩ := hinfo
      rw [er1, f1] at g1
      injection g1 with g1
      injection g1 with g1
      rw [← g1] at g2
      omega
    rw [hz] at i5
    have hpl : pl = ⟨algs, p, md.nTrials + (b.toNat + md.incTrials), some s⟩ := by
      have := congrArg Prod.snd i5
      rw [resumeHead_zero, i3] at this
      exact this
    rw [← er1, hpl] at e2
    exact (run_phase hk hm hit b5 e2 e3).1 _ hr

/-! ## the first call -/

/-- `initialize` after the files at the top -/
theorem first_killed (hk : 0 < m.keep) (hm : ∀ p g s k st, (mk p g s).metric k st = st) (hit : ∀ a ∈ algs, 0 < a.iterations) (b : Bool) (notes : PyDict String J)
    {l : List (Op S P G M J)} {pl : Plan P G} {outs : List (Nat × Nat × Ckpt.Outcome S)} (e : Exec m mk (newRoot b) (.benchmark algs p n notes (some s)) l pl outs) (k : Nat)
    (hr : Readable (applyOps (l.take k) (newRoot b))) : (∃ b', applyOps (l.take k) (newRoot b) = newRoot b') ∨ Initialised m mk algs p n s (applyOps (l.take k) (newRoot b)) := by
  obtain ⟨draw, hd, sched, e1, e2, e3, e4⟩ := e
  have hhead : hd = initOps algs p n notes (some s) ∧ pl = ⟨algs, p, n, some s⟩ := by
    simp only [Root.head] at e1
    split at e1
    · cases e1
    · split at e1
      · cases e1
      · injection e1 with e1
        injection e1 with e1 e1'
        exact ⟨e1.symm, e1'.symm⟩
  obtain ⟨h1, h2⟩ := hhead
  rw [h2] at e2
  obtain ⟨tops, htops⟩ : ∃ tops : List (Op S P G M J), tops = [.mkdir, .openInfo, .writeInfo ⟨n, algs.zipIdx.map (fun a => (a.1.name, a.1.iterations, a.2)), some s, 0, 0, notes⟩,
    .openAlgs, .writeAlgs algs, .openProblem, .writeProblem p] := ⟨_, rfl⟩
  have hl : l = tops ++ ((List.range algs.length).map Op.mkAlg ++ tagged sched) := by
    rw [e4, h1, htops, ← List.append_assoc]; rfl
  by_cases h7 : k < 7
  · have hk' : k = 0 ∨ k = 1 ∨ k = 2 ∨ k = 3 ∨ k = 4 ∨ k = 5 ∨ k = 6 := by omega
    have htk : l.take k = tops.take k := by
      rw [hl, List.take_append_of_le_length]
      rw [htops]; show k ≤ 7; omega
    rw [htk, htops] at hr ⊢
    rcases hk' with rfl | rfl | rfl | rfl | rfl | rfl | rfl
    · exact .inl ⟨b, rfl⟩
    · exact .inl ⟨true, rfl⟩
    · exact absurd rfl hr.info
    all_goals
      exfalso
      rcases hr.started with h | ⟨⟨_, h⟩, ⟨_, h'⟩, _⟩
      · cases h
      · first | (cases h; done) | (cases h'; done)
  · right
    have htk : l.take k = tops ++ (((List.range algs.length).map Op.mkAlg).take (k - 7) ++ tagged (sched.take (k - 7 - algs.length))) := by
      rw [hl, List.take_append, List.take_of_length_le (by rw [htops]; show 7 ≤ k; omega), List.take_append]
      have h7' : tops.length = 7 := by rw [htops]; rfl
      rw [h7', List.length_map, List.length_range]
      unfold tagged
      rw [List.map_take (l := sched)]
    rw [htk, applyOps_append, applyOps_append] at hr ⊢
    have mkAlgs : ∀ (q : List (Op S P G M J)), (∀ o ∈ q, ∃ i, o = .mkAlg i) → ∀ r : Root S P G M J, ∃ ds, applyOps q r = { r with algDirs := ds } := by
      intro q
      induction q with
      | nil => intro _ r; exact ⟨r.algDirs, rfl⟩
      | cons o q ih =>
        intro hq r
        obtain ⟨i, rfl⟩ := hq o (List.mem_cons_self ..)
        obtain ⟨ds, h⟩ := ih (fun x hx => hq x (List.mem_cons_of_mem _ hx)) ((Op.mkAlg i : Op S P G M J).apply r)
        exact ⟨ds, by rw [applyOps_cons, h]; rfl⟩
    obtain ⟨ds, hds⟩ := mkAlgs (((List.range algs.length).map Op.mkAlg).take (k - 7)) (fun o ho => by
      obtain ⟨i, _, rfl⟩ := List.mem_map.1 (List.mem_of_mem_take ho)
      exact ⟨i, rfl⟩) (applyOps tops (newRoot b))
    obtain ⟨ds', hds'⟩ := mkAlgs ((List.range algs.length).map Op.mkAlg) (fun o ho => by
      obtain ⟨i, _, rfl⟩ := List.mem_map.1 ho
      exact ⟨i, rfl⟩) (applyOps tops (newRoot b))
    rw [hds] at hr ⊢
    have hempty : ∀ ds, TrialsOk m mk algs p s ({ applyOps tops (newRoot b) with algDirs := ds } : Root S P G M J) := by
      intro ds i a _ t
      rw [htops]
      exact .inl ⟨0, Ckpt.inv_empty _ _ _⟩
    have e2' : outcomes m mk draw ({ applyOps tops (newRoot b) with algDirs := ds } : Root S P G M J) ⟨algs, p, n, some s⟩ = .ok outs := by
      have : applyOps hd (newRoot b) = ({ applyOps tops (newRoot b) with algDirs := ds' } : Root S P G M J) := by
        rw [h1]
        show applyOps (_ ++ _) _ = _
        rw [applyOps_append, ← htops, hds']
      rw [this] at e2
      exact e2
    have hrun := (run_phase hk hm hit (hempty ds) e2' e3).1 _ hr
    refine ⟨?_, ?_, ?_, ?_, hrun⟩
    all_goals rw [apply_tagged, htops]
    · rfl
    · exact ⟨_, rfl, rfl, rfl, rfl⟩
    · rfl
    · rfl

theorem history_inv (hk : 0 < m.keep) (hm : ∀ p g s k st, (mk p g s).metric k st = st) (hit : ∀ a ∈ algs, 0 < a.iterations) (notes : PyDict String J) {r : Root S P G M J}
    (h : History m mk (.benchmark algs p n notes (some s)) r) : (∃ b, r = newRoot b) ∨ Initialised m mk algs p n s r := by
  induction h with
  | start b => exact .inl ⟨b, rfl⟩
  | @killed r h c hc l pl outs e k hr ih =>
    rcases ih with ⟨b, rfl⟩ | ih
    · rcases hc with rfl | ⟨a, b', rfl⟩
      · exact first_killed hk hm hit b notes e k hr
      · exfalso
        obtain ⟨_, hd, _, e1, _⟩ := e
        cases b <;> simp [Root.head, newRoot, Root.isEmpty] at e1
    · rcases hc with rfl | ⟨a, b', rfl⟩
      · exfalso
        obtain ⟨_, hd, _, e1, _⟩ := e
        simp only [Root.head, ih.nonempty, if_true] at e1
        split at e1 <;> cases e1
      · exact .inr (resume_killed hk hm hit ih e k hr)

/-! ## the next call -/

theorem keepsTrials (l : List (Op S P G M J)) (h : ∀ o ∈ l, ∀ r : Root S P G M J, (o.apply r).trial = r.trial) (r : Root S P G M J) : (applyOps l r).trial = r.trial := by
  induction l generalizing r with
  | nil => rfl
  | cons o l ih => rw [applyOps_cons, ih fun x hx => h x (List.mem_cons_of_mem _ hx), h o (List.mem_cons_self ..)]

theorem initOps_trials (notes : PyDict String J) (sd : Option Int) (r : Root S P G M J) : (applyOps (initOps algs p n notes sd) r).trial = r.trial := by
  refine keepsTrials _ (fun o ho r => ?_) r
  unfold initOps at ho
  rcases List.mem_append.1 ho with ho | ho
  · simp only [List.mem_cons, List.not_mem_nil, or_false] at ho
    rcases ho with rfl | rfl | rfl | rfl | rfl | rfl | rfl <;> rfl
  · obtain ⟨i, _, rfl⟩ := List.mem_map.1 ho; rfl

theorem resumeHead_trials (md : MetaFile J) (incT : Nat) (r : Root S P G M J) : (applyOps (resumeHead md p algs 0 incT : List (Op S P G M J) × Plan P G).1 r).trial = r.trial := by
  refine keepsTrials _ (fun o ho r => ?_) r
  unfold resumeHead at ho
  dsimp only at ho
  rw [if_neg (by simp)] at ho
  dsimp only at ho
  split at ho
  · rcases List.mem_cons.1 ho with rfl | ho
    · rfl
    · rw [List.mem_singleton.1 ho]; rfl
  · simp at ho

/-- what the next call runs, and that its own bookkeeping leaves the trials alone -/
theorem next_head (hk : 0 < m.keep) (hm : ∀ p g s k st, (mk p g s).metric k st = st) (hit : ∀ a ∈ algs, 0 < a.iterations) (notes : PyDict String J) {r : Root S P G M J}
    (h : History m mk (.benchmark algs p n notes (some s)) r) {c : Call P G J} (hc : c = .benchmark algs p n notes (some s) ∨ ∃ b, c = .resume 0 b)
    {hd : List (Op S P G M J)} {pl : Plan P G} (e : r.head c = .ok (hd, pl)) :
    (∃ N, n ≤ N ∧ pl = ⟨algs, p, N, some s⟩) ∧ (applyOps hd r).trial = r.trial ∧ TrialsOk m mk algs p s r := by
  rcases history_inv hk hm hit notes h with ⟨b, rfl⟩ | hr
  · have ht : TrialsOk m mk algs p s (newRoot b : Root S P G M J) := fun i a _ t => .inl ⟨0, Ckpt.inv_empty _ _ _⟩
    rcases hc with rfl | ⟨b', rfl⟩
    · simp only [Root.head] at e
      split at e
      · cases e
      · split at e
        · cases e
        · injection e with e
          injection e with e e'
          exact ⟨⟨n, le_rfl, e'.symm⟩, by rw [← e]; exact initOps_trials _ _ _, ht⟩
    · exfalso
      cases b <;> simp [Root.head, newRoot, Root.isEmpty] at e
  · rcases hc with rfl | ⟨b', rfl⟩
    · exfalso
      simp only [Root.head, hr.nonempty, if_true] at e
      split at e <;> cases e
    · obtain ⟨_, hb, md, i1, i2, i3, i4, i5⟩ := resume_head hr e
      have i6 := congrArg Prod.snd i5
      rw [show (0 : Int).toNat = 0 from rfl, resumeHead_zero, i2, i3] at i6
      refine ⟨⟨_, Nat.le_add_right _ _, i6⟩, ?_, hr.trials⟩
      have i7 := congrArg Prod.fst i5
      dsimp only at i7
      rw [i7]
      exact resumeHead_trials md _ r

/-- **C108.** A benchmark with a base seed and a checkpoint directory, killed any number of times at any point (between the writes of a JSON record and outside the
initialisation), whatever the number of processes and however they interleave, and finally allowed to finish — by starting it again if nothing had been written, by
resuming it otherwise — has for every algorithm and trial exactly the outcome of that trial run on its own without interruption: it succeeds exactly when that run
does, returns the state of that run, and the state of that run is what the directory holds. -/
theorem C108_crash_resume (hk : 0 < m.keep) (hm : ∀ p g s k st, (mk p g s).metric k st = st) (hit : ∀ a ∈ algs, 0 < a.iterations) (notes : PyDict String J) {r : Root S P G M J}
    (h : History m mk (.benchmark algs p n notes (some s)) r) {c : Call P G J} (hc : c = .benchmark algs p n notes (some s) ∨ ∃ b, c = .resume 0 b)
    {l : List (Op S P G M J)} {pl : Plan P G} {outs : List (Nat × Nat × Ckpt.Outcome S)} (e : Exec m mk r c l pl outs) :
    n ≤ pl.nTrials ∧ ∀ i a t, algs[i]? = some a → t < pl.nTrials → ∃ o, (∀ o', (i, t, o') ∈ outs ↔ o' = o) ∧
      o.done = !(alone mk p s i t a).2 ∧
      o.state = (if r.done i t = false ∧ o.done = true then (mk p a.code (Bench.trialSeed (some s) 0 i t)).tidy (alone mk p s i t a).1 else (alone mk p s i t a).1) ∧
      (o.done = true → ((applyOps l r).trial i t).result = .ok (alone mk p s i t a).1) ∧ (applyOps l r).done i t = o.done := by
  obtain ⟨draw, hd, sched, e1, e2, e3, e4⟩ := e
  obtain ⟨⟨N, hN, rfl⟩, h2, h3⟩ := next_head hk hm hit notes h hc e1
  refine ⟨hN, fun i a t ha ht => ?_⟩
  have ht3 : TrialsOk m mk algs p s (applyOps hd r) := by
    intro i a ha t
    rw [h2]
    exact h3 i a ha t
  obtain ⟨o, h4, h5, h6, h7⟩ := (run_phase hk hm hit ht3 e2 e3).2 i a t ha ht
  have hdone : (applyOps hd r).done i t = r.done i t := by unfold Root.done; rw [h2]
  rw [e4, applyOps_append]
  refine ⟨o, fun o' => ⟨fun ho' => ?_, fun e => e ▸ h4⟩, h5, ?_, h7⟩
  · obtain ⟨hkeys, _⟩ := outcomes_inv e2
    have hnod : (outs.map fun o => (o.1, o.2.1)).Nodup := by rw [hkeys]; exact pairs_nodup _ _
    have := List.inj_on_of_nodup_map hnod ho' h4 rfl
    injection this with _ this
    injection this
  · rw [h6, hdone]

/-! ## one of the two calls is possible -/

/-- **C108.** After any such history exactly one of the two calls is possible, and which one it is shows in whether the directory is empty. On an empty directory
the benchmark can be started (again) and resuming raises `ValueError`. Otherwise it can be resumed, with any number of added trials, and starting any benchmark in
the directory raises `ValueError` before touching it. -/
theorem C108_available (hk : 0 < m.keep) (hm : ∀ p g s k st, (mk p g s).metric k st = st) (hit : ∀ a ∈ algs, 0 < a.iterations) (hn : (algs.map (·.name)).Nodup)
    (notes : PyDict String J) {r : Root S P G M J} (h : History m mk (.benchmark algs p n notes (some s)) r) :
    (r.isEmpty = true → (∃ l pl outs, Exec m mk r (.benchmark algs p n notes (some s)) l pl outs) ∧ ∀ a b, r.head (.resume a b) = .error .valueError) ∧
    (r.isEmpty = false → (∀ b : Int, 0 ≤ b → ∃ l pl outs, Exec m mk r (.resume 0 b) l pl outs ∧ n + b.toNat ≤ pl.nTrials) ∧
      ∀ algs' p' n' notes' s', r.head (.benchmark algs' p' n' notes' s') = .error .valueError) := by
  -- once the checks are passed, the trials can be run
  have go : ∀ {c : Call P G J} (_ : c = .benchmark algs p n notes (some s) ∨ ∃ b, c = .resume 0 b) {hd : List (Op S P G M J)} {pl : Plan P G},
      r.head c = .ok (hd, pl) → ∃ l outs, Exec m mk r c l pl outs := by
    intro c hc hd pl e
    obtain ⟨⟨N, _, rfl⟩, h2, h3⟩ := next_head hk hm hit notes h hc e
    obtain ⟨outs, ho⟩ := outcomes_ok m mk (fun _ _ => 0) (applyOps hd r) ⟨algs, p, N, some s⟩ (by
      intro j hj
      obtain ⟨i, t, a⟩ := j
      obtain ⟨ha, _⟩ := (mem_jobs _ i t a).1 hj
      dsimp only at ha ⊢
      rw [h2]
      obtain ⟨o, ho, _⟩ := Ckpt.session_inv hk (fun k st => hm p a.code _ k st) (hit a (List.mem_of_getElem? ha)) (h3 i a ha t)
      exact ⟨o, ho⟩)
    exact ⟨_, outs, fun _ _ => 0, hd, sequential outs, e, ho, fun _ _ => rfl, rfl⟩
  constructor
  · intro he
    constructor
    · obtain ⟨l, outs, hx⟩ := go (.inl rfl) (hd := initOps algs p n notes (some s)) (pl := ⟨algs, p, n, some s⟩) (by
        simp only [Root.head, (C64_algorithm_names (algs.map (·.name))).1.2 hn, he, Bool.true_eq_false, if_false])
      exact ⟨l, _, outs, hx⟩
    · intro a b
      simp only [Root.head, he, if_true]
      split <;> rfl
  · intro he
    refine ⟨fun b hb => ?_, fun algs' p' n' notes' s' => ?_⟩
    · rcases history_inv hk hm hit notes h with ⟨b', rfl⟩ | hr
      · cases b' <;> simp [newRoot, Root.isEmpty] at he
      · obtain ⟨md, h1, h2, h3, h4, h5⟩ := loadAll_ready hr
        have hb' : ¬ b < 0 := by omega
        have e : r.head (.resume 0 b) = .ok (resumeHead md p algs (0 : Int).toNat b.toNat) := by
          simp only [Root.head, hr.present, hr.nonempty, h5, Bool.true_eq_false, Bool.false_eq_true, if_false, lt_irrefl, hb']
        obtain ⟨l, outs, hx⟩ := go (.inr ⟨b, rfl⟩) e
        refine ⟨l, _, outs, hx, ?_⟩
        show n + b.toNat ≤ md.nTrials + (b.toNat + md.incTrials)
        omega
    · simp only [Root.head, he, if_true]
      split
      · rename_i e' h'
        have := (C64_algorithm_names (algs'.map (·.name)))
        by_cases hnd : (algs'.map (·.name)).Nodup
        · rw [this.1.2 hnd] at h'; cases h'
        · rw [this.2.2 hnd] at h'; injection h' with h'; rw [← h']
      · rfl

/-- the networks returned by the finishing call -/
theorem find_outcome (outs : List (Nat × Nat × Ckpt.Outcome S)) (hnod : (outs.map fun o => (o.1, o.2.1)).Nodup) (i t : Nat) (o : Ckpt.Outcome S) (h : (i, t, o) ∈ outs) :
    ((outs.filter fun x => decide (x.1 = i)).filter fun x => decide (x.2.1 = t)) = [(i, t, o)] := by
  have h1 : ∀ x, x ∈ ((outs.filter fun x => decide (x.1 = i)).filter fun x => decide (x.2.1 = t)) ↔ x = (i, t, o) := by
    intro x
    rw [List.mem_filter, List.mem_filter]
    constructor
    · rintro ⟨⟨hx, h1⟩, h2⟩
      exact List.inj_on_of_nodup_map hnod hx h (by simp only [decide_eq_true_eq] at h1 h2; rw [h1, h2])
    · rintro rfl
      exact ⟨⟨h, by simp⟩, by simp⟩
  have h2 : ((outs.filter fun x => decide (x.1 = i)).filter fun x => decide (x.2.1 = t)).Nodup :=
    ((hnod.of_map).filter _).filter _
  have h3 := (List.perm_ext_iff_of_nodup h2 (List.nodup_singleton (i, t, o))).2 (fun x => by rw [h1 x]; simp)
  exact List.perm_singleton.1 h3

/-- **C108.** The networks the finishing call returns for an algorithm: first those of the trials that were complete when it was called, then those it ran, each group in
trial order, whatever the order in which the processes ended — and each is the network of that trial run on its own (cleaned up if it was run now and did not fail). -/
theorem C108_returned (hk : 0 < m.keep) (hm : ∀ p g s k st, (mk p g s).metric k st = st) (hit : ∀ a ∈ algs, 0 < a.iterations) (notes : PyDict String J) {r : Root S P G M J}
    (h : History m mk (.benchmark algs p n notes (some s)) r) {c : Call P G J} (hc : c = .benchmark algs p n notes (some s) ∨ ∃ b, c = .resume 0 b)
    {l : List (Op S P G M J)} {pl : Plan P G} {outs : List (Nat × Nat × Ckpt.Outcome S)} (e : Exec m mk r c l pl outs) (i : Nat) (a : Alg G) (ha : algs[i]? = some a)
    (order : List Nat) (ho : order.Perm ((List.range pl.nTrials).filter fun t => !r.done i t)) :
    returned r pl.nTrials outs (·.state) i order =
      ((List.range pl.nTrials).filter fun t => r.done i t).map (fun t => (alone mk p s i t a).1) ++
      ((List.range pl.nTrials).filter fun t => !r.done i t).map (fun t => if (alone mk p s i t a).2 then (alone mk p s i t a).1
        else (mk p a.code (Bench.trialSeed (some s) 0 i t)).tidy (alone mk p s i t a).1) := by
  obtain ⟨_, hall⟩ := C108_crash_resume hk hm hit notes h hc e
  have hnod : (outs.map fun o => (o.1, o.2.1)).Nodup := by
    obtain ⟨draw, hd, sched, e1, e2, e3, e4⟩ := e
    rw [(outcomes_inv e2).1]; exact pairs_nodup _ _
  have find : ∀ t < pl.nTrials, ∃ o : Ckpt.Outcome S, ((outs.filter fun x => decide (x.1 = i)).filter fun x => decide (x.2.1 = t)) = [(i, t, o)] ∧
      o.state = (if r.done i t = false then (if (alone mk p s i t a).2 then (alone mk p s i t a).1
        else (mk p a.code (Bench.trialSeed (some s) 0 i t)).tidy (alone mk p s i t a).1) else (alone mk p s i t a).1) := by
    intro t ht
    obtain ⟨o, h1, h2, h3, _⟩ := hall i a t ha ht
    refine ⟨o, find_outcome outs hnod i t o ((h1 o).2 rfl), ?_⟩
    rw [h3, h2]
    cases r.done i t <;> cases (alone mk p s i t a).2 <;> rfl
  unfold returned
  dsimp only
  congr 1
  · have : ∀ L : List Nat, (∀ t ∈ L, t < pl.nTrials ∧ r.done i t = true) →
        (L.flatMap fun t => List.map (fun o : Nat × Nat × Ckpt.Outcome S => o.2.2.state) ((outs.filter fun x => decide (x.1 = i)).filter fun x => decide (x.2.1 = t))) =
        L.map (fun t => (alone mk p s i t a).1) := by
      intro L hL
      induction L with
      | nil => rfl
      | cons t L ih =>
        obtain ⟨o, h1, h2⟩ := find t (hL t (List.mem_cons_self ..)).1
        rw [List.flatMap_cons, List.map_cons, ih fun x hx => hL x (List.mem_cons_of_mem _ hx), h1, List.map_singleton, h2, (hL t (List.mem_cons_self ..)).2]
        simp
    exact this _ fun t ht => by
      rw [List.mem_filter, List.mem_range] at ht
      exact ht
  · refine sorted_results _ (range_filter_lt _ _) _ _ ?_
    have : ∀ L : List Nat, (∀ t ∈ L, t < pl.nTrials ∧ r.done i t = false) →
        (L.flatMap fun t => List.map (fun o : Nat × Nat × Ckpt.Outcome S => (t, o.2.2.state)) ((outs.filter fun x => decide (x.1 = i)).filter fun x => decide (x.2.1 = t))) =
        L.map (fun t => (t, if (alone mk p s i t a).2 then (alone mk p s i t a).1 else (mk p a.code (Bench.trialSeed (some s) 0 i t)).tidy (alone mk p s i t a).1)) := by
      intro L hL
      induction L with
      | nil => rfl
      | cons t L ih =>
        obtain ⟨o, h1, h2⟩ := find t (hL t (List.mem_cons_self ..)).1
        rw [List.flatMap_cons, List.map_cons, ih fun x hx => hL x (List.mem_cons_of_mem _ hx), h1, List.map_singleton]
        dsimp only
        rw [h2, (hL t (List.mem_cons_self ..)).2]
        simp
    rw [this order fun t ht => by
      have := ho.mem_iff.1 ht
      rw [List.mem_filter, List.mem_range] at this
      simpa using this]
    exact ho.map _

/-! ## what a call may touch -/

/-- operations that leave the directory of a trial alone -/
theorem leaves_trial (i t : Nat) (l : List (Op S P G M J)) (h : ∀ o ∈ l, ∀ r : Root S P G M J, (o.apply r).trial i t = r.trial i t) (r : Root S P G M J) :
    (applyOps l r).trial i t = r.trial i t := by
  induction l generalizing r with
  | nil => rfl
  | cons o l ih => rw [applyOps_cons, ih fun x hx => h x (List.mem_cons_of_mem _ hx), h o (List.mem_cons_self ..)]

theorem head_outside {r : Root S P G M J} {c : Call P G J} {hd : List (Op S P G M J)} {pl : Plan P G} (e : r.head c = .ok (hd, pl)) (i t : Nat)
    (h : pl.algs.length ≤ i ∨ pl.nTrials ≤ t) : ∀ o ∈ hd, ∀ r' : Root S P G M J, (o.apply r').trial i t = r'.trial i t := by
  cases c with
  | benchmark algs p n notes sd =>
    simp only [Root.head] at e
    split at e
    · cases e
    · split at e
      · cases e
      · injection e with e
        injection e with e e'
        subst e
        intro o ho r'
        unfold initOps at ho
        rcases List.mem_append.1 ho with ho | ho
        · simp only [List.mem_cons, List.not_mem_nil, or_false] at ho
          rcases ho with rfl | rfl | rfl | rfl | rfl | rfl | rfl <;> rfl
        · obtain ⟨i, _, rfl⟩ := List.mem_map.1 ho; rfl
  | resume a b =>
    simp only [Root.head] at e
    repeat' split at e
    all_goals first | (cases e; done) | skip
    rename_i md p algs _
    injection e with e
    intro o ho r'
    have hp := congrArg Prod.snd e
    have hl := congrArg Prod.fst e
    dsimp only at hp hl
    rw [← hl] at ho
    unfold resumeHead at ho hp
    dsimp only at ho hp
    have h1 : ∀ b : MetaFile J, ∀ o ∈ (if (Int.toNat ‹Int›) ≠ 0 then [.openInfo, .writeInfo b] else [] : List (Op S P G M J)), ∀ r' : Root S P G M J, (o.apply r').trial i t = r'.trial i t := by
      intro b o ho r'
      split at ho
      · rcases List.mem_cons.1 ho with rfl | ho
        · rfl
        · rw [List.mem_singleton.1 ho]; rfl
      · simp at ho
    split at ho
    · rename_i hI
      rw [if_pos hI] at hp
      dsimp only at hp
      rcases List.mem_append.1 ho with ho | ho
      · rcases List.mem_append.1 ho with ho | ho
        · exact h1 _ o ho r'
        · obtain ⟨x, hx, rfl⟩ := List.mem_map.1 ho
          have hx := (mem_pairs _ _ x.1 x.2).1 hx
          rw [← hp] at h
          dsimp only at h
          rw [List.length_map] at h
          have hne : ¬ (i = x.1 ∧ t = x.2) := by omega
          show setTrial _ _ _ _ i t = _
          exact if_neg hne
      · rcases List.mem_cons.1 ho with rfl | ho
        · rfl
        · rw [List.mem_singleton.1 ho]; rfl
    · exact h1 _ o ho r'

/-- **C108.** A call, killed or not, touches the directories of the trials of its plan only. -/
theorem C108_isolated {r : Root S P G M J} {c : Call P G J} {l : List (Op S P G M J)} {pl : Plan P G} {outs : List (Nat × Nat × Ckpt.Outcome S)} (e : Exec m mk r c l pl outs)
    (k i t : Nat) (h : pl.algs.length ≤ i ∨ pl.nTrials ≤ t) : (applyOps (l.take k) r).trial i t = r.trial i t := by
  obtain ⟨draw, hd, sched, e1, e2, e3, e4⟩ := e
  have hl : l = hd ++ tagged sched := e4
  have ht : l.take k = hd.take k ++ tagged (sched.take (k - hd.length)) := by
    rw [hl, List.take_append]; unfold tagged; rw [List.map_take]
  rw [ht, applyOps_append, apply_tagged]
  dsimp only
  have h0 : projectOps i t sched = [] := by
    rw [e3 i t]
    refine project_sequential_none outs i t fun o ho' hc => ?_
    have : (o.1, o.2.1) ∈ pairs pl.algs.length pl.nTrials := by
      rw [← (outcomes_inv e2).1]; exact List.mem_map.2 ⟨o, ho', rfl⟩
    rw [hc.1, hc.2] at this
    have := (mem_pairs _ _ _ _).1 this
    omega
  obtain ⟨c', hc'⟩ := project_take i t sched (k - hd.length)
  rw [hc', h0, List.take_nil, Ckpt.applyAll_nil]
  exact leaves_trial i t _ (fun o ho => head_outside e1 i t h o (List.mem_of_mem_take ho)) r

/-- **C108.** Resuming without more iterations, killed or not, does not touch the directories of the trials that were complete. -/
theorem C108_done_kept {r : Root S P G M J} {b : Int} {l : List (Op S P G M J)} {pl : Plan P G} {outs : List (Nat × Nat × Ckpt.Outcome S)} (e : Exec m mk r (.resume 0 b) l pl outs)
    (k i t : Nat) (h : r.done i t = true) : (applyOps (l.take k) r).trial i t = r.trial i t := by
  by_cases hin : i < pl.algs.length ∧ t < pl.nTrials
  · obtain ⟨draw, hd, sched, e1, e2, e3, e4⟩ := e
    have hl : l = hd ++ tagged sched := e4
    have ht : l.take k = hd.take k ++ tagged (sched.take (k - hd.length)) := by
      rw [hl, List.take_append]; unfold tagged; rw [List.map_take]
    rw [ht, applyOps_append, apply_tagged]
    dsimp only
    have keep : ∀ o ∈ hd, ∀ r' : Root S P G M J, (o.apply r').trial = r'.trial := by
      simp only [Root.head] at e1
      repeat' split at e1
      all_goals first | (cases e1; done) | skip
      injection e1 with e1
      have hl := congrArg Prod.fst e1
      dsimp only at hl
      rw [← hl]
      intro o ho r'
      unfold resumeHead at ho
      dsimp only at ho
      rw [if_neg (by simp)] at ho
      dsimp only at ho
      split at ho
      · rcases List.mem_cons.1 ho with rfl | ho
        · rfl
        · rw [List.mem_singleton.1 ho]; rfl
      · simp at ho
    have h0 : projectOps i t sched = [] := by
      obtain ⟨hkeys, hall⟩ := outcomes_inv e2
      obtain ⟨o, h1, h2⟩ := hall i t _ (List.getElem?_eq_getElem hin.1) hin.2
      have hnod : (outs.map fun o => (o.1, o.2.1)).Nodup := by rw [hkeys]; exact pairs_nodup _ _
      rw [e3 i t, project_sequential outs hnod i t o h1]
      rw [keepsTrials hd keep r] at h2
      unfold Ckpt.session at h2
      unfold Root.done at h
      rw [if_pos h] at h2
      split at h2
      · cases h2
      · injection h2 with h2; rw [← h2]
    obtain ⟨c', hc'⟩ := project_take i t sched (k - hd.length)
    rw [hc', h0, List.take_nil, Ckpt.applyAll_nil, keepsTrials _ (fun o ho => keep o (List.mem_of_mem_take ho)) r]
  · exact C108_isolated e k i t (by omega)

/-! ## is the benchmark complete? -/

/-- the metadata on disk describes the benchmark that was started -/
def InfoFits (algs : List (Alg G)) (n : Nat) (r : Root S P G M J) : Prop :=
  ∀ md, r.info = some (some md) → md.nTrials = n ∧ md.algs = algs.zipIdx.map (fun a => (a.1.name, a.1.iterations, a.2))

theorem infoFits_ops (l : List (Op S P G M J)) (h : ∀ md, Op.writeInfo md ∈ l → md.nTrials = n ∧ md.algs = algs.zipIdx.map (fun a => (a.1.name, a.1.iterations, a.2)))
    (r : Root S P G M J) (hr : InfoFits algs n r) : InfoFits algs n (applyOps l r) := by
  induction l generalizing r with
  | nil => exact hr
  | cons o l ih =>
    rw [applyOps_cons]
    refine ih (fun md hmd => h md (List.mem_cons_of_mem _ hmd)) _ ?_
    cases o with
    | openInfo => intro md hmd; cases hmd
    | writeInfo md' =>
      intro md hmd
      have : md' = md := by
        have := hmd
        simp only [Op.apply] at this
        injection this with this
        injection this
      subst this
      exact h _ (List.mem_cons_self ..)
    | _ => exact hr

theorem infoFits_exec {notes : PyDict String J} {r : Root S P G M J} (hr : InfoFits algs n r) {c : Call P G J} (hc : c = .benchmark algs p n notes (some s) ∨ ∃ a b, c = .resume a b)
    {l : List (Op S P G M J)} {pl : Plan P G} {outs : List (Nat × Nat × Ckpt.Outcome S)} (e : Exec m mk r c l pl outs) (k : Nat) : InfoFits algs n (applyOps (l.take k) r) := by
  obtain ⟨draw, hd, sched, e1, e2, e3, e4⟩ := e
  refine infoFits_ops _ (fun md hmd => ?_) r hr
  have hmd := List.mem_of_mem_take hmd
  rw [e4] at hmd
  rcases List.mem_append.1 hmd with hmd | hmd
  · rcases hc with rfl | ⟨a, b, rfl⟩
    · simp only [Root.head] at e1
      repeat' split at e1
      all_goals first | (cases e1; done) | skip
      injection e1 with e1
      injection e1 with e1 _
      rw [← e1] at hmd
      unfold initOps at hmd
      rcases List.mem_append.1 hmd with hmd | hmd
      · have : md = ⟨n, algs.zipIdx.map (fun a => (a.1.name, a.1.iterations, a.2)), some s, 0, 0, notes⟩ := by
          simpa using hmd
        rw [this]; exact ⟨rfl, rfl⟩
      · obtain ⟨i, _, hi⟩ := List.mem_map.1 hmd; cases hi
    · simp only [Root.head] at e1
      repeat' split at e1
      all_goals first | (cases e1; done) | skip
      rename_i md0 p0 algs0 hload
      injection e1 with e1
      have hl := congrArg Prod.fst e1
      dsimp only at hl
      rw [← hl] at hmd
      have h0 : md0.nTrials = n ∧ md0.algs = algs.zipIdx.map (fun a => (a.1.name, a.1.iterations, a.2)) := by
        refine hr md0 ?_
        unfold Root.loadAll Root.loadInfo at hload
        cases hi : r.info with
        | none => rw [hi] at hload; cases hload
        | some x =>
          cases x with
          | none => rw [hi] at hload; cases hload
          | some y =>
            rw [hi] at hload
            simp only [bind, Except.bind] at hload
            revert hload
            cases readFile PyErr.runtimeError r.problem with
            | error e => cases e <;> (intro h; cases h)
            | ok pp =>
              dsimp only
              cases readFile PyErr.runtimeError r.algs with
              | error e => cases e <;> (intro h; cases h)
              | ok aa =>
                intro h
                simp only [asInvalid] at h
                injection h with h
                injection h with h _
                rw [h]
      unfold resumeHead at hmd
      dsimp only at hmd
      have h1 : ∀ md ∈ (if b.toNat ≠ 0 then [{ md0 with incTrials := b.toNat + md0.incTrials }] else [] : List (MetaFile J)),
          md.nTrials = n ∧ md.algs = algs.zipIdx.map (fun a => (a.1.name, a.1.iterations, a.2)) := by
        intro md hmd
        split at hmd
        · rw [List.mem_singleton.1 hmd]; exact h0
        · simp at hmd
      split at hmd
      · rcases List.mem_append.1 hmd with hmd | hmd
        · rcases List.mem_append.1 hmd with hmd | hmd
          · split at hmd
            · have : md = { md0 with incTrials := b.toNat + md0.incTrials } := by simpa using hmd
              rw [this]; exact h0
            · simp at hmd
          · obtain ⟨x, _, hx⟩ := List.mem_map.1 hmd; cases hx
        · simp only [List.mem_cons, List.not_mem_nil, or_false, reduceCtorEq, false_or, Op.writeInfo.injEq] at hmd
          rw [hmd]
          dsimp only
          split <;> exact h0
      · dsimp only at hmd
        split at hmd
        · have : md = { md0 with incTrials := b.toNat + md0.incTrials } := by simpa using hmd
          rw [this]; exact h0
        · simp at hmd
  · obtain ⟨x, _, hx⟩ := List.mem_map.1 hmd; cases hx

theorem infoFits_history {notes : PyDict String J} {r : Root S P G M J} (h : History m mk (.benchmark algs p n notes (some s)) r) : InfoFits algs n r := by
  induction h with
  | start b => intro md hmd; cases hmd
  | killed h hc e k hr ih => exact infoFits_exec ih hc e k

theorem completed_eq {r : Root S P G M J} (hf : InfoFits algs n r) {md : MetaFile J} (hmd : r.info = some (some md)) :
    r.completed = .ok (decide (∀ i < algs.length, ∀ t < n, r.done i t = true)) := by
  obtain ⟨h1, h2⟩ := hf md hmd
  unfold Root.completed Root.loadInfo
  rw [hmd]
  simp only [bind, Except.bind]
  rw [h1, h2]
  congr 1
  rw [Bool.eq_iff_iff]
  simp only [List.all_eq_true, List.mem_map, List.mem_range, decide_eq_true_eq]
  constructor
  · intro h i hi t ht
    exact h _ ⟨(algs[i], i), List.mem_zipIdx_iff_getElem?.2 (List.getElem?_eq_getElem hi), rfl⟩ t ht
  · rintro h x ⟨y, hy, rfl⟩ t ht
    have := List.mem_zipIdx_iff_getElem?.1 hy
    exact h y.2 (List.getElem?_eq_some_iff.1 this).1 t ht

theorem exec_info {notes : PyDict String J} {r : Root S P G M J} (hk : 0 < m.keep) (hm : ∀ p g s k st, (mk p g s).metric k st = st) (hit : ∀ a ∈ algs, 0 < a.iterations)
    (h : History m mk (.benchmark algs p n notes (some s)) r) {c : Call P G J} (hc : c = .benchmark algs p n notes (some s) ∨ ∃ b, c = .resume 0 b)
    {l : List (Op S P G M J)} {pl : Plan P G} {outs : List (Nat × Nat × Ckpt.Outcome S)} (e : Exec m mk r c l pl outs) : ∃ md, (applyOps l r).info = some (some md) := by
  obtain ⟨draw, hd, sched, e1, e2, e3, e4⟩ := e
  have hl : l = hd ++ tagged sched := e4
  rw [hl, applyOps_append, apply_tagged]
  dsimp only
  rcases hc with rfl | ⟨b, rfl⟩
  · simp only [Root.head] at e1
    repeat' split at e1
    all_goals first | (cases e1; done) | skip
    injection e1 with e1
    injection e1 with e1 _
    rw [← e1]
    unfold initOps
    rw [applyOps_append]
    have : ∀ (q : List Nat) (r : Root S P G M J), (applyOps (q.map Op.mkAlg) r).info = r.info := by
      intro q
      induction q with
      | nil => intro r; rfl
      | cons x q ih => intro r; rw [List.map_cons, applyOps_cons, ih]; rfl
    rw [this]
    exact ⟨_, rfl⟩
  · rcases history_inv hk hm hit notes h with ⟨b', rfl⟩ | hr
    · exfalso
      cases b' <;> simp [Root.head, newRoot, Root.isEmpty] at e1
    · obtain ⟨_, _, md, i1, i2, i3, i4, i5⟩ := resume_head hr e1
      have hl := congrArg Prod.fst i5
      dsimp only at hl
      rw [hl]
      unfold resumeHead
      dsimp only
      rw [if_neg (by simp)]
      dsimp only
      split
      · exact ⟨_, rfl⟩
      · exact ⟨md, i1⟩

/-- **C108.** `is_benchmark_completed` after any such history: on an empty directory false, otherwise true exactly if every trial of the benchmark as first started is
complete — trials added by resuming are not looked at. -/
theorem C108_completed_query (hk : 0 < m.keep) (hm : ∀ p g s k st, (mk p g s).metric k st = st) (hit : ∀ a ∈ algs, 0 < a.iterations) (notes : PyDict String J) {r : Root S P G M J}
    (h : History m mk (.benchmark algs p n notes (some s)) r) :
    r.completed = .ok (decide (r.isEmpty = false ∧ ∀ i < algs.length, ∀ t < n, r.done i t = true)) := by
  rcases history_inv hk hm hit notes h with ⟨b, rfl⟩ | hr
  · cases b <;> rfl
  · obtain ⟨md, h1, _⟩ := hr.info
    rw [completed_eq (infoFits_history h) h1]
    simp [hr.nonempty]

/-- **C108.** When the finishing call returns, `is_benchmark_completed` says true exactly if no trial of the benchmark as first started fails. -/
theorem C108_completed_after (hk : 0 < m.keep) (hm : ∀ p g s k st, (mk p g s).metric k st = st) (hit : ∀ a ∈ algs, 0 < a.iterations) (notes : PyDict String J) {r : Root S P G M J}
    (h : History m mk (.benchmark algs p n notes (some s)) r) {c : Call P G J} (hc : c = .benchmark algs p n notes (some s) ∨ ∃ b, c = .resume 0 b)
    {l : List (Op S P G M J)} {pl : Plan P G} {outs : List (Nat × Nat × Ckpt.Outcome S)} (e : Exec m mk r c l pl outs) :
    ∃ b, (applyOps l r).completed = .ok b ∧ (b = true ↔ ∀ i a t, algs[i]? = some a → t < n → (alone mk p s i t a).2 = false) := by
  obtain ⟨md, hmd⟩ := exec_info hk hm hit h hc e
  have hf : InfoFits algs n (applyOps l r) := by
    have := infoFits_exec (infoFits_history h) (hc.imp id fun ⟨b, hb⟩ => ⟨0, b, hb⟩) e l.length
    rwa [List.take_length] at this
  refine ⟨_, completed_eq hf hmd, ?_⟩
  obtain ⟨hN, hall⟩ := C108_crash_resume hk hm hit notes h hc e
  rw [decide_eq_true_iff]
  constructor
  · intro hd i a t ha ht
    obtain ⟨o, _, h2, _, _, h4⟩ := hall i a t ha (lt_of_lt_of_le ht hN)
    rw [hd i (List.getElem?_eq_some_iff.1 ha).1 t ht, h2] at h4
    simpa using h4.symm
  · intro hal i hi t ht
    obtain ⟨o, _, h2, _, _, h4⟩ := hall i _ t (List.getElem?_eq_getElem hi) (lt_of_lt_of_le ht hN)
    rw [h4, h2, hal i _ t (List.getElem?_eq_getElem hi) ht]
    rfl

/-! ## kills inside a write -/

/-- **C108** (where the benchmark cannot be recovered). A kill while the directory is initialised — after `metadata.json` has been opened and before the problem has been
written — leaves a directory in which the benchmark can neither be started nor resumed: both calls raise, whatever their arguments. -/
theorem C108_init_window {b : Bool} {notes : PyDict String J} {sd : Option Int} {l : List (Op S P G M J)} {pl : Plan P G} {outs : List (Nat × Nat × Ckpt.Outcome S)}
    (e : Exec m mk (newRoot b) (.benchmark algs p n notes sd) l pl outs) (k : Nat) :
    (k < 2 → (applyOps (l.take k) (newRoot b)).isEmpty = true) ∧
    (2 ≤ k → k < 7 → ∀ c : Call P G J, ∃ err, (applyOps (l.take k) (newRoot b)).head c = .error err) ∧
    (7 ≤ k → ∃ md, (applyOps (l.take k) (newRoot b)).head (.resume 0 0) = .ok (resumeHead md p algs 0 0) ∧ md.nTrials = n ∧ md.seed = sd ∧ md.incTrials = 0) := by
  obtain ⟨draw, hd, sched, e1, e2, e3, e4⟩ := e
  have h1 : hd = initOps algs p n notes sd := by
    simp only [Root.head] at e1
    repeat' split at e1
    all_goals first | (cases e1; done) | skip
    injection e1 with e1
    injection e1 with e1 _
    exact e1.symm
  obtain ⟨tops, htops⟩ : ∃ tops : List (Op S P G M J), tops = [.mkdir, .openInfo, .writeInfo ⟨n, algs.zipIdx.map (fun a => (a.1.name, a.1.iterations, a.2)), sd, 0, 0, notes⟩,
    .openAlgs, .writeAlgs algs, .openProblem, .writeProblem p] := ⟨_, rfl⟩
  have hl : l = tops ++ ((List.range algs.length).map Op.mkAlg ++ tagged sched) := by
    rw [e4, h1, htops, ← List.append_assoc]; rfl
  have hlen : tops.length = 7 := by rw [htops]; rfl
  have htk : k ≤ 7 → l.take k = tops.take k := fun h => by rw [hl, List.take_append_of_le_length (by omega)]
  refine ⟨fun h => ?_, fun h h' c => ?_, fun h => ?_⟩
  · rw [htk (by omega), htops]
    rcases (by omega : k = 0 ∨ k = 1) with rfl | rfl
    · cases b <;> rfl
    · rfl
  · rw [htk (by omega), htops]
    have hne : (applyOps (List.take k [.mkdir, .openInfo, .writeInfo ⟨n, algs.zipIdx.map (fun a => (a.1.name, a.1.iterations, a.2)), sd, 0, 0, notes⟩,
        .openAlgs, .writeAlgs algs, .openProblem, .writeProblem p]) (newRoot b : Root S P G M J)).isEmpty = false := by
      rcases (by omega : k = 2 ∨ k = 3 ∨ k = 4 ∨ k = 5 ∨ k = 6) with rfl | rfl | rfl | rfl | rfl <;> rfl
    cases c with
    | benchmark algs' p' n' notes' sd' =>
      simp only [Root.head, hne, if_true]
      split
      · exact ⟨_, rfl⟩
      · exact ⟨_, rfl⟩
    | resume x y =>
      simp only [Root.head, hne, Bool.false_eq_true, if_false]
      split
      · exact ⟨_, rfl⟩
      split
      · exact ⟨_, rfl⟩
      split
      · exact ⟨_, rfl⟩
      rcases (by omega : k = 2 ∨ k = 3 ∨ k = 4 ∨ k = 5 ∨ k = 6) with rfl | rfl | rfl | rfl | rfl <;> exact ⟨_, rfl⟩
  · have ht : l.take k = tops ++ (((List.range algs.length).map Op.mkAlg).take (k - 7) ++ tagged (sched.take (k - 7 - algs.length))) := by
      rw [hl, List.take_append, List.take_of_length_le (by omega), List.take_append, hlen, List.length_map, List.length_range]
      unfold tagged
      rw [List.map_take (l := sched)]
    rw [ht, applyOps_append, applyOps_append, apply_tagged]
    have : ∀ (q : List Nat) (r : Root S P G M J), ∃ ds, applyOps (q.map Op.mkAlg) r = { r with algDirs := ds } := by
      intro q
      induction q with
      | nil => intro r; exact ⟨r.algDirs, rfl⟩
      | cons x q ih =>
        intro r
        obtain ⟨ds, h⟩ := ih ((Op.mkAlg x : Op S P G M J).apply r)
        exact ⟨ds, by rw [List.map_cons, applyOps_cons, h]; rfl⟩
    rw [← List.map_take]
    obtain ⟨ds, hds⟩ := this ((List.range algs.length).take (k - 7)) (applyOps tops (newRoot b))
    rw [hds, htops]
    exact ⟨⟨n, algs.zipIdx.map (fun a => (a.1.name, a.1.iterations, a.2)), sd, 0, 0, notes⟩, rfl, rfl, rfl, rfl⟩

/-- **C108** (where the benchmark cannot be recovered). `resume_benchmark(increase_trials=b)` rewrites `metadata.json` in place. Killed after opening it, it leaves every trial as it
was, but no call can use them any more: resuming and starting raise `ValueError`, and the completion queries raise `JSONDecodeError`. -/
theorem C108_metadata_window {r : Root S P G M J} {b : Int} (hb : b ≠ 0) {l : List (Op S P G M J)} {pl : Plan P G} {outs : List (Nat × Nat × Ckpt.Outcome S)}
    (e : Exec m mk r (.resume 0 b) l pl outs) :
    (applyOps (l.take 1) r).trial = r.trial ∧ (∀ c : Call P G J, (applyOps (l.take 1) r).head c = .error .valueError) ∧
      (applyOps (l.take 1) r).completed = .error .jsonDecodeError ∧ (applyOps (l.take 1) r).started = .error .jsonDecodeError := by
  obtain ⟨draw, hd, sched, e1, e2, e3, e4⟩ := e
  simp only [Root.head] at e1
  split at e1
  · cases e1
  split at e1
  · cases e1
  split at e1
  · cases e1
  split at e1
  · cases e1
  split at e1
  · cases e1
  rename_i hpres hemp _ hb0 _ md p0 algs0 _
  injection e1 with e1
  have hl := congrArg Prod.fst e1
  dsimp only at hl
  have h1 : l.take 1 = [.openInfo] := by
    rw [e4, ← hl]
    unfold resumeHead
    dsimp only
    rw [if_neg (by simp)]
    dsimp only
    rw [if_pos (by omega)]
    rfl
  rw [h1]
  have hp : r.present = true := by simpa using hpres
  have hne : (applyOps [.openInfo] r).isEmpty = false := by
    show (Root.isEmpty { r with info := some none }) = false
    simp [Root.isEmpty, hp]
  refine ⟨rfl, fun c => ?_, rfl, rfl⟩
  cases c with
  | benchmark algs' p' n' notes' sd' =>
    simp only [Root.head, hne, if_true]
    split
    · rename_i e' h'
      have := (C64_algorithm_names (algs'.map (·.name)))
      by_cases hnd : (algs'.map (·.name)).Nodup
      · rw [this.1.2 hnd] at h'; cases h'
      · rw [this.2.2 hnd] at h'; injection h' with h'; rw [← h']
    · rfl
  | resume x y =>
    have hp' : (applyOps [.openInfo] r).present = true := hp
    simp only [Root.head, hne, hp', Bool.false_eq_true, Bool.true_eq_false, if_false]
    split
    · rfl
    split
    · rfl
    rfl

end
end

/-- **C108.** The plan of a resumed benchmark is the one of C39: its theorems on the totals of trials and iterations over any number of resumptions apply to what is run here. -/
theorem C108_plan {S P G M J : Type} (md : MetaFile J) (p : P) (algs : List (Alg G)) (incI incT : Nat) (a : Alg G) (i : Nat) (ha : algs[i]? = some a) (r : Root S P G M J)
    (hr : r.info = some (some md)) :
    ∃ md' b, Bench.resume ⟨md.nTrials, md.incTrials, md.incIters⟩ a.iterations incI incT =
        .ok (⟨md'.nTrials, md'.incTrials, md'.incIters⟩, ⟨(resumeHead md p algs incI incT : List (Op S P G M J) × Plan P G).2.nTrials, b, decide (incI ≠ 0)⟩) ∧
      (applyOps (resumeHead md p algs incI incT).1 r).info = some (some md') ∧
      ∃ a', (resumeHead md p algs incI incT : List (Op S P G M J) × Plan P G).2.algs[i]? = some a' ∧ a'.name = a.name ∧ a'.code = a.code ∧ (a'.iterations : Int) = b := by
  have info_unmarks : ∀ (q : List (Nat × Nat)) (r : Root S P G M J), (applyOps (q.map fun it => Op.unmark it.1 it.2) r).info = r.info := by
    intro q
    induction q with
    | nil => intro r; rfl
    | cons x q ih => intro r; rw [List.map_cons, applyOps_cons, ih]; rfl
  have h1 : ¬ ((incI : Int) < 0) := by omega
  have h2 : ¬ ((incT : Int) < 0) := by omega
  unfold Bench.resume resumeHead
  by_cases hT : incT = 0
  · by_cases hI : incI = 0
    · subst hT hI
      refine ⟨md, a.iterations, ?_, ?_, a, ?_, rfl, rfl, rfl⟩
      · simp
      · simpa using hr
      · simpa using ha
    · subst hT
      refine ⟨{ md with incIters := incI + md.incIters }, a.iterations + (incI + md.incIters : Nat), ?_, ?_, { a with iterations := a.iterations + (incI + md.incIters) }, ?_, rfl, rfl, by simp⟩
      · simp [h1, hI]
      · simp only [ne_eq, hI, not_false_eq_true, if_true, not_true_eq_false, if_false, List.nil_append]
        rw [applyOps_append]
        rfl
      · simp [hI, ha]
  · by_cases hI : incI = 0
    · subst hI
      refine ⟨{ md with incTrials := incT + md.incTrials }, a.iterations, ?_, ?_, a, ?_, rfl, rfl, rfl⟩
      · simp [h2, hT]
      · simp [hT, applyOps, Op.apply]
      · simpa using ha
    · refine ⟨{ md with incTrials := incT + md.incTrials, incIters := incI + md.incIters }, a.iterations + (incI + md.incIters : Nat), ?_, ?_,
        { a with iterations := a.iterations + (incI + md.incIters) }, ?_, rfl, rfl, by simp⟩
      · simp [h1, h2, hI, hT]
      · simp only [ne_eq, hI, hT, not_false_eq_true, if_true]
        rw [applyOps_append]
        rfl
      · simp [hI, ha]

/-! ## a concrete history -/

/-- two algorithms, with 2 and 1 iterations -/
def twoAlgs : List (Alg Nat) := [⟨"A", 2, 5⟩, ⟨"B", 1, 6⟩]

/-- a trial records its code, its seed and the iterations it has done; code 6 fails in its only iteration for even seeds -/
def noteTrial : Unit → Nat → Int → Ckpt.Trial (List Int) := fun _ g s =>
  ⟨[g, s], fun x => (x, false), fun _ k x => (x ++ [(k : Int)], decide (g = 6 ∧ s % 2 = 0)), fun _ x => x, fun x => x⟩

def everyStep : Ckpt.Manager := ⟨some 1, 1⟩

/-- what has happened when the process is killed after the first checkpoint of the first trial -/
def killedRoot : Root (List Int) Unit Nat Unit Unit :=
  applyOps (initOps twoAlgs () 2 ⟨[]⟩ (some 7) ++ [.inTrial 0 0 (.openCkpt 0), .inTrial 0 0 (.writeCkpt 0 [5, 606290987, 0]), .inTrial 0 0 .openProgress, .inTrial 0 0 (.writeProgress 0)]) (newRoot false)

theorem killedRoot_other (i t : Nat) (h : ¬ (i = 0 ∧ t = 0)) : killedRoot.trial i t = Ckpt.Dir.empty := by
  unfold killedRoot
  rw [applyOps_append, leaves_trial, initOps_trials]
  · rfl
  · intro o ho r
    simp only [List.mem_cons, List.not_mem_nil, or_false] at ho
    rcases ho with rfl | rfl | rfl | rfl <;> exact if_neg h

/-- the history: started in a directory that does not exist, killed after the first checkpoint of the first trial -/
theorem killed_history : History everyStep noteTrial (.benchmark twoAlgs () 2 ⟨[]⟩ (some 7)) killedRoot := by
  have hx : ∃ outs, Exec everyStep noteTrial (newRoot false : Root (List Int) Unit Nat Unit Unit) (.benchmark twoAlgs () 2 ⟨[]⟩ (some 7))
      (initOps twoAlgs () 2 ⟨[]⟩ (some 7) ++ tagged (sequential outs)) ⟨twoAlgs, (), 2, some 7⟩ outs ∧ ∃ rest, sequential outs =
        (0, 0, .openCkpt 0) :: (0, 0, .writeCkpt 0 [5, 606290987, 0]) :: (0, 0, .openProgress) :: (0, 0, .writeProgress 0) :: rest :=
    ⟨_, ⟨fun _ _ => 0, _, _, rfl, rfl, fun _ _ => rfl, rfl⟩, _, rfl⟩
  obtain ⟨outs, hx, rest, hr⟩ := hx
  have h := History.killed (.start false) (.inl rfl) hx 13
  rw [hr] at h
  refine h ⟨?_, ?_, ?_, ?_⟩
  · intro hc; cases hc
  · intro i t hc
    by_cases hit : i = 0 ∧ t = 0
    · obtain ⟨rfl, rfl⟩ := hit; cases hc
    · change (killedRoot.trial i t).progress = some none at hc
      rw [killedRoot_other i t hit] at hc
      cases hc
  · intro i t hc
    by_cases hit : i = 0 ∧ t = 0
    · obtain ⟨rfl, rfl⟩ := hit; cases hc
    · change (killedRoot.trial i t).complete = some none at hc
      rw [killedRoot_other i t hit] at hc
      cases hc
  · exact .inr ⟨⟨_, rfl⟩, ⟨_, rfl⟩, _, rfl, rfl⟩

example : 0 < everyStep.keep ∧ (∀ a ∈ twoAlgs, 0 < a.iterations) ∧ (twoAlgs.map (·.name)).Nodup := by decide

example (p : Unit) (g : Nat) (s : Int) (k : Nat) (st : List Int) : (noteTrial p g s).metric k st = st := rfl

/-- it can be resumed with one more trial; trial 0 of "A" then has the state of the uninterrupted trial, although its first iteration was done before the kill -/
example : ∃ l pl outs, Exec everyStep noteTrial killedRoot (.resume 0 1) l pl outs ∧ 2 + (1 : Int).toNat ≤ pl.nTrials :=
  ((C108_available (by decide) (fun _ _ _ _ _ => rfl) (by decide) (by decide) ⟨[]⟩ killed_history).2 rfl).1 1 (by decide)

example : alone noteTrial () 7 0 0 ⟨"A", 2, 5⟩ = ([5, 606290987, 0, 1], false) := by decide

/-- one trial of "B" fails, the other does not -/
example : (alone noteTrial () 7 1 0 ⟨"B", 1, 6⟩).2 = true ∧ (alone noteTrial () 7 1 1 ⟨"B", 1, 6⟩).2 = false := by decide

example : killedRoot.completed = .ok false := by
  rw [C108_completed_query (by decide) (fun _ _ _ _ _ => rfl) (by decide) ⟨[]⟩ killed_history]
  rw [decide_eq_false]
  intro h
  exact absurd (h.2 0 (by decide) 0 (by decide)) (by decide)

end Verif.Props
