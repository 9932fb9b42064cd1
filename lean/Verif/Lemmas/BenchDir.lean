import Verif.Model.BenchDir
import Verif.Lemmas.CkptView
import Mathlib.Data.List.Forall2
import Mathlib.Data.List.Perm.Basic
import Mathlib.Data.List.Nodup
set_option linter.unusedSectionVars false
/-! Lemmas about the whole checkpoint directory -/
namespace Verif.BenchDir
open Verif

variable {S P G M J : Type}

theorem mapM_all {α β : Type} (f : α → Py β) (g : α → β) (l : List α) (h : ∀ a ∈ l, f a = .ok (g a)) : l.mapM f = .ok (l.map g) := by
  induction l with
  | nil => rfl
  | cons a l ih =>
    rw [List.mapM_cons, h a (List.mem_cons_self ..), ih fun b hb => h b (List.mem_cons_of_mem _ hb)]
    rfl

@[simp] theorem applyOps_nil (r : Root S P G M J) : applyOps [] r = r := rfl
theorem applyOps_cons (o : Op S P G M J) (l : List (Op S P G M J)) (r : Root S P G M J) : applyOps (o :: l) r = applyOps l (o.apply r) := rfl
theorem applyOps_append (a b : List (Op S P G M J)) (r : Root S P G M J) : applyOps (a ++ b) r = applyOps b (applyOps a r) := by
  simp [applyOps, List.foldl_append]

/-- operations of the trials as operations on the directory -/
def tagged (l : List (Nat × Nat × Ckpt.FsOp S)) : List (Op S P G M J) := l.map fun o => .inTrial o.1 o.2.1 o.2.2

/-- operations of trials change the trials' directories only, each by its own operations -/
theorem apply_tagged (l : List (Nat × Nat × Ckpt.FsOp S)) (r : Root S P G M J) :
    applyOps (tagged l) r = { r with trial := fun i t => Ckpt.applyAll (projectOps i t l) (r.trial i t) } := by
  induction l generalizing r with
  | nil => rfl
  | cons o l ih =>
    show applyOps (tagged l) ((Op.inTrial o.1 o.2.1 o.2.2 : Op S P G M J).apply r) = _
    rw [ih]
    simp only [Op.apply]
    congr 1
    funext i t
    by_cases h : o.1 = i ∧ o.2.1 = t
    · obtain ⟨oi, ot, f⟩ := o
      obtain ⟨rfl, rfl⟩ : oi = i ∧ ot = t := h
      simp [setTrial, projectOps, Ckpt.applyAll_cons]
    · have h' : ¬ (i = o.1 ∧ t = o.2.1) := fun e => h ⟨e.1.symm, e.2.symm⟩
      simp only [setTrial, projectOps, List.filter_cons, h, h', decide_false, if_false, Bool.false_eq_true]

theorem project_append (i t : Nat) (a b : List (Nat × Nat × Ckpt.FsOp S)) : projectOps i t (a ++ b) = projectOps i t a ++ projectOps i t b := by
  simp [projectOps]

/-- a prefix of a schedule holds a prefix of each trial's operations -/
theorem project_take (i t : Nat) (l : List (Nat × Nat × Ckpt.FsOp S)) (c : Nat) : ∃ k, projectOps i t (l.take c) = (projectOps i t l).take k := by
  refine ⟨(projectOps i t (l.take c)).length, ?_⟩
  have h : projectOps i t l = projectOps i t (l.take c) ++ projectOps i t (l.drop c) := by rw [← project_append, List.take_append_drop]
  rw [h, List.take_left']
  rfl

theorem project_own (i t : Nat) (ops : List (Ckpt.FsOp S)) : projectOps i t (ops.map fun f => (i, t, f)) = ops := by
  induction ops with
  | nil => rfl
  | cons a l ih => simpa [projectOps] using ih

theorem project_other (i t i' t' : Nat) (h : ¬ (i' = i ∧ t' = t)) (ops : List (Ckpt.FsOp S)) : projectOps i t (ops.map fun f => (i', t', f)) = [] := by
  induction ops with
  | nil => rfl
  | cons a l ih => simpa [projectOps, h] using ih

theorem project_sequential_none (outs : List (Nat × Nat × Ckpt.Outcome S)) (i t : Nat) (h : ∀ o ∈ outs, ¬ (o.1 = i ∧ o.2.1 = t)) :
    projectOps i t (sequential outs) = [] := by
  induction outs with
  | nil => rfl
  | cons o l ih =>
    show projectOps i t ((o.2.2.ops.map fun f => (o.1, o.2.1, f)) ++ sequential l) = []
    rw [project_append, project_other i t o.1 o.2.1 (h o (List.mem_cons_self ..)), ih fun x hx => h x (List.mem_cons_of_mem _ hx)]
    rfl

/-- in the sequential order each trial does its own operations -/
theorem project_sequential (outs : List (Nat × Nat × Ckpt.Outcome S)) (hn : (outs.map fun o => (o.1, o.2.1)).Nodup) (i t : Nat) (o : Ckpt.Outcome S)
    (h : (i, t, o) ∈ outs) : projectOps i t (sequential outs) = o.ops := by
  induction outs with
  | nil => simp at h
  | cons x l ih =>
    have hx : x.1 = x.1 := rfl
    rw [List.map_cons, List.nodup_cons] at hn
    show projectOps i t ((x.2.2.ops.map fun f => (x.1, x.2.1, f)) ++ sequential l) = _
    rw [project_append]
    rcases List.mem_cons.1 h with e | e
    · subst e
      rw [project_own, project_sequential_none l, List.append_nil]
      intro o' ho' hc
      exact hn.1 (List.mem_map.2 ⟨o', ho', by rw [hc.1, hc.2]⟩)
    · rw [project_other, List.nil_append, ih hn.2 e]
      intro hc
      exact hn.1 (List.mem_map.2 ⟨_, e, by rw [hc.1, hc.2]⟩)

/-! ## the jobs of a plan -/

theorem mem_jobs (pl : Plan P G) (i t : Nat) (a : Alg G) : (i, t, a) ∈ jobs pl ↔ pl.algs[i]? = some a ∧ t < pl.nTrials := by
  unfold jobs
  simp only [List.mem_flatMap, List.mem_map, List.mem_range]
  constructor
  · rintro ⟨x, hx, t', ht, e⟩
    obtain ⟨rfl, rfl, rfl⟩ := (by simpa using e : x.2 = i ∧ t' = t ∧ x.1 = a)
    exact ⟨List.mem_zipIdx_iff_getElem?.1 hx, ht⟩
  · rintro ⟨h, ht⟩
    exact ⟨(a, i), List.mem_zipIdx_iff_getElem?.2 h, t, ht, rfl⟩

theorem jobs_keys (pl : Plan P G) : ((jobs pl).map fun j => (j.1, j.2.1)) = pairs pl.algs.length pl.nTrials := by
  unfold jobs pairs
  rw [List.map_flatMap]
  have : (fun a : Alg G × Nat => List.map (fun j : Nat × Nat × Alg G => (j.1, j.2.1)) (List.map (fun t => (a.2, t, a.1)) (List.range pl.nTrials))) =
      fun a => (List.range pl.nTrials).map fun t => (a.2, t) := by
    funext a; rw [List.map_map]; rfl
  rw [this]
  have h2 : (List.range pl.algs.length) = pl.algs.zipIdx.map Prod.snd := by
    rw [List.zipIdx_map_snd, List.range_eq_range']
  rw [h2, List.flatMap_map]

theorem mem_pairs (a b i t : Nat) : (i, t) ∈ pairs a b ↔ i < a ∧ t < b := by
  simp [pairs]

theorem pairs_nodup (a b : Nat) : (pairs a b).Nodup := by
  unfold pairs
  rw [List.nodup_flatMap]
  refine ⟨fun i _ => ?_, ?_⟩
  · exact List.Nodup.map_on (fun x _ y _ h => by simpa using h) List.nodup_range
  · refine List.Pairwise.imp ?_ List.nodup_range
    intro x y hxy
    show List.Disjoint _ _
    intro p hp hq
    obtain ⟨t, _, e⟩ := List.mem_map.1 hp
    obtain ⟨t', _, e'⟩ := List.mem_map.1 hq
    rw [← e'] at e
    exact hxy (by simpa using congrArg Prod.fst e)

theorem jobs_nodup (pl : Plan P G) : ((jobs pl).map fun j => (j.1, j.2.1)).Nodup := by rw [jobs_keys]; exact pairs_nodup _ _

theorem outcomes_ok (m : Ckpt.Manager) (mk : P → G → Int → Ckpt.Trial S) (draw : Nat → Nat → Int) (r : Root S P G M J) (pl : Plan P G)
    (h : ∀ j ∈ jobs pl, ∃ o, Ckpt.session m (trialOf mk draw pl j.1 j.2.1 j.2.2) j.2.2.iterations (r.trial j.1 j.2.1) = .ok o) :
    ∃ outs, outcomes m mk draw r pl = .ok outs := by
  classical
  have hn : ∀ j : Nat × Nat × Alg G, ∃ o, j ∈ jobs pl → Ckpt.session m (trialOf mk draw pl j.1 j.2.1 j.2.2) j.2.2.iterations (r.trial j.1 j.2.1) = .ok o := by
    intro j
    by_cases hj : j ∈ jobs pl
    · obtain ⟨o, ho⟩ := h j hj; exact ⟨o, fun _ => ho⟩
    · exact ⟨⟨[], (mk pl.problem j.2.2.code 0).fresh, false⟩, fun c => absurd c hj⟩
  choose g hg using hn
  refine ⟨(jobs pl).map fun j => (j.1, j.2.1, g j), ?_⟩
  unfold outcomes
  refine mapM_all _ _ _ fun j hj => ?_
  rw [hg j hj]

theorem outcomes_inv {m : Ckpt.Manager} {mk : P → G → Int → Ckpt.Trial S} {draw : Nat → Nat → Int} {r : Root S P G M J} {pl : Plan P G}
    {outs : List (Nat × Nat × Ckpt.Outcome S)} (h : outcomes m mk draw r pl = .ok outs) :
    (outs.map fun o => (o.1, o.2.1)) = pairs pl.algs.length pl.nTrials ∧
    (∀ i t a, pl.algs[i]? = some a → t < pl.nTrials → ∃ o, (i, t, o) ∈ outs ∧
      Ckpt.session m (trialOf mk draw pl i t a) a.iterations (r.trial i t) = .ok o) := by
  have key : ∀ (js : List (Nat × Nat × Alg G)) (os : List (Nat × Nat × Ckpt.Outcome S)),
      (js.mapM fun j => (match Ckpt.session m (trialOf mk draw pl j.1 j.2.1 j.2.2) j.2.2.iterations (r.trial j.1 j.2.1) with
        | .error e => .error e
        | .ok o => .ok (j.1, j.2.1, o) : Py (Nat × Nat × Ckpt.Outcome S))) = .ok os →
      (os.map fun o => (o.1, o.2.1)) = (js.map fun j => (j.1, j.2.1)) ∧
      ∀ j ∈ js, ∃ o, (j.1, j.2.1, o) ∈ os ∧ Ckpt.session m (trialOf mk draw pl j.1 j.2.1 j.2.2) j.2.2.iterations (r.trial j.1 j.2.1) = .ok o := by
    intro js
    induction js with
    | nil =>
      intro os h
      have : os = [] := by simpa [pure, Except.pure] using h.symm
      subst this
      exact ⟨rfl, fun j hj => by simp at hj⟩
    | cons j js ih =>
      intro os h
      rw [List.mapM_cons] at h
      cases hs : Ckpt.session m (trialOf mk draw pl j.1 j.2.1 j.2.2) j.2.2.iterations (r.trial j.1 j.2.1) with
      | error e => rw [hs] at h; simp [bind, Except.bind] at h
      | ok o =>
        rw [hs] at h
        simp only [bind, Except.bind] at h
        split at h
        · cases h
        · rename_i os' h'
          have e : os = (j.1, j.2.1, o) :: os' := by simpa [pure, Except.pure] using h.symm
          subst e
          obtain ⟨h1, h2⟩ := ih _ h'
          refine ⟨by rw [List.map_cons, List.map_cons, h1], fun x hx => ?_⟩
          rcases List.mem_cons.1 hx with rfl | hx
          · exact ⟨o, List.mem_cons_self .., hs⟩
          · obtain ⟨o', h3, h4⟩ := h2 x hx
            exact ⟨o', List.mem_cons_of_mem _ h3, h4⟩
  obtain ⟨h1, h2⟩ := key _ _ h
  refine ⟨by rw [h1, jobs_keys], fun i t a ha ht => h2 (i, t, a) ((mem_jobs pl i t a).2 ⟨ha, ht⟩)⟩

/-- a killed JSON write is visible in the directory -/
theorem not_inWindow {ops : List (Ckpt.FsOp S)} {c : Nat} {d : Ckpt.Dir S} (h1 : (Ckpt.applyAll (ops.take c) d).progress ≠ some none)
    (h2 : (Ckpt.applyAll (ops.take c) d).complete ≠ some none) : ¬ Ckpt.InWindow ops c := by
  intro h
  rcases h with h | h
  · obtain ⟨l, e⟩ := List.getLast?_eq_some_iff.1 h
    rw [e, Ckpt.applyAll_append] at h1
    exact h1 rfl
  · obtain ⟨l, e⟩ := List.getLast?_eq_some_iff.1 h
    rw [e, Ckpt.applyAll_append] at h2
    exact h2 rfl

/-! ## a trial that fails is not marked -/

/-- operations other than those on the completion marker -/
def NoMark (o : Ckpt.FsOp S) : Prop := (∀ d, (o.apply d).complete = d.complete)

theorem noMark_all (l : List (Ckpt.FsOp S)) (h : ∀ o ∈ l, NoMark o) (d : Ckpt.Dir S) : (Ckpt.applyAll l d).complete = d.complete := by
  induction l generalizing d with
  | nil => rfl
  | cons o l ih => rw [Ckpt.applyAll_cons, ih fun x hx => h x (List.mem_cons_of_mem _ hx), h o (List.mem_cons_self ..)]

theorem noMark_save (m : Ckpt.Manager) (d : Ckpt.Dir S) (i : Nat) (s : S) (l : List (Ckpt.FsOp S)) (h : m.saveOps d i s = .ok l) : ∀ o ∈ l, NoMark o := by
  have hw : ∀ o ∈ m.writeOps d i s, NoMark o := by
    intro o ho
    unfold Ckpt.Manager.writeOps at ho
    rcases List.mem_append.1 ho with ho | ho
    · simp only [List.mem_cons, List.not_mem_nil, or_false] at ho
      rcases ho with rfl | rfl | rfl | rfl <;> exact fun d => rfl
    · obtain ⟨x, _, rfl⟩ := List.mem_map.1 ho
      exact fun d => rfl
  unfold Ckpt.Manager.saveOps at h
  repeat' split at h
  all_goals first | (cases h; done) | skip
  all_goals injection h with h
  all_goals subst h
  all_goals first | exact hw | (intro o ho; simp at ho)

theorem noMark_loop (m : Ckpt.Manager) (t : Ckpt.Trial S) (total n k : Nat) (s : S) (d : Ckpt.Dir S) : ∀ o ∈ (Ckpt.loop m t total n k s d).ops, NoMark o := by
  induction n generalizing k s d with
  | zero => intro o ho; simp [Ckpt.loop] at ho
  | succ n ih =>
    intro o ho
    unfold Ckpt.loop at ho
    dsimp only at ho
    split at ho
    · simp at ho
    · split at ho
      · split at ho
        · simp at ho
        · rename_i l hl
          rcases List.mem_append.1 ho with ho | ho
          · exact noMark_save m d k _ l hl o ho
          · exact ih _ _ _ o ho
      · exact ih _ _ _ o ho

/-- a session that ends without success leaves the trial unmarked -/
theorem session_failed (m : Ckpt.Manager) (t : Ckpt.Trial S) (total : Nat) (d : Ckpt.Dir S) (o : Ckpt.Outcome S) (h : Ckpt.session m t total d = .ok o) (hd : o.done = false) :
    (Ckpt.applyAll o.ops d).complete = none := by
  have fin : ∀ n k s, (Ckpt.finish m t total d (Ckpt.loop m t total n k s d)).done = false → ∀ x ∈ (Ckpt.finish m t total d (Ckpt.loop m t total n k s d)).ops, NoMark x := by
    intro n k s hf
    unfold Ckpt.finish at hf ⊢
    split at hf
    · rename_i h1
      rw [if_pos h1]
      split at hf
      · exact noMark_loop m t total n k s d
      · cases hf
    · rename_i h1
      rw [if_neg h1]
      exact noMark_loop m t total n k s d
  unfold Ckpt.session at h
  split at h
  · split at h
    · cases h
    · injection h with h; rw [← h] at hd; cases hd
  · rename_i hc
    have hc' : d.complete = none := by simpa using hc
    have key : ∀ x ∈ o.ops, NoMark x := by
      unfold Ckpt.runTrial at h
      split at h
      · cases h
      · dsimp only at h
        split at h
        · injection h with h; rw [← h]; intro x hx; simp at hx
        · injection h with h
          rw [← h] at hd ⊢
          exact fin _ _ _ hd
      · split at h
        · injection h with h; rw [← h]; intro x hx; simp at hx
        · injection h with h
          rw [← h] at hd ⊢
          exact fin _ _ _ hd
    rw [noMark_all _ key, hc']

end Verif.BenchDir
