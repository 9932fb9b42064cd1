import Verif.Model.MetricsFile
import Verif.Props.BenchDir
import Verif.Props.Display
set_option linter.unusedSectionVars false
/-! # C109: metric results in the checkpoint directory -/
namespace Verif.Props
open Verif BenchDir MetricsFile

section
variable {S N V P G β J : Type}

/-! ## one call of `compute_metrics` -/

/-- what a successful call of `compute_metrics` amounts to -/
theorem compute_shape {R : Reader S N V} {q : Request P N V β J} {r : Root S P G (Saved V β) J} {res : Saved V β} {ops : List (Op S P G (Saved V β) J)}
    (h : computeMetrics R q r = .ok (res, ops)) :
    ∃ b md c, q.source R r = .ok b ∧ res.views = some (viewsOf R b.2) ∧ q.compute b.1 (viewsOf R b.2) = .ok res.raw ∧ r.info = some (some md) ∧ r.completed = .ok c ∧
      ops = [.openMetrics, .writeMetrics (if c then { res with views := none } else res), .openMarker, .writeMarker, .openInfo, .writeInfo { md with notes := update md.notes q.notes }] := by
  unfold computeMetrics at h
  cases h1 : q.source R r with
  | error e => rw [h1] at h; cases h
  | ok b =>
    rw [h1] at h
    simp only [bind, Except.bind] at h
    cases h2 : q.compute b.1 (viewsOf R b.2) with
    | error e => rw [h2] at h; cases h
    | ok raw =>
      rw [h2] at h
      dsimp only at h
      cases h3 : r.completed with
      | error e => simp only [MetricsFile.saveOps, h3] at h; cases h
      | ok c =>
        cases hi : r.info with
        | none =>
          exfalso
          cases c <;> simp [MetricsFile.saveOps, h3, Root.appendNotes, Root.loadInfo, hi, bind, Except.bind] at h
        | some x =>
          cases x with
          | none =>
            exfalso
            cases c <;> simp [MetricsFile.saveOps, h3, Root.appendNotes, Root.loadInfo, hi, bind, Except.bind] at h
          | some md =>
            refine ⟨b, md, c, rfl, ?_⟩
            cases c <;>
            · simp only [MetricsFile.saveOps, h3, Root.appendNotes, Root.loadInfo, hi, bind, Except.bind] at h
              injection h with h
              injection h with h4 h5
              subst h4
              exact ⟨rfl, h2, rfl, rfl, h5.symm⟩

theorem loadBench_congr (R : Reader S N V) {r r' : Root S P G (Saved V β) J} (h1 : r'.problem = r.problem) (h2 : r'.algs = r.algs) (h3 : r'.trial = r.trial)
    (h4 : Root.nTrials r' = Root.nTrials r) : loadBench R r' = loadBench R r := by
  have h5 : r'.done = r.done := by funext i t; unfold Root.done; rw [h3]
  have h6 : loadTrial R r' = loadTrial R r := by funext i t; unfold loadTrial; rw [h3]
  unfold loadBench
  rw [h1, h2, h4, h5, h6]

theorem completed_states {R : Reader S N V} {r : Root S P G (Saved V β) J} {b : P × List (String × List N)} (h : loadBench R r = .ok b) : r.info ≠ none ∧ r.info ≠ some none := by
  constructor
  · intro hi
    unfold loadBench at h
    simp only [bind, Except.bind, Root.nTrials, Root.loadInfo, hi] at h
    split at h
    · cases h
    · split at h <;> cases h
  · intro hi
    unfold loadBench at h
    simp only [bind, Except.bind, Root.nTrials, Root.loadInfo, hi] at h
    split at h
    · cases h
    · split at h <;> cases h

/-- **C109.** When `compute_metrics` has returned, `are_metrics_computed` says true and loading gives back the very frames that were computed. If the benchmark was not complete
the network views are stored too and the loaded result is the computed one. -/
theorem C109_round_trip {R : Reader S N V} {q : Request P N V β J} {r : Root S P G (Saved V β) J} {res : Saved V β} {ops : List (Op S P G (Saved V β) J)}
    (h : computeMetrics R q r = .ok (res, ops)) :
    metricsComputed (applyOps ops r) = true ∧ (∀ skip, ∃ s, loadMetrics R skip (applyOps ops r) = .ok s ∧ s.raw = res.raw) ∧
      (r.completed = .ok false → ∀ skip, loadMetrics R skip (applyOps ops r) = .ok res) := by
  obtain ⟨b, md, c, h1, h2, h3, h4, h5, rfl⟩ := compute_shape h
  refine ⟨rfl, fun skip => ?_, fun hc skip => ?_⟩
  · cases c <;> cases skip
    all_goals simp only [loadMetrics, readFile, applyOps, List.foldl, Op.apply, if_true, if_false, Bool.false_eq_true]
    all_goals split
    all_goals exact ⟨_, rfl, rfl⟩
  · rw [h5] at hc
    injection hc with hc
    subst hc
    simp only [loadMetrics, readFile, applyOps, List.foldl, Op.apply, if_false, Bool.false_eq_true, h2]
    rfl

/-- **C109.** For a complete benchmark whose states are read from the directory the network views are not stored but rebuilt on loading. The loaded result is the computed one
exactly if every algorithm occurs in the frame of the first table metric. -/
theorem C109_rebuilt {R : Reader S N V} {q : Request P N V β J} {r : Root S P G (Saved V β) J} {res : Saved V β} {ops : List (Op S P G (Saved V β) J)}
    (h : computeMetrics R q r = .ok (res, ops)) (hq : q.given = none) (hc : r.completed = .ok true) (t : List (String × List (String × β))) (ht : res.raw.rawTable = some t) :
    ∃ views, res.views = some views ∧
      (loadMetrics R false (applyOps ops r) = .ok res ↔ ∀ a ∈ views, ∃ d rows rest, t = (d, rows) :: rest ∧ ∃ x ∈ rows, x.1 = a.1) := by
  obtain ⟨b, md, c, h1, h2, h3, h4, h5, rfl⟩ := compute_shape h
  rw [hc] at h5
  injection h5 with h5
  subst h5
  refine ⟨_, h2, ?_⟩
  obtain ⟨r', hr'⟩ : ∃ r', r' = applyOps [.openMetrics, .writeMetrics (if true then { res with views := none } else res), .openMarker, .writeMarker, .openInfo,
    .writeInfo { md with notes := update md.notes q.notes }] r := ⟨_, rfl⟩
  rw [← hr']
  have hload : loadBench R r = .ok b := by
    unfold Request.source at h1
    rw [hq] at h1
    dsimp only at h1
    split at h1
    · cases h1
    · rename_i b' hb
      split at h1
      · cases h1
      · injection h1 with h1
        subst h1
        revert hb
        cases loadBench R r with
        | error e => cases e <;> (intro hb; cases hb)
        | ok x => intro hb; exact hb
  have hload' : loadBench R r' = .ok b := by
    rw [← hload]
    refine loadBench_congr R ?_ ?_ ?_ ?_
    · rw [hr']; rfl
    · rw [hr']; rfl
    · rw [hr']; rfl
    · rw [hr']
      simp only [Root.nTrials, Root.loadInfo, h4]
      rfl
  have hm : r'.metrics = some (some { res with views := none }) := by rw [hr']; rfl
  have hl : loadMetrics R false r' = .ok ⟨some (viewsOf R (b.2.filter fun a => decide (a.1 ∈ (Saved.toResult ({ res with views := none } : Saved V β)).algorithms))), res.raw⟩ := by
    simp only [loadMetrics, hm, readFile, rebuild, hload', Option.isNone_none, Bool.not_false, Bool.and_true, if_true]
  have hmem : ∀ a, a ∈ (Saved.toResult ({ res with views := none } : Saved V β)).algorithms ↔ ∃ d rows rest, t = (d, rows) :: rest ∧ ∃ x ∈ rows, x.1 = a := by
    intro a
    simp only [Saved.toResult, Option.map_none, Display.Result.algorithms, Display.Result.anyRaw, ht]
    cases t with
    | nil => simp
    | cons y t =>
      obtain ⟨d, rows⟩ := y
      simp only [Option.orElse, List.mem_dedup, List.mem_map]
      constructor
      · rintro ⟨x, hx, rfl⟩; exact ⟨d, rows, t, rfl, x, hx, rfl⟩
      · rintro ⟨d', rows', rest', e, x, hx, rfl⟩
        obtain ⟨e1, e2⟩ := (by simpa using e : (d = d' ∧ rows = rows') ∧ t = rest')
        exact ⟨x, e1.2 ▸ hx, rfl⟩
  rw [hl]
  constructor
  · intro e
    have e : (⟨some (viewsOf R (b.2.filter fun a => decide (a.1 ∈ (Saved.toResult ({ res with views := none } : Saved V β)).algorithms))), res.raw⟩ : Saved V β) = res := by
      injection e
    have e' := congrArg Saved.views e
    rw [h2] at e'
    have e' : viewsOf R (b.2.filter fun a => decide (a.1 ∈ (Saved.toResult ({ res with views := none } : Saved V β)).algorithms)) = viewsOf R b.2 := by
      simpa using e'
    have hlen := congrArg List.length e'
    simp only [viewsOf, List.length_map] at hlen
    have hall := (List.filter_eq_self.1 ((List.filter_sublist).eq_of_length hlen))
    intro a ha
    obtain ⟨x, hx, rfl⟩ := List.mem_map.1 ha
    exact (hmem x.1).1 (by simpa using hall x hx)
  · intro ha
    have : (b.2.filter fun a => decide (a.1 ∈ (Saved.toResult ({ res with views := none } : Saved V β)).algorithms)) = b.2 := by
      refine List.filter_eq_self.2 fun x hx => ?_
      exact decide_eq_true ((hmem x.1).2 (ha (x.1, x.2.map R.view) (List.mem_map.2 ⟨x, hx, rfl⟩)))
    rw [this, ← h2]

/-- **C109** (finding). Computing plot metrics only (no table metric requested, or none available) for a complete benchmark: the result that `compute_metrics` returns is
displayed, the result loaded from the directory never is, whatever is requested — its list of algorithms is empty. -/
theorem C109_plots_only_refuted {R : Reader S N V} {q : Request P N V β J} {r : Root S P G (Saved V β) J} {res : Saved V β} {ops : List (Op S P G (Saved V β) J)}
    (h : computeMetrics R q r = .ok (res, ops)) (hc : r.completed = .ok true) (ht : res.raw.rawTable = some []) (hb : ∃ b, loadBench R (applyOps ops r) = .ok b) :
    (∀ d rows rest x l, res.raw.rawPlot = some ((d, rows) :: rest) → res.views = some (x :: l) → (Display.displayed res.toResult none none none).isSome = true) ∧
    ∃ s, loadMetrics R false (applyOps ops r) = .ok s ∧ s.toResult.algorithms = [] ∧ ∀ tm pm al, Display.displayed s.toResult tm pm al = none := by
  obtain ⟨b, md, c, h1, h2, h3, h4, h5, rfl⟩ := compute_shape h
  rw [hc] at h5
  injection h5 with h5
  subst h5
  constructor
  · intro d rows rest x l hp hv
    have ha : Display.select res.toResult.algorithms none ≠ [] := by
      simp only [Display.select, Saved.toResult, hv, Option.map_some, Display.Result.algorithms, List.map_cons]
      intro hd
      have : x.1 ∈ (x.1 :: l.map Prod.fst).dedup := List.mem_dedup.2 (List.mem_cons_self ..)
      rw [hd] at this
      simp at this
    have hm : Display.select (Display.metricsOf res.toResult.rawPlot) none ≠ [] := by
      simp only [Display.select, Saved.toResult, hp, Display.metricsOf, List.map_cons]
      intro hd
      have : d ∈ (d :: rest.map Prod.fst).dedup := List.mem_dedup.2 (List.mem_cons_self ..)
      rw [hd] at this
      simp at this
    unfold Display.displayed
    dsimp only
    rw [if_neg]
    · rfl
    · rintro (h | h)
      · exact ha h
      · exact hm h.2
  · obtain ⟨b', hb'⟩ := hb
    obtain ⟨r', hr'⟩ : ∃ r', r' = applyOps [.openMetrics, .writeMetrics (if true then { res with views := none } else res), .openMarker, .writeMarker, .openInfo,
      .writeInfo { md with notes := update md.notes q.notes }] r := ⟨_, rfl⟩
    rw [← hr'] at hb' ⊢
    have hm : r'.metrics = some (some { res with views := none }) := by rw [hr']; rfl
    have halg : (Saved.toResult ({ res with views := none } : Saved V β)).algorithms = [] := by
      simp [Saved.toResult, Display.Result.algorithms, Display.Result.anyRaw, ht, Option.orElse]
    have hl : loadMetrics R false r' = .ok ⟨some [], res.raw⟩ := by
      simp only [loadMetrics, hm, readFile, rebuild, hb', Option.isNone_none, Bool.not_false, Bool.and_true, if_true, halg]
      simp [viewsOf]
    refine ⟨_, hl, rfl, fun tm pm al => ?_⟩
    unfold Display.displayed
    dsimp only
    rw [if_pos]
    left
    cases al <;> rfl

/-! ## added trials -/

theorem loadTrials_length {name : String} {load : Nat → Py (String × N)} : ∀ (l : List Nat) (rs : List N), Bench.loadTrials name load l = .ok (some rs) → rs.length = l.length
  | [], rs, h => by
    simp only [Bench.loadTrials] at h
    injection h with h; injection h with h; rw [← h]; rfl
  | t :: ts, rs, h => by
    simp only [Bench.loadTrials] at h
    split at h
    · cases h
    · split at h
      · cases h
      · split at h
        · cases h
        · cases h
        · rename_i rs' h'
          injection h with h; injection h with h
          rw [← h, List.length_cons, List.length_cons, loadTrials_length ts rs' h']

theorem loadAll_length {n : Nat} {isDone : Nat → Nat → Bool} {load : Nat → Nat → Py (String × N)} : ∀ (algs : List (Nat × String)) (st : List (String × List N)),
    Bench.loadAll n isDone load algs = .ok st → ∀ a ∈ st, a.2.length = n
  | [], st, h => by
    simp only [Bench.loadAll] at h
    injection h with h; subst h; intro a ha; simp at ha
  | (i, name) :: algs, st, h => by
    simp only [Bench.loadAll] at h
    split at h
    · exact loadAll_length algs st h
    · rename_i hlen
      split at h
      · cases h
      · rename_i o ho
        split at h
        · cases h
        · rename_i rest hrest
          have ih := loadAll_length algs rest hrest
          split at h
          · injection h with h
            subst h
            intro a ha
            rcases List.mem_cons.1 ha with rfl | ha
            · rw [loadTrials_length _ _ ho]; simpa using hlen
            · exact ih a ha
          · injection h with h; subst h; exact ih

/-- **C109.** Rebuilt network views have exactly as many trials per algorithm as the benchmark was first started with: views of trials added by resuming are dropped by
saving and loading the metrics of a complete benchmark, while the loaded frames still cover all of them. -/
theorem C109_added_trials {R : Reader S N V} {q : Request P N V β J} {r : Root S P G (Saved V β) J} {res : Saved V β} {ops : List (Op S P G (Saved V β) J)}
    (h : computeMetrics R q r = .ok (res, ops)) (hc : r.completed = .ok true) :
    ∃ md s, r.info = some (some md) ∧ loadMetrics R false (applyOps ops r) = .ok s ∧ s.raw = res.raw ∧ ∀ views, s.views = some views → ∀ a ∈ views, a.2.length = md.nTrials := by
  obtain ⟨b, md, c, h1, h2, h3, h4, h5, rfl⟩ := compute_shape h
  rw [hc] at h5
  injection h5 with h5
  subst h5
  obtain ⟨r', hr'⟩ : ∃ r', r' = applyOps [.openMetrics, .writeMetrics (if true then { res with views := none } else res), .openMarker, .writeMarker, .openInfo,
    .writeInfo { md with notes := update md.notes q.notes }] r := ⟨_, rfl⟩
  rw [← hr']
  have hm : r'.metrics = some (some { res with views := none }) := by rw [hr']; rfl
  have hl : loadMetrics R false r' = .ok ⟨rebuild R r' { res with views := none }, res.raw⟩ := by
    simp only [loadMetrics, hm, readFile, Option.isNone_none, Bool.not_false, Bool.and_true, if_true]
  refine ⟨md, _, h4, hl, rfl, fun views hv a ha => ?_⟩
  dsimp only at hv
  unfold rebuild at hv
  split at hv
  · cases hv
  · rename_i b' hb'
    injection hv with hv
    subst hv
    obtain ⟨x, hx, rfl⟩ := List.mem_map.1 ha
    have hx := List.mem_of_mem_filter hx
    rw [List.length_map]
    have hn : Root.nTrials r' = .ok md.nTrials := by rw [hr']; rfl
    unfold loadBench at hb'
    simp only [bind, Except.bind] at hb'
    split at hb'
    · cases hb'
    · split at hb'
      · cases hb'
      · rw [hn] at hb'
        dsimp only at hb'
        split at hb'
        · cases hb'
        · rename_i st hst
          injection hb' with hb'
          subst hb'
          exact loadAll_length _ _ hst x hx

/-! ## kills -/

/-- **C109.** The first computation of metrics may be killed anywhere: once `are_metrics_computed` says true the stored frames are complete and are those computed. -/
theorem C109_marker {R : Reader S N V} {q : Request P N V β J} {r : Root S P G (Saved V β) J} {res : Saved V β} {ops : List (Op S P G (Saved V β) J)}
    (h : computeMetrics R q r = .ok (res, ops)) (hm : metricsComputed r = false) (k : Nat) (hk : metricsComputed (applyOps (ops.take k) r) = true) (skip : Bool) :
    ∃ s, loadMetrics R skip (applyOps (ops.take k) r) = .ok s ∧ s.raw = res.raw := by
  obtain ⟨b, md, c, h1, h2, h3, h4, h5, rfl⟩ := compute_shape h
  rcases (by omega : k = 0 ∨ k = 1 ∨ k = 2 ∨ 3 ≤ k) with rfl | rfl | rfl | hk3
  · exact absurd hk (by rw [show applyOps (List.take 0 _) r = r from rfl, hm]; simp)
  · exact absurd (show metricsComputed r = true from hk) (by rw [hm]; simp)
  · exact absurd (show metricsComputed r = true from hk) (by rw [hm]; simp)
  · have key : (applyOps (List.take k [.openMetrics, .writeMetrics (if c then { res with views := none } else res), .openMarker, .writeMarker, .openInfo,
        .writeInfo { md with notes := update md.notes q.notes }]) r).metrics = some (some (if c then { res with views := none } else res)) := by
      rcases (by omega : k = 3 ∨ k = 4 ∨ k = 5 ∨ 6 ≤ k) with rfl | rfl | rfl | h6
      · rfl
      · rfl
      · rfl
      · rw [List.take_of_length_le (by simpa using h6)]; rfl
    unfold loadMetrics
    rw [key]
    simp only [readFile]
    cases c
    · simp only [Bool.false_eq_true, if_false]
      split <;> exact ⟨_, rfl, rfl⟩
    · simp only [if_true]
      split <;> exact ⟨_, rfl, rfl⟩

/-- **C109** (finding). The marker is not removed by a second computation. Killed while rewriting the result file, it leaves a directory in which `are_metrics_computed`
says true and loading raises. -/
theorem C109_stale_marker_refuted {R : Reader S N V} {q : Request P N V β J} {r : Root S P G (Saved V β) J} {res : Saved V β} {ops : List (Op S P G (Saved V β) J)}
    (h : computeMetrics R q r = .ok (res, ops)) (hm : metricsComputed r = true) (skip : Bool) :
    metricsComputed (applyOps (ops.take 1) r) = true ∧ loadMetrics R skip (applyOps (ops.take 1) r) = .error .runtimeError := by
  obtain ⟨b, md, c, h1, h2, h3, h4, h5, rfl⟩ := compute_shape h
  exact ⟨hm, rfl⟩

/-- **C109.** `compute_metrics`, killed anywhere except inside its rewriting of `metadata.json`, leaves the benchmark as it was: trials, problem and algorithms are untouched,
and resuming runs the same plan as before. Killed inside that rewriting, it leaves a benchmark that cannot be resumed and from which no metrics can be computed. -/
theorem C109_kill {R : Reader S N V} {q : Request P N V β J} {r : Root S P G (Saved V β) J} {res : Saved V β} {ops : List (Op S P G (Saved V β) J)}
    (h : computeMetrics R q r = .ok (res, ops)) (k : Nat) :
    ((applyOps (ops.take k) r).trial = r.trial ∧ (applyOps (ops.take k) r).problem = r.problem ∧ (applyOps (ops.take k) r).algs = r.algs) ∧
    (k ≠ 5 → r.present = true → ∀ a b pl, (∃ hd, (applyOps (ops.take k) r).head (.resume a b) = .ok (hd, pl)) ↔ ∃ hd, r.head (.resume a b) = .ok (hd, pl)) ∧
    (k = 5 → (∀ a b, ∃ e, (applyOps (ops.take k) r).head (.resume a b) = .error e) ∧ ∀ q' : Request P N V β J, q'.given = none → ∃ e, computeMetrics R q' (applyOps (ops.take k) r) = .error e) := by
  obtain ⟨b, md, c, h1, h2, h3, h4, h5, rfl⟩ := compute_shape h
  obtain ⟨w, hw⟩ : ∃ w : Saved V β, w = (if c then { res with views := none } else res) := ⟨_, rfl⟩
  rw [← hw]
  refine ⟨?_, ?_, ?_⟩
  · rcases (by omega : k = 0 ∨ k = 1 ∨ k = 2 ∨ k = 3 ∨ k = 4 ∨ k = 5 ∨ 6 ≤ k) with rfl | rfl | rfl | rfl | rfl | rfl | hk
    all_goals first | exact ⟨rfl, rfl, rfl⟩ | (rw [List.take_of_length_le (by simpa using hk)]; exact ⟨rfl, rfl, rfl⟩)
  · intro hk hp a b pl
    obtain ⟨r', hr'⟩ : ∃ r', r' = applyOps (List.take k [.openMetrics, .writeMetrics w, .openMarker, .writeMarker, .openInfo, .writeInfo { md with notes := update md.notes q.notes }]) r := ⟨_, rfl⟩
    rw [← hr']
    have hs : r'.present = r.present ∧ r'.problem = r.problem ∧ r'.algs = r.algs ∧ ∃ nt, r'.info = some (some { md with notes := nt }) := by
      rcases (by omega : k = 0 ∨ k = 1 ∨ k = 2 ∨ k = 3 ∨ k = 4 ∨ 6 ≤ k) with rfl | rfl | rfl | rfl | rfl | hk6
      all_goals first
        | (rw [List.take_of_length_le (by simpa using hk6)] at hr'; rw [hr']; exact ⟨rfl, rfl, rfl, _, rfl⟩)
        | (rw [hr']; exact ⟨rfl, rfl, rfl, md.notes, h4⟩)
    obtain ⟨s1, s2, s3, nt, s4⟩ := hs
    have e1 : r.isEmpty = false := by simp [Root.isEmpty, hp, h4]
    have e2 : r'.isEmpty = false := by simp [Root.isEmpty, s1, hp, s4]
    have ll : ∀ (x y : Root S P G (Saved V β) J) (mx : MetaFile J) (ny : PyDict String J), x.problem = y.problem → x.algs = y.algs → x.info = some (some mx) →
        y.info = some (some { mx with notes := ny }) → x.present = true → y.present = true → x.isEmpty = false → y.isEmpty = false →
        (∃ hd, x.head (.resume a b) = .ok (hd, pl)) → ∃ hd, y.head (.resume a b) = .ok (hd, pl) := by
      intro x y mx ny p1 p2 p3 p4 p5 p6 p7 p8 hx
      obtain ⟨hd, hx⟩ := hx
      simp only [Root.head, p5, p7, Bool.true_eq_false, Bool.false_eq_true, if_false] at hx
      simp only [Root.head, p6, p8, Bool.true_eq_false, Bool.false_eq_true, if_false]
      split at hx
      · cases hx
      · rename_i n1
        split at hx
        · cases hx
        · rename_i n2
          rw [if_neg n1, if_neg n2]
          simp only [Root.loadAll, Root.loadInfo, p3, p4, p1, p2, bind, Except.bind] at hx ⊢
          cases hpr : readFile PyErr.runtimeError y.problem with
          | error e => rw [hpr] at hx; cases e <;> cases hx
          | ok pp =>
            rw [hpr] at hx
            dsimp only at hx ⊢
            cases hal : readFile PyErr.runtimeError y.algs with
            | error e => rw [hal] at hx; cases e <;> cases hx
            | ok aa =>
              rw [hal] at hx
              simp only [asInvalid] at hx ⊢
              injection hx with hx
              have hx : (resumeHead mx pp aa a.toNat b.toNat : List (Op S P G (Saved V β) J) × Plan P G).2 = pl := congrArg Prod.snd hx
              refine ⟨(resumeHead { mx with notes := ny } pp aa a.toNat b.toNat).1, ?_⟩
              rw [← hx]
              congr 1
              refine Prod.ext rfl ?_
              unfold resumeHead
              dsimp only
              split <;> rfl
    constructor
    · exact ll r' r { md with notes := nt } md.notes s2 s3 s4 h4 (s1.trans hp) hp e2 e1
    · exact ll r r' md nt s2.symm s3.symm h4 s4 hp (s1.trans hp) e1 e2
  · rintro rfl
    constructor
    · intro a b
      simp only [Root.head]
      repeat' split
      all_goals first | exact ⟨_, rfl⟩ | skip
      rename_i hl
      cases hl
    · intro q' hq
      unfold computeMetrics Request.source
      rw [hq]
      have : ∃ e, loadBench R (applyOps (List.take 5 [.openMetrics, .writeMetrics w, .openMarker, .writeMarker, .openInfo, .writeInfo { md with notes := update md.notes q.notes }]) r) = .error e := by
        unfold loadBench
        simp only [bind, Except.bind]
        split
        · exact ⟨_, rfl⟩
        · split
          · exact ⟨_, rfl⟩
          · exact ⟨_, rfl⟩
      obtain ⟨e, he⟩ := this
      simp only [he]
      cases e <;> exact ⟨_, rfl⟩

/-! ## resuming after the computation -/

theorem keepsMetrics (l : List (Op S P G (Saved V β) J)) (h : ∀ o ∈ l, ∀ r : Root S P G (Saved V β) J, (o.apply r).metrics = r.metrics ∧ (o.apply r).marker = r.marker)
    (r : Root S P G (Saved V β) J) : (applyOps l r).metrics = r.metrics ∧ (applyOps l r).marker = r.marker := by
  induction l generalizing r with
  | nil => exact ⟨rfl, rfl⟩
  | cons o l ih =>
    rw [applyOps_cons]
    obtain ⟨h1, h2⟩ := ih (fun x hx => h x (List.mem_cons_of_mem _ hx)) (o.apply r)
    obtain ⟨h3, h4⟩ := h o (List.mem_cons_self ..) r
    exact ⟨h1.trans h3, h2.trans h4⟩

/-- **C109** (finding). Benchmarks do not invalidate computed metrics. After resuming with more iterations or trials, killed or not, `are_metrics_computed` says what it said
before and loading returns the frames of the earlier states; when the views were not stored they are those of the *new* states, so one loaded result mixes the two. -/
theorem C109_stale_metrics {m : Ckpt.Manager} {mk : P → G → Int → Ckpt.Trial S} {R : Reader S N V} {r : Root S P G (Saved V β) J} {c : Call P G J} {l : List (Op S P G (Saved V β) J)}
    {pl : Plan P G} {outs : List (Nat × Nat × Ckpt.Outcome S)} (e : Exec m mk r c l pl outs) (k : Nat) :
    metricsComputed (applyOps (l.take k) r) = metricsComputed r ∧
    ∀ s, r.metrics = some (some s) →
      (∀ skip, ∃ s', loadMetrics R skip (applyOps (l.take k) r) = .ok s' ∧ s'.raw = s.raw) ∧
      (s.views = none → ∀ b, loadBench R (applyOps (l.take k) r) = .ok b →
        loadMetrics R false (applyOps (l.take k) r) = .ok ⟨some (viewsOf R (b.2.filter fun a => decide (a.1 ∈ s.toResult.algorithms))), s.raw⟩) := by
  have hk : (applyOps (l.take k) r).metrics = r.metrics ∧ (applyOps (l.take k) r).marker = r.marker := by
    obtain ⟨draw, hd, sched, e1, e2, e3, e4⟩ := e
    refine keepsMetrics _ (fun o ho r => ?_) r
    have ho := List.mem_of_mem_take ho
    rw [e4] at ho
    rcases List.mem_append.1 ho with ho | ho
    · cases c with
      | benchmark algs p n notes sd =>
        simp only [Root.head] at e1
        repeat' split at e1
        all_goals first | (cases e1; done) | skip
        injection e1 with e1
        injection e1 with e1 _
        rw [← e1] at ho
        unfold initOps at ho
        rcases List.mem_append.1 ho with ho | ho
        · simp only [List.mem_cons, List.not_mem_nil, or_false] at ho
          rcases ho with rfl | rfl | rfl | rfl | rfl | rfl | rfl <;> exact ⟨rfl, rfl⟩
        · obtain ⟨i, _, rfl⟩ := List.mem_map.1 ho; exact ⟨rfl, rfl⟩
      | resume a b =>
        simp only [Root.head] at e1
        repeat' split at e1
        all_goals first | (cases e1; done) | skip
        rename_i md p0 algs0 _
        injection e1 with e1
        have hl := congrArg Prod.fst e1
        dsimp only at hl
        rw [← hl] at ho
        have := resumeHead_bookkeeping (p := p0) (algs := algs0) md _ _ o ho
        cases o with
        | openInfo => exact ⟨rfl, rfl⟩
        | writeInfo _ => exact ⟨rfl, rfl⟩
        | unmark _ _ => exact ⟨rfl, rfl⟩
        | _ => exact absurd this (by simp [Bookkeeping])
    · obtain ⟨x, _, rfl⟩ := List.mem_map.1 ho
      exact ⟨rfl, rfl⟩
  obtain ⟨h1, h2⟩ := hk
  refine ⟨h2, fun s hs => ⟨fun skip => ?_, fun hv b hb => ?_⟩⟩
  · unfold loadMetrics
    rw [h1, hs]
    simp only [readFile]
    split <;> exact ⟨_, rfl, rfl⟩
  · unfold loadMetrics
    rw [h1, hs]
    simp only [readFile, hv, Option.isNone_none, Bool.not_false, Bool.and_true, if_true, rebuild, hb]

/-! ## the benchmark result read from the directory -/

theorem loadTrials_congr {name : String} {f g : Nat → Py (String × N)} : ∀ l : List Nat, (∀ t ∈ l, f t = g t) → Bench.loadTrials name f l = Bench.loadTrials name g l
  | [], _ => rfl
  | t :: l, h => by
    simp only [Bench.loadTrials, h t (List.mem_cons_self ..), loadTrials_congr l fun u hu => h u (List.mem_cons_of_mem _ hu)]

theorem loadAll_congr {n : Nat} {isDone : Nat → Nat → Bool} {f g : Nat → Nat → Py (String × N)} (h : ∀ i t, t < n → isDone i t = true → f i t = g i t) :
    ∀ algs : List (Nat × String), Bench.loadAll n isDone f algs = Bench.loadAll n isDone g algs
  | [] => rfl
  | (i, name) :: algs => by
    have e : Bench.loadTrials name (f i) ((List.range n).filter (isDone i)) = Bench.loadTrials name (g i) ((List.range n).filter (isDone i)) :=
      loadTrials_congr _ fun t ht => h i t (List.mem_range.1 (List.mem_filter.1 ht).1) (List.mem_filter.1 ht).2
    simp only [Bench.loadAll, e, loadAll_congr h algs]

/-- **C109.** Metrics computed from the directory are about exactly the algorithms all of whose configured trials are marked complete, in the order of the algorithms, with the
networks of the trials in trial order. `st i t` is the state stored for trial `t` of algorithm `i`; `nm i` the name stored there. -/
theorem C109_loaded {R : Reader S N V} {r : Root S P G (Saved V β) J} {md : MetaFile J} {p : P} {algs : List (Alg G)} (hi : r.info = some (some md)) (hp : r.problem = some (some p))
    (ha : r.algs = some (some algs)) (st : Nat → Nat → S)
    (hs : ∀ i t, t < md.nTrials → (r.trial i t).complete.isSome = true → (r.trial i t).result = .ok (st i t) ∧ ∀ a, algs[i]? = some a → R.nameOf (st i t) = a.name)
    (hn : 0 < md.nTrials) :
    loadBench R r = .ok (p, (algs.zipIdx.filter fun a => (List.range md.nTrials).all fun t => (r.trial a.2 t).complete.isSome).map
      fun a => (a.1.name, (List.range md.nTrials).map fun t => R.netOf (st a.2 t))) := by
  obtain ⟨nm, hnm⟩ : ∃ nm : Nat → String, ∀ i a, algs[i]? = some a → nm i = a.name := ⟨fun i => match algs[i]? with | some a => a.name | none => "", fun i a h => by simp only [h]⟩
  have hx : ∀ x ∈ algs.zipIdx.map fun a => (a.2, a.1.name), nm x.1 = x.2 := by
    intro x hx
    obtain ⟨a, ha', rfl⟩ := List.mem_map.1 hx
    exact hnm a.2 a.1 (by simpa using (List.mem_zipIdx_iff_getElem?.1 ha'))
  have hload : ∀ l : List (Nat × String), (∀ x ∈ l, nm x.1 = x.2 ∧ ∃ a, algs[x.1]? = some a) →
      Bench.loadAll md.nTrials r.done (loadTrial R r) l = Bench.loadAll md.nTrials r.done (fun i t => .ok (nm i, R.netOf (st i t))) l := by
    intro l
    induction l with
    | nil => intro _; rfl
    | cons x l ih =>
      intro hl
      obtain ⟨i, name⟩ := x
      obtain ⟨_, a, hia⟩ := hl (i, name) (List.mem_cons_self ..)
      have e : Bench.loadTrials name (loadTrial R r i) ((List.range md.nTrials).filter (r.done i)) =
          Bench.loadTrials name (fun t => .ok (nm i, R.netOf (st i t))) ((List.range md.nTrials).filter (r.done i)) :=
        loadTrials_congr _ fun t ht => by
          obtain ⟨h1, h2⟩ := hs i t (List.mem_range.1 (List.mem_filter.1 ht).1) (List.mem_filter.1 ht).2
          simp only [loadTrial, h1, h2 a hia, hnm i a hia]
      simp only [Bench.loadAll, e, ih fun y hy => hl y (List.mem_cons_of_mem _ hy)]
  have hmem : ∀ x ∈ algs.zipIdx.map fun a => (a.2, a.1.name), nm x.1 = x.2 ∧ ∃ a, algs[x.1]? = some a := by
    intro x hx'
    refine ⟨hx x hx', ?_⟩
    obtain ⟨a, ha', rfl⟩ := List.mem_map.1 hx'
    exact ⟨a.1, by simpa using (List.mem_zipIdx_iff_getElem?.1 ha')⟩
  unfold loadBench
  simp only [hp, ha, Root.nTrials, Root.loadInfo, hi, readFile, bind, Except.bind]
  rw [hload _ hmem, C39_extra_trials_not_loaded md.nTrials r.done _ (fun i t => R.netOf (st i t)) nm (fun i t _ => rfl)]
  simp only [Except.ok.injEq, Prod.mk.injEq, true_and, List.filter_map, List.map_map]
  have hf : algs.zipIdx.filter ((fun a : Nat × String => decide (0 < md.nTrials) && decide (nm a.1 = a.2) && decide (∀ t < md.nTrials, r.done a.1 t = true)) ∘ fun a => (a.2, a.1.name)) =
      algs.zipIdx.filter fun a => (List.range md.nTrials).all fun t => (r.trial a.2 t).complete.isSome := by
    refine List.filter_congr fun a ha' => ?_
    have h1 := hx _ (List.mem_map_of_mem (f := fun a : Alg G × Nat => (a.2, a.1.name)) ha')
    simp only [Function.comp, hn, decide_true, Bool.true_and] at h1 ⊢
    rw [decide_eq_true h1, Bool.true_and, Bool.eq_iff_iff, decide_eq_true_iff, List.all_eq_true]
    constructor
    · intro h t ht; exact h t (List.mem_range.1 ht)
    · intro h t ht; exact h t (List.mem_range.2 ht)
  rw [hf]
  rfl

end

/-! ## concrete cases -/


/-- a complete benchmark of one algorithm with one trial of one iteration -/
def doneRoot : Root (String × Nat) Unit Unit (Saved Nat Nat) Unit :=
  ⟨true, some (some ⟨1, [("A", 1, 0)], some 7, 0, 0, ⟨[]⟩⟩), some (some [⟨"A", 1, ()⟩]), some (some ()), none, false, [0],
    fun i t => if i = 0 ∧ t = 0 then ⟨⟨[(0, some ("A", 42))]⟩, some (some 0), some (some 0)⟩ else Ckpt.Dir.empty⟩

def pairReader : Reader (String × Nat) Nat Nat := ⟨Prod.fst, Prod.snd, fun x => x + 1⟩

/-- a table and a plot metric -/
def bothRequest : Request Unit Nat Nat Nat Unit := ⟨none, fun _ _ => .ok ⟨some [("t", [("A", 5)])], some [("p", [("A", 6)])], none, none⟩, [("table_metrics", ())]⟩

/-- a plot metric only -/
def plotRequest : Request Unit Nat Nat Nat Unit := ⟨none, fun _ _ => .ok ⟨some [], some [("p", [("A", 6)])], none, none⟩, [("table_metrics", ())]⟩

example : ∃ res ops, computeMetrics pairReader bothRequest doneRoot = .ok (res, ops) ∧ res.views = some [("A", [43])] ∧ doneRoot.completed = .ok true ∧
    loadMetrics pairReader false (applyOps ops doneRoot) = .ok res := ⟨_, _, rfl, rfl, rfl, rfl⟩

example : ∃ res ops, computeMetrics pairReader plotRequest doneRoot = .ok (res, ops) ∧ res.raw.rawTable = some [] ∧ (∃ b, loadBench pairReader (applyOps ops doneRoot) = .ok b) ∧
    (∃ x l, res.views = some (x :: l)) ∧ metricsComputed doneRoot = false ∧ metricsComputed (applyOps (ops.take 3) doneRoot) = true :=
  ⟨_, _, rfl, rfl, ⟨_, rfl⟩, ⟨_, _, rfl⟩, rfl, rfl⟩

/-- metrics computed, then resumed with one more trial: the directory keeps the metrics -/
example : ∃ r : Root (String × Nat) Unit Unit (Saved Nat Nat) Unit, metricsComputed r = true ∧ (∃ s, r.metrics = some (some s) ∧ s.views = none) ∧
    ∃ l pl outs, Exec (S := String × Nat) ⟨some 1, 1⟩ (fun _ _ _ => ⟨("A", 0), fun x => (x, false), fun _ _ x => ((x.1, x.2 + 1), false), fun _ x => x, fun x => x⟩) r (.resume 0 1) l pl outs :=
  ⟨applyOps (match computeMetrics pairReader bothRequest doneRoot with | .ok x => x.2 | .error _ => []) doneRoot, rfl, ⟨_, rfl, rfl⟩, _, _, _, fun _ _ => 0, _, _, rfl, rfl, fun _ _ => rfl, rfl⟩

example : ∃ md p algs, doneRoot.info = some (some md) ∧ doneRoot.problem = some (some p) ∧ doneRoot.algs = some (some algs) ∧ 0 < md.nTrials ∧
    (doneRoot.trial 0 0).result = .ok ("A", 42) ∧ loadBench pairReader doneRoot = .ok (p, [("A", [42])]) := ⟨_, _, _, rfl, rfl, rfl, by decide, rfl, rfl⟩

end Verif.Props
