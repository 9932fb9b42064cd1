import Verif.Model.Benchmark
import Verif.Lemmas.CkptView
import Mathlib.Tactic.Ring
import Mathlib.Tactic.Linarith
import Mathlib.Data.List.Perm.Basic
import Mathlib.Algebra.Order.BigOperators.Group.List
import Mathlib.Tactic.NormNum
/-!
# C39, C40, C42, C43: resuming and extending benchmarks, trial seeds, order of results, agent-keyed dictionaries
-/
set_option linter.unusedSectionVars false
namespace Verif.Props
open Verif Verif.Bench Verif.Ckpt

/-! ## C40 -/

/-- **C40.** Every derived seed is a valid 32-bit seed. -/
theorem C40_range (base : Option Int) (draw : Int) (alg trial : Nat) :
    0 ≤ trialSeed base draw alg trial ∧ trialSeed base draw alg trial < 2 ^ 32 := by
  unfold trialSeed; omega

/-- **C40.** With a base seed, no random number is consumed: the seed depends on the base seed, the algorithm index and the
trial index only. -/
theorem C40_deterministic (base draw draw' : Int) (alg trial : Nat) :
    trialSeed (some base) draw alg trial = trialSeed (some base) draw' alg trial := rfl

theorem seed_eq (base draw : Int) (a a' t t' : Nat) (h : trialSeed (some base) draw a t = trialSeed (some base) draw a' t') :
    ∃ k : Int, ((t : Int) - t') = -3466812779 * ((a : Int) - a') + 4294967296 * k := by
  unfold trialSeed at h
  have e : (2 : Int) ^ 32 = 4294967296 := by norm_num
  rw [Int.emod_eq_emod_iff_emod_sub_eq_zero, e] at h
  obtain ⟨k, hk⟩ := Int.dvd_of_emod_eq_zero h
  simp only [Option.getD_some] at hk
  -- 0x85EBCA6B is invertible modulo 2^32 with inverse 2781581891
  refine ⟨2781581891 * k - 1719112150 * ((a : Int) - a') - 1455126516 * ((t : Int) - t'), ?_⟩
  have h2 : (2781581891 * (0x9E3779B9 * ((a : Int) - a') + 0x85EBCA6B * ((t : Int) - t'))) = 2781581891 * (4294967296 * k) := by
    rw [← hk]; ring
  linarith

/-- **C40.** Two different trials of an algorithm (out of fewer than 2³²) never share a seed. -/
theorem C40_trials_distinct (base draw : Int) (alg t t' : Nat) (ht : t < 2 ^ 32) (ht' : t' < 2 ^ 32)
    (h : trialSeed (some base) draw alg t = trialSeed (some base) draw alg t') : t = t' := by
  obtain ⟨k, hk⟩ := seed_eq base draw alg alg t t' h
  rw [sub_self, mul_zero, zero_add] at hk
  have e : (2 : Nat) ^ 32 = 4294967296 := by norm_num
  rw [e] at ht ht'
  omega

theorem seed_gap : ∀ a ∈ List.range 222, 17348175 ≤ ((3466812779 : Int) * ((a : Int) + 1)) % 4294967296 ∧
    ((3466812779 : Int) * ((a : Int) + 1)) % 4294967296 ≤ 4294967296 - 17348175 := by decide +kernel

/-- **C40.** Benchmarks with at most 223 algorithms and at most 17 348 175 trials each never use a seed twice. -/
theorem C40_all_distinct (base draw : Int) (a a' t t' : Nat) (ha : a < 223) (ha' : a' < 223) (ht : t < 17348175)
    (ht' : t' < 17348175) (h : trialSeed (some base) draw a t = trialSeed (some base) draw a' t') : a = a' ∧ t = t' := by
  -- the algorithm indices may be ordered
  have key : ∀ a a' t t' : Nat, a < 223 → a' < a → t < 17348175 → t' < 17348175 →
      trialSeed (some base) draw a t = trialSeed (some base) draw a' t' → False := by
    intro a a' t t' ha haa ht ht' h
    obtain ⟨k, hk⟩ := seed_eq base draw a a' t t' h
    obtain ⟨g1, g2⟩ := seed_gap (a - a' - 1) (by simp; omega)
    have hc : ((a - a' - 1 : Nat) : Int) + 1 = (a : Int) - a' := by omega
    rw [hc] at g1 g2
    rw [neg_mul] at hk
    generalize hz : (3466812779 : Int) * ((a : Int) - a') = z at *
    clear hz
    omega
  rcases Nat.lt_trichotomy a a' with hlt | heq | hgt
  · exact absurd (key a' a t' t ha' hlt ht' ht h.symm) id
  · subst heq
    exact ⟨rfl, C40_trials_distinct base draw a t t' (by omega) (by omega) h⟩
  · exact absurd (key a a' t t' ha hgt ht ht' h) id

/-- **C40** (refutation of global uniqueness). For every base seed, algorithm 1's trial 0 uses the seed of algorithm 0's
trial 3 466 812 779. -/
theorem C40_collision_refuted (base draw : Int) :
    trialSeed (some base) draw 1 0 = trialSeed (some base) draw 0 3466812779 := by
  unfold trialSeed; simp only [Option.getD_some]; omega

example : trialSeed (some 42) 0 0 0 = 606291022 := by decide +kernel

/-! ## C39 -/

/-- **C39.** Negative increases are rejected with a `ValueError`, and only they. -/
theorem C39_rejects (md : Meta) (N incI incT : Int) :
    resume md N incI incT = .error .valueError ↔ incI < 0 ∨ incT < 0 := by
  unfold resume
  by_cases h1 : incI < 0
  · simp [h1]
  · by_cases h2 : incT < 0
    · simp [h1, h2]
    · simp only [h1, h2, if_false, or_self, iff_false]
      split <;> simp

theorem resumes_aux (N : Int) (calls : List (Int × Int)) (hv : ∀ c ∈ calls, 0 ≤ c.1 ∧ 0 ≤ c.2) (md : Meta)
    (inc : Int × Int) (hi : 0 ≤ inc.1 ∧ 0 ≤ inc.2) (p : Option Plan) :
    resumes N (calls ++ [inc]) md p = .ok
      (⟨md.nTrials, md.incTrials + ((calls ++ [inc]).map Prod.snd).sum, md.incIters + ((calls ++ [inc]).map Prod.fst).sum⟩,
       some ⟨md.nTrials + (md.incTrials + ((calls ++ [inc]).map Prod.snd).sum),
         N + (if inc.1 = 0 then 0 else md.incIters + ((calls ++ [inc]).map Prod.fst).sum), decide (inc.1 ≠ 0)⟩) := by
  have one : ∀ (md : Meta) (c : Int × Int), 0 ≤ c.1 ∧ 0 ≤ c.2 → resume md N c.1 c.2 = .ok
      (⟨md.nTrials, md.incTrials + c.2, md.incIters + c.1⟩,
       ⟨md.nTrials + (md.incTrials + c.2), N + (if c.1 = 0 then 0 else md.incIters + c.1), decide (c.1 ≠ 0)⟩) := by
    intro md c hc
    have h1 : ¬ c.1 < 0 := by omega
    have h2 : ¬ c.2 < 0 := by omega
    simp only [resume, h1, h2, if_false]
    by_cases h3 : c.1 = 0 <;> by_cases h4 : c.2 = 0 <;>
      simp [h3, h4, Int.add_comm]
  induction calls generalizing md p with
  | nil =>
    simp only [List.nil_append, resumes, one md inc hi]
    simp
  | cons c l ih =>
    simp only [List.cons_append, resumes, one md c (hv c (by simp))]
    rw [ih (fun c hc => hv c (List.mem_cons_of_mem _ hc))]
    simp [Int.add_assoc]

/-- **C39.** After any history of resume calls of a benchmark created with `n` trials and `N` iterations, the last call runs
`n` plus all increases of trials; and `N` plus all increases of iterations, provided it itself increases them. -/
theorem C39_totals (n N : Int) (calls : List (Int × Int)) (last : Int × Int)
    (hv : ∀ c ∈ calls ++ [last], 0 ≤ c.1 ∧ 0 ≤ c.2) :
    ∃ md p, resumes N (calls ++ [last]) (Meta.fresh n) none = .ok (md, some p) ∧
      p.nTrials = n + ((calls ++ [last]).map Prod.snd).sum ∧
      (last.1 ≠ 0 → p.iterations = N + ((calls ++ [last]).map Prod.fst).sum) := by
  refine ⟨_, _, resumes_aux N calls (fun c hc => hv c (by simp [hc])) _ last (hv last (by simp)) none, ?_, ?_⟩
  · simp [Meta.fresh]
  · intro h; simp [h, Meta.fresh]

/-- **C39** (refutation). A resume without an increase runs only the original `N` iterations, whatever was added before. -/
theorem C39_forgets_refuted (n N : Int) (calls : List (Int × Int)) (incT : Int)
    (hv : ∀ c ∈ calls ++ [(0, incT)], 0 ≤ c.1 ∧ 0 ≤ c.2) :
    ∃ md p, resumes N (calls ++ [(0, incT)]) (Meta.fresh n) none = .ok (md, some p) ∧ p.iterations = N := by
  refine ⟨_, _, resumes_aux N calls (fun c hc => hv c (by simp [hc])) _ (0, incT) (hv _ (by simp)) none, ?_⟩
  simp

-- 100 iterations were added, then the benchmark was resumed plainly: back to 500
example : (resumes 500 [(100, 0), (0, 2)] (Meta.fresh 3) none) = .ok (⟨3, 2, 100⟩, some ⟨5, 500, false⟩) := by rfl

variable {S T : Type}

/-- **C39** (refutation). If an extension was interrupted after iteration `p ≥ N` and the benchmark is then resumed plainly,
the trial raises, and no later plain resume, however often repeated, ever completes it or changes its directory. -/
theorem C39_stuck_refuted (m : Manager) (t : Trial S) (N : Nat) (md : Meta) (d : Dir S) (p : Nat) (s : S) (hp : N ≤ p)
    (hc : d.complete = none) (hl : d.load = .ok (some (p, s))) (kills : List Nat) :
    resumeKills m t N (kills.map (fun c => ((0 : Int), c))) (md, d) = .ok (md, d) ∧
      session m t N d = .ok ⟨[], s, false⟩ := by
  have hs : session m t N d = .ok ⟨[], s, false⟩ := by
    simp only [session, hc, runTrial, hl]
    rw [if_neg (by simp), if_pos (by omega)]
  refine ⟨?_, hs⟩
  induction kills with
  | nil => rfl
  | cons c l ih =>
    have hr : resume md N 0 0 = .ok (md, ⟨md.nTrials + (0 + md.incTrials), N, false⟩) := by simp [resume]
    simp only [List.map_cons, resumeKills, hr, Int.toNat_natCast]
    have e : reopen ⟨md.nTrials + (0 + md.incTrials), N, false⟩ d = d := by simp [reopen]
    rw [e, hs]
    simpa using ih

-- such a state is reached: 2 iterations, extended by 4, killed after the checkpoint of iteration 3, resumed plainly
example : resumeKills ⟨some 2, 1⟩
    (⟨[], fun s => (s, false), fun _ k s => (s ++ [k], false), fun _ s => s, fun s => s⟩ : Trial (List Nat)) 2 [(0, 9), (4, 5)] (Meta.fresh 1, Dir.empty) =
    .ok (⟨1, 0, 4⟩, ⟨⟨[(3, some [0, 1, 2, 3])]⟩, some (some 3), none⟩) := by rfl

/-- once iterations have been added, every later resume adds some too; and no increase is negative -/
def KeepsExtending (incs : List Int) : Prop := (∀ i ∈ incs, 0 ≤ i) ∧ incs.Pairwise (fun a b => a ≠ 0 → b ≠ 0)

/-- no kill of the history falls inside the write of `progress.json` or `complete.json` -/
def SafeKills (m : Manager) (t : Trial S) (N : Int) : List (Int × Nat) → Meta × Dir S → Prop
  | [], _ => True
  | (inc, c) :: l, s => ∀ r o, resume s.1 N inc 0 = .ok r →
      session m t r.2.iterations.toNat (reopen r.2 s.2) = .ok o →
      ¬ InWindow o.ops c ∧ SafeKills m t N l (r.1, applyAll (o.ops.take c) (reopen r.2 s.2))

theorem reopen_map (f : S → T) (p : Plan) (d : Dir S) : (reopen p d).map f = reopen p (d.map f) := by
  unfold reopen; split <;> rfl

/-- effect of one call on the invariant -/
theorem resume_inv {u : Trial T} (hu : ∀ n n' k s, u.body n k s = u.body n' k s) (m : Manager) (N : Nat) (md : Meta)
    (I : Nat) (hI : md.incIters = I) (inc : Int) (h0 : 0 ≤ inc) (hk : I ≠ 0 → inc ≠ 0) (d : Dir T)
    (h : Inv m u (N + I) d) :
    ∃ p, resume md N inc 0 = .ok ({ md with incIters := md.incIters + inc }, p) ∧ p.iterations = N + (md.incIters + inc) ∧
      Inv m u (N + (I + inc.toNat)) (reopen p d) := by
  by_cases hi : inc = 0
  · subst hi
    have : I = 0 := by by_contra e; exact hk e rfl
    subst this
    refine ⟨⟨md.nTrials + md.incTrials, N, false⟩, ?_, by simp [hI], ?_⟩
    · simp [resume]
    · simpa [reopen] using h
  · refine ⟨⟨md.nTrials + md.incTrials, N + (inc + md.incIters), true⟩, ?_, by simp; omega, ?_⟩
    · have h1 : ¬ inc < 0 := by omega
      simp [resume, hi, h1, Int.add_comm]
    · obtain ⟨q, hq⟩ := h.reopen
      left
      exact ⟨q, by simpa [reopen] using hq.extend hu (by omega)⟩

theorem kills_inv {t : Trial S} {u : Trial T} {f : S → T} (v : View t u f)
    (hu : ∀ n n' k s, u.body n k s = u.body n' k s) (m : Manager) (hkeep : 0 < m.keep) (hm : ∀ k s, u.metric k s = s)
    (N : Nat) (hN : 0 < N) (l : List (Int × Nat)) (md : Meta) (I : Nat) (hI : md.incIters = I) (d : Dir S)
    (hk : KeepsExtending (l.map Prod.fst)) (hk' : I ≠ 0 → ∀ e ∈ l, e.1 ≠ 0)
    (safe : SafeKills m t N l (md, d)) (h : Inv m u (N + I) (d.map f)) :
    ∃ md' d', resumeKills m t N l (md, d) = .ok (md', d') ∧ md'.incIters = md.incIters + (l.map Prod.fst).sum ∧
      Inv m u (N + (I + (l.map Prod.fst).sum.toNat)) (d'.map f) := by
  induction l generalizing md I d with
  | nil => exact ⟨md, d, rfl, by simp, by simpa using h⟩
  | cons e l ih =>
    obtain ⟨inc, c⟩ := e
    have h0 : 0 ≤ inc := hk.1 inc (by simp)
    obtain ⟨p, hr, hp, hinv⟩ := resume_inv hu m N md I hI inc h0 (fun e => hk' e (inc, c) (by simp)) _ h
    obtain ⟨o', ho', _, _, h3, _⟩ := session_inv hkeep hm (by omega) hinv
    have htot : p.iterations.toNat = N + (I + inc.toNat) := by rw [hp, hI]; omega
    rw [← reopen_map, session_map v] at ho'
    cases hs : session m t (N + (I + inc.toNat)) (reopen p d) with
    | error e => rw [hs] at ho'; cases ho'
    | ok o =>
      rw [hs] at ho'
      have ho'' : o.map f = o' := by simpa [Except.map] using ho'
      subst ho''
      obtain ⟨hw, hsafe⟩ := safe _ o hr (by simpa only [htot] using hs)
      have hinv' := h3 c (by rw [Outcome.map]; exact fun e => hw ((inWindow_map _ _).1 e))
      simp only [Outcome.map, ← List.map_take] at hinv'
      rw [← reopen_map, applyAll_map] at hinv'
      have hk2 : KeepsExtending (l.map Prod.fst) := by
        refine ⟨fun i hi => hk.1 i (by simp only [List.map_cons, List.mem_cons]; exact .inr hi), ?_⟩
        have := hk.2
        simp only [List.map_cons, List.pairwise_cons] at this
        exact this.2
      have hk3 : I + inc.toNat ≠ 0 → ∀ e ∈ l, e.1 ≠ 0 := by
        intro hne e he
        by_cases hI0 : I = 0
        · have := hk.2
          simp only [List.map_cons, List.pairwise_cons] at this
          exact this.1 e.1 (List.mem_map.2 ⟨e, he, rfl⟩) (by omega)
        · exact hk' hI0 e (List.mem_cons_of_mem _ he)
      obtain ⟨md', d', g1, g2, g3⟩ := ih { md with incIters := md.incIters + inc } (I + inc.toNat)
        (by simp only [hI]; omega) _ hk2 hk3 hsafe hinv'
      have hsum : 0 ≤ (l.map Prod.fst).sum := List.sum_nonneg hk2.1
      refine ⟨md', d', ?_, ?_, ?_⟩
      · simp only [resumeKills, hr, htot, hs, g1]
      · rw [g2]; simp [Int.add_assoc]
      · have : I + inc.toNat + (l.map Prod.fst).sum.toNat = I + (inc + (l.map Prod.fst).sum).toNat := by omega
        simp only [List.map_cons, List.sum_cons]
        rwa [← this]

/-- **C39.** Start a benchmark with `N` iterations and resume it any number of times, killed anywhere (outside the two JSON
windows), interrupted or complete, adding iterations as often as wanted, as long as every resume after the first addition
adds some. Then the last call runs `N` plus everything added, completes exactly when a fresh benchmark with that many
iterations does, and its saved result is the fresh benchmark's, up to whatever the number of iterations influences: `f` is
any part of the state whose evolution does not depend on the configured number of iterations (everything except the
histories, which get a forced entry at each configured end). -/
theorem C39_extension_equivalent {t : Trial S} {u : Trial T} {f : S → T} (v : View t u f)
    (hu : ∀ n n' k s, u.body n k s = u.body n' k s) (m : Manager) (hkeep : 0 < m.keep) (hm : ∀ k s, u.metric k s = s)
    (n : Int) (N : Nat) (hN : 0 < N) (l : List (Int × Nat)) (last : Int)
    (hk : KeepsExtending (l.map Prod.fst ++ [last])) (safe : SafeKills m t N l (Meta.fresh n, Dir.empty)) :
    ∃ md d r o, resumeKills m t N l (Meta.fresh n, Dir.empty) = .ok (md, d) ∧ resume md N last 0 = .ok r ∧
      r.2.iterations = N + ((l.map Prod.fst).sum + last) ∧
      session m t r.2.iterations.toNat (reopen r.2 d) = .ok o ∧
      o.done = !(straight t r.2.iterations.toNat r.2.iterations.toNat).2 ∧
      (o.done = true → (applyAll o.ops (reopen r.2 d)).result.map f =
        .ok (f (straight t r.2.iterations.toNat r.2.iterations.toNat).1)) := by
  have hst : ∀ tot k, straight u tot k = (f (straight t tot k).1, (straight t tot k).2) := by
    intro tot k
    induction k with
    | zero => rw [straight, straight, ← v.fresh, v.setup]
    | succ k ih =>
      rw [straight, straight, ih]
      by_cases hb : (straight t tot k).2 = true
      · simp [hb]
      · simp [hb, v.body]
  have hkl : KeepsExtending (l.map Prod.fst) :=
    ⟨fun i hi => hk.1 i (by simp only [List.mem_append]; exact .inl hi), (List.pairwise_append.1 hk.2).1⟩
  have hlast : 0 ≤ last := hk.1 last (by simp)
  obtain ⟨md, d, h1, h2, h3⟩ := kills_inv v hu m hkeep hm N hN l (Meta.fresh n) 0 rfl Dir.empty hkl (by simp) safe
    (.inl ⟨0, by have := inv_empty m u (N + 0); exact this⟩)
  have hsum : 0 ≤ (l.map Prod.fst).sum := List.sum_nonneg hkl.1
  have hinc : md.incIters = ((0 + (l.map Prod.fst).sum.toNat : Nat) : Int) := by rw [h2]; simp [Meta.fresh]; omega
  obtain ⟨p, hr, hp, hinv⟩ := resume_inv hu m N md _ hinc last hlast (by
    intro hne
    -- some earlier increase was positive
    have : ∃ e ∈ l, e.1 ≠ 0 := by
      by_contra hno
      push Not at hno
      have : (l.map Prod.fst).sum = 0 := List.sum_eq_zero (by simpa using hno)
      rw [this] at hne; simp at hne
    obtain ⟨e, he, hne⟩ := this
    exact (List.pairwise_append.1 hk.2).2.2 e.1 (List.mem_map.2 ⟨e, he, rfl⟩) last (by simp) hne) _ h3
  have htot : p.iterations.toNat = N + (0 + (l.map Prod.fst).sum.toNat + last.toNat) := by rw [hp, hinc]; omega
  obtain ⟨o', ho', e1, _, _, e6⟩ := session_inv hkeep hm (by omega) hinv
  rw [← reopen_map, session_map v] at ho'
  cases hs : session m t (N + (0 + (l.map Prod.fst).sum.toNat + last.toNat)) (reopen p d) with
  | error e => rw [hs] at ho'; cases ho'
  | ok o =>
    rw [hs] at ho'
    have ho'' : o.map f = o' := by simpa [Except.map] using ho'
    subst ho''
    refine ⟨md, d, _, o, h1, hr, ?_, by rw [htot]; exact hs, ?_, ?_⟩
    · rw [hp, h2]; simp [Meta.fresh]
    · rw [htot]
      have : (o.map f).done = o.done := rfl
      rw [← this, e1, hst]
    · intro hd
      obtain ⟨hc, hi⟩ := e6 hd
      simp only [Outcome.map] at hc hi
      rw [← reopen_map, applyAll_map] at hc hi
      rw [← result_map, htot]
      rcases hi with ⟨q, hq⟩ | ⟨_, hq⟩
      · rw [hq.open_] at hc; simp at hc
      · have hpos := (hq.pos (by omega)).2.1
        rw [hst] at hpos
        simp only [Dir.result, hc, Dir.read]
        simp only at hpos
        rw [hpos]

-- a trial whose state has a history that depends on the number of iterations, and a part that does not
example : ∃ (t : Trial (Nat × List Nat)) (u : Trial Nat), View t u Prod.fst ∧ (∀ n n' k s, u.body n k s = u.body n' k s) ∧
    t.body 5 4 (4, []) = ((5, [5]), false) ∧ t.body 9 4 (4, []) = ((5, []), false) := by
  refine ⟨⟨(0, []), fun s => (s, false), fun n k s => ((s.1 + 1, if k + 1 = n then s.2 ++ [k + 1] else s.2), false),
    fun _ s => s, fun s => s⟩, ⟨0, fun s => (s, false), fun _ _ s => (s + 1, false), fun _ s => s, fun s => s⟩, ?_, ?_, ?_, ?_⟩
  · constructor <;> intros <;> rfl
  · intros; rfl
  · rfl
  · rfl
example : KeepsExtending [0, 0, 3, 2] := by unfold KeepsExtending; decide

variable {R : Type}

/-! ## C42 -/

theorem sorted_results (L : List Nat) (hL : L.Pairwise (· < ·)) (r : Nat → R) (finished : List (Nat × R))
    (hp : finished.Perm (L.map (fun t => (t, r t)))) :
    (pySorted (fun a b => decide (a.1 ≤ b.1)) finished).map Prod.snd = L.map r := by
  have h1 : (pySorted (fun a b : Nat × R => decide (a.1 ≤ b.1)) finished).Perm (L.map (fun t => (t, r t))) :=
    (pySorted_perm _ _).trans hp
  have h2 := pySorted_pairwise (le := fun a b : Nat × R => decide (a.1 ≤ b.1)) (by simp; omega) (by simp; omega) finished
  have h3 : (L.map (fun t => (t, r t))).Pairwise (fun a b : Nat × R => decide (a.1 ≤ b.1) = true) := by
    rw [List.pairwise_map]
    exact hL.imp (by intro a b h; simp; omega)
  have h4 : pySorted (fun a b : Nat × R => decide (a.1 ≤ b.1)) finished = L.map (fun t => (t, r t)) := by
    refine List.Perm.eq_of_pairwise ?_ h2 h3 h1
    intro a b ha hb hab hba
    obtain ⟨i, _, rfl⟩ := List.mem_map.1 (h1.mem_iff.1 ha)
    obtain ⟨j, _, rfl⟩ := List.mem_map.1 hb
    simp at hab hba
    have : i = j := by omega
    subst this; rfl
  rw [h4, List.map_map]
  rfl

theorem range_filter_lt (n : Nat) (p : Nat → Bool) : ((List.range n).filter p).Pairwise (· < ·) :=
  List.pairwise_lt_range.filter _

/-- **C42.** The results of an algorithm are first those of the trials that were complete, then those run now, each group in
trial order — whatever the order in which the worker processes finished. -/
theorem C42_resume_order (n : Nat) (isDone : Nat → Bool) (r : Nat → R) (finished : List (Nat × R))
    (hf : finished.Perm ((toRun n isDone).map (fun t => (t, r t)))) :
    results n isDone r finished =
      ((List.range n).filter isDone).map r ++ ((List.range n).filter (fun t => !isDone t)).map r := by
  unfold results
  rw [sorted_results _ (range_filter_lt n _) r finished hf]

/-- **C42.** Every trial's result is there exactly once. -/
theorem C42_each_once (n : Nat) (isDone : Nat → Bool) (r : Nat → R) (finished : List (Nat × R))
    (hf : finished.Perm ((toRun n isDone).map (fun t => (t, r t)))) :
    (results n isDone r finished).Perm ((List.range n).map r) := by
  rw [C42_resume_order n isDone r finished hf, ← List.map_append]
  exact List.Perm.map _ (List.filter_append_perm isDone (List.range n))

/-- **C42.** In an uninterrupted benchmark, position `t` holds trial `t`. -/
theorem C42_fresh_order (n : Nat) (r : Nat → R) (finished : List (Nat × R))
    (hf : finished.Perm ((List.range n).map (fun t => (t, r t)))) :
    results n (fun _ => false) r finished = (List.range n).map r := by
  rw [C42_resume_order n _ r finished (by simpa [toRun] using hf)]
  simp

/-- **C42** (exact condition, refuting position = trial). When trials have different results, position `t` holds trial `t`
for every `t` if and only if the completed trials were an initial segment. -/
theorem C42_position_iff (n : Nat) (isDone : Nat → Bool) (r : Nat → R) (hr : ∀ i j, i < n → j < n → r i = r j → i = j)
    (finished : List (Nat × R)) (hf : finished.Perm ((toRun n isDone).map (fun t => (t, r t)))) :
    results n isDone r finished = (List.range n).map r ↔
      ∀ i j, i < j → j < n → isDone j = true → isDone i = true := by
  rw [C42_resume_order n isDone r finished hf, ← List.map_append]
  have hinj : ((List.range n).filter isDone ++ (List.range n).filter (fun t => !isDone t)).map r = (List.range n).map r ↔
      (List.range n).filter isDone ++ (List.range n).filter (fun t => !isDone t) = List.range n := by
    constructor
    · intro h
      have hl : ∀ x ∈ (List.range n).filter isDone ++ (List.range n).filter (fun t => !isDone t), x < n := by
        intro x hx
        rcases List.mem_append.1 hx with hx | hx <;> simpa using (List.mem_filter.1 hx).1
      refine List.ext_getElem (by simpa using congrArg List.length h) ?_
      intro i h1 h2
      have h3 := List.getElem_of_eq h (i := i) (by simpa using h1)
      simp only [List.getElem_map] at h3
      exact hr _ _ (hl _ (List.getElem_mem _)) (by simp at h2 ⊢; exact h2) h3
    · intro h; rw [h]
  rw [hinj]
  constructor
  · intro h i j hij hj hd
    by_contra hi
    have hs : (List.range n).Pairwise (· < ·) := List.pairwise_lt_range
    rw [← h] at hs
    have := (List.pairwise_append.1 hs).2.2 j (by simp [hj, hd]) i (by simp; exact ⟨by omega, by simpa using hi⟩)
    omega
  · intro h
    refine List.Perm.eq_of_pairwise (le := (· < ·)) (fun a b _ _ h1 h2 => by omega) ?_ List.pairwise_lt_range
      (List.filter_append_perm isDone (List.range n))
    rw [List.pairwise_append]
    refine ⟨range_filter_lt n _, range_filter_lt n _, ?_⟩
    intro a ha b hb
    simp only [List.mem_filter, List.mem_range] at ha hb
    by_contra hab
    have hne : a ≠ b := by rintro rfl; simp [ha.2] at hb
    have := h b a (by omega) ha.1 ha.2
    simp [this] at hb

-- trials 0 and 2 of 3 complete: the result list is trial 0, trial 2, trial 1
example : results 3 (fun t => t = 0 ∨ t = 2) (fun t => 10 * t) [(1, 10)] = [0, 20, 10] := by decide +kernel

/-- **C39/C42.** Loading a saved benchmark returns, for every listed algorithm, exactly the originally configured number of
results, in trial order: trials added on resume are never returned. -/
theorem C39_extra_trials_not_loaded (n : Nat) (isDone : Nat → Nat → Bool) (load : Nat → Nat → Py (String × R))
    (r : Nat → Nat → R) (nm : Nat → String)
    (hl : ∀ i t, t < n → load i t = .ok (nm i, r i t)) (algs : List (Nat × String)) :
    loadAll n isDone load algs = .ok ((algs.filter (fun a => decide (0 < n) && decide (nm a.1 = a.2) &&
        decide (∀ t < n, isDone a.1 t = true))).map (fun a => (a.2, (List.range n).map (r a.1)))) := by
  have htr : ∀ i (L : List Nat), (∀ t ∈ L, t < n) → L ≠ [] → ∀ name,
      loadTrials name (load i) L = .ok (if nm i = name then some (L.map (r i)) else none) := by
    intro i L
    induction L with
    | nil => intro _ h; exact absurd rfl h
    | cons t L ih =>
      intro hL _ name
      simp only [loadTrials, hl i t (hL t (by simp))]
      by_cases hn : nm i = name
      · simp only [hn, ne_eq, not_true, if_false, if_true]
        cases L with
        | nil => simp [loadTrials]
        | cons t' L' =>
          rw [ih (fun x hx => hL x (List.mem_cons_of_mem _ hx)) (by simp) name]
          simp [hn]
      · simp [hn]
  induction algs with
  | nil => rfl
  | cons a algs ih =>
    obtain ⟨i, name⟩ := a
    have hcount : ((List.range n).filter (isDone i)).length = n ↔ ∀ t < n, isDone i t = true := by
      constructor
      · intro h t ht
        have := (List.filter_sublist (l := List.range n) (p := isDone i)).eq_of_length (by simpa using h)
        have hm : t ∈ (List.range n).filter (isDone i) := by rw [this]; simpa using ht
        exact (List.mem_filter.1 hm).2
      · intro h
        rw [List.filter_eq_self.2 (by intro t ht; exact h t (by simpa using ht))]
        simp
    unfold loadAll
    simp only
    by_cases hd : ∀ t < n, isDone i t = true
    · have hfil : (List.range n).filter (isDone i) = List.range n :=
        List.filter_eq_self.2 (by intro t ht; exact hd t (by simpa using ht))
      rw [if_neg (by simp [hfil]), hfil]
      rcases Nat.eq_zero_or_pos n with hn | hn
      · subst hn
        simp [loadTrials, ih]
      · rw [htr i (List.range n) (by simp) (by simp; omega), ih]
        by_cases hnm : nm i = name
        · simp only [hnm, if_true, List.filter_cons, hn, hd]
          have hd2 : decide (∀ t < n, isDone i t = true) = true := decide_eq_true hd
          simp only [hd2, hn, decide_true, Bool.and_self, if_true, List.map_cons]
          cases hr : (List.range n).map (r i) with
          | nil => simp at hr; omega
          | cons x xs => rfl
        · simp [hnm, List.filter_cons]
    · rw [if_pos (fun e => hd (hcount.1 e)), ih]
      have hd' : decide (∀ t < n, isDone i t = true) = false := by simpa using hd
      rw [List.filter_cons]
      simp only [hd', Bool.and_false, Bool.false_eq_true, if_false]

-- two trials configured, a third one added on resume and complete: two results are loaded
example : loadAll 2 (fun _ t => t < 3) (fun _ t => .ok ("A", t)) [(0, "A")] = .ok [("A", [0, 1])] := by rfl

/-! ## C43 -/

variable {A V : Type} [DecidableEq A]

theorem findAgent_hash (hash : A → Int) (nodes : List A) (hinj : ∀ a ∈ nodes, ∀ b ∈ nodes, hash a = hash b → a = b)
    (a : A) (ha : a ∈ nodes) : findAgent hash nodes (hash a) = some a := by
  unfold findAgent
  cases hf : nodes.reverse.find? (fun b => decide (hash b = hash a)) with
  | none =>
    have := List.find?_eq_none.1 hf a (by simpa using ha)
    simp at this
  | some b =>
    have h1 := List.find?_some hf
    have h2 := List.mem_of_find?_eq_some hf
    simp only [decide_eq_true_eq] at h1
    simp only [List.mem_reverse] at h2
    rw [hinj b h2 a ha h1]

theorem setL_fresh {K W : Type} [DecidableEq K] (k : K) (w : W) (l : List (K × W)) (h : k ∉ l.map Prod.fst) :
    PyDict.setL k w l = l ++ [(k, w)] := by
  induction l with
  | nil => rfl
  | cons e t ih =>
    simp only [List.map_cons, List.mem_cons, not_or] at h
    rw [PyDict.setL, if_neg h.1, ih h.2]
    rfl

theorem encode_entries (hash : A → Int) (l : List (A × V)) (acc : List (Int × V))
    (hn : (acc.map Prod.fst ++ l.map (fun e => hash e.1)).Nodup) :
    (l.foldl (fun c e => c.set (hash e.1) e.2) (⟨acc⟩ : PyDict Int V)).entries = acc ++ l.map (fun e => (hash e.1, e.2)) := by
  induction l generalizing acc with
  | nil => simp
  | cons e l ih =>
    have hfresh : hash e.1 ∉ acc.map Prod.fst := by
      intro hm
      have := (List.nodup_append.1 hn).2.2 _ hm (hash e.1) (by simp)
      exact this rfl
    rw [List.foldl_cons]
    have : (⟨acc⟩ : PyDict Int V).set (hash e.1) e.2 = ⟨acc ++ [(hash e.1, e.2)]⟩ := by
      simp only [PyDict.set, setL_fresh _ _ _ hfresh]
    rw [this, ih]
    · simp
    · simpa using hn

theorem decode_entries (hash : A → Int) (find : Int → Option A) (l : List (A × V)) (hfind : ∀ e ∈ l, find (hash e.1) = some e.1)
    (acc : List (A × V)) (hn : (acc.map Prod.fst ++ l.map Prod.fst).Nodup) :
    decode find (l.map (fun e => (hash e.1, e.2))) (⟨acc⟩ : PyDict A V) = .ok ⟨acc ++ l⟩ := by
  induction l generalizing acc with
  | nil => simp [decode]
  | cons e l ih =>
    have hfresh : e.1 ∉ acc.map Prod.fst := by
      intro hm
      have := (List.nodup_append.1 hn).2.2 _ hm e.1 (by simp)
      exact this rfl
    simp only [List.map_cons, decode, hfind e (by simp)]
    have : (⟨acc⟩ : PyDict A V).set e.1 e.2 = ⟨acc ++ [e]⟩ := by
      simp only [PyDict.set, setL_fresh _ _ _ hfresh]
    rw [this, ih (fun x hx => hfind x (List.mem_cons_of_mem _ hx))]
    · simp
    · simpa using hn

/-- **C43.** Compacting the attributes of an algorithm and restoring them against a network gives back exactly the same
attributes (same keys, values and insertion order), provided the network's agents have different hashes and contain all the
keys. -/
theorem C43_round_trip (hash : A → Int) (nodes : List A) (hinj : ∀ a ∈ nodes, ∀ b ∈ nodes, hash a = hash b → a = b)
    (alg : AlgAttrs A V) (hwf : ∀ e ∈ alg, ∀ d, e.2 = .agents d → d.WF ∧ ∀ a ∈ d.keys, a ∈ nodes)
    (hplain : ∀ e ∈ alg, ∀ d, e.2 ≠ .compacted d) :
    restoreAll hash nodes (compactAll hash alg).1 = .ok alg := by
  simp only [compactAll]
  induction alg with
  | nil => rfl
  | cons e alg ih =>
    have ih' := ih (fun x hx => hwf x (List.mem_cons_of_mem _ hx)) (fun x hx => hplain x (List.mem_cons_of_mem _ hx))
    obtain ⟨nm, at_⟩ := e
    have hone : restore hash nodes (compact hash at_) = .ok at_ := by
      cases at_ with
      | other v => rfl
      | compacted d => exact absurd rfl (hplain (nm, .compacted d) (by simp) d)
      | agents d =>
        obtain ⟨hw, hk⟩ := hwf (nm, .agents d) (by simp) d rfl
        simp only [compact]
        split
        · rfl
        · have hnod : (d.entries.map (fun e => hash e.1)).Nodup := by
            have : d.entries.map (fun e => hash e.1) = d.keys.map hash := by simp [PyDict.keys]
            rw [this]
            exact List.Nodup.map_on (fun a ha b hb => hinj a (hk a ha) b (hk b hb)) hw
          simp only [restore]
          have e1 := encode_entries hash d.entries [] (by simpa using hnod)
          have : (PyDict.empty : PyDict Int V) = ⟨[]⟩ := rfl
          rw [this, e1, List.nil_append]
          have hwn : (d.entries.map Prod.fst).Nodup := hw
          have e2 := decode_entries hash (findAgent hash nodes) d.entries (by
            intro e he
            exact findAgent_hash hash nodes hinj e.1 (hk e.1 (List.mem_map.2 ⟨e, he, rfl⟩))) [] (by simpa using hwn)
          have : (PyDict.empty : PyDict A V) = ⟨[]⟩ := rfl
          rw [this, e2]
          rfl
    simp only [List.map_cons, restoreAll, hone, ih']

/-- **C43.** Restoring against a network in which some key's agent is missing raises a `ValueError`. -/
theorem C43_unknown_agent (hash : A → Int) (nodes : List A) (d : PyDict A V) (hw : d.WF)
    (hinj : ∀ a ∈ d.keys, ∀ b ∈ d.keys, hash a = hash b → a = b) (a : A) (ha : a ∈ d.keys)
    (hmiss : ∀ b ∈ nodes, hash b ≠ hash a) :
    restore hash nodes (compact hash (.agents d)) = .error .valueError := by
  have hne : d.entries ≠ [] := by
    intro h; simp [PyDict.keys, h] at ha
  have hnod : (d.entries.map (fun e => hash e.1)).Nodup := by
    have : d.entries.map (fun e => hash e.1) = d.keys.map hash := by simp [PyDict.keys]
    rw [this]
    exact List.Nodup.map_on hinj hw
  have e1 := encode_entries hash d.entries [] (by simpa using hnod)
  have he : (PyDict.empty : PyDict Int V) = ⟨[]⟩ := rfl
  simp only [compact, hne, if_false, restore]
  rw [he, e1, List.nil_append]
  have hfind : findAgent hash nodes (hash a) = none := by
    unfold findAgent
    rw [List.find?_eq_none]
    intro b hb
    simpa using hmiss b (by simpa using hb)
  have aux : ∀ (l : List (A × V)) (acc : PyDict A V), a ∈ l.map Prod.fst →
      decode (findAgent hash nodes) (l.map (fun e => (hash e.1, e.2))) acc = .error .valueError := by
    intro l
    induction l with
    | nil => intro _ h; simp at h
    | cons e l ih =>
      intro acc h
      simp only [List.map_cons, decode]
      cases hf : findAgent hash nodes (hash e.1) with
      | none => rfl
      | some b =>
        simp only
        refine ih _ ?_
        rcases List.mem_cons.1 h with h | h
        · rw [← h, hfind] at hf; cases hf
        · exact h
  rw [aux d.entries _ ha]

/-- **C43** (why distinct hashes are needed). Two agents with equal hashes: one of the two entries is silently lost. -/
theorem C43_hash_collision_refuted (hash : A → Int) (a b : A) (v w : V) (h : hash a = hash b) (nodes : List A) (c : A)
    (hc : findAgent hash nodes (hash a) = some c) :
    restore hash nodes (compact hash (.agents ⟨[(a, v), (b, w)]⟩)) = .ok (.agents ⟨[(c, w)]⟩) := by
  rw [h] at hc
  simp [compact, restore, PyDict.set, PyDict.setL, PyDict.empty, h, decode, hc]

theorem putBack_keep (n : String) (v : Attr A V) (orig : List (String × Attr A V)) (h : ∀ o ∈ orig, o.1 = n → o.2 = v)
    (x : Attr A V) (hx : x = v ∨ ∃ o ∈ orig, o.1 = n) :
    orig.foldl (fun (y : Attr A V) (o : String × Attr A V) => if n = o.1 then o.2 else y) x = v := by
  induction orig generalizing x with
  | nil =>
    rcases hx with h | ⟨o, ho, _⟩
    · exact h
    · simp at ho
  | cons o orig ih =>
    rw [List.foldl_cons]
    refine ih (fun o ho => h o (List.mem_cons_of_mem _ ho)) _ ?_
    by_cases hn : n = o.1
    · left; rw [if_pos hn]; exact h o (by simp) hn.symm
    · rw [if_neg hn]
      rcases hx with hx | ⟨o', ho', e⟩
      · exact .inl hx
      · rcases List.mem_cons.1 ho' with e' | e'
        · subst e'; exact absurd e.symm hn
        · exact .inr ⟨o', e', e⟩

theorem putBack_map (orig : List (String × Attr A V)) (alg : AlgAttrs A V) :
    putBack orig alg = alg.map (fun e =>
      (e.1, orig.foldl (fun (y : Attr A V) (o : String × Attr A V) => if e.1 = o.1 then o.2 else y) e.2)) := by
  unfold putBack
  induction orig generalizing alg with
  | nil => simp
  | cons o orig ih =>
    rw [List.foldl_cons, ih, List.map_map]
    refine List.map_congr_left ?_
    intro e _
    simp only [Function.comp_def, List.foldl_cons]
    by_cases h : e.1 = o.1 <;> simp [h]

/-- **C43.** Saving the initial algorithms leaves the caller's algorithm object as it was, also when saving raises. -/
theorem C43_save_leaves_unchanged (hash : A → Int) (save : AlgAttrs A V → Py Unit) (alg : AlgAttrs A V)
    (hn : (alg.map Prod.fst).Nodup) : (saveInitial hash save alg).1 = alg := by
  simp only [saveInitial, putBack_map, compactAll, List.map_map]
  conv_rhs => rw [← List.map_id alg]
  refine List.map_congr_left ?_
  intro e he
  simp only [Function.comp_def, id]
  have huniq : ∀ o ∈ alg, o.1 = e.1 → o.2 = e.2 := by
    intro o ho hoe
    have := PyDict.lookupL_of_mem hn (k := e.1) (v := e.2) he
    have h2 := PyDict.lookupL_of_mem hn (k := o.1) (v := o.2) ho
    rw [hoe, this] at h2
    exact (Option.some.inj h2).symm
  refine Prod.ext rfl ?_
  simp only
  refine putBack_keep e.1 e.2 _ (fun o ho => huniq o (List.mem_of_mem_filter ho)) _ ?_
  obtain ⟨nm, at_⟩ := e
  cases at_ with
  | other v => exact .inl rfl
  | compacted d => exact .inl rfl
  | agents d =>
    by_cases hd : d.entries = []
    · left; simp [compact, hd]
    · right
      exact ⟨(nm, .agents d), by simp [List.mem_filter, he, hd], rfl⟩

example : restoreAll (fun a : Nat => (a : Int) + 7) [0, 1, 2]
    (compactAll (fun a : Nat => (a : Int) + 7) [("buf", .agents ⟨[(2, "x"), (0, "y")]⟩), ("rho", .other "1")]).1 =
    .ok [("buf", .agents ⟨[(2, "x"), (0, "y")]⟩), ("rho", .other "1")] := by rfl

end Verif.Props
