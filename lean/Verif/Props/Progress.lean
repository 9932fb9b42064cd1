import Verif.Model.Progress
import Mathlib.Tactic.Linarith
import Mathlib.Tactic.Ring
import Mathlib.Data.List.Basic
import Mathlib.Algebra.BigOperators.Group.List.Basic
/-!
# C62 Progress bars
-/
set_option linter.unusedSectionVars false
namespace Verif.Props
open Verif Verif.Progress

variable {B : Type} [DecidableEq B]

/-- sum of the increments addressed to a bar -/
def units (b : B) (q : List (Rec B)) : Nat := (q.map fun r => if r.bar = b then r.inc else 0).sum

@[simp] theorem units_nil (b : B) : units b [] = 0 := rfl
@[simp] theorem units_cons (b : B) (r : Rec B) (q : List (Rec B)) : units b (r :: q) = (if r.bar = b then r.inc else 0) + units b q := by
  simp [units]
@[simp] theorem units_append (b : B) (q q' : List (Rec B)) : units b (q ++ q') = units b q + units b q' := by simp [units]

theorem units_perm (b : B) {q q' : List (Rec B)} (h : q.Perm q') : units b q = units b q' := (h.map _).sum_eq

/-- where the bar stands after `k` of `N` iterations -/
def mark (step : Option Nat) (N k : Nat) : Nat :=
  if k = N then stepsPerTrial step N else match step with
    | none => 0
    | some s => k / s

theorem advances_none (N : Nat) (k : Int) : advances none N k = true ↔ ¬ k + 1 < N := by simp [advances]
theorem advances_some (s N : Nat) (k : Int) : advances (some s) N k = true ↔ ((k + 1) % (s : Int) = 0 ∨ ¬ k + 1 < N) := by
  simp only [advances, Bool.not_eq_true', Bool.and_eq_false_iff, decide_eq_false_iff_not, not_not]

theorem mark_succ (step : Option Nat) (hs : step ≠ some 0) (N k : Nat) (hk : k < N) :
    mark step N (k + 1) = mark step N k + if advances step N k then 1 else 0 := by
  unfold mark
  rw [if_neg (by omega : ¬ k = N)]
  cases step with
  | none =>
    by_cases h : k + 1 = N
    · rw [if_pos h, if_pos (by rw [advances_none]; omega)]; rfl
    · rw [if_neg h, if_neg (by rw [advances_none]; omega)]
  | some s =>
    have hs' : 0 < s := by
      rcases Nat.eq_zero_or_pos s with h | h
      · exact absurd (by rw [h]) hs
      · exact h
    have hd : ((k : Int) + 1) % (s : Int) = 0 ↔ s ∣ k + 1 := by
      rw [← Int.dvd_iff_emod_eq_zero]
      exact_mod_cast Int.natCast_dvd_natCast (m := s) (n := k + 1)
    by_cases h : k + 1 = N
    · rw [if_pos h, if_pos (by rw [advances_some]; right; omega)]
      have : (N + (s - 1)) / s = k / s + 1 := by
        rw [← Nat.add_div_right _ hs']; congr 1; omega
      simp only [stepsPerTrial]
      rw [this]; exact max_eq_right (Nat.le_add_left _ _)
    · rw [if_neg h]
      show (k + 1) / s = k / s + _
      rw [Nat.succ_div]
      congr 1
      by_cases hdv : s ∣ k + 1
      · rw [if_pos hdv, if_pos (by rw [advances_some]; left; exact hd.2 hdv)]
      · rw [if_neg hdv, if_neg]
        rw [advances_some, hd]
        push Not
        exact ⟨hdv, by omega⟩

theorem loop_units (step : Option Nat) (hs : step ≠ some 0) (N : Nat) (bar : B) (n k : Nat) (hk : k + n = N) (q : List (Rec B)) :
    ∃ q', (ops step N bar fun _ => false).loop N n k q = .ok q' ∧ units bar q' + mark step N k = units bar q + mark step N N ∧
      ∀ b, b ≠ bar → units b q' = units b q := by
  induction n generalizing k q with
  | zero => exact ⟨q, rfl, by rw [← hk]; simp, fun _ _ => rfl⟩
  | succ n ih =>
    obtain ⟨q', h1, h2, h3⟩ := ih (k + 1) (by omega) (advance step N bar k q)
    refine ⟨q', ?_, ?_, ?_⟩
    · rw [RunOps.loop]
      show (ops step N bar fun _ => false).loop N n ((k : Int) + 1) (advance step N bar k q) = _
      rw [← h1]; push_cast; rfl
    · rw [mark_succ step hs N k (by omega)] at h2
      unfold advance at h2
      split at h2
      · simp at h2; omega
      · omega
    · intro b hb
      rw [h3 b hb]
      unfold advance
      split
      · simp [Ne.symm hb]
      · rfl

theorem runRecords_units (step : Option Nat) (hs : step ≠ some 0) (N : Nat) (bar : B) (trial start : Nat) (hst : start ≤ N) :
    units bar (runRecords step N bar trial start) + mark step N start = (startRec step bar trial start).inc + mark step N N ∧
      ∀ b, b ≠ bar → units b (runRecords step N bar trial start) = 0 := by
  obtain ⟨q', h1, h2, h3⟩ := loop_units step hs N bar (N - start) start (by omega) [startRec step bar trial start]
  have hbar : (startRec step bar trial start).bar = bar := by unfold startRec; split <;> rfl
  have hr : (ops step N bar fun _ => false).run N start [startRec step bar trial start] = .ok q' := by
    unfold RunOps.run
    rw [if_neg (by omega)]
    have : ((N : Int) - (start : Int)).toNat = N - start := by omega
    rw [this, ← h1]
    split <;> rfl
  unfold runRecords
  rw [hr]
  refine ⟨?_, ?_⟩
  · simp [hbar] at h2; exact h2
  · intro b hb; rw [h3 b hb]; simp [hbar, Ne.symm hb]

theorem startRec_inc (step : Option Nat) (N : Nat) (bar : B) (trial start : Nat) (h : start < N) :
    (startRec step bar trial start).inc = mark step N start := by
  unfold startRec mark
  rw [if_neg (by omega)]
  cases step <;> rfl

/-- a plan whose run has an iteration left -/
def Ready (N : Nat) : Plan → Prop
  | .loaded => True
  | .run start => start < N

theorem trialRecords_units (step : Option Nat) (hs : step ≠ some 0) (N : Nat) (bar : B) (trial : Nat) (p : Plan) (hp : Ready N p) :
    units bar (trialRecords step N bar trial p) = stepsPerTrial step N ∧ ∀ b, b ≠ bar → units b (trialRecords step N bar trial p) = 0 := by
  cases p with
  | loaded => exact ⟨by simp [trialRecords, completeRec], fun b hb => by simp [trialRecords, completeRec, Ne.symm hb]⟩
  | run start =>
    have hlt : start < N := hp
    obtain ⟨h1, h2⟩ := runRecords_units step hs N bar trial start (by omega)
    refine ⟨?_, h2⟩
    rw [startRec_inc step N bar trial start hlt] at h1
    have : mark step N N = stepsPerTrial step N := by simp [mark]
    show units bar (runRecords step N bar trial start) = _
    omega

theorem barRecords_units (step : Option Nat) (hs : step ≠ some 0) (N : Nat) (bar : B) (t : Nat) (ps : List Plan) (hp : ∀ p ∈ ps, Ready N p) :
    units bar (barRecords step N bar t ps) = total step ps.length N ∧ ∀ b, b ≠ bar → units b (barRecords step N bar t ps) = 0 := by
  induction ps generalizing t with
  | nil => simp [barRecords, total]
  | cons p ps ih =>
    obtain ⟨h1, h2⟩ := trialRecords_units step hs N bar t p (hp p (by simp))
    obtain ⟨h3, h4⟩ := ih (t + 1) (fun p hp' => hp p (by simp [hp']))
    refine ⟨?_, ?_⟩
    · simp only [barRecords, units_append, h1, h3, total, List.length_cons]; ring
    · intro b hb; simp [barRecords, h2 b hb, h4 b hb]

theorem all_units (step : Option Nat) (hs : step ≠ some 0) (N : B → Nat) (plans : B → List Plan) (bars : List B) (hn : bars.Nodup)
    (hp : ∀ b ∈ bars, ∀ p ∈ plans b, Ready (N b) p) (b : B) (hb : b ∈ bars) :
    units b (bars.flatMap fun c => barRecords step (N c) c 0 (plans c)) = total step (plans b).length (N b) := by
  have h0 : ∀ l : List B, (∀ c ∈ l, ∀ p ∈ plans c, Ready (N c) p) → b ∉ l → units b (l.flatMap fun c => barRecords step (N c) c 0 (plans c)) = 0 := by
    intro l
    induction l with
    | nil => intro _ _; rfl
    | cons c l ih =>
      intro hp hb
      simp only [List.flatMap_cons, units_append]
      rw [(barRecords_units step hs (N c) c 0 (plans c) (hp c (by simp))).2 b (by simp at hb; exact hb.1),
        ih (fun d hd => hp d (by simp [hd])) (by simp at hb; exact hb.2)]
  induction bars with
  | nil => simp at hb
  | cons c l ih =>
    simp only [List.flatMap_cons, units_append]
    rw [List.nodup_cons] at hn
    by_cases h : b = c
    · subst h
      rw [(barRecords_units step hs (N b) b 0 (plans b) (hp b (by simp))).1, h0 l (fun d hd => hp d (by simp [hd])) hn.1]; rfl
    · rw [(barRecords_units step hs (N c) c 0 (plans c) (hp c (by simp))).2 b h,
        ih hn.2 (fun d hd => hp d (by simp [hd])) (by simpa [h] using hb)]; omega

/-! ### the listener -/

theorem foldl_done (height : Nat) (q : List (Rec B)) (s : State B) (h0 : ∀ b, b ∉ s.started → s.done b = 0) (b : B) :
    (q.foldl (fun s r => handle height r s) s).done b = s.done b + units b q := by
  induction q generalizing s with
  | nil => simp
  | cons r q ih =>
    have hd : ∀ c, (handle height r s).done c = s.done c + if r.bar = c then r.inc else 0 := by
      intro c
      unfold handle begin
      by_cases hm : r.bar ∈ s.started
      · simp only [if_pos hm]
        by_cases hc : c = r.bar
        · simp [hc]
        · simp [hc, Ne.symm hc]
      · simp only [if_neg hm]
        by_cases hc : c = r.bar
        · subst hc; simp [h0 _ hm]
        · simp [hc, Ne.symm hc]
    rw [List.foldl_cons, ih, hd, units_cons]; omega
    intro c hc
    rw [hd]
    unfold handle begin at hc
    by_cases hm : r.bar ∈ s.started
    · simp only [if_pos hm] at hc
      rw [h0 c hc, if_neg (by rintro rfl; exact hc hm)]
    · simp only [if_neg hm, List.mem_cons, not_or] at hc
      rw [h0 c hc.2, if_neg (Ne.symm hc.1)]

theorem listen_prefix (height : Nat) (bars : List B) (tot : B → Nat) (q : List (Rec B)) (s : State B) :
    ∃ q1 q2, q = q1 ++ q2 ∧ listen height bars tot q s = q1.foldl (fun s r => handle height r s) s ∧
      (q2 = [] ∨ finished bars tot (listen height bars tot q s) = true) := by
  induction q generalizing s with
  | nil => exact ⟨[], [], rfl, rfl, Or.inl rfl⟩
  | cons r q ih =>
    by_cases h : finished bars tot s = true
    · refine ⟨[], r :: q, rfl, ?_, Or.inr ?_⟩ <;> simp [listen, h]
    · obtain ⟨q1, q2, e1, e2, e3⟩ := ih (handle height r s)
      refine ⟨r :: q1, q2, by rw [e1]; rfl, ?_, ?_⟩
      · simp only [listen, if_neg h, List.foldl_cons, e2]
      · simpa only [listen, if_neg h] using e3

theorem listen_done (height : Nat) (bars : List B) (tot : B → Nat) (q : List (Rec B)) (b : B) :
    ∃ q1 q2, q = q1 ++ q2 ∧ (listen height bars tot q State.fresh).done b = units b q1 ∧
      (q2 = [] ∨ finished bars tot (listen height bars tot q State.fresh) = true) := by
  obtain ⟨q1, q2, e1, e2, e3⟩ := listen_prefix height bars tot q State.fresh
  refine ⟨q1, q2, e1, ?_, e3⟩
  rw [e2, foldl_done height q1 State.fresh (fun _ _ => rfl) b]
  simp [State.fresh]

/-- **C62.** Every algorithm's bar ends at exactly its total: for every set of algorithms, every mixture of trials loaded as complete, resumed
from a checkpoint with an iteration left and run from the start, and every order in which the records of the concurrent trials arrive.  It
never shows more than its total on the way. -/
theorem C62_reaches_total (height : Nat) (step : Option Nat) (hs : step ≠ some 0) (N : B → Nat) (plans : B → List Plan) (bars : List B)
    (hn : bars.Nodup) (hp : ∀ b ∈ bars, ∀ p ∈ plans b, Ready (N b) p) (q : List (Rec B))
    (hq : q.Perm (bars.flatMap fun c => barRecords step (N c) c 0 (plans c))) (b : B) (hb : b ∈ bars) :
    (listen height bars (fun c => total step (plans c).length (N c)) q State.fresh).done b = total step (plans b).length (N b) ∧
    ∀ q1 q2, q = q1 ++ q2 →
      (listen height bars (fun c => total step (plans c).length (N c)) q1 State.fresh).done b ≤ total step (plans b).length (N b) := by
  have ht : units b q = total step (plans b).length (N b) := by rw [units_perm b hq, all_units step hs N plans bars hn hp b hb]
  constructor
  · obtain ⟨q1, q2, e1, e2, e3⟩ := listen_done height bars (fun c => total step (plans c).length (N c)) q b
    rcases e3 with e | e
    · rw [e2, ← ht, e1, e]; simp
    · have : total step (plans b).length (N b) ≤ _ := of_decide_eq_true (List.all_eq_true.1 e b hb)
      rw [e1, units_append] at ht
      omega
  · intro q1 q2 e
    obtain ⟨q3, q4, e1, e2, _⟩ := listen_done height bars (fun c => total step (plans c).length (N c)) q1 b
    rw [e2, ← ht, e, e1]; simp [Nat.add_assoc]

/-- two algorithms, 5 iterations in steps of 2: one with a fresh and a loaded trial, the other resumed at 3 -/
example : (listen 1 [0, 1] (fun c => total (some 2) (if c = 0 then [Plan.run 0, .loaded] else [.run 3]).length 5)
    ([0, 1].flatMap fun c => barRecords (some 2) 5 c 0 (if c = 0 then [Plan.run 0, .loaded] else [.run 3])) State.fresh).done 0 = 6 := by
  have := (C62_reaches_total 1 (some 2) (by simp) (fun _ => 5) (fun c => if c = 0 then [Plan.run 0, .loaded] else [.run 3]) [0, 1] (by decide)
    (by intro b hb p hp; simp at hb; rcases hb with rfl | rfl <;> simp at hp
        · rcases hp with rfl | rfl
          · show 0 < 5; omega
          · trivial
        · subst hp; show 3 < 5; omega) _ (List.Perm.refl _) 0 (by simp)).1
  simpa [total, stepsPerTrial] using this

/-- **C62 (refuted: the bar completes whenever the benchmark does).** A trial resumed from a checkpoint of its last iteration (saved right
before the crash, before the trial was marked complete) has nothing left to run and puts fewer units than its share, unless the step
divides the number of iterations: the bar stays below its total forever, whatever else arrives. -/
theorem C62_falls_short (height : Nat) (step : Option Nat) (hs : step ≠ some 0) (N : B → Nat) (plans : B → List Plan) (bars : List B)
    (hn : bars.Nodup) (b : B) (hb : b ∈ bars) (hN : 0 < N b) (hdvd : ∀ s, step = some s → ¬ s ∣ N b)
    (hp : ∀ c ∈ bars, ∀ p ∈ plans c, Ready (N c) p ∨ p = .run (N c)) (hres : Plan.run (N b) ∈ plans b) (q : List (Rec B))
    (hq : q.Perm (bars.flatMap fun c => barRecords step (N c) c 0 (plans c))) :
    (listen height bars (fun c => total step (plans c).length (N c)) q State.fresh).done b < total step (plans b).length (N b) := by
  -- units of one trial
  have hone : ∀ (c : B) (t : Nat) (p : Plan), Ready (N c) p ∨ p = .run (N c) →
      (∀ d, d ≠ c → units d (trialRecords step (N c) c t p) = 0) ∧
      (c = b → units c (trialRecords step (N c) c t p) ≤ stepsPerTrial step (N c) ∧
        (p = .run (N b) → units c (trialRecords step (N c) c t p) < stepsPerTrial step (N c))) := by
    intro c t p h
    by_cases hrdy : Ready (N c) p
    · obtain ⟨h1, h2⟩ := trialRecords_units step hs (N c) c t p hrdy
      refine ⟨h2, fun e => ⟨by omega, fun e' => ?_⟩⟩
      subst e; subst e'; exact absurd (show N c < N c from hrdy) (by omega)
    · have e : p = .run (N c) := h.resolve_left hrdy
      subst e
      obtain ⟨h1, h2⟩ := runRecords_units step hs (N c) c t (N c) (le_refl _)
      refine ⟨h2, ?_⟩
      rintro rfl
      have hlt : units c (runRecords step (N c) c t (N c)) < stepsPerTrial step (N c) := by
        have : units c (runRecords step (N c) c t (N c)) = (startRec step c t (N c)).inc := by omega
        rw [this]
        cases step with
        | none => simp [startRec, stepsPerTrial]
        | some s =>
          have hs' : 0 < s := by
            rcases Nat.eq_zero_or_pos s with h | h
            · exact absurd (by rw [h]) hs
            · exact h
          have hnd := hdvd s rfl
          simp only [startRec, stepsPerTrial]
          apply lt_of_lt_of_le _ (le_max_right _ _)
          rw [Nat.div_lt_iff_lt_mul hs']
          have h1 := Nat.div_add_mod (N c) s
          have h2 : N c % s ≠ 0 := fun e => hnd (Nat.dvd_of_mod_eq_zero e)
          have h3 : N c / s + 1 ≤ (N c + (s - 1)) / s := by
            rw [Nat.le_div_iff_mul_le hs']
            have : (N c / s + 1) * s = s * (N c / s) + s := by ring
            omega
          have h4 := Nat.mod_lt (N c) hs'
          have h5 : (N c / s + 1) * s ≤ ((N c + (s - 1)) / s) * s := Nat.mul_le_mul_right _ h3
          have : (N c / s + 1) * s = s * (N c / s) + s := by ring
          omega
      exact ⟨le_of_lt hlt, fun _ => hlt⟩
  have hother : ∀ c, c ≠ b → ∀ (ps : List Plan) (t : Nat), (∀ p ∈ ps, Ready (N c) p ∨ p = .run (N c)) →
      units b (barRecords step (N c) c t ps) = 0 := by
    intro c hc ps
    induction ps with
    | nil => intro t _; rfl
    | cons p ps ih =>
      intro t h
      simp only [barRecords, units_append]
      rw [(hone c t p (h p (by simp))).1 b (Ne.symm hc), ih (t + 1) (fun p hp => h p (by simp [hp]))]
  have hmine : ∀ (ps : List Plan) (t : Nat), (∀ p ∈ ps, Ready (N b) p ∨ p = .run (N b)) →
      units b (barRecords step (N b) b t ps) ≤ total step ps.length (N b) ∧
      (Plan.run (N b) ∈ ps → units b (barRecords step (N b) b t ps) < total step ps.length (N b)) := by
    intro ps
    induction ps with
    | nil => intro t _; simp [barRecords, total]
    | cons p ps ih =>
      intro t h
      obtain ⟨i1, i2⟩ := ih (t + 1) (fun p hp => h p (by simp [hp]))
      obtain ⟨o1, o2⟩ := (hone b t p (h p (by simp))).2 rfl
      have e : total step (p :: ps).length (N b) = stepsPerTrial step (N b) + total step ps.length (N b) := by
        simp only [total, List.length_cons]; ring
      rw [e]
      simp only [barRecords, units_append]
      refine ⟨by omega, fun hm => ?_⟩
      rcases List.mem_cons.1 hm with e | hm
      · have := o2 e.symm; omega
      · have := i2 hm; omega
  have hall : ∀ l : List B, l.Nodup → (∀ c ∈ l, ∀ p ∈ plans c, Ready (N c) p ∨ p = .run (N c)) →
      units b (l.flatMap fun c => barRecords step (N c) c 0 (plans c)) = if b ∈ l then units b (barRecords step (N b) b 0 (plans b)) else 0 := by
    intro l
    induction l with
    | nil => intro _ _; simp
    | cons c l ih =>
      intro hn hp
      rw [List.nodup_cons] at hn
      simp only [List.flatMap_cons, units_append]
      rw [ih hn.2 (fun d hd => hp d (by simp [hd]))]
      by_cases h : c = b
      · subst h; simp [hn.1]
      · rw [hother c h _ 0 (hp c (by simp))]; simp [Ne.symm h]
  have ht : units b q < total step (plans b).length (N b) := by
    rw [units_perm b hq, hall bars hn hp, if_pos hb]
    exact (hmine (plans b) 0 (hp b hb)).2 hres
  obtain ⟨q1, q2, e1, e2, _⟩ := listen_done height bars (fun c => total step (plans c).length (N c)) q b
  rw [e2]
  rw [e1, units_append] at ht
  omega

/-- 5 iterations in steps of 2: resumed after the last iteration the bar stops at 2 of 3 -/
example : units 0 (trialRecords (some 2) 5 (0 : Nat) 0 (.run 5)) = 2 ∧ stepsPerTrial (some 2) 5 = 3 := by decide

/-- **C62.** At most `height` started bars are shown; they are the most recently started ones, oldest first. -/
theorem C62_visible (height : Nat) (bars : List B) (tot : B → Nat) (q : List (Rec B)) :
    let s := listen height bars tot q State.fresh
    s.order.length ≤ height ∧ s.order <:+ s.started.reverse ∧ (height ≤ s.started.length → s.order.length = height) ∧
    (s.started.length ≤ height → s.order = s.started.reverse) ∧ s.started.Nodup := by
  have hinv : ∀ (q : List (Rec B)) (s : State B), s.order = trim height s.started.reverse → s.started.Nodup →
      (listen height bars tot q s).order = trim height (listen height bars tot q s).started.reverse ∧
      (listen height bars tot q s).started.Nodup := by
    intro q
    induction q with
    | nil => intro s h1 h2; exact ⟨h1, h2⟩
    | cons r q ih =>
      intro s h1 h2
      simp only [listen]
      split
      · exact ⟨h1, h2⟩
      · apply ih
        · unfold handle begin
          by_cases hm : r.bar ∈ s.started
          · simp only [if_pos hm]; exact h1
          · simp only [if_neg hm, h1, List.reverse_cons]
            unfold trim
            rw [← List.drop_append_of_le_length (by simp), List.drop_drop]
            congr 1
            simp only [List.length_append, List.length_drop, List.length_reverse, List.length_singleton]
            omega
        · unfold handle begin
          by_cases hm : r.bar ∈ s.started
          · simp only [if_pos hm]; exact h2
          · simp only [if_neg hm]; exact List.nodup_cons.2 ⟨hm, h2⟩
  obtain ⟨h1, h2⟩ := hinv q State.fresh (by simp [State.fresh, trim]) (by simp [State.fresh])
  intro s
  change s.order = trim height s.started.reverse at h1
  change s.started.Nodup at h2
  rw [h1]
  unfold trim
  refine ⟨?_, List.drop_suffix _ _, ?_, ?_, h2⟩
  · simp only [List.length_drop, List.length_reverse]; omega
  · intro h; simp only [List.length_drop, List.length_reverse]; omega
  · intro h; simp only [List.length_reverse]; rw [Nat.sub_eq_zero_of_le h]; rfl

example : (listen 2 [0, 1, 2] (fun _ => 5) [⟨0, 1, none⟩, ⟨1, 1, none⟩, ⟨0, 1, none⟩, ⟨2, 1, none⟩] State.fresh).order = [1, 2] := by decide

end Verif.Props
