import Mathlib.Data.Nat.Periodic
import Mathlib.Algebra.BigOperators.Intervals
import Mathlib.MeasureTheory.Measure.Lebesgue.Basic
import Mathlib.Tactic.Linarith
import Mathlib.Tactic.Ring
import Verif.Model.Schemes
set_option linter.unusedSectionVars false
/-!
# C14, C15: activation and drop schemes
-/
namespace Verif.Props
open Verif.Schemes

/-! ## C14 -/

/-- The constructor accepts exactly non-negative durations and offset, with at least one positive duration; a missing
inactive duration is the active one. -/
theorem C14_ctor (a : Int) (i : Option Int) (o : Int) (s : Cyclic) :
    Cyclic.ctor a i o = .ok s ↔
      0 ≤ a ∧ 0 ≤ i.getD a ∧ 0 ≤ o ∧ 0 < a + i.getD a ∧ s = ⟨a, i.getD a, o⟩ := by
  unfold Cyclic.ctor
  simp only
  split_ifs with h1 h2 h3
  · simp; omega
  · simp; omega
  · simp; omega
  · simp only [Except.ok.injEq]
    constructor
    · rintro rfl; refine ⟨by omega, by omega, by omega, by omega, rfl⟩
    · rintro ⟨_, _, _, _, rfl⟩; rfl

example : Cyclic.ctor 2 (some 3) 1 = .ok ⟨2, 3, 1⟩ := by decide
example : Cyclic.ctor 2 none 0 = .ok ⟨2, 2, 0⟩ := by decide

/-- negative iterations raise -/
theorem C14_negative (s : Cyclic) (k : Int) (hk : k < 0) : s.isActive k = .error .valueError := by
  simp [Cyclic.isActive, hk]

/-- The pattern repeats with period `active_for + inactive_for`. -/
theorem C14_periodic (a : Int) (i : Option Int) (o : Int) (s : Cyclic) (_h : Cyclic.ctor a i o = .ok s)
    (k : Int) (hk : 0 ≤ k) (hp : 0 ≤ k + (s.activeFor + s.inactiveFor)) :
    s.isActive (k + (s.activeFor + s.inactiveFor)) = s.isActive k := by
  unfold Cyclic.isActive
  rw [if_neg (by omega), if_neg (by omega)]
  have : k + (s.activeFor + s.inactiveFor) + s.offset = (k + s.offset) + (s.activeFor + s.inactiveFor) := by ring
  rw [this]
  simp

/-- In every window of `active_for + inactive_for` consecutive iterations the agent is active in exactly `active_for`. -/
theorem C14_window (a : Int) (i : Option Int) (o : Int) (s : Cyclic) (h : Cyclic.ctor a i o = .ok s)
    (t : Nat) :
    (((Finset.range (a + i.getD a).toNat).filter
      (fun k : Nat => s.isActive ((t : Int) + (k : Int)) = .ok true)).card : Int) = a := by
  obtain ⟨ha, hi, ho, hp, rfl⟩ := (C14_ctor a i o s).1 h
  generalize i.getD a = b at *
  obtain ⟨a, rfl⟩ := Int.eq_ofNat_of_zero_le ha
  obtain ⟨b, rfl⟩ := Int.eq_ofNat_of_zero_le hi
  obtain ⟨o, rfl⟩ := Int.eq_ofNat_of_zero_le ho
  have hP : ((a : Int) + (b : Int)).toNat = a + b := by omega
  have hP0 : 0 < a + b := by omega
  rw [hP]
  have heq : ∀ k : Nat, (Cyclic.isActive ⟨(a : Int), (b : Int), (o : Int)⟩ ((t : Int) + (k : Int)) = .ok true) ↔
      ((t + k + o) % (a + b) < a) := by
    intro k
    unfold Cyclic.isActive
    rw [if_neg (by omega)]
    simp only [Except.ok.injEq, decide_eq_true_eq]
    have : ((t : Int) + (k : Int) + (o : Int)) % ((a : Int) + (b : Int)) = (((t + k + o) % (a + b) : Nat) : Int) := by
      push_cast; rfl
    rw [this]; exact_mod_cast Iff.rfl
  simp only [heq]
  have hper : Function.Periodic (fun n => n % (a + b) < a) (a + b) := by
    intro n; simp
  have h1 := Nat.filter_Ico_card_eq_of_periodic (t + o) (a + b) (fun n => n % (a + b) < a) hper
  have h2 : ((Finset.range (a + b)).filter (fun k => (t + k + o) % (a + b) < a)).card =
      ((Finset.Ico (t + o) (t + o + (a + b))).filter (fun n => n % (a + b) < a)).card := by
    refine Finset.card_bij (fun k _ => k + (t + o)) ?_ ?_ ?_
    · intro k hk
      simp only [Finset.mem_filter, Finset.mem_range, Finset.mem_Ico] at *
      have : k + (t + o) = t + k + o := by ring
      rw [this]; exact ⟨by omega, hk.2⟩
    · intro x _ y _ hxy; simpa using hxy
    · intro n hn
      simp only [Finset.mem_filter, Finset.mem_range, Finset.mem_Ico] at *
      refine ⟨n - (t + o), ⟨by omega, ?_⟩, by omega⟩
      have : t + (n - (t + o)) + o = n := by omega
      rw [this]; exact hn.2
  rw [h2, h1, Nat.count_eq_card_filter_range]
  have h3 : (Finset.range (a + b)).filter (fun n => n % (a + b) < a) = Finset.range a := by
    ext n
    simp only [Finset.mem_filter, Finset.mem_range]
    constructor
    · rintro ⟨h, h'⟩; rwa [Nat.mod_eq_of_lt h] at h'
    · intro h; exact ⟨by omega, by rw [Nat.mod_eq_of_lt (by omega)]; exact h⟩
  rw [h3]; simp

/-- Without an offset the active iterations of a cycle come first: iteration `q*period + r` is active iff `r < active_for`. -/
theorem C14_pattern (a : Int) (i : Option Int) (o : Int) (s : Cyclic) (h : Cyclic.ctor a i o = .ok s)
    (q r : Int) (hr : 0 ≤ r) (hrP : r < a + i.getD a) (hk : 0 ≤ q * (a + i.getD a) + r - o) :
    s.isActive (q * (a + i.getD a) + r - o) = .ok (decide (r < a)) := by
  obtain ⟨ha, hi, ho, hp, rfl⟩ := (C14_ctor a i o s).1 h
  unfold Cyclic.isActive
  rw [if_neg (by omega)]
  simp only
  have : q * (a + i.getD a) + r - o + o = r + (a + i.getD a) * q := by ring
  rw [this, Int.add_mul_emod_self_left, Int.emod_eq_of_lt hr hrP]

example : Cyclic.isActive ⟨2, 3, 1⟩ 4 = .ok true ∧ Cyclic.isActive ⟨2, 3, 1⟩ 1 = .ok false := by decide

/-! ## C15 -/

theorem after_succ {S : Type} (f : S → Bool × S) (n : Nat) (s : S) : after f (n + 1) s = (f (after f n s)).2 := by
  induction n generalizing s with
  | zero => rfl
  | succ n ih => rw [after, ih]; rfl

/-- iteration of the `m`-th activation: `m` earlier activations, plus all waiting times up to the `m`-th -/
def actTime (d : Nat → Nat) (m : Nat) : Nat := (∑ i ∈ Finset.range (m + 1), d i) + m

theorem actTime_succ (d : Nat → Nat) (m : Nat) : actTime d (m + 1) = actTime d m + d (m + 1) + 1 := by
  unfold actTime; rw [Finset.sum_range_succ]; omega

theorem actTime_strictMono (d : Nat → Nat) : StrictMono (actTime d) :=
  strictMono_nat_of_lt_succ (fun m => by rw [actTime_succ]; omega)

theorem poisson_inv (d : Nat → Nat) (t : Nat) :
    ∃ q, (after (Poisson.isActive d) t (Poisson.ctor d)).pos = q + 1 ∧
      t + (after (Poisson.isActive d) t (Poisson.ctor d)).countdown = actTime d q ∧
      (∀ q', q = q' + 1 → actTime d q' < t) := by
  induction t with
  | zero => exact ⟨0, rfl, by simp [after, Poisson.ctor, actTime], by simp⟩
  | succ t ih =>
    obtain ⟨q, hq, hc, hlt⟩ := ih
    rw [after_succ]
    generalize after (Poisson.isActive d) t (Poisson.ctor d) = s at *
    unfold Poisson.isActive
    by_cases h0 : s.countdown = 0
    · simp only [h0, if_true]
      refine ⟨q + 1, by omega, ?_, ?_⟩
      · rw [actTime_succ, ← hc, hq, h0]; omega
      · intro q' h; obtain rfl : q = q' := by omega
        omega
    · simp only [h0, if_false]
      exact ⟨q, hq, by omega, fun q' h => by have := hlt q' h; omega⟩

/-- A Poisson-activated agent is active at its `t`-th query iff `t` is one of the partial sums of the drawn waiting
times (each activation itself taking one iteration). -/
theorem C15_poisson (d : Nat → Nat) (t : Nat) :
    answer (Poisson.isActive d) (Poisson.ctor d) t = true ↔
      ∃ m : Nat, t = (∑ i ∈ Finset.range (m + 1), d i) + m := by
  obtain ⟨q, hq, hc, hlt⟩ := poisson_inv d t
  unfold answer
  generalize after (Poisson.isActive d) t (Poisson.ctor d) = s at *
  have key : (Poisson.isActive d s).1 = true ↔ s.countdown = 0 := by
    unfold Poisson.isActive; split_ifs with h <;> simp [h]
  rw [key]
  constructor
  · intro h; exact ⟨q, by show t = actTime d q; omega⟩
  · rintro ⟨m, hm⟩
    change t = actTime d m at hm
    have hmq : m = q := by
      rcases lt_trichotomy m q with h | h | h
      · obtain ⟨q', rfl⟩ : ∃ q', q = q' + 1 := ⟨q - 1, by omega⟩
        have := hlt q' rfl
        have h2 : actTime d m ≤ actTime d q' := (actTime_strictMono d).monotone (by omega)
        omega
      · exact h
      · have := actTime_strictMono d h; omega
    subst hmq; omega

/-- with a zero draw the agent is active in consecutive iterations; with draws `1,2` it is active at 1 and 4 -/
example : answer (Poisson.isActive (fun i => i + 1)) (Poisson.ctor (fun i => i + 1)) 1 = true ∧
    answer (Poisson.isActive (fun i => i + 1)) (Poisson.ctor (fun i => i + 1)) 2 = false ∧
    answer (Poisson.isActive (fun i => i + 1)) (Poisson.ctor (fun i => i + 1)) 4 = true := by decide

/-- Markov activation: the chain starts active, every query performs exactly one transition from the current state
with the two given probabilities, and answers with the new state. -/
theorem C15_markov (i2a a2i : ℝ) (u : Nat → ℝ) (hu : ∀ n, 0 ≤ u n ∧ u n < 1) (s : Markov)
    (h : Markov.ctor i2a a2i u = .ok s) :
    ∃ chain : Nat → Bool, chain 0 = true ∧
      (∀ t, chain (t + 1) = if chain t then decide (a2i ≤ u (t + 1)) else decide (1 - i2a ≤ u (t + 1))) ∧
      ∀ t, answer (Markov.isActive u) s t = chain (t + 1) := by
  unfold Markov.ctor at h
  split_ifs at h with hg
  obtain rfl := (Except.ok.inj h).symm
  let f := Markov.isActive u
  set s0 : Markov := ⟨i2a, a2i, choice2 0 (u 0), 1⟩ with hs0
  have hstep : ∀ t, (after f t s0).i2a = i2a ∧ (after f t s0).a2i = a2i ∧ (after f t s0).pos = t + 1 := by
    intro t
    induction t with
    | zero => exact ⟨rfl, rfl, rfl⟩
    | succ t ih => rw [after_succ]; exact ⟨ih.1, ih.2.1, by show _ + 1 = _; rw [ih.2.2]⟩
  refine ⟨fun t => (after f t s0).state, ?_, ?_, ?_⟩
  · show choice2 0 (u 0) = true
    have := (hu 0).1
    simp [choice2, not_lt.mpr this]
  · intro t
    obtain ⟨h1, h2, h3⟩ := hstep t
    show (after f (t + 1) s0).state = _
    rw [after_succ]
    show choice2 (after f t s0).p0 (u (after f t s0).pos) = _
    rw [h3]
    unfold Markov.p0 choice2
    rw [h1, h2]
    by_cases hst : (after f t s0).state = true
    · simp [hst, ← not_lt]
    · simp [hst, ← not_lt]
  · intro t
    show (f (after f t s0)).1 = (after f (t + 1) s0).state
    rw [after_succ]; rfl

/-- Consequences at the ends of the parameter range: `active_to_inactive = 0` never deactivates;
`inactive_to_active = 0` makes inactivity absorbing. -/
theorem C15_markov_extremes (i2a a2i : ℝ) (u : Nat → ℝ) (hu : ∀ n, 0 ≤ u n ∧ u n < 1) (s : Markov)
    (h : Markov.ctor i2a a2i u = .ok s) :
    (a2i = 0 → ∀ t, answer (Markov.isActive u) s t = true) ∧
    (i2a = 0 → ∀ t t', t ≤ t' → answer (Markov.isActive u) s t = false → answer (Markov.isActive u) s t' = false) ∧
    (i2a = 1 → a2i = 1 → ∀ t, answer (Markov.isActive u) s t = decide (t % 2 = 1)) := by
  obtain ⟨c, h0, hs, ha⟩ := C15_markov i2a a2i u hu s h
  refine ⟨?_, ?_, ?_⟩
  · rintro rfl t
    have : ∀ t, c t = true := by
      intro t
      induction t with
      | zero => exact h0
      | succ t ih => rw [hs, ih]; simp [(hu (t + 1)).1]
    rw [ha, this]
  · rintro rfl t t' htt h1
    rw [ha] at *
    obtain ⟨k, rfl⟩ := Nat.exists_eq_add_of_le htt
    clear htt
    induction k with
    | zero => exact h1
    | succ k ih =>
      rw [show t + (k + 1) + 1 = (t + k + 1) + 1 by omega, hs, ih]
      have := (hu (t + k + 1 + 1)).2
      simp [this]
  · rintro rfl rfl t
    have : ∀ t, c t = decide (t % 2 = 0) := by
      intro t
      induction t with
      | zero => simpa using h0
      | succ t ih =>
        rw [hs, ih]
        have h1 := (hu (t + 1)).1
        have h2 := (hu (t + 1)).2
        rcases Nat.mod_two_eq_zero_or_one t with h | h
        · simp [h, h2, show (t + 1) % 2 = 1 by omega]
        · simp [h, h1, show (t + 1) % 2 = 0 by omega]
    rw [ha, this]
    rcases Nat.mod_two_eq_zero_or_one t with h | h
    · simp [h, show (t + 1) % 2 = 1 by omega]
    · simp [h, show (t + 1) % 2 = 0 by omega]

example : ∃ s, Markov.ctor 1 1 (fun _ => (0 : ℝ)) = .ok s := by unfold Markov.ctor; rw [if_neg (by norm_num)]; exact ⟨_, rfl⟩

/-- Gilbert-Elliott: every query performs exactly one transition of the good/bad chain; a message is dropped only if the
chain is then bad and the (additional) draw is below the drop rate; in the good state no extra draw is made. -/
theorem C15_gilbert_elliott (dropRate b2g g2b : ℝ) (init : Bool) (u : Nat → ℝ) (s : GE)
    (h : GE.ctor dropRate b2g g2b init = .ok s) :
    ∃ (bad : Nat → Bool) (pos : Nat → Nat), bad 0 = init ∧ pos 0 = 0 ∧
      (∀ t, bad (t + 1) = if bad t then decide (b2g ≤ u (pos t)) else decide (1 - g2b ≤ u (pos t))) ∧
      (∀ t, pos (t + 1) = if bad (t + 1) then pos t + 2 else pos t + 1) ∧
      ∀ t, answer (GE.shouldDrop u) s t = (bad (t + 1) && decide (u (pos t + 1) < dropRate)) := by
  unfold GE.ctor at h
  split_ifs at h with hg hg'
  obtain rfl := (Except.ok.inj h).symm
  let f := GE.shouldDrop u
  set s0 : GE := ⟨dropRate, b2g, g2b, init, 0⟩ with hs0
  have hbad : ∀ r : GE, (f r).2.bad = choice2 r.p0 (u r.pos) := by
    intro r; show (GE.shouldDrop u r).2.bad = _
    unfold GE.shouldDrop; simp only; split_ifs <;> rfl
  have hpos : ∀ r : GE, (f r).2.pos = if (f r).2.bad then r.pos + 2 else r.pos + 1 := by
    intro r; rw [hbad]; show (GE.shouldDrop u r).2.pos = _
    unfold GE.shouldDrop; simp only; split_ifs <;> rfl
  have hans : ∀ r : GE, (f r).1 = ((f r).2.bad && decide (u (r.pos + 1) < r.dropRate)) := by
    intro r; rw [hbad]; show (GE.shouldDrop u r).1 = _
    unfold GE.shouldDrop bernoulli; simp only; split_ifs with hb <;> simp [hb]
  have hpar : ∀ r : GE, (f r).2.dropRate = r.dropRate ∧ (f r).2.b2g = r.b2g ∧ (f r).2.g2b = r.g2b := by
    intro r; show (GE.shouldDrop u r).2.dropRate = _ ∧ (GE.shouldDrop u r).2.b2g = _ ∧ (GE.shouldDrop u r).2.g2b = _
    unfold GE.shouldDrop; simp only; split_ifs <;> simp
  have hstep : ∀ t, (after f t s0).dropRate = dropRate ∧ (after f t s0).b2g = b2g ∧ (after f t s0).g2b = g2b := by
    intro t
    induction t with
    | zero => exact ⟨rfl, rfl, rfl⟩
    | succ t ih =>
      rw [after_succ]
      obtain ⟨h1, h2, h3⟩ := hpar (after f t s0)
      exact ⟨h1.trans ih.1, h2.trans ih.2.1, h3.trans ih.2.2⟩
  refine ⟨fun t => (after f t s0).bad, fun t => (after f t s0).pos, rfl, rfl, ?_, ?_, ?_⟩
  · intro t
    simp only
    rw [after_succ, hbad]
    obtain ⟨_, h2, h3⟩ := hstep t
    unfold GE.p0 choice2
    rw [h2, h3]
    by_cases hst : (after f t s0).bad = true
    · simp [hst, ← not_lt]
    · simp [hst, ← not_lt]
  · intro t; simp only; rw [after_succ, hpos]
  · intro t
    show (f (after f t s0)).1 = _
    rw [hans, (hstep t).1]; simp only [after_succ]

/-- Gilbert-Elliott at the ends of the range: never drops with `drop_rate = 0`, or when started good with
`good_to_bad = 0`; a started-bad chain with `bad_to_good = 0`, `drop_rate = 1` drops everything. -/
theorem C15_gilbert_elliott_extremes (dropRate b2g g2b : ℝ) (init : Bool) (u : Nat → ℝ)
    (hu : ∀ n, 0 ≤ u n ∧ u n < 1) (s : GE) (h : GE.ctor dropRate b2g g2b init = .ok s) (t : Nat) :
    (dropRate = 0 → answer (GE.shouldDrop u) s t = false) ∧
    (g2b = 0 → init = false → answer (GE.shouldDrop u) s t = false) ∧
    (b2g = 0 → init = true → dropRate = 1 → answer (GE.shouldDrop u) s t = true) := by
  obtain ⟨bad, pos, hb0, _, hb, _, ha⟩ := C15_gilbert_elliott dropRate b2g g2b init u s h
  refine ⟨?_, ?_, ?_⟩
  · rintro rfl
    rw [ha]; simp [(hu (pos t + 1)).1]
  · rintro rfl rfl
    have : ∀ t, bad t = false := by
      intro t
      induction t with
      | zero => exact hb0
      | succ t ih => rw [hb, ih]; simp [(hu (pos t)).2]
    rw [ha, this]; rfl
  · rintro rfl rfl rfl
    have : ∀ t, bad t = true := by
      intro t
      induction t with
      | zero => exact hb0
      | succ t ih => rw [hb, ih]; simp [(hu (pos t)).1]
    rw [ha, this]; simp [(hu (pos t + 1)).2]

example : ∃ s, GE.ctor (1/2) (1/2) (1/3) true = .ok s := by unfold GE.ctor; rw [if_neg (by norm_num), if_neg (by norm_num)]; exact ⟨_, rfl⟩

/-- `random() < p` happens for a set of draws in `[0,1)` of measure exactly `p`, for every accepted rate: activation /
drop probability is the configured one. -/
theorem C15_bernoulli_probability (p q : ℝ) (h : rateCtor p = .ok q) :
    MeasureTheory.volume {u : ℝ | (0 ≤ u ∧ u < 1) ∧ bernoulli q u = true} = ENNReal.ofReal p := by
  unfold rateCtor at h
  split_ifs at h with hg
  obtain rfl := Except.ok.inj h
  have hg' : 0 ≤ p ∧ p ≤ 1 := by constructor <;> by_contra hc <;> apply hg <;> [left; right] <;> linarith
  have : {u : ℝ | (0 ≤ u ∧ u < 1) ∧ bernoulli p u = true} = Set.Ico 0 p := by
    ext u; simp only [bernoulli, decide_eq_true_eq, Set.mem_ofPred_eq, Set.mem_Ico]
    constructor
    · rintro ⟨⟨h1, _⟩, h2⟩; exact ⟨h1, h2⟩
    · rintro ⟨h1, h2⟩; exact ⟨⟨h1, by linarith [hg'.2]⟩, h2⟩
  rw [this, Real.volume_Ico]; simp

/-- One Markov transition has exactly the configured probabilities. -/
theorem C15_markov_probability (i2a a2i : ℝ) (u : Nat → ℝ) (s : Markov) (h : Markov.ctor i2a a2i u = .ok s)
    (t : Nat) :
    MeasureTheory.volume {v : ℝ | (0 ≤ v ∧ v < 1) ∧
        (Markov.isActive (fun _ => v) (after (Markov.isActive u) t s)).1 = true} =
      ENNReal.ofReal (if (after (Markov.isActive u) t s).state then 1 - a2i else i2a) := by
  unfold Markov.ctor at h
  split_ifs at h with hg
  obtain rfl := (Except.ok.inj h).symm
  have hr : (0 ≤ i2a ∧ i2a ≤ 1) ∧ (0 ≤ a2i ∧ a2i ≤ 1) := by
    push Not at hg
    exact ⟨hg.1, hg.2⟩
  set s0 : Markov := ⟨i2a, a2i, choice2 0 (u 0), 1⟩
  have hstep : ∀ t, (after (Markov.isActive u) t s0).i2a = i2a ∧ (after (Markov.isActive u) t s0).a2i = a2i := by
    intro t
    induction t with
    | zero => exact ⟨rfl, rfl⟩
    | succ t ih => rw [after_succ]; exact ih
  obtain ⟨h1, h2⟩ := hstep t
  generalize after (Markov.isActive u) t s0 = r at *
  have hp : 0 ≤ r.p0 ∧ r.p0 ≤ 1 := by
    unfold Markov.p0; rw [h1, h2]; split_ifs
    · exact hr.2
    · constructor <;> linarith [hr.1.1, hr.1.2]
  have : {v : ℝ | (0 ≤ v ∧ v < 1) ∧ (Markov.isActive (fun _ => v) r).1 = true} = Set.Ico r.p0 1 := by
    ext v
    simp only [Markov.isActive, choice2, Set.mem_ofPred_eq, Set.mem_Ico, Bool.not_eq_true', decide_eq_false_iff_not, not_lt]
    constructor
    · rintro ⟨⟨_, h1⟩, h2⟩; exact ⟨h2, h1⟩
    · rintro ⟨h1, h2⟩; exact ⟨⟨by linarith [hp.1], h2⟩, h1⟩
  rw [this, Real.volume_Ico]
  unfold Markov.p0; rw [h1, h2]; split_ifs <;> congr 1; ring

end Verif.Props
