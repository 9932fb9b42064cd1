import Verif.Model.Params
import Verif.Props.Run
import Mathlib.Tactic.NormNum
import Mathlib.Algebra.Order.Ring.Rat
set_option linter.unusedSectionVars false
/-!
# C113: which hyper-parameters the constructors accept;  C114: using an algorithm object again
-/
namespace Verif.Props
open Verif Verif.Params

/-- SPEC: the ranges used in the documentation -/
inductive Range
  | positive | nonNegative | atLeast1 | open01 | from0below1 | above0to1 | from0to1

/-- SPEC: a number lies in a range -/
def Range.holds (x : Rat) : Range → Prop
  | .positive => 0 < x
  | .nonNegative => 0 ≤ x
  | .atLeast1 => 1 ≤ x
  | .open01 => 0 < x ∧ x < 1
  | .from0below1 => 0 ≤ x ∧ x < 1
  | .above0to1 => 0 < x ∧ x ≤ 1
  | .from0to1 => 0 ≤ x ∧ x ≤ 1

/-- SPEC: the range has no upper end -/
def Range.unbounded : Range → Bool
  | .positive | .nonNegative | .atLeast1 => true
  | _ => false

/-- SPEC: the documented ranges of the parameters of every algorithm -/
def documented : Algo → List (P × Range)
  | .fedAvg => [(.iterations, .positive), (.stepSize, .positive), (.numLocalSteps, .positive)]
  | .fedProx => [(.iterations, .positive), (.stepSize, .positive), (.numLocalSteps, .positive), (.penalty, .nonNegative)]
  | .fedDyn => [(.iterations, .positive), (.stepSize, .positive), (.penalty, .positive), (.numLocalSteps, .positive)]
  | .fedLt => [(.iterations, .positive), (.stepSize, .positive), (.numLocalSteps, .positive), (.penalty, .positive)]
  | .fedNova => [(.iterations, .positive), (.stepSize, .positive), (.momentum, .from0below1), (.penalty, .nonNegative), (.serverMomentum, .from0below1)]
  | .fedAdagrad => [(.iterations, .positive), (.stepSize, .positive), (.numLocalSteps, .positive), (.serverStepSize, .positive), (.beta1, .from0below1), (.epsilon, .positive)]
  | .fedAdam => [(.iterations, .positive), (.stepSize, .positive), (.numLocalSteps, .positive), (.serverStepSize, .positive), (.beta1, .from0below1), (.epsilon, .positive), (.beta2, .from0below1)]
  | .fedYogi => [(.iterations, .positive), (.stepSize, .positive), (.numLocalSteps, .positive), (.serverStepSize, .positive), (.beta1, .from0below1), (.epsilon, .positive), (.beta2, .from0below1)]
  | .fedPd => [(.iterations, .positive), (.stepSize, .positive), (.penalty, .positive), (.skipProbability, .from0to1)]
  | .scaffold => [(.iterations, .positive), (.stepSize, .positive), (.numLocalSteps, .positive), (.serverStepSize, .positive)]
  | .admm => [(.iterations, .positive), (.penalty, .positive), (.relaxation, .open01)]
  | .atg => [(.iterations, .positive), (.penalty, .positive), (.relaxation, .open01), (.gamma, .positive), (.delta, .positive)]
  | .dinno => [(.iterations, .positive), (.numLocalSteps, .positive), (.stepSize, .positive), (.penalty, .positive)]
  | .dlm => [(.iterations, .positive), (.stepSize, .positive), (.penalty, .positive)]
  | .gtSarah => [(.iterations, .positive), (.numLocalSteps, .positive), (.stepSize, .positive)]
  | .gtVr => [(.iterations, .positive), (.stepSize, .positive), (.snapshotProb, .above0to1)]
  | .kgt => [(.iterations, .positive), (.numLocalSteps, .positive), (.stepSize, .positive), (.auxStepSize, .positive)]
  | .led => [(.iterations, .positive), (.numLocalSteps, .positive), (.stepSize, .positive), (.auxStepSize, .positive)]
  | .ltAdmm => [(.iterations, .positive), (.numLocalSteps, .positive), (.stepSize, .positive), (.auxStepSize, .positive), (.penalty, .positive), (.alpha, .positive)]
  | .ltAdmmVr => [(.iterations, .positive), (.numLocalSteps, .positive), (.stepSize, .positive), (.auxStepSize, .positive), (.penalty, .positive), (.alpha, .positive)]
  | .proxSkip => [(.iterations, .positive), (.stepSize, .positive), (.auxStepSize, .positive), (.commProbability, .above0to1), (.chi, .atLeast1)]
  | .atc | .atcTracking | .augDgm | .dgd | .ed | .extra | .gtSaga | .nids | .simpleGt | .wangElia => [(.iterations, .positive), (.stepSize, .positive)]

/-- SPEC: the algorithms that look at a step size only if it is a `float` -/
def floatOnly : List Algo := [.dinno, .gtSaga, .gtSarah, .gtVr, .kgt, .led, .ltAdmm, .ltAdmmVr, .proxSkip]

/-- SPEC: the value of a number -/
def number : Val → Option Rat
  | .int n => some n
  | .flt q => some q
  | _ => none

/-- SPEC: `v` is an ordinary number of the type in the annotation: `int` for `iterations` and `num_local_steps`, a finite `float` otherwise -/
def Annotated (v : P → Val) : Prop :=
  ∀ p, if p = .iterations ∨ p = .numLocalSteps then ∃ n, v p = .int n else ∃ q, v p = .flt q

/-- SPEC: exactly which values pass the check of a parameter; `lax` is set for the step sizes of the algorithms in `floatOnly` -/
def Passes (lax : Bool) (r : Range) : Val → Prop
  | .int n => lax = true ∨ r.holds n
  | .flt q => r.holds q
  | .nan => r.unbounded = true
  | .inf => r.unbounded = true
  | .ninf => False
  | .other => lax = true

/-- SPEC: step sizes of the algorithms in `floatOnly` -/
def lax (alg : Algo) (p : P) : Bool := decide (alg ∈ floatOnly ∧ (p = .stepSize ∨ p = .auxStepSize))

/-- a check passes exactly under a condition, and raises ValueError otherwise, or TypeError if some value is not a number -/
def Guards (v : P → Val) (x : Py Unit) (c : Prop) : Prop :=
  (x = .ok () ↔ c) ∧ ∀ e, x = .error e → e = .valueError ∨ (e = .typeError ∧ ∃ p, v p = .other)

theorem Guards.append {v : P → Val} {x y : Py Unit} {F : P × Range → Prop} {l l' : List (P × Range)} (hx : Guards v x (∀ e ∈ l, F e)) (hy : Guards v y (∀ e ∈ l', F e)) :
    Guards v (x >>= fun _ => y) (∀ e ∈ l ++ l', F e) := by
  rw [List.forall_mem_append]
  obtain ⟨h1, h2⟩ := hx
  obtain ⟨h3, h4⟩ := hy
  cases x with
  | error e =>
    have hn : ¬ ∀ e ∈ l, F e := fun h => by have := h1.2 h; cases this
    exact ⟨⟨fun h => (by cases h), fun h => absurd h.1 hn⟩, fun e' h => h2 e' (by cases h; rfl)⟩
  | ok u => exact ⟨⟨fun h => ⟨h1.1 rfl, h3.1 h⟩, fun h => h3.2 h.2⟩, fun e h => h4 e h⟩

theorem Guards.cons {v : P → Val} {x y : Py Unit} {F : P × Range → Prop} {a : P × Range} {l : List (P × Range)} (hx : Guards v x (F a)) (hy : Guards v y (∀ e ∈ l, F e)) :
    Guards v (x >>= fun _ => y) (∀ e ∈ a :: l, F e) :=
  Guards.append (l := [a]) (by simpa using hx) hy

theorem Guards.single {v : P → Val} {x : Py Unit} {F : P × Range → Prop} {a : P × Range} (hx : Guards v x (F a)) : Guards v x (∀ e ∈ [a], F e) := by simpa using hx

/-- the conditions of one algorithm -/
def Ok (alg : Algo) (v : P → Val) (e : P × Range) : Prop := Passes (lax alg e.1) e.2 (v e.1)

section
variable {alg : Algo} {v : P → Val} {p : P}

theorem g_positive (h : lax alg p = false) : Guards v (positive v p) (Ok alg v (p, .positive)) := by
  unfold positive Ok
  cases hv : v p <;> simp only [Val.le, raiseIf, Passes, h, Range.holds, Range.unbounded, bind, Except.bind]
  · rename_i n
    by_cases hn : n ≤ 0
    · simp [hn, Guards]
    · simp [hn, Guards, lt_of_not_ge hn]
  · rename_i q
    by_cases hn : q ≤ 0
    · simp [hn, Guards]
    · simp [hn, Guards, lt_of_not_ge hn]
  · simp [Guards]
  · simp [Guards]
  · simp [Guards]
  · simp [Guards]; exact ⟨p, hv⟩

theorem g_positiveFloat (h : lax alg p = true) : Guards v (positiveFloat v p) (Ok alg v (p, .positive)) := by
  unfold positiveFloat Ok
  cases hv : v p <;> simp only [Val.isFloat, Val.le, raiseIf, Passes, h, Range.holds, Range.unbounded, bind, Except.bind]
  · simp [Guards]
  · rename_i q
    by_cases hn : q ≤ 0
    · simp [hn, Guards]
    · simp [hn, Guards, lt_of_not_ge hn]
  · simp [Guards]
  · simp [Guards]
  · simp [Guards]
  · simp [Guards]

theorem g_nonNegative (h : lax alg p = false) : Guards v (nonNegative v p) (Ok alg v (p, .nonNegative)) := by
  unfold nonNegative Ok
  cases hv : v p <;> simp only [Val.lt, raiseIf, Passes, h, Range.holds, Range.unbounded, bind, Except.bind]
  · rename_i n
    by_cases hn : n < 0
    · simp [hn, Guards]
    · simp [hn, Guards, le_of_not_gt hn]
  · rename_i q
    by_cases hn : q < 0
    · simp [hn, Guards]
    · simp [hn, Guards, le_of_not_gt hn]
  · simp [Guards]
  · simp [Guards]
  · simp [Guards]
  · simp [Guards]; exact ⟨p, hv⟩

theorem g_atLeast1 (h : lax alg p = false) : Guards v (raiseIf ((v p).lt 1)) (Ok alg v (p, .atLeast1)) := by
  unfold Ok
  cases hv : v p <;> simp only [Val.lt, raiseIf, Passes, h, Range.holds, Range.unbounded, bind, Except.bind]
  · rename_i n
    by_cases hn : n < 1
    · have : ¬ (1 : Rat) ≤ n := by intro hh; have : (1 : Int) ≤ n := by exact_mod_cast hh
                                   omega
      simp [hn, Guards, this]
    · have : (1 : Rat) ≤ n := by exact_mod_cast (le_of_not_gt hn)
      simp [hn, Guards, this]
  · rename_i q
    by_cases hn : q < 1
    · simp [hn, Guards]
    · simp [hn, Guards, le_of_not_gt hn]
  · simp [Guards]
  · simp [Guards]
  · simp [Guards]
  · simp [Guards]; exact ⟨p, hv⟩

/-- two-sided checks -/
theorem g_between {r : Range} {a b : Py Bool} (hr : r.unbounded = false) (h : lax alg p = false)
    (hnum : ∀ x : Rat, (v p = .flt x ∨ ∃ n : Int, v p = .int n ∧ x = n) → ∃ c d : Bool, a = .ok c ∧ b = .ok d ∧ (r.holds x ↔ c = true ∧ d = true))
    (hnan : v p = .nan → a = .ok false) (hinf : v p = .inf → a = .ok true ∧ b = .ok false) (hninf : v p = .ninf → a = .ok false)
    (hoth : v p = .other → a = .error .typeError) : Guards v (raiseUnless a b) (Ok alg v (p, r)) := by
  unfold Ok
  simp only [h]
  have key : ∀ x : Rat, (v p = .flt x ∨ ∃ n : Int, v p = .int n ∧ x = n) → Guards v (raiseUnless a b) (r.holds x) := by
    intro x hx
    obtain ⟨c, d, rfl, rfl, hcd⟩ := hnum x hx
    rw [hcd]
    cases c <;> cases d <;> simp [raiseUnless, Guards, bind, Except.bind]
  cases hv : v p with
  | int n => simpa [Passes] using key n (Or.inr ⟨n, hv, rfl⟩)
  | flt q => simpa [Passes] using key q (Or.inl hv)
  | nan => simp [hnan hv, Passes, hr, raiseUnless, Guards, bind, Except.bind]
  | inf => simp [(hinf hv).1, (hinf hv).2, Passes, hr, raiseUnless, Guards, bind, Except.bind]
  | ninf => simp [hninf hv, Passes, raiseUnless, Guards, bind, Except.bind]
  | other => simp [hoth hv, Passes, raiseUnless, Guards, bind, Except.bind]; exact ⟨p, hv⟩

theorem g_open01 (h : lax alg p = false) : Guards v (raiseUnless ((v p).gt 0) ((v p).lt 1)) (Ok alg v (p, .open01)) := by
  refine g_between rfl h (fun x hx => ?_) (fun e => by rw [e]; rfl) (fun e => by rw [e]; exact ⟨rfl, rfl⟩) (fun e => by rw [e]; rfl) (fun e => by rw [e]; rfl)
  rcases hx with e | ⟨n, e, rfl⟩
  · rw [e]; exact ⟨_, _, rfl, rfl, by simp [Range.holds]⟩
  · rw [e]
    refine ⟨_, _, rfl, rfl, ?_⟩
    have : ((n : Rat) < 1) ↔ n < 1 := by exact_mod_cast Iff.rfl
    simp [Range.holds, this]

theorem g_from0below1 (h : lax alg p = false) : Guards v (raiseUnless ((v p).ge 0) ((v p).lt 1)) (Ok alg v (p, .from0below1)) := by
  refine g_between rfl h (fun x hx => ?_) (fun e => by rw [e]; rfl) (fun e => by rw [e]; exact ⟨rfl, rfl⟩) (fun e => by rw [e]; rfl) (fun e => by rw [e]; rfl)
  rcases hx with e | ⟨n, e, rfl⟩
  · rw [e]; exact ⟨_, _, rfl, rfl, by simp [Range.holds]⟩
  · rw [e]
    refine ⟨_, _, rfl, rfl, ?_⟩
    have : ((n : Rat) < 1) ↔ n < 1 := by exact_mod_cast Iff.rfl
    simp [Range.holds, this]

theorem g_above0to1 (h : lax alg p = false) : Guards v (raiseUnless ((v p).gt 0) ((v p).le 1)) (Ok alg v (p, .above0to1)) := by
  refine g_between rfl h (fun x hx => ?_) (fun e => by rw [e]; rfl) (fun e => by rw [e]; exact ⟨rfl, rfl⟩) (fun e => by rw [e]; rfl) (fun e => by rw [e]; rfl)
  rcases hx with e | ⟨n, e, rfl⟩
  · rw [e]; exact ⟨_, _, rfl, rfl, by simp [Range.holds]⟩
  · rw [e]
    refine ⟨_, _, rfl, rfl, ?_⟩
    have : ((n : Rat) ≤ 1) ↔ n ≤ 1 := by exact_mod_cast Iff.rfl
    simp [Range.holds, this]

theorem g_from0to1 (h : lax alg p = false) : Guards v (raiseUnless ((v p).ge 0) ((v p).le 1)) (Ok alg v (p, .from0to1)) := by
  refine g_between rfl h (fun x hx => ?_) (fun e => by rw [e]; rfl) (fun e => by rw [e]; exact ⟨rfl, rfl⟩) (fun e => by rw [e]; rfl) (fun e => by rw [e]; rfl)
  rcases hx with e | ⟨n, e, rfl⟩
  · rw [e]; exact ⟨_, _, rfl, rfl, by simp [Range.holds]⟩
  · rw [e]
    refine ⟨_, _, rfl, rfl, ?_⟩
    have : ((n : Rat) ≤ 1) ↔ n ≤ 1 := by exact_mod_cast Iff.rfl
    simp [Range.holds, this]

end

theorem construct_guards (alg : Algo) (v : P → Val) : Guards v (construct alg v) (∀ e ∈ documented alg, Ok alg v e) := by
  cases alg <;> simp only [construct, checks, documented, fedOptChecks, ltAdmmChecks, bind_assoc] <;>
    repeat' first
      | with_reducible refine Guards.cons ?_ ?_
      | with_reducible refine Guards.single ?_
      | with_reducible refine g_positive ?_
      | with_reducible refine g_positiveFloat ?_
      | with_reducible refine g_nonNegative ?_
      | with_reducible refine g_atLeast1 ?_
      | with_reducible refine g_open01 ?_
      | with_reducible refine g_from0below1 ?_
      | with_reducible refine g_above0to1 ?_
      | with_reducible refine g_from0to1 ?_
      | rfl

/-! ## C113 -/

/-- **C113.** Exactly which arguments a constructor accepts, for all Python values. -/
theorem C113_accepts (alg : Algo) (v : P → Val) :
    construct alg v = .ok () ↔ ∀ e ∈ documented alg, Passes (lax alg e.1) e.2 (v e.1) := (construct_guards alg v).1

/-- **C113.** A refusal is a ValueError, or a TypeError if some argument is not a number. -/
theorem C113_errors (alg : Algo) (v : P → Val) (e : PyErr) (h : construct alg v = .error e) :
    e = .valueError ∨ (e = .typeError ∧ ∃ p, v p = .other) := (construct_guards alg v).2 e h

theorem annotated_passes {v : P → Val} (hv : Annotated v) (alg : Algo) (p : P) (r : Range) :
    Passes (lax alg p) r (v p) ↔ ∃ x, number (v p) = some x ∧ r.holds x := by
  have h := hv p
  split at h
  · rename_i hp
    obtain ⟨n, hn⟩ := h
    have : lax alg p = false := by rcases hp with rfl | rfl <;> simp [lax]
    rw [hn, this]
    simp [Passes, number]
  · obtain ⟨q, hq⟩ := h
    rw [hq]
    simp [Passes, number]

/-- **C113.** For arguments of the annotated types a constructor accepts exactly the documented ranges and raises ValueError otherwise. -/
theorem C113_annotated (alg : Algo) (v : P → Val) (hv : Annotated v) :
    (construct alg v = .ok () ↔ ∀ e ∈ documented alg, ∃ x, number (v e.1) = some x ∧ e.2.holds x) ∧
    (construct alg v = .ok () ∨ construct alg v = .error .valueError) := by
  refine ⟨?_, ?_⟩
  · rw [C113_accepts]
    exact forall_congr' fun e => imp_congr_right fun _ => annotated_passes hv alg e.1 e.2
  · cases h : construct alg v with
    | ok u => left; rfl
    | error e =>
      right
      rcases C113_errors alg v e h with rfl | ⟨_, p, hp⟩
      · rfl
      · have := hv p
        split at this
        · obtain ⟨n, hn⟩ := this; rw [hn] at hp; cases hp
        · obtain ⟨n, hn⟩ := this; rw [hn] at hp; cases hp

/-- **C113.** Whatever the types, a number accepted for a parameter is in its documented range, except for step sizes given as an `int`
to the algorithms in `floatOnly`. -/
theorem C113_numbers (alg : Algo) (v : P → Val) (h : construct alg v = .ok ()) (p : P) (r : Range) (hp : (p, r) ∈ documented alg) (x : Rat) (hx : number (v p) = some x) :
    r.holds x ∨ (alg ∈ floatOnly ∧ (p = .stepSize ∨ p = .auxStepSize) ∧ ∃ n : Int, v p = .int n) := by
  have h1 := (C113_accepts alg v).1 h (p, r) hp
  simp only at h1
  cases hv : v p with
  | int n =>
    rw [hv] at hx h1
    simp only [number, Option.some.injEq] at hx
    subst hx
    rcases h1 with h1 | h1
    · right
      simp only [lax, decide_eq_true_eq] at h1
      exact ⟨h1.1, h1.2, n, rfl⟩
    · exact Or.inl h1
  | flt q =>
    rw [hv] at hx h1
    simp only [number, Option.some.injEq] at hx
    subst hx
    exact Or.inl h1
  | nan => rw [hv] at hx; cases hx
  | inf => rw [hv] at hx; cases hx
  | ninf => rw [hv] at hx; cases hx
  | other => rw [hv] at hx; cases hx

/-- **C113, refuted for these algorithms.** The documentation requires a positive step size, but any integer is accepted, negative or zero. -/
theorem C113_integer_step_refuted (alg : Algo) (ha : alg ∈ floatOnly) (v : P → Val) (h : construct alg v = .ok ()) (n : Int) :
    (P.stepSize, Range.positive) ∈ documented alg ∧ construct alg (fun p => if p = .stepSize then .int n else v p) = .ok () := by
  refine ⟨?_, ?_⟩
  · simp only [floatOnly, List.mem_cons, List.not_mem_nil, or_false] at ha
    rcases ha with rfl | rfl | rfl | rfl | rfl | rfl | rfl | rfl | rfl <;> simp [documented]
  · rw [C113_accepts] at h ⊢
    intro e he
    by_cases hp : e.1 = .stepSize
    · simp only [hp, if_true]
      left
      simp [lax, ha]
    · simp only [hp, if_false]
      exact h e he

theorem documented_unique (alg : Algo) (p : P) (r r' : Range) (h : (p, r) ∈ documented alg) (h' : (p, r') ∈ documented alg) : r = r' := by
  cases alg <;> cases p <;> simp_all [documented]

/-- **C113.** NaN and infinity pass every check without an upper bound (for instance step sizes and penalties) and no check with one. -/
theorem C113_not_finite (alg : Algo) (v : P → Val) (h : construct alg v = .ok ()) (p : P) (r : Range) (hp : (p, r) ∈ documented alg) (a : Val) (ha : a = .nan ∨ a = .inf) :
    construct alg (fun p' => if p' = p then a else v p') = .ok () ↔ r.unbounded = true := by
  rw [C113_accepts] at h ⊢
  constructor
  · intro h1
    have := h1 (p, r) hp
    rcases ha with rfl | rfl <;> simpa [Passes] using this
  · intro hr e he
    by_cases hep : e.1 = p
    · have : e.2 = r := documented_unique alg p e.2 r (by rw [← hep]; exact he) hp
      rcases ha with rfl | rfl <;> simp [hep, this, Passes, hr]
    · simp only [hep, if_false]; exact h e he

/-- **C113.** `iterations` is not required to be an integer: an accepted algorithm with a float number of iterations (even `10.0`) initialises the
network and then raises TypeError, while an integer number of iterations gives exactly that many. -/
theorem C113_iterations (alg : Algo) (v : P → Val) (h : construct alg v = .ok ()) :
    (∀ n, v .iterations = .int n → 0 < n ∧ runHead (v .iterations) 0 = (true, .ok n.toNat)) ∧
    ((∀ n, v .iterations ≠ .int n) → runHead (v .iterations) 0 = (true, .error .typeError)) := by
  have hp : (P.iterations, Range.positive) ∈ documented alg := by cases alg <;> simp [documented]
  have h1 := (C113_accepts alg v).1 h _ hp
  have hl : lax alg .iterations = false := by simp [lax]
  simp only [hl] at h1
  refine ⟨fun n hn => ?_, fun hn => ?_⟩
  · rw [hn] at h1 ⊢
    simp only [Passes, Range.holds, Bool.false_eq_true, false_or] at h1
    have h2 : 0 < n := by exact_mod_cast h1
    have : ¬ n < 0 := by omega
    exact ⟨h2, by simp [runHead, Val.lt, this]⟩
  · cases hv : v .iterations with
    | int n => exact absurd hv (hn n)
    | flt q =>
      rw [hv] at h1
      have : ¬ q < 0 := not_lt.2 (le_of_lt h1)
      simp [runHead, Val.lt, this]
    | nan => simp [runHead, Val.lt]
    | inf => simp [runHead, Val.lt]
    | ninf => rw [hv] at h1; exact absurd h1 (by simp [Passes])
    | other => rw [hv] at h1; exact absurd h1 (by simp [Passes])

section steps
variable {A : Type} [DecidableEq A]

/-- SPEC: a positive Python int -/
def PositiveInt (v : Val) : Prop := ∃ n : Int, v = .int n ∧ 0 < n

theorem checkSteps_ok (l : List Val) : checkSteps l = .ok () ↔ ∀ v ∈ l, PositiveInt v := by
  induction l with
  | nil => simp [checkSteps]
  | cons a t ih =>
    rw [List.forall_mem_cons]
    cases a with
    | int n =>
      simp only [checkSteps]
      by_cases hn : n ≤ 0
      · rw [if_pos hn]
        refine ⟨fun h => (by cases h), fun h => ?_⟩
        obtain ⟨⟨m, e, hm⟩, _⟩ := h
        cases e; omega
      · rw [if_neg hn, ih]
        exact ⟨fun h => ⟨⟨n, rfl, by omega⟩, h⟩, fun h => h.2⟩
    | flt q => exact ⟨fun h => (by cases h), fun h => (by obtain ⟨⟨m, e, _⟩, _⟩ := h; cases e)⟩
    | nan => exact ⟨fun h => (by cases h), fun h => (by obtain ⟨⟨m, e, _⟩, _⟩ := h; cases e)⟩
    | inf => exact ⟨fun h => (by cases h), fun h => (by obtain ⟨⟨m, e, _⟩, _⟩ := h; cases e)⟩
    | ninf => exact ⟨fun h => (by cases h), fun h => (by obtain ⟨⟨m, e, _⟩, _⟩ := h; cases e)⟩
    | other => exact ⟨fun h => (by cases h), fun h => (by obtain ⟨⟨m, e, _⟩, _⟩ := h; cases e)⟩

/-- **C113.** FedNova and FedPD accept `num_local_steps` exactly if it is a positive integer or a dictionary with positive integers as values. -/
theorem C113_local_steps (st : Steps A) :
    localSteps st = .ok () ↔ match st with
      | .one v => PositiveInt v
      | .map d => ∀ e ∈ d.entries, PositiveInt e.2 := by
  cases st with
  | one v =>
    have := checkSteps_ok [v]
    simp only [List.mem_singleton, forall_eq] at this
    show localSteps (Steps.one v : Steps A) = .ok () ↔ PositiveInt v
    rw [← this]
    cases v <;> simp [localSteps, checkSteps]
  | map d =>
    simp only [localSteps, checkSteps_ok]
    constructor
    · intro h e he; exact h _ (List.mem_map_of_mem he)
    · intro h v hv
      obtain ⟨e, he, rfl⟩ := List.mem_map.1 hv
      exact h e he

theorem foldl_set_get (v : Val) (l : List A) (d : PyDict A Val) (a : A) :
    (l.foldl (fun d c => d.set c v) d).get? a = if a ∈ l then some v else d.get? a := by
  induction l generalizing d with
  | nil => simp
  | cons b t ih =>
    rw [List.foldl_cons, ih, PyDict.get?_set]
    by_cases h1 : a ∈ t <;> by_cases h2 : a = b <;> simp [h1, h2]

theorem pickSteps_spec (d : PyDict A Val) (l : List A) (acc : PyDict A Val) (h : ∀ c ∈ l, (d.get? c).isSome = true) :
    ∃ d', pickSteps d l acc = .ok d' ∧ ∀ a, d'.get? a = if a ∈ l then d.get? a else acc.get? a := by
  induction l generalizing acc with
  | nil => exact ⟨acc, rfl, by simp⟩
  | cons b t ih =>
    obtain ⟨v, hv⟩ := Option.isSome_iff_exists.1 (h b (by simp))
    obtain ⟨d', h1, h2⟩ := ih (acc.set b v) (fun c hc => h c (by simp [hc]))
    refine ⟨d', by simp [pickSteps, PyDict.getItem, hv, h1, bind, Except.bind], fun a => ?_⟩
    rw [h2, PyDict.get?_set]
    by_cases e1 : a ∈ t <;> by_cases e2 : a = b
    · simp [e1]
    · simp [e1]
    · subst e2; simp [e1, hv]
    · simp [e1, e2]

/-- **C113.** `initialize` resolves an accepted `num_local_steps` to a dictionary with a positive integer for exactly the clients of the network (the common
value, or the client's own entry); it fails, with ValueError, only if a dictionary misses a client. Resolving the stored result again changes nothing. -/
theorem C113_steps_of_clients (clients : List A) (st : Steps A) (h : localSteps st = .ok ()) :
    (settle clients st = .error .valueError ∧ (∃ d, st = .map d ∧ ∃ c ∈ clients, c ∉ d.keys)) ∨
    ∃ d, settle clients st = .ok d ∧ (∀ c, c ∈ d.keys ↔ c ∈ clients) ∧
      (∀ c ∈ clients, ∃ v, d.get? c = some v ∧ PositiveInt v ∧ match st with
        | .one u => v = u
        | .map d0 => d0.get? c = some v) ∧
      ∃ d', settle clients (.map d) = .ok d' ∧ ∀ c, d'.get? c = d.get? c := by
  have again : ∀ d : PyDict A Val, (∀ a, (d.get? a).isSome = true ↔ a ∈ clients) → ∃ d', settle clients (.map d) = .ok d' ∧ ∀ c, d'.get? c = d.get? c := by
    intro d hd
    obtain ⟨d', h1, h2⟩ := pickSteps_spec d clients PyDict.empty (fun c hc => (hd c).2 hc)
    have hany : clients.any (fun c => !(d.contains c)) = false := by
      rw [List.any_eq_false]
      intro c hc
      simp [PyDict.contains, (hd c).2 hc]
    refine ⟨d', by simp [settle, hany, h1], fun c => ?_⟩
    rw [h2]
    by_cases hc : c ∈ clients
    · simp [hc]
    · simp only [hc, if_false, PyDict.get?_empty]
      cases hg : d.get? c with
      | none => rfl
      | some v => exact absurd ((hd c).1 (by simp [hg])) hc
  cases st with
  | one u =>
    right
    have hu : PositiveInt u := (C113_local_steps (A := A) (.one u)).1 h
    refine ⟨_, rfl, fun c => ?_, fun c hc => ⟨u, ?_, hu, rfl⟩, again _ fun a => ?_⟩
    · rw [PyDict.mem_keys_iff, foldl_set_get]
      by_cases hc : c ∈ clients <;> simp [hc]
    · rw [foldl_set_get, if_pos hc]
    · rw [foldl_set_get]
      by_cases hc : a ∈ clients <;> simp [hc]
  | map d0 =>
    have hd0 := (C113_local_steps (A := A) (.map d0)).1 h
    by_cases hmiss : ∃ c ∈ clients, c ∉ d0.keys
    · left
      obtain ⟨c, hc, hk⟩ := hmiss
      refine ⟨?_, d0, rfl, c, hc, hk⟩
      have : clients.any (fun c => !(d0.contains c)) = true := by
        rw [List.any_eq_true]
        refine ⟨c, hc, ?_⟩
        rw [PyDict.mem_keys_iff] at hk
        simpa [PyDict.contains] using hk
      simp [settle, this]
    · right
      push Not at hmiss
      have hall : ∀ c ∈ clients, (d0.get? c).isSome = true := fun c hc => (PyDict.mem_keys_iff d0 c).1 (hmiss c hc)
      obtain ⟨d', h1, h2⟩ := pickSteps_spec d0 clients PyDict.empty hall
      have hany : clients.any (fun c => !(d0.contains c)) = false := by
        rw [List.any_eq_false]
        intro c hc
        simp [PyDict.contains, hall c hc]
      have hkey : ∀ a, (d'.get? a).isSome = true ↔ a ∈ clients := by
        intro a
        rw [h2]
        by_cases hc : a ∈ clients
        · simp [hc, hall a hc]
        · simp [hc]
      refine ⟨d', by simp [settle, hany, h1], fun c => by rw [PyDict.mem_keys_iff]; exact hkey c, fun c hc => ?_, again d' hkey⟩
      obtain ⟨v, hv⟩ := Option.isSome_iff_exists.1 (hall c hc)
      exact ⟨v, by rw [h2, if_pos hc, hv], hd0 _ (PyDict.mem_entries_of_lookupL hv), hv⟩

end steps

/-! ### Fed-LT's solver arguments -/

/-- SPEC: the arguments of a solver, their ranges and defaults -/
def solverTable : String → List (String × Range × Val)
  | "adam" => [("beta1", .from0below1, .flt (9 / 10)), ("beta2", .from0below1, .flt (999 / 1000)), ("epsilon", .positive, .flt (1 / 100000000))]
  | "nesterov" => [("momentum", .from0below1, .flt (9 / 10))]
  | _ => []

/-- SPEC: the value used for an argument -/
def valueOf (user : PyDict String Val) (e : String × Range × Val) : Val := (user.get? e.1).getD e.2.2

theorem range_arg (r : Range) (a : Val) : (r = .from0below1 → (raiseUnless (a.ge 0) (a.lt 1) = .ok () ↔ Passes false r a)) ∧ (r = .positive → (raiseIf (a.le 0) = .ok () ↔ Passes false r a)) := by
  refine ⟨fun hr => ?_, fun hr => ?_⟩
  · subst hr
    have := (g_from0below1 (alg := .fedAvg) (v := fun _ => a) (p := .beta1) rfl).1
    exact this
  · subst hr
    have := (g_positive (alg := .fedAvg) (v := fun _ => a) (p := .beta1) rfl).1
    exact this

theorem bind_ok (x : Py Unit) (y : Py (PyDict String Val)) (d : PyDict String Val) : (x >>= fun _ => y) = .ok d ↔ x = .ok () ∧ y = .ok d := by
  cases x with
  | error e => exact ⟨fun h => (by cases h), fun h => (by cases h.1)⟩
  | ok u => exact ⟨fun h => ⟨rfl, h⟩, fun h => h.2⟩

/-- **C113.** Fed-LT accepts a solver and its arguments exactly if the solver exists, no unknown argument is given, and the given values (or the defaults) are
in range; the stored arguments are then exactly the solver's, with the given values where given. -/
theorem C113_solver (solver : String) (user args : PyDict String Val) :
    ltSolver solver user = .ok args ↔
      solver ∈ ["gd", "nesterov", "adam"] ∧ (∀ k ∈ user.keys, k ∈ (solverTable solver).map (fun e => e.1)) ∧
      (∀ e ∈ solverTable solver, Passes false e.2.1 (valueOf user e)) ∧ args = ⟨(solverTable solver).map (fun e => (e.1, valueOf user e))⟩ := by
  unfold ltSolver
  by_cases h : solver ≠ "gd" ∧ solver ≠ "nesterov" ∧ solver ≠ "adam"
  · rw [if_pos h]
    refine ⟨fun e => (by cases e), fun e => ?_⟩
    have := e.1
    simp only [List.mem_cons, List.not_mem_nil, or_false] at this
    rcases this with rfl | rfl | rfl
    · exact absurd rfl h.1
    · exact absurd rfl h.2.1
    · exact absurd rfl h.2.2
  · rw [if_neg h]
    have hin : solver = "gd" ∨ solver = "nesterov" ∨ solver = "adam" := by
      by_contra hn
      push Not at hn
      exact h hn
    have hunk : (user.keys.any (fun k => decide (k ∉ (solverDefaults solver).map Prod.fst)) = true) ↔ ¬ ∀ k ∈ user.keys, k ∈ (solverTable solver).map (fun e => e.1) := by
      have hkeys : (solverDefaults solver).map Prod.fst = (solverTable solver).map (fun e => e.1) := by
        rcases hin with rfl | rfl | rfl <;> rfl
      rw [hkeys, List.any_eq_true]
      push Not
      constructor
      · rintro ⟨k, hk, hd⟩; exact ⟨k, hk, by simpa using hd⟩
      · rintro ⟨k, hk, hd⟩; exact ⟨k, hk, by simpa using hd⟩
    have hmem : solver ∈ ["gd", "nesterov", "adam"] := by
      simp only [List.mem_cons, List.not_mem_nil, or_false]; exact hin
    dsimp only
    by_cases hu : ∀ k ∈ user.keys, k ∈ (solverTable solver).map (fun e => e.1)
    · rw [if_neg (by rw [hunk]; exact fun hh => hh hu)]
      have hrw : ∀ c : Prop, (solver ∈ ["gd", "nesterov", "adam"] ∧ (∀ k ∈ user.keys, k ∈ (solverTable solver).map (fun e => e.1)) ∧ c) ↔ c := fun c => ⟨fun hh => hh.2.2, fun hh => ⟨hmem, hu, hh⟩⟩
      rw [hrw]
      rcases hin with rfl | rfl | rfl
      · simp only [solverTable, solverDefaults, filled]
        rw [if_neg (by decide), if_neg (by decide)]
        simp [PyDict.empty, eq_comm]
      · simp only [solverTable]
        rw [if_neg (by decide), if_pos trivial, bind_ok]
        have e1 : arg (filled (solverDefaults "nesterov") user) "momentum" = valueOf user ("momentum", .from0below1, .flt (9 / 10)) := by
          simp [arg, filled, solverDefaults, valueOf]
        rw [e1, (range_arg .from0below1 _).1 rfl]
        simp [valueOf, filled, solverDefaults, PyDict.set, PyDict.setL, PyDict.empty, eq_comm]
      · simp only [solverTable]
        rw [if_pos trivial, bind_ok, bind_ok, bind_ok]
        have e1 : arg (filled (solverDefaults "adam") user) "beta1" = valueOf user ("beta1", .from0below1, .flt (9 / 10)) := by
          simp [arg, filled, solverDefaults, valueOf]
        have e2 : arg (filled (solverDefaults "adam") user) "beta2" = valueOf user ("beta2", .from0below1, .flt (999 / 1000)) := by
          simp [arg, filled, solverDefaults, valueOf]
        have e3 : arg (filled (solverDefaults "adam") user) "epsilon" = valueOf user ("epsilon", .positive, .flt (1 / 100000000)) := by
          simp [arg, filled, solverDefaults, valueOf]
        rw [e1, e2, e3, (range_arg .from0below1 _).1 rfl, (range_arg .from0below1 _).1 rfl, (range_arg .positive _).2 rfl]
        simp [valueOf, filled, solverDefaults, PyDict.set, PyDict.setL, PyDict.empty, eq_comm, and_assoc]
    · rw [if_pos (hunk.2 hu)]
      exact ⟨fun e => (by cases e), fun e => absurd e.2.1 hu⟩

/-! ### examples for C113 -/

/-- arguments accepted by every algorithm -/
def usual : P → Val
  | .iterations => .int 100
  | .numLocalSteps => .int 5
  | .chi => .flt 1
  | _ => .flt (1 / 2)

theorem usual_annotated : Annotated usual := by intro p; cases p <;> simp [usual]

/-- all algorithms accept `usual` -/
theorem usual_accepted (alg : Algo) : construct alg usual = .ok () := by
  rw [(C113_annotated alg usual usual_annotated).1]
  intro e he
  cases alg <;> simp only [documented, List.mem_cons, List.not_mem_nil, or_false] at he <;>
    (repeat' rcases he with rfl | he) <;> (try subst he) <;> simp [usual, number, Range.holds] <;> norm_num

example : construct .kgt (fun p => if p = .stepSize then .int (-3) else usual p) = .ok () :=
  (C113_integer_step_refuted .kgt (by simp [floatOnly]) usual (usual_accepted _) (-3)).2

example : construct .dgd (fun p => if p = .stepSize then .nan else usual p) = .ok () :=
  (C113_not_finite .dgd usual (usual_accepted _) .stepSize .positive (by simp [documented]) .nan (Or.inl rfl)).2 rfl

example : runHead (.flt 10) 0 = (true, .error .typeError) ∧ runHead (.int 10) 0 = (true, .ok 10) := by
  constructor
  · have : ¬ (10 : Rat) < 0 := by norm_num
    simp [runHead, Val.lt, this]
  · simp [runHead, Val.lt]

example : localSteps (.map ⟨[(1, .int 2), (2, .int 3)]⟩ : Steps Nat) = .ok () := by rw [C113_local_steps]; simp [PositiveInt]

example : ∃ args, ltSolver "adam" ⟨[("beta1", .flt (1 / 2))]⟩ = .ok args := by
  refine ⟨_, (C113_solver "adam" ⟨[("beta1", .flt (1 / 2))]⟩ _).2 ⟨by simp, ?_, ?_, rfl⟩⟩
  · simp [PyDict.keys, solverTable]
  · simp only [solverTable, List.mem_cons, List.not_mem_nil, or_false, valueOf, PyDict.get?, PyDict.lookupL]
    rintro e (rfl | rfl | rfl) <;> simp [Passes, Range.holds] <;> norm_num

/-! ## C114 -/

section reuse
variable {A V S : Type} [DecidableEq A] [DecidableEq S]
open X0Env

/-- SPEC: arrays and networks as they are: array arithmetic keeps shapes, the graph consists of the agents (peer-to-peer), or of the clients and the server
(federated), and in a federated network all costs have the same shape -/
structure RealEnv (e : X0Env A V S) : Prop where
  zeros : ∀ s, e.shapeOf (e.zeros s) = s
  add : ∀ u v, e.shapeOf (e.add u v) = e.shapeOf u
  div : ∀ u n, e.shapeOf (e.divNat u n) = e.shapeOf u
  like : ∀ u, e.shapeOf (e.zerosLike u) = e.shapeOf u
  nodup : e.graph.Nodup
  kind : (e.server = none ∧ e.agents = e.graph) ∨
    ∃ sv, e.server = some sv ∧ sv ∉ e.agents ∧ (∀ a, a ∈ e.graph ↔ a = sv ∨ a ∈ e.agents) ∧ e.agents ≠ [] ∧ ∀ a ∈ e.agents, e.costShape a = e.costShape sv

theorem givenFor_mem {r : List (A × V)} (hn : (r.map Prod.fst).Nodup) {p : A × V} (hp : p ∈ r) : givenFor r p.1 = some p.2 := by
  unfold givenFor
  have hnr : (r.reverse.map Prod.fst).Nodup := ((List.reverse_perm r).map Prod.fst).nodup_iff.2 hn
  have hpr : p ∈ r.reverse := List.mem_reverse.2 hp
  generalize r.reverse = l at hnr hpr
  induction l with
  | nil => simp at hpr
  | cons q t ih =>
    rw [List.map_cons, List.nodup_cons] at hnr
    rcases List.mem_cons.1 hpr with rfl | hpt
    · simp
    · have : q.1 ≠ p.1 := fun e => hnr.1 (e ▸ List.mem_map_of_mem hpt)
      rw [List.find?_cons_of_neg (by simpa using this)]
      exact ih hnr.2 hpt

theorem givenFor_none {r : List (A × V)} {a : A} (h : a ∉ r.map Prod.fst) : givenFor r a = none := by
  unfold givenFor
  rw [List.find?_eq_none.2]
  · rfl
  · intro p hp hh
    exact h (by rw [← (by simpa using hh : p.1 = a)]; exact List.mem_map_of_mem (List.mem_reverse.1 hp))

theorem eq_of_keys {l l' : List (A × V)} (hk : l.map Prod.fst = l'.map Prod.fst) (h : ∀ p ∈ l, ∀ p' ∈ l', p.1 = p'.1 → p.2 = p'.2) : l = l' := by
  induction l generalizing l' with
  | nil => cases l' with
    | nil => rfl
    | cons _ _ => simp at hk
  | cons p t ih =>
    cases l' with
    | nil => simp at hk
    | cons p' t' =>
      rw [List.map_cons, List.map_cons, List.cons.injEq] at hk
      have : p = p' := Prod.ext hk.1 (h p (by simp) p' (by simp) hk.1)
      rw [this, ih hk.2 (fun q hq q' hq' => h q (by simp [hq]) q' (by simp [hq']))]

/-- resolving resolved states again changes nothing -/
theorem resolve_again {e : X0Env A V S} (he : RealEnv e) {r : List (A × V)} (hk : r.map Prod.fst = e.graph) (hs : ∀ p ∈ r, e.shapeOf p.2 = e.costShape p.1) :
    initialStates e (.dict r) = .ok r := by
  have hn : (r.map Prod.fst).Nodup := hk ▸ he.nodup
  have hgiven : ∀ a ∈ e.graph, (givenFor r a).isSome = true := by
    intro a ha
    rw [← hk] at ha
    obtain ⟨p, hp, rfl⟩ := List.mem_map.1 ha
    rw [givenFor_mem hn hp]; rfl
  rcases he.kind with ⟨h1, h2⟩ | ⟨sv, h1, h2, h3, h4, _⟩
  · obtain ⟨out, ho, hok, hov⟩ := (C22_dict_p2p e h1 h2 r).1 hs hgiven
    rw [ho]
    congr 1
    refine eq_of_keys (hok.trans hk.symm) fun p hp p' hp' hpp => ?_
    have a1 := hov p hp
    have a2 := givenFor_mem hn hp'
    rw [hpp, a2] at a1
    exact (Option.some.inj a1).symm
  · obtain ⟨out, ho, hok, hov, hosv, _⟩ := (C22_dict_fed e sv h1 h2 h3 h4 r).1 hs (fun a ha => hgiven a ((h3 a).2 (Or.inr ha)))
    rw [ho]
    congr 1
    refine eq_of_keys (hok.trans hk.symm) fun p hp p' hp' hpp => ?_
    have a2 := givenFor_mem hn hp'
    by_cases hps : p.1 = sv
    · have a1 := hosv p hp hps (hgiven sv ((h3 sv).2 (Or.inl rfl)))
      rw [← hps, hpp, a2] at a1
      exact (Option.some.inj a1).symm
    · have a1 := hov p hp hps
      rw [hpp, a2] at a1
      exact (Option.some.inj a1).symm

theorem mean_shape {e : X0Env A V S} (he : RealEnv e) {cs : List V} {v : V} {s : S} (h : meanState e cs = some v) (hs : ∀ u ∈ cs, e.shapeOf u = s) : e.shapeOf v = s := by
  cases cs with
  | nil => cases h
  | cons u t =>
    simp only [meanState, Option.some.injEq] at h
    subst h
    rw [he.div]
    have : ∀ (l : List V) (w : V), e.shapeOf (l.foldl e.add w) = e.shapeOf w := by
      intro l
      induction l with
      | nil => intro w; rfl
      | cons a t ih => intro w; rw [List.foldl_cons, ih, he.add]
    rw [this, he.like]
    exact hs u (by simp)

theorem givenFor_shape {e : X0Env A V S} {d : List (A × V)} (hd : ∀ p ∈ d, e.shapeOf p.2 = e.costShape p.1) {a : A} {v : V} (h : givenFor d a = some v) : e.shapeOf v = e.costShape a := by
  unfold givenFor at h
  cases hf : d.reverse.find? (fun e => decide (e.1 = a)) with
  | none => rw [hf] at h; cases h
  | some q =>
    rw [hf] at h
    cases h
    have h1 := List.mem_of_find?_eq_some hf
    have h2 : q.1 = a := by simpa using List.find?_some hf
    rw [← h2]; exact hd q (List.mem_reverse.1 h1)

/-- the resolved states: one for every node of the graph, of the right shape -/
theorem resolved_shape {e : X0Env A V S} (he : RealEnv e) {x0 : X0 A V} {r : List (A × V)} (h : initialStates e x0 = .ok r) :
    r.map Prod.fst = e.graph ∧ ∀ p ∈ r, e.shapeOf p.2 = e.costShape p.1 := by
  cases x0 with
  | none =>
    rw [C22_none] at h
    cases h
    refine ⟨by simp [List.map_map, Function.comp_def], ?_⟩
    intro p hp
    obtain ⟨a, _, rfl⟩ := List.mem_map.1 hp
    exact he.zeros _
  | arr v =>
    by_cases hv : ∀ a ∈ e.graph, e.shapeOf v = e.costShape a
    · rw [(C22_array e v).1 hv] at h
      cases h
      refine ⟨by simp [List.map_map, Function.comp_def], ?_⟩
      intro p hp
      obtain ⟨a, ha, rfl⟩ := List.mem_map.1 hp
      exact hv a ha
    · push Not at hv
      rw [(C22_array e v).2 hv] at h
      cases h
  | dict d =>
    by_cases hd : ∀ p ∈ d, e.shapeOf p.2 = e.costShape p.1
    · rcases he.kind with ⟨h1, h2⟩ | ⟨sv, h1, h2, h3, h4, h5⟩
      · by_cases hg : ∀ a ∈ e.graph, (givenFor d a).isSome = true
        · obtain ⟨out, ho, hok, hov⟩ := (C22_dict_p2p e h1 h2 d).1 hd hg
          rw [ho] at h
          cases h
          exact ⟨hok, fun p hp => givenFor_shape hd (hov p hp)⟩
        · push Not at hg
          obtain ⟨a, ha, hn⟩ := hg
          rw [(C22_dict_p2p e h1 h2 d).2 (Or.inr ⟨a, ha, by simpa using hn⟩)] at h
          cases h
      · by_cases hg : ∀ a ∈ e.agents, (givenFor d a).isSome = true
        · obtain ⟨out, ho, hok, hov, hosv, hmean⟩ := (C22_dict_fed e sv h1 h2 h3 h4 d).1 hd hg
          rw [ho] at h
          cases h
          refine ⟨hok, fun p hp => ?_⟩
          by_cases hps : p.1 = sv
          · cases hgs : givenFor d sv with
            | some v =>
              have := hosv p hp hps (by rw [hgs]; rfl)
              rw [hps]; exact givenFor_shape hd this
            | none =>
              obtain ⟨cs, hcs, hm⟩ := hmean p hp hps hgs
              rw [hps]
              refine mean_shape he hm fun u hu => ?_
              have : some u ∈ e.agents.map (givenFor d) := by rw [hcs]; exact List.mem_map_of_mem hu
              obtain ⟨a, ha, hau⟩ := List.mem_map.1 this
              rw [← h5 a ha]; exact givenFor_shape hd hau
          · exact givenFor_shape hd (hov p hp hps)
        · push Not at hg
          obtain ⟨a, ha, hn⟩ := hg
          rw [(C22_dict_fed e sv h1 h2 h3 h4 d).2 (Or.inr ⟨a, ha, by simpa using hn⟩)] at h
          cases h
    · push Not at hd
      rcases he.kind with ⟨h1, h2⟩ | ⟨sv, h1, h2, h3, h4, h5⟩
      · rw [(C22_dict_p2p e h1 h2 d).2 (Or.inl hd)] at h; cases h
      · rw [(C22_dict_fed e sv h1 h2 h3 h4 d).2 (Or.inl hd)] at h; cases h
  | other => cases h

/-- **C114.** Running the same algorithm object again on the same network starts from the same states, any number of times. -/
theorem C114_same_network (alg : Algo) (e : X0Env A V S) (he : RealEnv e) (x0 x0' : X0 A V) (r : List (A × V)) (h : resolveX0 alg e x0 = .ok (r, x0')) :
    resolveX0 alg e x0' = .ok (r, x0') := by
  unfold resolveX0 at h ⊢
  cases hr : initialStates e x0 with
  | error x => rw [hr] at h; cases h
  | ok r0 =>
    rw [hr] at h
    simp only [bind, Except.bind, Except.ok.injEq, Prod.mk.injEq] at h
    obtain ⟨rfl, rfl⟩ := h
    by_cases hk : keepsStates alg = true
    · simp only [hk, if_true]
      obtain ⟨h1, h2⟩ := resolved_shape he hr
      rw [resolve_again he h1 h2]
      rfl
    · simp only [hk]
      simp only [Bool.false_eq_true, if_false]
      rw [hr]
      rfl

/-- **C114, refuted for algorithms that store their initial states.** With `x0 = None` an algorithm object starts every network at zero; but once it has been run on
one network, it refuses, with ValueError, every network that has an agent the first did not have. -/
theorem C114_other_network_refuted (alg : Algo) (hk : keepsStates alg = true) (e e2 : X0Env A V S) (he : RealEnv e) (he2 : RealEnv e2)
    (a : A) (ha : a ∈ e2.agents) (hna : a ∉ e.graph) :
    ∃ r x0', resolveX0 alg e .none = .ok (r, x0') ∧ resolveX0 alg e2 x0' = .error .valueError ∧ ∃ r2 x2, resolveX0 alg e2 .none = .ok (r2, x2) := by
  have hr := C22_none e
  obtain ⟨h1, h2⟩ := resolved_shape he hr
  refine ⟨e.graph.map (fun a => (a, e.zeros (e.costShape a))), .dict (e.graph.map (fun a => (a, e.zeros (e.costShape a)))), by simp only [resolveX0, hr, bind, Except.bind, hk, if_true], ?_, _, _, rfl⟩
  have hno : givenFor (e.graph.map (fun a => (a, e.zeros (e.costShape a)))) a = none := givenFor_none (by rw [h1]; exact hna)
  have : initialStates e2 (.dict (e.graph.map (fun a => (a, e.zeros (e.costShape a))))) = .error .valueError := by
    rcases he2.kind with ⟨k1, k2⟩ | ⟨sv, k1, k2, k3, k4, _⟩
    · exact (C22_dict_p2p e2 k1 k2 _).2 (Or.inr ⟨a, k2 ▸ ha, hno⟩)
    · exact (C22_dict_fed e2 sv k1 k2 k3 k4 _).2 (Or.inr ⟨a, ha, hno⟩)
  simp only [resolveX0, this, bind, Except.bind]

/-- **C114.** The algorithms that do not store their initial states can be used on any sequence of networks: the states never depend on earlier runs. -/
theorem C114_fresh_every_time (alg : Algo) (hk : keepsStates alg = false) (e : X0Env A V S) (x0 x0' : X0 A V) (r : List (A × V)) (h : resolveX0 alg e x0 = .ok (r, x0')) : x0' = x0 := by
  unfold resolveX0 at h
  cases hr : initialStates e x0 with
  | error x => rw [hr] at h; cases h
  | ok r0 =>
    rw [hr] at h
    simp only [bind, Except.bind, Except.ok.injEq, Prod.mk.injEq, hk] at h
    simpa using h.2.symm

end reuse

/-- a peer-to-peer network with scalar states -/
def scalarEnv (nodes : List Nat) : X0Env Nat Rat Unit where
  shapeOf _ := ()
  costShape _ := ()
  zeros _ := 0
  add := (· + ·)
  divNat a n := a / n
  zerosLike _ := 0
  graph := nodes
  agents := nodes
  server := none

theorem scalarEnv_real (nodes : List Nat) (h : nodes.Nodup) : RealEnv (scalarEnv nodes) :=
  ⟨fun _ => rfl, fun _ _ => rfl, fun _ _ => rfl, fun _ => rfl, h, Or.inl ⟨rfl, rfl⟩⟩

/-- EXTRA run on agents 1, 2 and then on agents 3, 4 -/
example : ∃ r x0', resolveX0 .extra (scalarEnv [1, 2]) .none = .ok (r, x0') ∧ resolveX0 .extra (scalarEnv [3, 4]) x0' = .error .valueError ∧
    ∃ r2 x2, resolveX0 .extra (scalarEnv [3, 4]) .none = .ok (r2, x2) :=
  C114_other_network_refuted .extra rfl _ _ (scalarEnv_real [1, 2] (by decide)) (scalarEnv_real [3, 4] (by decide)) 3 (by simp [scalarEnv]) (by simp [scalarEnv])

end Verif.Props
