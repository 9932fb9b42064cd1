import Mathlib.Data.Real.Basic
import Verif.Model.Py
/-!
# Activation and drop schemes  (decent_bench/schemes.py 38-171, 673-748)

Random draws are read from an explicit infinite tape with a cursor: `u : Nat → ℝ` for `random()` in `[0,1)`,
`d : Nat → Nat` for Poisson draws. Probabilities are exact reals (floating point is not modelled).
-/
namespace Verif.Schemes

/-- `AlwaysActive.is_active` (schemes.py 41-42) -/
def alwaysActive (_iteration : Int) : Bool := true

/-- Constructor guard of `UniformActivationRate` / `UniformDropRate` (schemes.py 59-62, 704-707) -/
noncomputable def rateCtor (p : ℝ) : Py ℝ := if p < 0 ∨ p > 1 then .error .valueError else .ok p

/-- `random.random() < p` (schemes.py 65, 710), `u` being the draw -/
noncomputable def bernoulli (p u : ℝ) : Bool := decide (u < p)

/-- `CyclicActivation` fields (schemes.py 161-163) -/
structure Cyclic where
  activeFor : Int
  inactiveFor : Int
  offset : Int
  deriving DecidableEq

/-- `CyclicActivation.__init__` (schemes.py 153-163) -/
def Cyclic.ctor (activeFor : Int) (inactiveFor : Option Int) (offset : Int) : Py Cyclic :=
  let inact := inactiveFor.getD activeFor
  if activeFor < 0 ∨ inact < 0 then .error .valueError
  else if offset < 0 then .error .valueError
  else if activeFor = 0 ∧ inact = 0 then .error .valueError
  else .ok ⟨activeFor, inact, offset⟩

/-- `CyclicActivation.is_active` (schemes.py 165-171); Python `%` with a positive modulus is `Int.emod` -/
def Cyclic.isActive (s : Cyclic) (iteration : Int) : Py Bool :=
  if iteration < 0 then .error .valueError
  else
    let period := s.activeFor + s.inactiveFor
    let phase := (iteration + s.offset) % period
    .ok (decide (phase < s.activeFor))

/-- `PoissonActivation` state: `_countdown` and the position on the tape of Poisson draws -/
structure Poisson where
  countdown : Nat
  pos : Nat

/-- `PoissonActivation.__init__` (schemes.py 121-125); the guard on the mean does not involve the state -/
def Poisson.ctor (d : Nat → Nat) : Poisson := ⟨d 0, 1⟩

/-- `PoissonActivation.is_active` (schemes.py 127-132) -/
def Poisson.isActive (d : Nat → Nat) (s : Poisson) : Bool × Poisson :=
  if s.countdown = 0 then (true, ⟨d s.pos, s.pos + 1⟩)
  else (false, ⟨s.countdown - 1, s.pos⟩)

/-- `Generator.choice([0, 1], p=[p0, p1])`: index of the first cumulative probability exceeding the draw
(NumPy: `searchsorted(cumsum(p), u, side="right")`), as a Boolean (`true` = state 1) -/
noncomputable def choice2 (p0 u : ℝ) : Bool := !decide (u < p0)

/-- `MarkovChainActivation` state: `_current_state` (`true` = 1 = active) and tape position -/
structure Markov where
  i2a : ℝ
  a2i : ℝ
  state : Bool
  pos : Nat

/-- `MarkovChainActivation.__init__` (schemes.py 83-96): initial state drawn with `p=[0, 1]` -/
noncomputable def Markov.ctor (i2a a2i : ℝ) (u : Nat → ℝ) : Py Markov :=
  if (i2a < 0 ∨ i2a > 1) ∨ (a2i < 0 ∨ a2i > 1) then .error .valueError
  else .ok ⟨i2a, a2i, choice2 0 (u 0), 1⟩

/-- first entry of row `_P[state]` (schemes.py 89-94) -/
noncomputable def Markov.p0 (s : Markov) : ℝ := if s.state then s.a2i else 1 - s.i2a

/-- `MarkovChainActivation.is_active` (schemes.py 98-104) -/
noncomputable def Markov.isActive (u : Nat → ℝ) (s : Markov) : Bool × Markov :=
  let st := choice2 s.p0 (u s.pos)
  (st, { s with state := st, pos := s.pos + 1 })

/-- `GilbertElliott` state (`true` = 1 = bad) -/
structure GE where
  dropRate : ℝ
  b2g : ℝ
  g2b : ℝ
  bad : Bool
  pos : Nat

/-- `GilbertElliott.__init__` (schemes.py 732-743); `init` is the uniformly drawn initial state -/
noncomputable def GE.ctor (dropRate b2g g2b : ℝ) (init : Bool) : Py GE :=
  if dropRate < 0 ∨ dropRate > 1 then .error .valueError
  else if (b2g < 0 ∨ b2g > 1) ∨ (g2b < 0 ∨ g2b > 1) then .error .valueError
  else .ok ⟨dropRate, b2g, g2b, init, 0⟩

/-- first entry of row `_P[state]` (schemes.py 742) -/
noncomputable def GE.p0 (s : GE) : ℝ := if s.bad then s.b2g else 1 - s.g2b

/-- `GilbertElliott.should_drop` (schemes.py 745-750): evolve, then one more draw only in the bad state -/
noncomputable def GE.shouldDrop (u : Nat → ℝ) (s : GE) : Bool × GE :=
  let st := choice2 s.p0 (u s.pos)
  if st then (bernoulli s.dropRate (u (s.pos + 1)), { s with bad := st, pos := s.pos + 2 })
  else (false, { s with bad := st, pos := s.pos + 1 })

/-- state of a stateful scheme after `n` queries (each query may change the state: the schemes are objects) -/
def after {S : Type} (f : S → Bool × S) : Nat → S → S
  | 0, s => s
  | n + 1, s => after f n (f s).2

/-- answer of the `t`-th query (counting from 0) -/
def answer {S : Type} (f : S → Bool × S) (s : S) (t : Nat) : Bool := (f (after f t s)).1

end Verif.Schemes
