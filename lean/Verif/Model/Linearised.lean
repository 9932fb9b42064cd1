import Verif.Model.P2PAlgos
/-!
# DLM and DiNNO on arrays whose `+=` makes a new array (_dlm.py, _dinno.py)

For JAX and TensorFlow arrays `value1 += value2` inside `iop.ext.iadd` / `idiv` rebinds a local name to a new array
(utils/interoperability/_operators.py 74-79, 272-277), so the in-place sums of the two algorithms leave the received messages alone.
`Model/Alias.lean` models the same code on NumPy arrays and torch tensors, where they do not. Here the algorithms are put on the network
model of `Model/Network.lean`, with activity schemes, losses, compression and noise as in the other peer-to-peer algorithms.
-/
namespace Verif.P2P
open Verif Sys
variable {A E Ω : Type} [DecidableEq A] [AddCommGroup E] [Module ℝ E]

/-- `s = None; for val in messages: s = val if s is None else s += val` (_dlm.py 94-101, _dinno.py 91-96, 105-110) -/
def sumFresh : List (A × E) → Option E
  | [] => none
  | e :: t => some (t.foldl (fun s v => s + v.2) e.2)

/-- `len(i.messages()) * x - s`, if anything was received (_dlm.py 68-70, 83-85, _dinno.py 97-98) -/
def gapTo (x : E) (received : PyDict A E) : Option E := (sumFresh received.entries).map (fun s => received.entries.length • x - s)

/-- DLM's variables: `x` and `aux_vars` `y`, `s` -/
structure DlmLoc (E : Type) where
  x : E
  y : E
  s : E

/-- `initialize` (_dlm.py 52-56) and `step` (58-92) -/
noncomputable def dlm (grad : Grad A E Ω) (μ ρ : ℝ) : P2PAlg A E Ω (DlmLoc E) where
  init _ x0 ω := (⟨x0, 0, 0⟩, ω)
  step w n k s :=
    if k = 0 then do
      let s ← forActive w n (say w n (fun _ a => a) (fun _ a => [(.dflt, a.x)])) s
      forActive w n (own (fun _ inbox a ω => ({ a with s := (gapTo a.x (inbox.byChannel .dflt)).getD a.s }, ω))) s
    else do
      let s ← forActive w n (own (fun i _ a ω =>
        let g := grad i a.x ω
        ({ a with x := a.x - μ • (g.1 + ρ • a.s + a.y) }, g.2))) s
      let s ← forActive w n (say w n (fun _ a => a) (fun _ a => [(.dflt, a.x)])) s
      let s ← forActive w n (own (fun _ inbox a ω => ({ a with s := (gapTo a.x (inbox.byChannel .dflt)).getD a.s }, ω))) s
      forActive w n (own (fun _ _ a ω => ({ a with y := a.y + ρ • a.s }, ω))) s

/-- DiNNO's variables: `x` and `aux_vars` `p` -/
structure DinnoLoc (E : Type) where
  x : E
  p : E

/-- the loop of `_local_training` (_dinno.py 115-133); `m` is `len(agent.messages())`, `half` the halved sum of the received states -/
noncomputable def dinnoTrain (grad : E → Ω → E × Ω) (μ ρ : ℝ) (m : Nat) (xi p : E) (half : Option E) : Nat → E → Ω → E × Ω
  | 0, psi, ω => (psi, ω)
  | B + 1, psi, ω =>
    let g := grad psi ω
    let consensus := match half with
      | none => 0
      | some h => (2 * ρ) • (m • (psi - (1 / 2 : ℝ) • xi) - h)
    dinnoTrain grad μ ρ m xi p half B (psi - μ • (g.1 + p + consensus)) g.2

/-- `p += penalty * consensus_error`, if anything was received (_dinno.py 97-99) -/
noncomputable def dinnoP (ρ : ℝ) (p : E) : Option E → E
  | none => p
  | some e => p + ρ • e

/-- `initialize` (_dinno.py 57-69) and `step` (71-87, 89-136) -/
noncomputable def dinno (grad : Grad A E Ω) (μ ρ : ℝ) (B : Nat) : P2PAlg A E Ω (DinnoLoc E) where
  init _ x0 ω := (⟨x0, 0⟩, ω)
  step w n _ s := do
    let s ← forActive w n (say w n (fun _ a => a) (fun _ a => [(.dflt, a.x)])) s
    let s ← forActive w n (own (fun _ inbox a ω =>
      ({ a with p := dinnoP ρ a.p (gapTo a.x (inbox.byChannel .dflt)) }, ω))) s
    forActive w n (own (fun i inbox a ω =>
      let d := inbox.byChannel .dflt
      let r := dinnoTrain (grad i) μ ρ d.entries.length a.x a.p ((sumFresh d.entries).map (fun s => (1 / 2 : ℝ) • s)) B a.x ω
      ({ a with x := r.1 }, r.2))) s

end Verif.P2P
