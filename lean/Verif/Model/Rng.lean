import Verif.Model.Py
/-!
# Managed random generators  (decent_bench/utils/interoperability/_rng.py)

Generator algorithms are abstract: `Gen` gives, for each library, the state reached by seeding and the effect of a draw.
All four libraries are taken to be installed, without CUDA generators; the TensorFlow generator and the JAX key exist from
the import on (_rng.py 57-62).
-/
namespace Verif.Rng
open Verif

/-- supported frameworks -/
inductive Fw where
  | numpy | pytorch | tensorflow | jax
  deriving DecidableEq, Repr

/-- a random library: state type, seeding, drawing (the request is the method with its arguments) -/
structure Lib where
  St : Type
  Req : Type
  Val : Type
  seed : Int → St
  draw : Req → St → Val × St

/-- the libraries in use; `torchInitial` is `torch.initial_seed()` of the default generator's state and `torchBlank` the
state of a new `torch.Generator()` -/
structure Libs where
  py : Lib
  np : Lib
  npLegacy : Lib
  torch : Lib
  tf : Lib
  jax : Lib
  torchInitial : torch.St → Int
  torchBlank : torch.St

/-- all managed state (_rng.py 47-62); `torchGens` is `_STATE.torch_generators`, by device -/
structure State (L : Libs) where
  globalSeed : Option Int
  py : L.py.St
  np : L.np.St
  npLegacy : L.npLegacy.St
  torch : L.torch.St
  torchGens : PyDict Nat L.torch.St
  tf : L.tf.St
  jax : L.jax.St

/-- `_selected_frameworks` (_rng.py 65-68) -/
def selected (fs : Option (List Fw)) (f : Fw) : Bool :=
  match fs with
  | none => true
  | some l => decide (f ∈ l)

/-- `_set_seed` (_rng.py 85-128) -/
def setSeed {L : Libs} (seed : Int) (fs : Option (List Fw)) (setGlobal : Bool) (s : State L) : State L :=
  let s := { s with py := L.py.seed seed }
  let s := if selected fs .numpy then { s with npLegacy := L.npLegacy.seed seed, np := L.np.seed seed } else s
  let s := if selected fs .pytorch then { s with torch := L.torch.seed seed, torchGens := PyDict.empty } else s
  let s := if selected fs .tensorflow then { s with tf := L.tf.seed seed } else s
  let s := if selected fs .jax then { s with jax := L.jax.seed seed } else s
  if setGlobal then { s with globalSeed := some seed } else s

/-- `rng_torch(device)` (_rng.py 158-177): the generator for a device, created on first use -/
def torchGen {L : Libs} (dev : Nat) (s : State L) : L.torch.St × State L :=
  match s.torchGens.get? dev with
  | some g => (g, s)
  | none =>
    let g := if s.globalSeed.isSome then L.torch.seed (L.torchInitial s.torch) else L.torchBlank
    (g, { s with torchGens := s.torchGens.set dev g })

/-- a request for random values, or a (re-)seeding -/
inductive Act (L : Libs) where
  | py (r : L.py.Req)
  | np (r : L.np.Req)
  | npLegacy (r : L.npLegacy.Req)
  | torch (r : L.torch.Req)
  | torchDev (dev : Nat) (r : L.torch.Req)
  | tf (r : L.tf.Req)
  | jax (r : L.jax.Req)
  | seed (seed : Int) (fs : Option (List Fw)) (setGlobal : Bool)

/-- a value obtained from some library -/
inductive Out (L : Libs) where
  | py (v : L.py.Val)
  | np (v : L.np.Val)
  | npLegacy (v : L.npLegacy.Val)
  | torch (v : L.torch.Val)
  | tf (v : L.tf.Val)
  | jax (v : L.jax.Val)
  | none

/-- perform one action -/
def act {L : Libs} : Act L → State L → Out L × State L
  | .py r, s => let x := L.py.draw r s.py; (.py x.1, { s with py := x.2 })
  | .np r, s => let x := L.np.draw r s.np; (.np x.1, { s with np := x.2 })
  | .npLegacy r, s => let x := L.npLegacy.draw r s.npLegacy; (.npLegacy x.1, { s with npLegacy := x.2 })
  | .torch r, s => let x := L.torch.draw r s.torch; (.torch x.1, { s with torch := x.2 })
  | .torchDev dev r, s =>
    let g := torchGen dev s
    let x := L.torch.draw r g.1
    (.torch x.1, { g.2 with torchGens := g.2.torchGens.set dev x.2 })
  | .tf r, s => let x := L.tf.draw r s.tf; (.tf x.1, { s with tf := x.2 })
  | .jax r, s => let x := L.jax.draw r s.jax; (.jax x.1, { s with jax := x.2 })
  | .seed n fs g, s => (.none, setSeed n fs g s)

/-- a sequence of actions: the values obtained, in order, and the final state -/
def run {L : Libs} : List (Act L) → State L → List (Out L) × State L
  | [], s => ([], s)
  | a :: t, s =>
    let x := act a s
    let y := run t x.2
    (x.1 :: y.1, y.2)

/-- the dictionary returned by `get_rng_state` (_rng.py 196-229); optional entries as options -/
structure Captured (L : Libs) where
  seed : Option Int
  py : L.py.St
  np : L.np.St
  npLegacy : L.npLegacy.St
  torch : Option (L.torch.St × List (Nat × L.torch.St))
  tf : Option L.tf.St
  jax : Option L.jax.St

/-- `get_rng_state(frameworks)` (_rng.py 196-229) -/
def capture {L : Libs} (fs : Option (List Fw)) (s : State L) : Captured L where
  seed := s.globalSeed
  py := s.py
  np := s.np
  npLegacy := s.npLegacy
  torch := if selected fs .pytorch then some (s.torch, s.torchGens.entries) else none
  tf := if selected fs .tensorflow then some s.tf else none
  jax := if selected fs .jax then some s.jax else none

/-- `set_rng_state(state)` (_rng.py 232-266); the torch generators are rebuilt one by one in the order of the dictionary -/
def restore {L : Libs} (c : Captured L) (s : State L) : State L :=
  let s := { s with globalSeed := c.seed, py := c.py, np := c.np, npLegacy := c.npLegacy }
  let s := match c.torch with
    | some t => { s with torch := t.1, torchGens := t.2.foldl (fun d e => d.set e.1 e.2) PyDict.empty }
    | none => s
  let s := match c.tf with
    | some t => { s with tf := t }
    | none => s
  match c.jax with
  | some t => { s with jax := t }
  | none => s

end Verif.Rng
