import Verif.Model.Agent
/-!
# Algorithm.run  (decent_bench/algorithms/_algorithm.py 20-125) and initial_states (algorithms/utils.py 17-82)

The system state `σ` (network, agents, algorithm object, random state) is abstract: `run` below is parametric in the effects
of the calls it makes.
-/
namespace Verif

/-- The calls `Algorithm.run` makes, as effects on a system state. -/
structure RunOps (σ : Type) where
  /-- `self.initialize(network)` (117) -/
  setup : σ → Py σ
  /-- `network._step(k)` (120; networks.py 340-353) -/
  netStep : Int → σ → σ
  /-- `self.step(network, k)` (121) -/
  step : Int → σ → Py σ
  /-- `self._snapshot_agents(network, it)` with the `force` flag (79-82, 123) -/
  snapshot : Int → Bool → σ → Py σ
  /-- `progress_callback(k)` (124-125) -/
  callback : Int → σ → Py σ

namespace RunOps
variable {σ : Type}

/-- one pass of the loop body (_algorithm.py 119-125) in an algorithm with `iterations` iterations;
`force=iteration == self.iterations` (82) -/
def body (o : RunOps σ) (iterations : Int) (k : Int) (s : σ) : Py σ := do
  let s := o.netStep k s
  let s ← o.step k s
  let s ← o.snapshot (k + 1) (k + 1 == iterations) s
  o.callback k s

/-- `for k in range(start, start + n)` -/
def loop (o : RunOps σ) (iterations : Int) : Nat → Int → σ → Py σ
  | 0, _, s => .ok s
  | n + 1, k, s => do
    let s ← o.body iterations k s
    loop o iterations n (k + 1) s

/-- `Algorithm.run` (_algorithm.py 84-125) -/
def run (o : RunOps σ) (iterations : Int) (start : Int) (s : σ) : Py σ :=
  if start < 0 ∨ start > iterations then .error .valueError
  else do
    let s ← if start = 0 then o.setup s else .ok s
    o.loop iterations (iterations - start).toNat start s

end RunOps

/-- `__post_init__` injected by `Algorithm.__init_subclass__` (_algorithm.py 20-31): iterations guard, then the
subclass's own checks -/
def algorithmPostInit (iterations : Int) (sub : Py Unit) : Py Unit :=
  if iterations ≤ 0 then .error .valueError else sub

/-! ## A system with histories -/

/-- System in which everything an algorithm can read (`rest`) is separated from the agents' histories. No algorithm in the
repository reads `x_history` (checked by search over algorithms/), so `step` acts on `rest` only. -/
structure HSys (A V ρ : Type) where
  rest : ρ
  hist : A → History V

/-- How a concrete algorithm acts on `rest`, and where the agents' current `x` is found. -/
structure HAlg (A V ρ : Type) where
  agents : List A
  period : A → Int
  xOf : ρ → A → Option V
  setup : ρ → Py ρ
  netStep : Int → ρ → ρ
  step : Int → ρ → Py ρ
  callback : Int → ρ → Py ρ

namespace HAlg
variable {A V ρ : Type} [DecidableEq A]

/-- `agent._snapshot(it, force)` on the history of one agent (agents.py 187-204) -/
def snapHist (period : Int) (x : Option V) (it : Int) (force : Bool) (h : History V) : Py (History V) :=
  if force || it % period == 0 then
    match x with
    | none => .ok h
    | some v => h.setX it v
  else .ok h

/-- `for i in network.snapshot_agents(): i._snapshot(...)` (_algorithm.py 79-82) -/
def snapAll (g : HAlg A V ρ) (it : Int) (force : Bool) : List A → HSys A V ρ → Py (HSys A V ρ)
  | [], s => .ok s
  | a :: t, s => do
    let h ← snapHist (g.period a) (g.xOf s.rest a) it force (s.hist a)
    snapAll g it force t { s with hist := fun b => if b = a then h else s.hist b }

/-- history right after `agent.initialize(x=...)` (agents.py 163, 175): `{0: x}` -/
def freshHist (x : Option V) : Py (History V) :=
  match x with
  | none => .ok History.empty
  | some v => History.empty.setX 0 v

/-- all agents' histories after `Algorithm.initialize` (each algorithm calls `initialize(x=...)` on every agent) -/
def initHist (g : HAlg A V ρ) (r : ρ) : List A → (A → History V) → Py (A → History V)
  | [], h => .ok h
  | a :: t, h => do
    let h0 ← freshHist (g.xOf r a)
    initHist g r t (fun b => if b = a then h0 else h b)

/-- the `RunOps` of such a system -/
def ops (g : HAlg A V ρ) : RunOps (HSys A V ρ) where
  setup s := do
    let r ← g.setup s.rest
    let h ← initHist g r g.agents s.hist
    .ok ⟨r, h⟩
  netStep k s := { s with rest := g.netStep k s.rest }
  step k s := do
    let r ← g.step k s.rest
    .ok { s with rest := r }
  snapshot it force s := snapAll g it force g.agents s
  callback k s := do
    let r ← g.callback k s.rest
    .ok { s with rest := r }

end HAlg

/-! ## initial_states -/

/-- the `x0` argument (utils.py 17-25): `None`, a single array, a dict (keys in insertion order), or anything else -/
inductive X0 (A V : Type) where
  | none
  | arr (v : V)
  | dict (d : List (A × V))
  | other

/-- the parts of arrays and networks used by `initial_states` -/
structure X0Env (A V S : Type) where
  shapeOf : V → S
  costShape : A → S
  zeros : S → V
  add : V → V → V
  divNat : V → Nat → V
  zerosLike : V → V
  /-- `network.graph` -/
  graph : List A
  /-- `network.agents()`: all nodes, or only the clients in a FedNetwork -/
  agents : List A
  /-- server of a FedNetwork -/
  server : Option A

namespace X0Env
variable {A V S : Type} [DecidableEq A] [DecidableEq S]

/-- the key loop (utils.py 46-56); keys that are not agents (TypeError) are excluded by typing -/
def byId (e : X0Env A V S) : List (A × V) → PyDict A V → Py (PyDict A V)
  | [], d => .ok d
  | (a, v) :: t, d => if e.shapeOf v ≠ e.costShape a then .error .valueError else byId e t (d.set a v)

/-- collecting `x0s` for `network.agents()` (utils.py 57-61) -/
def collect (given : PyDict A V) : List A → PyDict A V → Py (PyDict A V)
  | [], d => .ok d
  | a :: t, d =>
    match given.get? a with
    | Option.none => .error .valueError
    | some v => collect given t (d.set a v)

/-- mean of the client states (utils.py 65-69): zeros_like(first), `+=` each, divided by the count -/
def meanOf (e : X0Env A V S) : List V → Py V
  | [] => .error .indexError
  | v :: t => .ok (e.divNat ((v :: t).foldl e.add (e.zerosLike v)) (v :: t).length)

/-- the shape check for a single array (utils.py 73-78) -/
def checkAll (e : X0Env A V S) (v : V) : List A → Py Unit
  | [] => .ok ()
  | a :: t => if e.shapeOf v ≠ e.costShape a then .error .valueError else checkAll e v t

/-- final comprehension over `network.graph` (utils.py 82); a missing key raises KeyError -/
def restrictTo (d : PyDict A V) : List A → Py (List (A × V))
  | [] => .ok []
  | a :: t => do
    let v ← d.getItem a
    let r ← restrictTo d t
    .ok ((a, v) :: r)

/-- server entry of a FedNetwork (utils.py 62-71) -/
def addServer (e : X0Env A V S) (given x0s : PyDict A V) : Py (PyDict A V) :=
  match e.server with
  | Option.none => .ok x0s
  | some sv =>
    match given.get? sv with
    | some v => .ok (x0s.set sv v)
    | Option.none => do
      let cl ← restrictTo x0s e.agents
      let m ← meanOf e (cl.map Prod.snd)
      .ok (x0s.set sv m)

/-- `initial_states` (utils.py 17-82); framework/device conversion is the identity here -/
def initialStates (e : X0Env A V S) : X0 A V → Py (List (A × V))
  | .none => .ok (e.graph.map (fun a => (a, e.zeros (e.costShape a))))
  | .arr v => do
    checkAll e v e.graph
    .ok (e.graph.map (fun a => (a, v)))
  | .dict d => do
    let given ← byId e d PyDict.empty
    let x0s ← collect given e.agents PyDict.empty
    let x0s ← addServer e given x0s
    restrictTo x0s e.graph
  | .other => .error .valueError

end X0Env
end Verif
