import Verif.Model.Agent
import Verif.Model.Topology
import Mathlib.Data.List.Dedup
import Mathlib.Logic.Function.Basic
/-!
# Metrics views  (decent_bench/metrics/_metrics_view.py, decent_bench/metrics/utils.py 49-77, 318-337)

`AgentMetricsView.from_agent` copies the counters but keeps a reference to the agent's history object, so histories live on a heap here:
`ref a` is the address of agent `a`'s history object, and `Mem.agent` puts the two together to the agent of Model/Agent. Views have object
identities (`eq=False`): the number `obj`. The cost, also shared, is not part of the model of a view.
-/
namespace Verif.Views
open Verif (PyErr Py)
open Verif.Topology (Graph agentFor relabel)

variable {A C V K S Act : Type} [DecidableEq A] [DecidableEq C] [DecidableEq S]

/-- the agents of a program and the history objects; the field `history` of `rest a` is not used -/
structure Mem (A C V K S Act : Type) where
  heap : Nat → History V
  next : Nat
  ref : A → Nat
  rest : A → Agent A C V K S Act

/-- an agent as its methods see it -/
def Mem.agent (m : Mem A C V K S Act) (a : A) : Agent A C V K S Act := { m.rest a with history := m.heap (m.ref a) }

/-- what can be done with agents: `snapshot` and `initialize` are the only methods that touch the history (agents.py 158-177, 187-204);
`other` is any change of the other fields -/
inductive Op (A C V K S Act : Type) where
  | other (a : A) (f : Agent A C V K S Act → Agent A C V K S Act)
  | snapshot (a : A) (it : Int) (force : Bool)
  | init (a : A) (x : Option V) (aux : Option (PyDict String (Aux K V)))

/-- one operation; a raising `_snapshot` changes nothing; `initialize` allocates a new history object (agents.py 158) and writes into it.
`shapeOf` is `iop.shape`, `copy` is `iop.copy` -/
def step (shapeOf : V → S) (copy : V → V) (m : Mem A C V K S Act) : Op A C V K S Act → Mem A C V K S Act
  | .other a f => { m with rest := Function.update m.rest a (f (m.agent a)) }
  | .snapshot a it force =>
    match (m.agent a).snapshot copy it force with
    | .ok b => { m with heap := Function.update m.heap (m.ref a) b.history, rest := Function.update m.rest a b }
    | .error _ => m
  | .init a x aux =>
    let b := ((m.agent a).init shapeOf copy x aux).1
    ⟨Function.update m.heap m.next b.history, m.next + 1, Function.update m.ref a m.next, Function.update m.rest a b⟩

/-- a sequence of operations -/
def run (shapeOf : V → S) (copy : V → V) (m : Mem A C V K S Act) (ops : List (Op A C V K S Act)) : Mem A C V K S Act :=
  ops.foldl (step shapeOf copy) m

/-- the counters of a view (_metrics_view.py 22-30) -/
structure Counters where
  nXUpdates : Nat
  nFunction : Nat
  nGradient : Nat
  nHessian : Nat
  nProximal : Nat
  nSent : Rat
  nReceived : Rat
  nDropped : Rat
  nSelected : Nat
deriving DecidableEq

/-- the counters of an agent -/
def countersOf (a : Agent A C V K S Act) : Counters :=
  ⟨a.nXUpdates, a.nFunction, a.nGradient, a.nHessian, a.nProximal, a.nSent, a.nReceived, a.nDropped, a.nSelected⟩

/-- `AgentMetricsView` (_metrics_view.py 15-30) -/
structure AgentView (A : Type) where
  obj : Nat
  id : A
  hist : Nat
  counters : Counters
deriving DecidableEq

/-- `AgentMetricsView.from_agent` (_metrics_view.py 32-48) -/
def fromAgent (m : Mem A C V K S Act) (obj : Nat) (a : A) : AgentView A := ⟨obj, a, m.ref a, countersOf (m.agent a)⟩

/-- `view.x_history` looked at now -/
def AgentView.history (m : Mem A C V K S Act) (v : AgentView A) : History V := m.heap v.hist

/-- the class of a network -/
inductive Kind (A : Type) where
  | p2p
  | fed (server : A)
  | other

/-- `NetworkMetricsView` (_metrics_view.py 58-74); `server` is `None` unless federated -/
structure NetView (A : Type) where
  graph : Graph (AgentView A)
  federated : Bool
  server : Option (AgentView A)

/-- `graph.copy()` of networkx: the nodes, then the edges in the order of the adjacency, each from both ends -/
def copyGraph {N : Type} [DecidableEq N] (g : Graph N) : Graph N :=
  (g.nodes.flatMap fun u => (g.nbrs u).map fun v => ((u, v), g.weight u v)).foldl
    (fun h e => h.addEdge e.1.1 e.1.2 e.2) (g.nodes.foldl Graph.addNode Graph.empty)

/-- the views of the agents in `snapshot_agents()` order, as new objects from number `start` on (_metrics_view.py 79-80) -/
def viewsOf (m : Mem A C V K S Act) (start : Nat) : List A → List (AgentView A)
  | [] => []
  | a :: t => fromAgent m start a :: viewsOf m (start + 1) t

/-- `NetworkMetricsView.from_network` (_metrics_view.py 76-98) of a network with graph `g` -/
def fromNetwork (m : Mem A C V K S Act) (start : Nat) (kind : Kind A) (g : Graph A) : Py (NetView A) :=
  let map := agentFor g.nodes (viewsOf m start g.nodes)
  let h := copyGraph (relabel map g)
  match kind with
  | .fed s =>
    match map s with
    | some v => .ok ⟨h, true, some v⟩
    | none => .error .keyError
  | .p2p => .ok ⟨h, false, none⟩
  | .other => .error .valueError

/-- `agents` (_metrics_view.py 100-104) -/
def NetView.agents (v : NetView A) : List (AgentView A) :=
  if v.federated = true then v.graph.nodes.filter (fun a => decide (some a ≠ v.server)) else v.graph.nodes

/-- `clients` (_metrics_view.py 106-110) -/
def NetView.clients (v : NetView A) : Py (List (AgentView A)) :=
  if v.federated = true then .ok v.agents else .error .valueError

/-- `server` and `coordinator` (_metrics_view.py 112-120) -/
def NetView.getServer (v : NetView A) : Py (AgentView A) :=
  if v.federated = true then
    match v.server with
    | some s => .ok s
    | none => .error .valueError
  else .error .valueError

/-- `connected_agents` (_metrics_view.py 122-126) -/
def NetView.connectedAgents (v : NetView A) (a : AgentView A) : Py (List (AgentView A)) :=
  if a ∈ v.graph.nodes then .ok (v.graph.nbrs a) else .error .valueError

/-- `neighbors` (_metrics_view.py 128-132) -/
def NetView.neighbors (v : NetView A) (a : AgentView A) : Py (List (AgentView A)) :=
  if v.federated = true then .error .valueError else v.connectedAgents a

/-- `iterations` (_metrics_view.py 134-137) and `all_sorted_iterations` (metrics/utils.py 325-337), looked at now -/
def NetView.iterations (m : Mem A C V K S Act) (v : NetView A) : List Int :=
  (v.graph.nodes.flatMap fun a => (a.history m).keysList).dedup.mergeSort (fun a b => decide (a ≤ b))

/-! ### cached metric helpers -/

/-- `x_mean` without its cache (metrics/utils.py 61-77); `reduce(add)` and division by the number -/
def xMean [Add V] (div : V → Nat → V) (m : Mem A C V K S Act) (k : List (AgentView A) × Int) : Py V := do
  let xs ← k.1.mapM fun a => (a.history m).getX k.2
  match xs with
  | [] => .error .valueError
  | x :: t => .ok (div (t.foldl (· + ·) x) xs.length)

/-- `_predict_agent` without its cache (metrics/utils.py 318-322); `predict a x` is `agent.cost.predict(x, test data)`, the third component
of the key is the problem -/
def predictAgent {P R : Type} (predict : P → A → V → Py R) (m : Mem A C V K S Act) (k : AgentView A × Int × P) : Py R := do
  let x ← (k.1.history m).getX k.2.1
  predict k.2.2 k.1.id x

/-- what a memory of type `functools.lru_cache` holds -/
abbrev Cache (Q R : Type) := List (Q × R)

/-- a call of a function with a cache (`lru_cache`): the remembered result, otherwise it is computed and remembered unless it raises -/
def cached {Q R : Type} [DecidableEq Q] (f : Q → Py R) (c : Cache Q R) (q : Q) : Py R × Cache Q R :=
  match c.find? (fun e => decide (e.1 = q)) with
  | some e => (.ok e.2, c)
  | none =>
    match f q with
    | .ok r => (.ok r, (q, r) :: c)
    | .error e => (.error e, c)

/-- what happens while metrics are computed: calls of the cached function, forgetting (the least recently used entries when the cache is
full, or all by `_clear_caches`, metrics/utils.py 49-52), and operations on agents -/
inductive Event (A C V K S Act Q : Type) where
  | call (q : Q)
  | forget (p : Q → Bool)
  | op (o : Op A C V K S Act)

/-- the results of all calls with a cache; `f m` is the function as it would compute with memory `m` -/
def results {Q R : Type} [DecidableEq Q] (shapeOf : V → S) (copy : V → V) (f : Mem A C V K S Act → Q → Py R) :
    Mem A C V K S Act → Cache Q R → List (Event A C V K S Act Q) → List (Py R)
  | _, _, [] => []
  | m, c, .call q :: t => (cached (f m) c q).1 :: results shapeOf copy f m (cached (f m) c q).2 t
  | m, c, .forget p :: t => results shapeOf copy f m (c.filter fun e => p e.1) t
  | m, c, .op o :: t => results shapeOf copy f (step shapeOf copy m o) c t

end Verif.Views
