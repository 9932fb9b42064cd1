import Verif.Model.Construct
import Mathlib.Data.Real.Basic
/-!
# The graph inside a network: relabelling, star, edges, adjacency, and the weights property
(decent_bench/networks.py 182-220, 241-253, 380-480, 521-563)

networkx is not part of the repository: `Graph` and its operations below are the documented behaviour of `nx.Graph`, restricted to
simple undirected graphs, in the insertion order that networkx keeps. Of the attributes of an edge only `weight` is kept, because
`nx.to_numpy_array` reads it. Array frameworks and devices are the two numbers of an `Arr`.
-/
namespace Verif.Topology
open Verif (PyErr Py)

/-- an undirected `nx.Graph`: nodes in order, neighbours of each node in order, the attribute `weight` of each edge -/
structure Graph (N : Type) where
  nodes : List N
  nbrs : N → List N
  weight : N → N → Option ℝ

variable {N A : Type} [DecidableEq N] [DecidableEq A]

/-- `nx.Graph()` -/
def Graph.empty : Graph N := ⟨[], fun _ => [], fun _ _ => none⟩

/-- `graph.add_node(a)` -/
def Graph.addNode (g : Graph N) (a : N) : Graph N :=
  if a ∈ g.nodes then g else { g with nodes := g.nodes ++ [a] }

/-- `adj[u][v] = ...` on the ordered neighbour dictionaries -/
def link (nbrs : N → List N) (u v : N) : N → List N :=
  fun x => if x = u then (if v ∈ nbrs u then nbrs u else nbrs u ++ [v]) else nbrs x

/-- `graph.add_edge(u, v, **d)`; `d` holds at most a weight, which replaces an older one -/
def Graph.addEdge (g : Graph N) (u v : N) (d : Option ℝ) : Graph N :=
  let g := (g.addNode u).addNode v
  let w := d.or (g.weight u v)
  { g with nbrs := link (link g.nbrs u v) v u,
           weight := fun x y => if (x = u ∧ y = v) ∨ (x = v ∧ y = u) then w else g.weight x y }

/-- iteration over `graph.edges`: every node in turn with those neighbours that were not visited before -/
def Graph.edgesFrom (g : Graph N) : List N → List N → List (N × N)
  | [], _ => []
  | n :: t, seen => ((g.nbrs n).filter (fun b => decide (b ∉ seen))).map (fun b => (n, b)) ++ g.edgesFrom t (n :: seen)

/-- `graph.edges` (`Network.edges`, networks.py 218-221) -/
def Graph.edges (g : Graph N) : List (N × N) := g.edgesFrom g.nodes []

/-- `agent_node_map = {node: agents[i] for i, node in enumerate(graph.nodes())}` (networks.py 393) as a lookup -/
def agentFor : List N → List A → N → Option A
  | n :: t, a :: l, x => if x = n then some a else agentFor t l x
  | _, _, _ => none

/-- `nx.relabel_nodes(graph, mapping)` (networks.py 394): a new graph with the renamed nodes in order and the renamed edges in the order
of `graph.edges`, with their attributes. Nodes missing from the mapping would keep their name; here the mapping has all of them, and the
model leaves others out. -/
def relabel (f : N → Option A) (g : Graph N) : Graph A :=
  (g.edges.filterMap fun e => (f e.1).bind fun a => (f e.2).map fun b => ((a, b), g.weight e.1 e.2)).foldl
    (fun h e => h.addEdge e.1.1 e.1.2 e.2) ((g.nodes.filterMap f).foldl Graph.addNode Graph.empty)

/-- there are nodes, and every node is reachable from every other -/
def Connected (g : Graph N) : Prop :=
  g.nodes ≠ [] ∧ ∀ i ∈ g.nodes, ∀ j ∈ g.nodes, Relation.ReflTransGen (fun a b => b ∈ g.nbrs a) i j

open Classical in
/-- `nx.is_connected` (networks.py 65); on a graph without nodes it raises NetworkXPointlessConcept instead (a construction on no nodes
fails either way) -/
noncomputable def isConnected (g : Graph N) : Bool := decide (Connected g)

/-- `P2PNetwork.__init__` (networks.py 380-401): `x.connected` is what `nx.is_connected` finds in the relabelled graph; the first
component is every agent's index afterwards -/
noncomputable def p2p {Sig : Type} [DecidableEq Sig] (reg : A → Int) (g : Graph N) (agents : List A) (x : Construct.Args A Sig) :
    (A → Int) × Py (Graph A) :=
  let h := relabel (agentFor g.nodes agents) g
  let r := Construct.p2p reg g.nodes.length agents { x with connected := isConnected h }
  (r.1, r.2.map fun _ => h)

/-- `nx.star_graph([server, *clients])` (networks.py 546): all nodes, then an edge from the first to each of the others -/
def star (server : A) (clients : List A) : Graph A :=
  clients.foldl (fun g c => g.addEdge server c none) ((server :: clients).foldl Graph.addNode Graph.empty)

/-- the static part of a peer-to-peer network with this graph: `agents()` are all nodes (networks.py 192-211) -/
def Graph.net (g : Graph A) : Net A := ⟨g.nodes, g.nbrs, g.nodes⟩

/-- the static part of a federated network: `agents()` are the nodes other than the server (networks.py 574-590) -/
def Graph.fedNet (g : Graph A) (server : A) : Net A := ⟨g.nodes, g.nbrs, g.nodes.filter fun a => decide (a ≠ server)⟩

/-- `adjacency` (networks.py 462-479): `nx.to_numpy_array(graph, nodelist=agents)` puts an edge's weight, 1 without one, at both its
places and 0 elsewhere -/
noncomputable def Graph.adjacency (g : Graph A) (a b : A) : ℝ :=
  if b ∈ g.nbrs a then (g.weight a b).getD 1 else 0

/-! ### the `weights` property -/

/-- a matrix on a framework and device -/
structure Arr where
  shape : List Nat
  framework : Nat
  device : Nat
  entry : Nat → Nat → ℝ

/-- the agents of a network as the property sees them: their number and the framework and device of the first agent's cost -/
structure Home where
  n : Nat
  framework : Nat
  device : Nat

/-- `weights` read (networks.py 403-428): the result, and `self.W` afterwards; `rule` is what the Metropolis-Hastings rule (413-427) gives
for the graph as it is at that moment -/
def readW (rule : Arr) (w : Option Arr) : Arr × Option Arr :=
  match w with
  | some v => (v, some v)
  | none => (rule, some rule)

/-- `network.weights = value` (networks.py 430-460) -/
def writeW (h : Home) (v : Arr) (w : Option Arr) : Py Unit × Option Arr :=
  if v.shape ≠ [h.n, h.n] then (.error .valueError, w)
  else if v.framework ≠ h.framework ∨ v.device ≠ h.device then (.error .valueError, w)
  else (.ok (), some v)

/-- a use of the property -/
inductive Use where
  | get (rule : Arr)
  | set (v : Arr)

/-- `self.W` after a sequence of uses (exceptions being caught) -/
def after (h : Home) (w : Option Arr) : List Use → Option Arr
  | [] => w
  | .get rule :: t => after h (readW rule w).2 t
  | .set v :: t => after h (writeW h v w).2 t

end Verif.Topology
