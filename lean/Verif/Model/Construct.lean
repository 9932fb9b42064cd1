import Verif.Model.Network
/-!
# Network construction  (decent_bench/networks.py 53-81, 83-180, 380-401, 523-563)

Only what decides success and the agents' `index` is modelled: validation order, index assignment, and scheme
initialisation. `reg a` is `a._index` of every agent in the program.
-/
namespace Verif.Construct

/-- a message-scheme argument: `None`, one scheme instance, a dict with the given agents as keys, or anything else -/
inductive SchemeArg (A : Type) where
  | none | single | dict (keys : List A) | other

/-- the constructor arguments that matter -/
structure Args (A Sig : Type) where
  multigraph : Bool
  directed : Bool
  connected : Bool
  /-- (shape, framework, device) of each agent's cost -/
  sig : A → Sig
  noise : SchemeArg A
  compression : SchemeArg A
  drop : SchemeArg A

variable {A Sig : Type} [DecidableEq A] [DecidableEq Sig]

/-- `_validate_agent_ids` (networks.py 115-136) -/
def validIds (reg : A → Int) (agents : List A) : Bool :=
  decide agents.Nodup && agents.all (fun a => decide (reg a = -1))

/-- `_validate_agent_cost_compatibility` (networks.py 83-113): every later agent's signature equals the first's -/
def compatible (sig : A → Sig) : List A → Bool
  | [] => true
  | a :: t => t.all (fun b => decide (sig b = sig a))

/-- `for idx, agent in enumerate(graph.nodes()): agent.index = idx` (networks.py 70-71) -/
def assignFrom (reg : A → Int) : Nat → List A → A → Int
  | _, [] => reg
  | i, a :: t => assignFrom (upd reg a (i : Int)) (i + 1) t

/-- `_initialize_message_schemes` (networks.py 138-180): does it return? -/
def schemesOk (nodes : List A) : SchemeArg A → Bool
  | .none => true
  | .single => true
  | .dict keys => nodes.all (fun a => decide (a ∈ keys))
  | .other => false

/-- `Network.__init__` (networks.py 53-81). Returns the registry after the call, also when it raises. -/
def networkInit (reg : A → Int) (nodes : List A) (x : Args A Sig) : (A → Int) × Py (List A) :=
  if x.multigraph then (reg, .error .userError)       -- NotImplementedError
  else if x.directed then (reg, .error .valueError)
  else if !x.connected then (reg, .error .valueError)
  else if !compatible x.sig nodes then (reg, .error .valueError)
  else
    let reg' := assignFrom reg 0 nodes
    if schemesOk nodes x.noise && schemesOk nodes x.compression && schemesOk nodes x.drop
    then (reg', .ok nodes)
    else (reg', .error .valueError)

/-- `P2PNetwork.__init__` (networks.py 380-401); `graphSize = len(graph)`. `relabel_nodes` keeps the node order, so the
nodes of the relabelled graph are `agents` in order. -/
def p2p (reg : A → Int) (graphSize : Nat) (agents : List A) (x : Args A Sig) : (A → Int) × Py (List A) :=
  if agents.length ≠ graphSize then (reg, .error .valueError)
  else if !validIds reg agents then (reg, .error .valueError)
  else networkInit reg agents x

/-- add the server to a scheme dict if it is missing (networks.py 546-551) -/
def withServer (server : A) : SchemeArg A → SchemeArg A
  | .dict keys => .dict (if server ∈ keys then keys else keys ++ [server])
  | s => s

/-- `FedNetwork.__init__` (networks.py 523-563) with the server already resolved (a default server is a fresh,
always-active agent, 533-541); `serverAlwaysActive` is the check of 542-543. The star graph is connected, undirected and
simple, its nodes being the server followed by the clients. -/
def fed (reg : A → Int) (clients : List A) (server : A) (serverAlwaysActive : Bool) (x : Args A Sig) :
    (A → Int) × Py (List A) :=
  if clients.length = 0 then (reg, .error .valueError)
  else if !serverAlwaysActive then (reg, .error .valueError)
  else if !validIds reg (server :: clients) then (reg, .error .valueError)
  else networkInit reg (server :: clients)
    { x with multigraph := false, directed := false, connected := true,
             noise := withServer server x.noise, compression := withServer server x.compression,
             drop := withServer server x.drop }

/-- a constructor call -/
inductive Call (A Sig : Type) where
  | p2p (graphSize : Nat) (agents : List A) (x : Args A Sig)
  | fed (clients : List A) (server : A) (always : Bool) (x : Args A Sig)

/-- run one constructor call -/
def call (reg : A → Int) : Call A Sig → (A → Int) × Py (List A)
  | .p2p k l x => p2p reg k l x
  | .fed l s b x => fed reg l s b x

/-- a program performing constructor calls in sequence (failed ones being caught): the results in order -/
def calls (reg : A → Int) : List (Call A Sig) → List (Py (List A))
  | [] => []
  | c :: t => (call reg c).2 :: calls (call reg c).1 t

end Verif.Construct
