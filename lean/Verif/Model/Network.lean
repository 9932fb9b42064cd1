import Verif.Model.Inbox
/-!
# Network communication core  (decent_bench/networks.py 27-353, 494-657)

* Agents are identified by their ids (`A`). The agent fields that networks mutate - inbox, message counters - are kept as
  functions of the agent (`NetState`); they are the fields `_received_messages`, `_n_sent_messages`,
  `_n_received_messages`, `_n_sent_messages_dropped` of agents.py 60-65. Counters are exact rationals.
* All randomness and all scheme state (activation, drop, compression, noise and the shared NumPy generator) live in one
  abstract world `Ω`; a `World` gives the effect of each scheme call on it. Theorems quantify over every world.
* Array framework/device conversion (networks.py 311, 318) is not modelled.
-/
namespace Verif

/-- pointwise update of a per-agent field -/
def upd {A B : Type} [DecidableEq A] (f : A → B) (a : A) (b : B) : A → B := fun x => if x = a then b else f x

/-- Behaviour of the schemes attached to the agents, on a global world state. -/
structure World (A V Ω : Type) where
  /-- `agent._activation.is_active(iteration)` (networks.py 238) -/
  isActive : A → Int → Ω → Bool × Ω
  /-- `self._message_drop[sender].should_drop()` (networks.py 314) -/
  shouldDrop : A → Ω → Bool × Ω
  /-- `self._message_compression[sender].compressed_msg_size(msg)` (networks.py 309) -/
  compSize : A → V → Rat
  /-- `self._message_compression[sender].compress(iop.copy(msg))` (networks.py 317) -/
  compress : A → V → Ω → V × Ω
  /-- `self._message_noise[sender].make_noise((n, *shape), ...)` (networks.py 319): `none`, or one array per receiver -/
  makeNoise : A → Nat → V → Ω → Option (Nat → V) × Ω
  /-- `msg + noise[i]` (networks.py 322) -/
  add : V → V → V
  /-- `sender.cost.size` (networks.py 309) -/
  costSize : A → Rat

/-- Static part of a network: graph nodes in order (`list(self.graph)`), neighbours (`list(graph.neighbors(a))`),
and the agents that `agents()` returns (all nodes, or the clients for a `FedNetwork`, networks.py 199-211, 567-586). -/
structure Net (A : Type) where
  nodes : List A
  nbrs : A → List A
  queryAgents : List A

/-- Mutable part: iteration and caches (networks.py 79-81) and the per-agent communication fields. -/
structure NetState (A C V Ω : Type) where
  iteration : Int
  activeCache : Option (List A)
  connCache : PyDict A (List A)
  inbox : A → Inbox C A V
  nSent : A → Rat
  nReceived : A → Rat
  nDropped : A → Rat
  ω : Ω

/-- the `receiver` argument of `send` -/
inductive Recv (A : Type) where
  | none | one (a : A) | many (l : List A)

namespace NetState
variable {A C V Ω : Type} [DecidableEq A] [DecidableEq C]

/-- state right after construction and agent initialisation -/
def fresh (ω : Ω) : NetState A C V Ω :=
  { iteration := 0, activeCache := Option.none, connCache := PyDict.empty, inbox := fun _ => Inbox.empty,
    nSent := fun _ => 0, nReceived := fun _ => 0, nDropped := fun _ => 0, ω := ω }

/-- the comprehension `[a for a in self.agents() if a._activation.is_active(self._iteration)]` (networks.py 235-239) -/
def filterActive (w : World A V Ω) (it : Int) : List A → Ω → List A × Ω
  | [], ω => ([], ω)
  | a :: t, ω =>
    let r := w.isActive a it ω
    let rest := filterActive w it t r.2
    (if r.1 then a :: rest.1 else rest.1, rest.2)

/-- `active_agents` (networks.py 223-240) -/
def activeAgents (w : World A V Ω) (n : Net A) (s : NetState A C V Ω) : List A × NetState A C V Ω :=
  match s.activeCache with
  | some l => (l, s)
  | Option.none =>
    let r := filterActive w s.iteration n.queryAgents s.ω
    (r.1, { s with activeCache := some r.1, ω := r.2 })

/-- `active_connected_agents` (networks.py 255-260) -/
def activeConnected (w : World A V Ω) (n : Net A) (a : A) (s : NetState A C V Ω) : List A × NetState A C V Ω :=
  match s.connCache.get? a with
  | some l => (l, s)
  | Option.none =>
    let r := s.activeAgents w n
    let l := (n.nbrs a).filter (fun b => decide (b ∈ r.1))
    (l, { r.2 with connCache := r.2.connCache.set a l })

/-- `confirmed_receivers = [r for r in receiver if not should_drop()]` (networks.py 314) -/
def confirm (w : World A V Ω) (sender : A) : List A → Ω → List A × Ω
  | [], ω => ([], ω)
  | r :: t, ω =>
    let d := w.shouldDrop sender ω
    let rest := confirm w sender t d.2
    (if d.1 then rest.1 else r :: rest.1, rest.2)

/-- `transmitted_msg = msg if noise is None else msg + noise[i]` (networks.py 322) -/
def sentMsg (w : World A V Ω) (msg : V) (noise : Option (Nat → V)) (i : Nat) : V :=
  match noise with
  | Option.none => msg
  | some ν => w.add msg (ν i)

/-- the transmission loop (networks.py 321-324); `i` is the enumeration index -/
def transmit (w : World A V Ω) (sender : A) (ch : C) (inc : Rat) (msg : V) (noise : Option (Nat → V)) :
    Nat → List A → NetState A C V Ω → NetState A C V Ω
  | _, [], s => s
  | i, r :: t, s =>
    let m := sentMsg w msg noise i
    transmit w sender ch inc msg noise (i + 1) t
      { s with inbox := upd s.inbox r ((s.inbox r).put sender m ch),
               nReceived := upd s.nReceived r (s.nReceived r + inc) }

/-- the part of `send` after all checks (networks.py 309-324) -/
def deliver (w : World A V Ω) (sender : A) (receivers : List A) (msg : V) (ch : C) (s : NetState A C V Ω) :
    NetState A C V Ω :=
  let inc := w.compSize sender msg / w.costSize sender
  let s := { s with nSent := upd s.nSent sender (s.nSent sender + inc * (receivers.length : Rat)) }
  let c := confirm w sender receivers s.ω
  let s := { s with ω := c.2,
                    nDropped := upd s.nDropped sender
                      (s.nDropped sender + inc * ((receivers.length : Rat) - (c.1.length : Rat))) }
  let m := w.compress sender msg s.ω
  let ν := w.makeNoise sender c.1.length m.1 m.2
  transmit w sender ch inc m.1 ν.1 0 c.1 { s with ω := ν.2 }

/-- `Network.send` (networks.py 266-324), with `_allowed_receivers` (262-264, overridden in `FedNetwork`) as a parameter
(dynamic dispatch). State and outcome are both returned. -/
def sendBase (w : World A V Ω) (n : Net A)
    (allowed : A → NetState A C V Ω → List A × NetState A C V Ω)
    (sender : A) (receiver : Recv A) (msg : Option V) (ch : C) (s : NetState A C V Ω) :
    NetState A C V Ω × Py Unit :=
  match msg with
  | Option.none => (s, .error .valueError)
  | some m =>
    if sender ∉ n.nodes then (s, .error .valueError)
    else
      let go (receivers : List A) (s : NetState A C V Ω) : NetState A C V Ω × Py Unit :=
        let al := allowed sender s
        if receivers.all (fun r => decide (r ∈ al.1)) then (al.2.deliver w sender receivers m ch, .ok ())
        else (al.2, .error .valueError)
      match receiver with
      | .none => let r := s.activeConnected w n sender; go r.1 r.2
      | .one a => if a ∉ n.nbrs sender then (s, .error .valueError) else go [a] s
      | .many l => go l s

/-- `Network._allowed_receivers` (networks.py 262-264) -/
def allowedBase (w : World A V Ω) (n : Net A) (sender : A) (s : NetState A C V Ω) : List A × NetState A C V Ω :=
  s.activeConnected w n sender

/-- `P2PNetwork` inherits `send` unchanged -/
def send (w : World A V Ω) (n : Net A) (sender : A) (receiver : Recv A) (msg : Option V) (ch : C)
    (s : NetState A C V Ω) : NetState A C V Ω × Py Unit :=
  sendBase w n (allowedBase w n) sender receiver msg ch s

/-- `_step` and `_clear_received_messages()` (networks.py 331-353): new iteration, caches cleared, all inboxes of
`_agents_cache` (all graph nodes) cleared -/
def step (n : Net A) (it : Int) (s : NetState A C V Ω) : NetState A C V Ω :=
  { s with iteration := it, activeCache := Option.none, connCache := PyDict.empty,
           inbox := fun a => if a ∈ n.nodes then (s.inbox a).clear .none Option.none else s.inbox a }

/-- `_clear_received_messages(receivers, senders)` with both scopes given (networks.py 341-353) -/
def clearReceived (receivers senders : List A) (s : NetState A C V Ω) : NetState A C V Ω :=
  { s with inbox := fun a => if a ∈ receivers then (s.inbox a).clear (.many senders) Option.none else s.inbox a }

/-- `agent.initialize` on every graph node, as every algorithm's `initialize` does: inboxes and counters reset
(agents.py 159-170) -/
def resetAgents (n : Net A) (s : NetState A C V Ω) : NetState A C V Ω :=
  { s with inbox := fun a => if a ∈ n.nodes then Inbox.empty else s.inbox a,
           nSent := fun a => if a ∈ n.nodes then 0 else s.nSent a,
           nReceived := fun a => if a ∈ n.nodes then 0 else s.nReceived a,
           nDropped := fun a => if a ∈ n.nodes then 0 else s.nDropped a }

/-! ### FedNetwork -/

/-- `FedNetwork._allowed_receivers` (networks.py 608-612) -/
def allowedFed (w : World A V Ω) (n : Net A) (server : A) (sender : A) (s : NetState A C V Ω) :
    List A × NetState A C V Ω :=
  if sender ≠ server then
    let r := w.isActive server s.iteration s.ω
    (if r.1 then [server] else [], { s with ω := r.2 })
  else s.activeConnected w n sender

/-- `FedNetwork.send` (networks.py 614-653) -/
def sendFed (w : World A V Ω) (n : Net A) (server : A) (sender : A) (receiver : Recv A) (msg : Option V) (ch : C)
    (s : NetState A C V Ω) : NetState A C V Ω × Py Unit :=
  let base := fun rcv => sendBase w n (allowedFed w n server) sender rcv msg ch s
  match receiver with
  | .one r =>
    if sender = server ∧ r = server then (s, .error .valueError)
    else if sender ≠ server ∧ r ≠ server then (s, .error .valueError)
    else base (.one r)
  | .none => if sender ≠ server then base (.one server) else base .none
  | .many l =>
    if sender ≠ server then (s, .error .valueError)
    else if l.any (fun r => decide (r = server)) then (s, .error .valueError)
    else base (.many l)

/-! ### Executions -/

/-- everything client code can do to a network -/
inductive Op (A C V : Type) where
  | step (it : Int)
  | queryActive
  | queryConnected (a : A)
  | send (sender : A) (receiver : Recv A) (msg : Option V) (ch : C)
  | clear (receivers senders : List A)
  | reset

/-- one operation of a P2P network; errors are caught by the caller, the state stays as the call left it -/
def exec (w : World A V Ω) (n : Net A) (s : NetState A C V Ω) : Op A C V → NetState A C V Ω
  | .step it => s.step n it
  | .queryActive => (s.activeAgents w n).2
  | .queryConnected a => (s.activeConnected w n a).2
  | .send a r m c => (s.send w n a r m c).1
  | .clear rs ss => s.clearReceived rs ss
  | .reset => s.resetAgents n

/-- an execution of a P2P network -/
def run (w : World A V Ω) (n : Net A) (s : NetState A C V Ω) (ops : List (Op A C V)) : NetState A C V Ω :=
  ops.foldl (exec w n) s

/-- one operation of a federated network -/
def execFed (w : World A V Ω) (n : Net A) (server : A) (s : NetState A C V Ω) : Op A C V → NetState A C V Ω
  | .send a r m c => (s.sendFed w n server a r m c).1
  | op => exec w n s op

/-- an execution of a federated network -/
def runFed (w : World A V Ω) (n : Net A) (server : A) (s : NetState A C V Ω) (ops : List (Op A C V)) :
    NetState A C V Ω :=
  ops.foldl (execFed w n server) s

end NetState

/-- What networkx guarantees about a simple undirected graph without parallel edges: nodes listed once, neighbours
listed once, neighbours are nodes, symmetry. -/
structure Net.WF {A : Type} (n : Net A) : Prop where
  nodup : n.nodes.Nodup
  nbrs_nodup : ∀ a, (n.nbrs a).Nodup
  nbrs_mem : ∀ a, ∀ b ∈ n.nbrs a, b ∈ n.nodes
  symm : ∀ a b, b ∈ n.nbrs a → a ∈ n.nbrs b
  query : ∀ a ∈ n.queryAgents, a ∈ n.nodes
  query_nodup : n.queryAgents.Nodup

end Verif
