import Verif.Model.Network
import Verif.Model.Run
import Mathlib.Algebra.Module.Basic
import Mathlib.Data.Real.Basic
/-!
# How peer-to-peer algorithms use the network  (decent_bench/algorithms/p2p/*.py)

* A system is the network state together with the local variables of every agent (`x` and `aux_vars`), one record type `α`
  per algorithm; record fields carry the names of the `aux_vars` keys.
* Arrays are elements of a real vector space `E`; arithmetic is exact. Values are immutable here: aliasing of arrays, which
  matters for the in-place sums of DLM and DiNNO only, is modelled separately in `Model/Alias.lean`.
* Gradient oracles, coin flips and mini-batch sampling act on the same abstract world `Ω` as the communication schemes.
* Counters other than the communication counters (gradient calls, x updates) are modelled in `Model/Agent.lean`, not here.
-/
namespace Verif

/-- channels used by the P2P algorithms: "default" and the constants `_STATE_CHANNEL`, `_GRADIENT_TRACKER_CHANNEL`,
`_PREVIOUS_STATE_CHANNEL`, `_Z_Y_CHANNEL`, `_Z_S_CHANNEL` at the top of the algorithm files -/
inductive Chan where
  | dflt | state | tracker | prevState | zy | zs
  deriving DecidableEq, Repr

/-- network state and the agents' local variables -/
structure Sys (A E Ω α : Type) where
  net : NetState A Chan E Ω
  loc : A → α

namespace Sys
variable {A E Ω α : Type} [DecidableEq A]

/-- `for i in network.active_agents(): body(i)`; an exception ends the loop -/
def forActive (w : World A E Ω) (n : Net A) (body : A → Sys A E Ω α → Py (Sys A E Ω α)) (s : Sys A E Ω α) :
    Py (Sys A E Ω α) :=
  let r := s.net.activeAgents w n
  r.1.foldlM (fun s i => body i s) { s with net := r.2 }

/-- a loop body that only changes agent `i`'s variables, from its own variables and inbox -/
def own (f : A → Inbox Chan A E → α → Ω → α × Ω) (i : A) (s : Sys A E Ω α) : Py (Sys A E Ω α) :=
  let r := f i (s.net.inbox i) (s.loc i) s.net.ω
  .ok { net := { s.net with ω := r.2 }, loc := upd s.loc i r.1 }

/-- `network.broadcast(i, msg, channel)` (networks.py 489-491) -/
def broadcast (w : World A E Ω) (n : Net A) (ch : Chan) (m : E) (i : A) (s : Sys A E Ω α) : Py (Sys A E Ω α) :=
  let r := s.net.send w n i .none (some m) ch
  match r.2 with
  | .ok _ => .ok { s with net := r.1 }
  | .error e => .error e

/-- a loop body that updates `i`'s variables and then broadcasts the messages `msgs` computed from them, in order -/
def say (w : World A E Ω) (n : Net A) (g : A → α → α) (msgs : A → α → List (Chan × E)) (i : A) (s : Sys A E Ω α) :
    Py (Sys A E Ω α) :=
  let a := g i (s.loc i)
  (msgs i a).foldlM (fun s m => broadcast w n m.1 m.2 i s) { s with loc := upd s.loc i a }

/-- `network.send(i, j, msg, channel)` -/
def sendOne (w : World A E Ω) (n : Net A) (ch : Chan) (m : E) (i j : A) (s : Sys A E Ω α) : Py (Sys A E Ω α) :=
  let r := s.net.send w n i (.one j) (some m) ch
  match r.2 with
  | .ok _ => .ok { s with net := r.1 }
  | .error e => .error e

/-- `for j in network.active_neighbors(i): ` send the messages `msgs i j` to `j` -/
def tellEach (w : World A E Ω) (n : Net A) (msgs : A → α → A → List (Chan × E)) (i : A) (s : Sys A E Ω α) :
    Py (Sys A E Ω α) :=
  let r := s.net.activeConnected w n i
  r.1.foldlM (fun s j => (msgs i (s.loc i) j).foldlM (fun s m => sendOne w n m.1 m.2 i j s) s) { s with net := r.2 }

end Sys

/-- a peer-to-peer algorithm: what `initialize` stores at each agent, and `step` -/
structure P2PAlg (A E Ω α : Type) where
  /-- local variables of agent `i` after `i.initialize(x=x0[i], aux_vars=...)`; the oracle calls made for it act on `Ω` -/
  init : A → E → Ω → α × Ω
  step : World A E Ω → Net A → Int → Sys A E Ω α → Py (Sys A E Ω α)

namespace P2PAlg
variable {A E Ω α : Type} [DecidableEq A]

/-- the loop `for i in network.agents(): ... i.initialize(...)` of every `initialize` -/
def initLoop (alg : P2PAlg A E Ω α) (x0 : A → E) : List A → Sys A E Ω α → Sys A E Ω α
  | [], s => s
  | i :: t, s =>
    let r := alg.init i (x0 i) s.net.ω
    initLoop alg x0 t { net := { s.net with ω := r.2 }, loc := upd s.loc i r.1 }

/-- `initialize(network)`: local variables set, communication counters and inboxes of all agents reset -/
def initialize_ (alg : P2PAlg A E Ω α) (n : Net A) (x0 : A → E) (s : Sys A E Ω α) : Sys A E Ω α :=
  let s := initLoop alg x0 n.nodes s
  { s with net := s.net.resetAgents n }

/-- the effects used by `Algorithm.run`; snapshots touch only histories, which no algorithm reads -/
def ops (alg : P2PAlg A E Ω α) (w : World A E Ω) (n : Net A) (x0 : A → E) : RunOps (Sys A E Ω α) where
  setup s := .ok (alg.initialize_ n x0 s)
  netStep k s := { s with net := s.net.step n k }
  step k s := alg.step w n k s
  snapshot _ _ s := .ok s
  callback _ s := .ok s

/-- the system after `Algorithm.run` with `k` iterations -/
def after (alg : P2PAlg A E Ω α) (w : World A E Ω) (n : Net A) (x0 : A → E) (s : Sys A E Ω α) (k : Nat) :
    Py (Sys A E Ω α) :=
  (alg.ops w n x0).run k 0 s

end P2PAlg

section mix
variable {A E : Type} [AddCommGroup E] [Module ℝ E]

/-- the accumulation `avg = W[i, i] * own; for j, m in i.messages(ch).items(): avg += W[i, j] * m` common to all
algorithms (e.g. _dgd.py 57-59) -/
noncomputable def mix (W : A → A → ℝ) (i : A) (own : E) (received : PyDict A E) : E :=
  received.entries.foldl (fun acc e => acc + W i e.1 • e.2) (W i i • own)

end mix
end Verif
