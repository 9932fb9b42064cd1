import Verif.Model.History
import Verif.Model.Inbox
/-!
# Agent  (decent_bench/agents.py 17-293)
`V` is the array type, `A` the agent identity (UUID; equality and hash by id, agents.py 258-267), `C` the channel type,
`S` the shape type, `Act` the state of the agent's activation scheme.
-/
namespace Verif

/-- Auxiliary variables: an array or a (nested) mapping (agents.py 182-185). Mapping keys are opaque (`K`). -/
inductive Aux (K : Type) (V : Type) where
  | arr (v : V)
  | map (l : List (K × Aux K V))

namespace Aux
variable {K V : Type}
mutual
/-- `_copy_aux_var` (agents.py 182-185): mappings rebuilt recursively, arrays copied by `copy` (`iop.copy`) -/
def copyAux (copy : V → V) : Aux K V → Aux K V
  | .arr v => .arr (copy v)
  | .map l => .map (copyAuxList copy l)
/-- the dictionary comprehension over `value.items()` (agents.py 184) -/
def copyAuxList (copy : V → V) : List (K × Aux K V) → List (K × Aux K V)
  | [] => []
  | (k, a) :: t => (k, copyAux copy a) :: copyAuxList copy t
end
end Aux

/-- Fields of `Agent` (agents.py 53-73). Message counters are floats in the code; exact rationals here.
`data` and the cost object itself are not modelled (only the cost's shape). -/
structure Agent (A C V K S Act : Type) where
  /-- `_id` (36-43) -/
  id : A
  /-- `_index`, -1 if unassigned (42, 53) -/
  index : Int
  /-- `_state_snapshot_period` (56) -/
  period : Int
  /-- `cost.shape` -/
  costShape : S
  /-- `_activation` (55) -/
  activation : Act
  /-- `_is_server` (68) -/
  isServer : Bool
  /-- `_no_count_depth` (73) -/
  noCountDepth : Int
  /-- `_current_x` (58) -/
  x : Option V
  history : History V
  aux : PyDict String (Aux K V)
  inbox : Inbox C A V
  nXUpdates : Nat
  nSent : Rat
  nReceived : Rat
  nDropped : Rat
  nSelected : Nat
  nFunction : Nat
  nGradient : Nat
  nHessian : Nat
  nProximal : Nat

namespace Agent
variable {A C V K S Act : Type} [DecidableEq A] [DecidableEq C] [DecidableEq S]

/-- `Agent.__init__` (agents.py 45-77). The rebinding of the cost's methods (74-77) is modelled in `Model/Counting`. -/
def new (id : A) (costShape : S) (activation : Act) (period : Int := 1) : Py (Agent A C V K S Act) :=
  if period ≤ 0 then .error .valueError
  else .ok {
    id := id, index := -1, period := period, costShape := costShape, activation := activation, isServer := false,
    noCountDepth := 0, x := none, history := History.empty, aux := PyDict.empty, inbox := Inbox.empty,
    nXUpdates := 0, nSent := 0, nReceived := 0, nDropped := 0, nSelected := 0,
    nFunction := 0, nGradient := 0, nHessian := 0, nProximal := 0 }

/-- `x` getter (agents.py 107-119) -/
def getX (a : Agent A C V K S Act) : Py V :=
  match a.x with
  | none => .error .runtimeError
  | some v => .ok v

/-- `x` setter (agents.py 121-124) -/
def setX (a : Agent A C V K S Act) (v : V) : Agent A C V K S Act :=
  { a with nXUpdates := a.nXUpdates + 1, x := some v }

/-- `messages` (agents.py 131-133) -/
def messages (a : Agent A C V K S Act) (ch : C) : PyDict A V := a.inbox.byChannel ch

/-- `message` (agents.py 135-137) -/
def message (a : Agent A C V K S Act) (sender : A) (ch : C) : Py V := a.inbox.get sender ch

/-- `initialize` (agents.py 144-180). The mutated agent is returned together with the outcome, because the resets
(159-170) happen before the shape check may raise (173-174). `shapeOf` is `iop.shape`, `copy` is `iop.copy`. -/
def init (shapeOf : V → S) (copy : V → V) (a : Agent A C V K S Act)
    (x : Option V) (auxVars : Option (PyDict String (Aux K V))) : Agent A C V K S Act × Py Unit :=
  let a := { a with
    history := History.empty, aux := PyDict.empty, inbox := Inbox.empty, nXUpdates := 0,
    nSent := 0, nReceived := 0, nDropped := 0, nSelected := 0,
    nFunction := 0, nGradient := 0, nHessian := 0, nProximal := 0 }
  let withAux (a : Agent A C V K S Act) : Agent A C V K S Act :=
    match auxVars with
    | none => a
    | some d => { a with aux := ⟨d.entries.map (fun e => (e.1, e.2.copyAux copy))⟩ }
  match x with
  | none => (withAux a, .ok ())
  | some v =>
    if shapeOf v ≠ a.costShape then (a, .error .valueError)
    else
      match a.history.setX 0 (copy v) with
      | .error e => (a, .error e)
      | .ok h => (withAux { a with history := h, x := some (copy v) }, .ok ())

/-- `_snapshot` (agents.py 187-204) -/
def snapshot (copy : V → V) (a : Agent A C V K S Act) (it : Int) (force : Bool) : Py (Agent A C V K S Act) :=
  if force || it % a.period == 0 then
    match a.x with
    | none => .ok a
    | some v => do
      let h ← a.history.setX it (copy v)
      .ok { a with history := h }
  else .ok a

end Agent
end Verif
