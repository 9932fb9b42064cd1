import Verif.Model.Py
/-!
# Agent history  (decent_bench/agents.py 352-481)
Array values are opaque (`α`): the caller passes a copy (`iop.copy`), so immutability is faithful.
-/
namespace Verif

/-- `bisect.bisect_right` on a sorted list (Python stdlib contract: the number of leading elements `≤ x`). -/
def bisectRight (l : List Int) (x : Int) : Nat := (l.takeWhile (fun a => decide (a ≤ x))).length

/-- `bisect.insort` = insert at `bisect_right` (Python stdlib contract). -/
def insort (l : List Int) (x : Int) : List Int := l.take (bisectRight l x) ++ x :: l.drop (bisectRight l x)

/-- `AgentHistory` fields: dict `_x_history` and parallel list `_sorted_keys` (agents.py 364-366). -/
structure History (α : Type) where
  x : PyDict Int α
  keys : List Int

namespace History
variable {α : Type}

/-- `AgentHistory()` (agents.py 364-366) -/
def empty : History α := ⟨PyDict.empty, []⟩

/-- `AgentHistory.max` (agents.py 368-378): `_sorted_keys[-1]` -/
def max (h : History α) : Py Int :=
  match h.keys.getLast? with
  | none => .error .valueError
  | some k => .ok k

/-- `AgentHistory.min` (agents.py 380-390): `_sorted_keys[0]` -/
def min (h : History α) : Py Int :=
  match h.keys.head? with
  | none => .error .valueError
  | some k => .ok k

/-- `AgentHistory.set_x` / `__setitem__` (agents.py 404-419, 453-455) -/
def setX (h : History α) (it : Int) (v : α) : Py (History α) :=
  if it < 0 then .error .valueError
  else
    let keys := if h.x.contains it then h.keys else insort h.keys it
    .ok ⟨h.x.set it v, keys⟩

/-- `AgentHistory.get_x` / `__getitem__` (agents.py 421-451, 457-464) -/
def getX (h : History α) (it : Int) : Py α :=
  if it < -1 then .error .valueError
  else if it = -1 then do
    let m ← h.max
    h.x.getItem m
  else if h.x.contains it then h.x.getItem it
  else
    -- idx = bisect_right(...) - 1; idx < 0 raises
    match bisectRight h.keys it with
    | 0 => .error .valueError
    | idx + 1 =>
      match h.keys[idx]? with
      | none => .error .indexError
      | some k => h.x.getItem k

/-- `__contains__` (agents.py 466-468) -/
def contains (h : History α) (it : Int) : Bool := h.x.contains it

/-- `keys` (agents.py 400-402), and the order of `items`/`values`/`__iter__` (392-398, 470-472) -/
def keysList (h : History α) : List Int := h.keys

/-- `__len__` (agents.py 474-476): `len(self._x_history)` -/
def len (h : History α) : Nat := h.x.len

/-- `items` (agents.py 392-394): pairs in the order of the sorted keys; a missing key would raise `KeyError`. -/
def items (h : History α) : Py (List (Int × α)) :=
  h.keys.mapM (fun k => do let v ← h.x.getItem k; pure (k, v))

/-- A caller performing a sequence of `history[k] = v`, a raising write leaving the object unchanged. -/
def writes (h : History α) : List (Int × α) → History α
  | [] => h
  | (k, v) :: t =>
    match h.setX k v with
    | .ok h' => writes h' t
    | .error _ => writes h t

end History
end Verif
