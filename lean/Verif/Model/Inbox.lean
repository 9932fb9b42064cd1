import Verif.Model.Py
/-!
# Received messages  (decent_bench/agents.py 296-349)
Channels `C`, agents `A` (equality by id, agents.py 262-267) and arrays `M` are opaque types with decidable equality
where Python hashes them.
-/
namespace Verif

/-- the `sender` argument of `clear`: `None`, a single agent, or a sequence -/
inductive SenderArg (A : Type) where
  | none | one (a : A) | many (l : List A)

/-- `ReceivedMessages._messages : dict[str, dict[Agent, Array]]` (agents.py 299-300) -/
structure Inbox (C : Type) (A : Type) (M : Type) where
  messages : PyDict C (PyDict A M)

namespace Inbox
variable {C A M : Type} [DecidableEq C] [DecidableEq A]

/-- `ReceivedMessages()` (agents.py 299-300) -/
def empty : Inbox C A M := ⟨PyDict.empty⟩

/-- `put` (agents.py 302-306): create the channel bucket if absent, then store -/
def put (b : Inbox C A M) (sender : A) (msg : M) (ch : C) : Inbox C A M :=
  let d := if b.messages.contains ch then b.messages else b.messages.set ch PyDict.empty
  match d.get? ch with
  | some bucket => ⟨d.set ch (bucket.set sender msg)⟩
  | none => ⟨d⟩

/-- `get` (agents.py 308-310): `self._messages[channel][sender]`, either lookup may raise `KeyError` -/
def get (b : Inbox C A M) (sender : A) (ch : C) : Py M := do
  let bucket ← b.messages.getItem ch
  bucket.getItem sender

/-- `has` (agents.py 312-314) -/
def has (b : Inbox C A M) (sender : A) (ch : C) : Bool :=
  match b.messages.get? ch with
  | some bucket => bucket.contains sender
  | none => false

/-- `by_channel` (agents.py 316-318): read-only view of `self._messages.get(channel, {})` -/
def byChannel (b : Inbox C A M) (ch : C) : PyDict A M :=
  match b.messages.get? ch with
  | some bucket => bucket
  | none => PyDict.empty

/-- `sender_list` (agents.py 329) -/
def senderList : SenderArg A → List A
  | .none => []
  | .one a => [a]
  | .many l => l

/-- `for s in sender_list: bucket.pop(s, None)` (agents.py 334-335, 346-347) -/
def popAll (bucket : PyDict A M) (ss : List A) : PyDict A M := ss.foldl (fun d s => d.pop s) bucket

/-- `clear` (agents.py 320-349) -/
def clear (b : Inbox C A M) (sender : SenderArg A) (ch : Option C) : Inbox C A M :=
  match sender with
  | .none =>
    match ch with
    | none => ⟨PyDict.empty⟩
    | some c => ⟨b.messages.pop c⟩
  | s =>
    match ch with
    | none =>
      -- buckets are mutated in place while iterating, emptied channels collected and popped afterwards
      let d : PyDict C (PyDict A M) := ⟨b.messages.entries.map (fun e => (e.1, popAll e.2 (senderList s)))⟩
      let emptyChannels := (d.entries.filter (fun e => decide (e.2.len = 0))).map Prod.fst
      ⟨emptyChannels.foldl (fun d c => d.pop c) d⟩
    | some c =>
      match b.messages.get? c with
      | none => b
      | some bucket =>
        let bucket' := popAll bucket (senderList s)
        if bucket'.len = 0 then ⟨b.messages.pop c⟩ else ⟨b.messages.set c bucket'⟩

/-- operations on an inbox -/
inductive Op (C A M : Type) where
  | put (sender : A) (msg : M) (ch : C)
  | clear (sender : SenderArg A) (ch : Option C)

/-- one operation -/
def step (b : Inbox C A M) : Op C A M → Inbox C A M
  | .put s m c => b.put s m c
  | .clear s c => b.clear s c

/-- a sequence of operations -/
def run (b : Inbox C A M) (ops : List (Op C A M)) : Inbox C A M := ops.foldl step b

end Inbox
end Verif
