import Verif.Model.Network
import Mathlib.Algebra.Module.Basic
import Mathlib.Data.Real.Basic
/-!
# Message objects and in-place sums: DLM (_dlm.py) and DiNNO (_dinno.py)

Elsewhere messages are immutable values. Here every message object has an address in a heap, because `s += val` and
`s /= 2.0` (utils/interoperability/_operators.py 50-82 and 248-280: `value1 += value2`, `value1 /= value2` on NumPy arrays
and torch tensors) mutate the array `s` refers to.

* `addr j i` is the address of the message of sender `j` in the inbox of `i`. Without noise one object is put into the
  inboxes of all receivers (networks.py 321-323): `addr j i = j` (`shared`). With noise `msg + noise[i]` makes a fresh array
  per receiver: `addr j i = (j, i)` (`owned`). The object is never the sender's own `x` (`iop.copy`, 317).
* `heard i` are the senders in `i.messages()`, in dictionary order.
* All agents are active; the order of `network.active_agents()` is the list `order`.
-/
namespace Verif.Alias
open Verif
variable {A E L : Type} [DecidableEq A] [DecidableEq L] [AddCommGroup E] [Module ℝ E]

/-- one message object per broadcast -/
def shared (j _i : A) : A := j
/-- one message object per receiver -/
def owned (j i : A) : A × A := (j, i)

/-- `s = None; for val in messages: s = val if s is None else s += val` (_dlm.py 94-101, _dinno.py 91-96, 105-110).
Returns the address `s` refers to (if any message was received) and the new heap. -/
def sumInPlace (heap : L → E) : List L → Option L × (L → E)
  | [] => (none, heap)
  | a :: t => (some a, t.foldl (fun h b => upd h a (h a + h b)) heap)

/-! ## DLM -/

/-- the loop `for i in active_agents: s = sum_messages(i); if s is not None: aux["s"] = len(i.messages()) * i.x - s`
(_dlm.py 67-70, 82-85) -/
def gather (addr : A → A → L) (heard : A → List A) (x : A → E) : List A → (L → E) → (A → E) → (A → E) × (L → E)
  | [], heap, s => (s, heap)
  | i :: t, heap, s =>
    let r := sumInPlace heap ((heard i).map (fun j => addr j i))
    let s := match r.1 with
      | none => s
      | some a => upd s i ((heard i).length • x i - r.2 a)
    gather addr heard x t r.2 s

/-- DLM's variables -/
structure Dlm (A E : Type) where
  x : A → E
  y : A → E
  s : A → E

/-- after the broadcast every message object holds the sender's `x`: `msgOf a` is the sender of object `a` -/
def heapOf (msgOf : L → A) (x : A → E) : L → E := fun a => x (msgOf a)

/-- `initialize` (_dlm.py 52-56) -/
def dlmInit (x0 : A → E) : Dlm A E := ⟨x0, fun _ => 0, fun _ => 0⟩

/-- `step` (_dlm.py 58-92) with every agent active; `G i` is the gradient of agent `i`'s cost -/
noncomputable def dlmStep (msgOf : L → A) (addr : A → A → L) (heard : A → List A) (order : List A) (G : A → E → E)
    (μ ρ : ℝ) (k : Nat) (st : Dlm A E) : Dlm A E :=
  if k = 0 then
    { st with s := (gather addr heard st.x order (heapOf msgOf st.x) st.s).1 }
  else
    let x := fun i => if i ∈ order then st.x i - μ • (G i (st.x i) + ρ • st.s i + st.y i) else st.x i
    let s := (gather addr heard x order (heapOf msgOf x) st.s).1
    { x := x, s := s, y := fun i => if i ∈ order then st.y i + ρ • s i else st.y i }

/-- the state after `k` iterations -/
noncomputable def dlmAfter (msgOf : L → A) (addr : A → A → L) (heard : A → List A) (order : List A) (G : A → E → E)
    (μ ρ : ℝ) (x0 : A → E) : Nat → Dlm A E
  | 0 => dlmInit x0
  | k + 1 => dlmStep msgOf addr heard order G μ ρ k (dlmAfter msgOf addr heard order G μ ρ x0 k)

/-! ## DiNNO -/

/-- `_auxiliary_update` for all agents in turn (_dinno.py 78-80, 89-99) -/
noncomputable def dinnoDual (addr : A → A → L) (heard : A → List A) (ρ : ℝ) (x : A → E) :
    List A → (L → E) → (A → E) → (A → E) × (L → E)
  | [], heap, p => (p, heap)
  | i :: t, heap, p =>
    let r := sumInPlace heap ((heard i).map (fun j => addr j i))
    let p := match r.1 with
      | none => p
      | some a => upd p i (p i + ρ • ((heard i).length • x i - r.2 a))
    dinnoDual addr heard ρ x t r.2 p

/-- the message part of `_local_training` (_dinno.py 105-112): sum again and halve in place; the value later used for
agent `i` (`none`: no message) -/
noncomputable def dinnoHalf (addr : A → A → L) (heard : A → List A) :
    List A → (L → E) → (A → Option E) → (A → Option E) × (L → E)
  | [], heap, v => (v, heap)
  | i :: t, heap, v =>
    let r := sumInPlace heap ((heard i).map (fun j => addr j i))
    match r.1 with
    | none => dinnoHalf addr heard t r.2 v
    | some a =>
      let heap := upd r.2 a ((1 / 2 : ℝ) • r.2 a)
      dinnoHalf addr heard t heap (upd v i (some (heap a)))

/-- the inner loop of `_local_training` (_dinno.py 115-133) -/
noncomputable def dinnoLocal (G : E → E) (μ ρ : ℝ) (m : Nat) (xi p : E) (half : Option E) : Nat → E → E
  | 0, psi => psi
  | B + 1, psi =>
    let consensus := match half with
      | none => 0
      | some h => (2 * ρ) • (m • (psi - (1 / 2 : ℝ) • xi) - h)
    dinnoLocal G μ ρ m xi p half B (psi - μ • (G psi + p + consensus))

/-- DiNNO's variables -/
structure Dinno (A E : Type) where
  x : A → E
  p : A → E

/-- `step` (_dinno.py 71-87) with every agent active -/
noncomputable def dinnoStep (msgOf : L → A) (addr : A → A → L) (heard : A → List A) (order : List A) (G : A → E → E)
    (μ ρ : ℝ) (B : Nat) (st : Dinno A E) : Dinno A E :=
  let d := dinnoDual addr heard ρ st.x order (heapOf msgOf st.x) st.p
  let h := dinnoHalf addr heard order d.2 (fun _ => none)
  { p := d.1,
    x := fun i => if i ∈ order then dinnoLocal (G i) μ ρ (heard i).length (st.x i) (d.1 i) (h.1 i) B (st.x i)
                  else st.x i }

end Verif.Alias
