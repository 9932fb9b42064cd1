/-!
# Python runtime fragments used by the model

Exceptions as values, and insertion-ordered dictionaries (CPython `dict`).
These are the language semantics the rest of the model relies on, not repository code.
-/
namespace Verif

/-- Python exception classes raised by the modelled code. -/
inductive PyErr where
  | valueError | keyError | typeError | runtimeError | indexError | attributeError
  | jsonDecodeError | fileNotFound | userError | zeroDivision | notImplemented | linAlgError | importError
  deriving DecidableEq, Repr

/-- A call that either returns or raises. -/
abbrev Py (α : Type) := Except PyErr α

/-- CPython `dict`: insertion-ordered association list (language semantics). -/
structure PyDict (K : Type) (V : Type) where
  entries : List (K × V)
  deriving Repr

namespace PyDict
variable {K : Type} {V : Type} [DecidableEq K]

/-- `{}` -/
def empty : PyDict K V := ⟨[]⟩

/-- association-list lookup -/
def lookupL (k : K) : List (K × V) → Option V
  | [] => none
  | (k', v) :: t => if k = k' then some v else lookupL k t

/-- `d.get(k)` as an option -/
def get? (d : PyDict K V) (k : K) : Option V := lookupL k d.entries

/-- `k in d` -/
def contains (d : PyDict K V) (k : K) : Bool := (d.get? k).isSome

/-- `d[k]`, raising `KeyError` -/
def getItem (d : PyDict K V) (k : K) : Py V :=
  match d.get? k with
  | some v => .ok v
  | none => .error .keyError

/-- store: overwrite in place or append -/
def setL (k : K) (v : V) : List (K × V) → List (K × V)
  | [] => [(k, v)]
  | (k', v') :: t => if k = k' then (k', v) :: t else (k', v') :: setL k v t

/-- `d[k] = v` -/
def set (d : PyDict K V) (k : K) (v : V) : PyDict K V := ⟨setL k v d.entries⟩

/-- `d.pop(k, None)` (the returned value is not used by the modelled code) -/
def pop (d : PyDict K V) (k : K) : PyDict K V := ⟨d.entries.filter (fun e => !decide (e.1 = k))⟩

/-- `d.keys()` in insertion order -/
def keys (d : PyDict K V) : List K := d.entries.map Prod.fst

/-- `len(d)` -/
def len (d : PyDict K V) : Nat := d.entries.length

@[simp] theorem get?_empty (k : K) : (empty : PyDict K V).get? k = none := rfl

theorem lookupL_setL (k k' : K) (v : V) (l : List (K × V)) :
    lookupL k' (setL k v l) = if k' = k then some v else lookupL k' l := by
  induction l with
  | nil => simp [setL, lookupL]
  | cons e t ih =>
    obtain ⟨a, b⟩ := e
    by_cases h : k = a
    · subst h
      by_cases h' : k' = k <;> simp [setL, lookupL, h']
    · by_cases h' : k' = a
      · have : ¬ k' = k := fun e => h (e ▸ h')
        subst h'
        simp [setL, lookupL, h, this]
      · simp [setL, lookupL, h, h', ih]

@[simp] theorem get?_set (d : PyDict K V) (k k' : K) (v : V) :
    (d.set k v).get? k' = if k' = k then some v else d.get? k' := lookupL_setL k k' v d.entries

theorem lookupL_filter (k k' : K) (l : List (K × V)) :
    lookupL k' (l.filter (fun e => !decide (e.1 = k))) = if k' = k then none else lookupL k' l := by
  induction l with
  | nil => simp [lookupL]
  | cons e t ih =>
    obtain ⟨a, b⟩ := e
    by_cases h : a = k
    · subst h
      by_cases h' : k' = a <;> simp_all [lookupL]
    · by_cases h' : k' = a
      · subst h'; simp [lookupL, h]
      · simp [lookupL, h, h', ih]

@[simp] theorem get?_pop (d : PyDict K V) (k k' : K) :
    (d.pop k).get? k' = if k' = k then none else d.get? k' := lookupL_filter k k' d.entries

theorem lookupL_isSome_iff (k : K) (l : List (K × V)) :
    (lookupL k l).isSome = true ↔ k ∈ l.map Prod.fst := by
  induction l with
  | nil => simp [lookupL]
  | cons e t ih =>
    obtain ⟨a, b⟩ := e
    by_cases h : k = a <;> simp_all [lookupL]

theorem mem_keys_iff (d : PyDict K V) (k : K) : k ∈ d.keys ↔ (d.get? k).isSome = true :=
  (lookupL_isSome_iff k d.entries).symm

theorem contains_iff (d : PyDict K V) (k : K) : d.contains k = true ↔ k ∈ d.keys :=
  (mem_keys_iff d k).symm

theorem lookupL_eq_none_iff (k : K) (l : List (K × V)) :
    lookupL k l = none ↔ k ∉ l.map Prod.fst := by
  rw [← lookupL_isSome_iff]; cases lookupL k l <;> simp

theorem keys_setL (k : K) (v : V) (l : List (K × V)) :
    (setL k v l).map Prod.fst =
      if k ∈ l.map Prod.fst then l.map Prod.fst else l.map Prod.fst ++ [k] := by
  induction l with
  | nil => simp [setL]
  | cons e t ih =>
    obtain ⟨a, b⟩ := e
    by_cases h : k = a
    · simp [setL, h]
    · by_cases h' : k ∈ t.map Prod.fst
      · rw [if_pos h'] at ih
        simp only [setL, h, if_false, List.map_cons, ih]
        rw [if_pos (List.mem_cons_of_mem _ h')]
      · rw [if_neg h'] at ih
        simp only [setL, h, if_false, List.map_cons, ih]
        rw [if_neg (by simp only [List.mem_cons, h, false_or]; exact h')]
        simp

theorem keys_set (d : PyDict K V) (k : K) (v : V) :
    (d.set k v).keys = if k ∈ d.keys then d.keys else d.keys ++ [k] := keys_setL k v d.entries

theorem keys_pop (d : PyDict K V) (k : K) :
    (d.pop k).keys = d.keys.filter (fun a => !decide (a = k)) := by
  simp only [keys, pop, List.filter_map]
  rfl

/-- no key occurs twice: the invariant of every reachable dictionary -/
def WF (d : PyDict K V) : Prop := d.keys.Nodup

omit [DecidableEq K] in
theorem wf_empty : (empty : PyDict K V).WF := List.nodup_nil

theorem wf_set (d : PyDict K V) (k : K) (v : V) (h : d.WF) : (d.set k v).WF := by
  unfold WF at *
  rw [keys_set]
  split
  · exact h
  · rename_i hk
    rw [List.nodup_append]
    refine ⟨h, by simp, ?_⟩
    intro a ha b hb
    simp only [List.mem_singleton] at hb
    subst hb
    exact fun e => hk (e ▸ ha)

theorem wf_pop (d : PyDict K V) (k : K) (h : d.WF) : (d.pop k).WF := by
  unfold WF at *
  rw [keys_pop]
  exact h.filter _

theorem mem_entries_of_lookupL {k : K} {v : V} {l : List (K × V)} (h : lookupL k l = some v) :
    (k, v) ∈ l := by
  induction l with
  | nil => simp [lookupL] at h
  | cons e t ih =>
    obtain ⟨a, b⟩ := e
    by_cases hk : k = a
    · subst hk; simp [lookupL] at h; simp [h]
    · simp [lookupL, hk] at h; exact List.mem_cons_of_mem _ (ih h)

theorem lookupL_of_mem {k : K} {v : V} {l : List (K × V)} (hn : (l.map Prod.fst).Nodup)
    (h : (k, v) ∈ l) : lookupL k l = some v := by
  induction l with
  | nil => simp at h
  | cons e t ih =>
    obtain ⟨a, b⟩ := e
    simp only [List.map_cons, List.nodup_cons] at hn
    rcases List.mem_cons.1 h with h | h
    · cases h; simp [lookupL]
    · have : k ≠ a := fun e => hn.1 (e ▸ List.mem_map.2 ⟨_, h, rfl⟩)
      simp [lookupL, this, ih hn.2 h]

theorem mem_entries_iff (d : PyDict K V) (hw : d.WF) (k : K) (v : V) :
    (k, v) ∈ d.entries ↔ d.get? k = some v :=
  ⟨lookupL_of_mem hw, mem_entries_of_lookupL⟩

end PyDict
end Verif
