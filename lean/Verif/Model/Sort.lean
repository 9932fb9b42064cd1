import Mathlib.Data.List.Sort
/-!
# Python `sorted`

`sorted` is guaranteed to be stable, so its result is uniquely determined by the key order; it is modelled by a
structurally recursive stable insertion sort (language semantics, not repository code).
`le x y` stands for `not (key(y) < key(x))`.
-/
namespace Verif

/-- `sorted(l, key=...)` -/
def pySorted {B : Type} (le : B → B → Bool) (l : List B) : List B := l.insertionSort (fun a b => le a b = true)

theorem pySorted_perm {B : Type} (le : B → B → Bool) (l : List B) : (pySorted le l).Perm l :=
  List.perm_insertionSort _ l

theorem pySorted_pairwise {B : Type} {le : B → B → Bool} (trans : ∀ a b c, le a b = true → le b c = true → le a c = true)
    (total : ∀ a b, (le a b || le b a) = true) (l : List B) : (pySorted le l).Pairwise (fun a b => le a b = true) := by
  have : Std.Total (fun a b => le a b = true) := ⟨fun a b => by have := total a b; simpa using this⟩
  have : IsTrans B (fun a b => le a b = true) := ⟨trans⟩
  exact List.pairwise_insertionSort _ l

theorem pair_sublist_pySorted {B : Type} {le : B → B → Bool} {a b : B} {l : List B} (hab : le a b = true)
    (h : [a, b].Sublist l) : [a, b].Sublist (pySorted le l) :=
  List.pair_sublist_insertionSort (r := fun a b => le a b = true) hab h

end Verif
