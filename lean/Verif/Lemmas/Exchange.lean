import Mathlib.Algebra.Order.BigOperators.Group.Finset
import Mathlib.Data.Real.Basic
import Mathlib.Data.Finset.Max
import Mathlib.Algebra.BigOperators.Group.Finset.Piecewise
import Mathlib.Data.List.Dedup
/-!
# Selecting the smallest keys minimises the sum of keys
-/
namespace Verif

theorem sum_le_of_exchange {A M : Type} [DecidableEq A] [AddCommMonoid M] [LinearOrder M] [IsOrderedAddMonoid M]
    (key : A → M) (T S : Finset A) (hcard : T.card = S.card)
    (h : ∀ a ∈ T, ∀ b ∈ S, b ∉ T → key a ≤ key b) : ∑ a ∈ T, key a ≤ ∑ a ∈ S, key a := by
  have hd : (T \ S).card = (S \ T).card := by
    have h1 := Finset.card_sdiff_add_card_inter T S
    have h2 := Finset.card_sdiff_add_card_inter S T
    rw [Finset.inter_comm] at h2
    omega
  have hT := Finset.sum_inter_add_sum_sdiff T S key
  have hS := Finset.sum_inter_add_sum_sdiff S T key
  rw [← hT, ← hS, Finset.inter_comm S T]
  refine add_le_add le_rfl ?_
  rcases (T \ S).eq_empty_or_nonempty with he | hne
  · have : S \ T = ∅ := Finset.card_eq_zero.1 (by rw [← hd, he]; rfl)
    rw [he, this]
  · obtain ⟨m, hm, hmax⟩ := Finset.exists_max_image (T \ S) key hne
    calc ∑ a ∈ T \ S, key a ≤ (T \ S).card • key m := Finset.sum_le_card_nsmul _ _ _ hmax
      _ = (S \ T).card • key m := by rw [hd]
      _ ≤ ∑ a ∈ S \ T, key a := by
        apply Finset.card_nsmul_le_sum
        intro b hb
        rw [Finset.mem_sdiff] at hb hm
        exact h m hm.1 b hb.1 hb.2

/-- list form: `T`, `S` duplicate-free lists of the same length -/
theorem list_sum_le_of_exchange {A M : Type} [DecidableEq A] [AddCommMonoid M] [LinearOrder M] [IsOrderedAddMonoid M]
    (key : A → M) (T S : List A) (hT : T.Nodup) (hS : S.Nodup) (hlen : T.length = S.length)
    (h : ∀ a ∈ T, ∀ b ∈ S, b ∉ T → key a ≤ key b) : (T.map key).sum ≤ (S.map key).sum := by
  rw [← List.sum_toFinset key hT, ← List.sum_toFinset key hS]
  apply sum_le_of_exchange
  · rw [List.toFinset_card_of_nodup hT, List.toFinset_card_of_nodup hS, hlen]
  · simpa using h

/-- in a sorted list everything in the first part is at most everything in the second -/
theorem take_le_drop {A : Type} {r : A → A → Prop} {l : List A} (h : l.Pairwise r) (k : Nat) {a b : A}
    (ha : a ∈ l.take k) (hb : b ∈ l.drop k) : r a b := by
  rw [← List.take_append_drop k l, List.pairwise_append] at h
  exact h.2.2 a ha b hb

theorem mem_drop_of_not_mem_take {A : Type} {l : List A} {k : Nat} {b : A} (hb : b ∈ l) (h : b ∉ l.take k) :
    b ∈ l.drop k := by
  rw [← List.take_append_drop k l, List.mem_append] at hb
  exact hb.resolve_left h

end Verif
