import Verif.Model.History
namespace Verif

theorem bisectRight_cons (a : Int) (l : List Int) (x : Int) :
    bisectRight (a :: l) x = if a ≤ x then bisectRight l x + 1 else 0 := by
  unfold bisectRight
  by_cases h : a ≤ x <;> simp [h]

theorem insort_cons (a : Int) (l : List Int) (x : Int) :
    insort (a :: l) x = if a ≤ x then a :: insort l x else x :: a :: l := by
  unfold insort
  rw [bisectRight_cons]
  by_cases h : a ≤ x <;> simp [h]

theorem mem_insort (l : List Int) (x k : Int) : k ∈ insort l x ↔ k = x ∨ k ∈ l := by
  induction l with
  | nil => simp [insort, bisectRight]
  | cons a l ih =>
    rw [insort_cons]
    by_cases h : a ≤ x
    · rw [if_pos h]
      simp only [List.mem_cons, ih]
      grind
    · simp [h]

theorem sorted_insort (l : List Int) (x : Int) (hs : l.Pairwise (· < ·)) (hx : x ∉ l) :
    (insort l x).Pairwise (· < ·) := by
  induction l with
  | nil => simp [insort, bisectRight]
  | cons a l ih =>
    rw [insort_cons]
    rw [List.pairwise_cons] at hs
    simp only [List.mem_cons, not_or] at hx
    by_cases h : a ≤ x
    · rw [if_pos h, List.pairwise_cons]
      refine ⟨?_, ih hs.2 hx.2⟩
      intro b hb
      rcases (mem_insort l x b).1 hb with rfl | hb
      · omega
      · exact hs.1 b hb
    · rw [if_neg h, List.pairwise_cons, List.pairwise_cons]
      refine ⟨?_, hs⟩
      intro b hb
      rcases List.mem_cons.1 hb with rfl | hb
      · omega
      · have := hs.1 b hb; omega

theorem bisectRight_eq_zero (l : List Int) (x : Int) (hs : l.Pairwise (· < ·)) :
    bisectRight l x = 0 ↔ ∀ a ∈ l, x < a := by
  cases l with
  | nil => simp [bisectRight]
  | cons a l =>
    rw [bisectRight_cons]
    rw [List.pairwise_cons] at hs
    by_cases h : a ≤ x
    · simp only [h, if_true, List.mem_cons]
      constructor
      · intro hh; omega
      · intro hh; have := hh a (Or.inl rfl); omega
    · simp only [h, if_false, true_iff, List.mem_cons]
      intro b hb
      rcases hb with rfl | hb
      · omega
      · have := hs.1 b hb; omega

theorem bisectRight_succ (l : List Int) (x : Int) (hs : l.Pairwise (· < ·)) (i : Nat)
    (h : bisectRight l x = i + 1) :
    ∃ k, l[i]? = some k ∧ k ≤ x ∧ ∀ a ∈ l, a ≤ x → a ≤ k := by
  induction l generalizing i with
  | nil => simp [bisectRight] at h
  | cons a l ih =>
    rw [bisectRight_cons] at h
    rw [List.pairwise_cons] at hs
    by_cases ha : a ≤ x
    · rw [if_pos ha] at h
      have h' : bisectRight l x = i := by omega
      cases i with
      | zero =>
        refine ⟨a, by simp, ha, ?_⟩
        intro b hb hbx
        rcases List.mem_cons.1 hb with rfl | hb
        · omega
        · have := (bisectRight_eq_zero l x hs.2).1 h' b hb; omega
      | succ j =>
        obtain ⟨k, hk, hkx, hmax⟩ := ih hs.2 j h'
        refine ⟨k, by simpa using hk, hkx, ?_⟩
        intro b hb hbx
        rcases List.mem_cons.1 hb with rfl | hb
        · have := hs.1 k (List.mem_of_getElem? hk); omega
        · exact hmax b hb hbx
    · rw [if_neg ha] at h; omega

theorem getLast_max (l : List Int) (hs : l.Pairwise (· < ·)) (k : Int) (h : l.getLast? = some k) :
    k ∈ l ∧ ∀ a ∈ l, a ≤ k := by
  induction l with
  | nil => simp at h
  | cons a l ih =>
    rw [List.pairwise_cons] at hs
    cases l with
    | nil => simp at h; subst h; simp
    | cons b l =>
      rw [List.getLast?_cons_cons] at h
      obtain ⟨h1, h2⟩ := ih hs.2 h
      refine ⟨List.mem_cons_of_mem _ h1, ?_⟩
      intro c hc
      rcases List.mem_cons.1 hc with rfl | hc
      · have := hs.1 k h1; omega
      · exact h2 c hc

theorem head_min (l : List Int) (hs : l.Pairwise (· < ·)) (k : Int) (h : l.head? = some k) :
    k ∈ l ∧ ∀ a ∈ l, k ≤ a := by
  cases l with
  | nil => simp at h
  | cons a l =>
    simp at h; subst h
    rw [List.pairwise_cons] at hs
    refine ⟨by simp, ?_⟩
    intro c hc
    rcases List.mem_cons.1 hc with rfl | hc
    · omega
    · have := hs.1 c hc; omega

namespace History
variable {α : Type}

/-- representation invariant -/
structure Inv (h : History α) : Prop where
  sorted : h.keys.Pairwise (· < ·)
  same : ∀ k, k ∈ h.keys ↔ (h.x.get? k).isSome = true
  nonneg : ∀ k ∈ h.keys, 0 ≤ k
  wf : h.x.WF

theorem inv_empty : (empty : History α).Inv :=
  ⟨List.Pairwise.nil, by intro k; simp [empty], by simp [empty], PyDict.wf_empty⟩

theorem inv_setX {h h' : History α} {it : Int} {v : α} (hi : h.Inv) (e : h.setX it v = .ok h') : h'.Inv := by
  unfold setX at e
  split at e
  · simp at e
  · rename_i hn
    simp only [Except.ok.injEq] at e
    subst e
    by_cases hc : h.x.contains it = true
    · refine ⟨by simpa [hc] using hi.sorted, ?_, by simpa [hc] using hi.nonneg, PyDict.wf_set _ _ _ hi.wf⟩
      intro k
      simp only [hc, if_true, PyDict.get?_set]
      by_cases hk : k = it
      · subst hk; simp; exact (hi.same k).2 hc
      · simp [hk, hi.same k]
    · have hni : it ∉ h.keys := fun hm => hc ((hi.same it).1 hm)
      refine ⟨by simpa [hc] using sorted_insort _ _ hi.sorted hni, ?_, ?_, PyDict.wf_set _ _ _ hi.wf⟩
      · intro k
        simp only [hc, Bool.false_eq_true, if_false, PyDict.get?_set, mem_insort]
        by_cases hk : k = it
        · simp [hk]
        · simp [hk, hi.same k]
      · intro k hk
        simp only [hc, Bool.false_eq_true, if_false, mem_insort] at hk
        rcases hk with rfl | hk
        · omega
        · exact hi.nonneg k hk

theorem get?_setX {h h' : History α} {it : Int} {v : α} (e : h.setX it v = .ok h') (k : Int) :
    h'.x.get? k = if k = it then some v else h.x.get? k := by
  unfold setX at e
  split at e
  · simp at e
  · simp only [Except.ok.injEq] at e
    subst e
    simp

theorem inv_writes (h : History α) (ws : List (Int × α)) (hi : h.Inv) : (h.writes ws).Inv := by
  induction ws generalizing h with
  | nil => exact hi
  | cons w t ih =>
    obtain ⟨k, v⟩ := w
    simp only [writes]
    split
    · rename_i h' e; exact ih _ (inv_setX hi e)
    · exact ih _ hi

/-- characterisation of `getX` on any well-formed history -/
theorem getX_ok_iff {h : History α} (hi : h.Inv) (k : Int) (hk : 0 ≤ k) (v : α) :
    h.getX k = .ok v ↔
      ∃ j, j ≤ k ∧ h.x.get? j = some v ∧ ∀ j', j < j' → j' ≤ k → h.x.get? j' = none := by
  unfold getX
  rw [if_neg (by omega), if_neg (by omega)]
  by_cases hc : h.x.contains k = true
  · rw [if_pos hc]
    unfold PyDict.contains at hc
    unfold PyDict.getItem
    obtain ⟨w, hw⟩ := Option.isSome_iff_exists.1 hc
    rw [hw]
    simp only [Except.ok.injEq]
    constructor
    · rintro rfl; exact ⟨k, by omega, hw, fun j' h1 h2 => by omega⟩
    · rintro ⟨j, hj, hv, hn⟩
      by_cases hjk : j = k
      · subst hjk; rw [hw] at hv; simpa using hv
      · have := hn k (by omega) (by omega); rw [hw] at this; simp at this
  · rw [if_neg hc]
    split
    · rename_i hb
      have hb' := (bisectRight_eq_zero _ _ hi.sorted).1 hb
      simp only [reduceCtorEq, false_iff, not_exists, not_and]
      intro j hj hv
      have := hb' j ((hi.same j).2 (by simp [hv])); omega
    · rename_i idx hb
      obtain ⟨m, hm, hmk, hmax⟩ := bisectRight_succ _ _ hi.sorted _ hb
      have hmem := List.mem_of_getElem? hm
      obtain ⟨w, hw⟩ := Option.isSome_iff_exists.1 ((hi.same m).1 hmem)
      simp only [hm, PyDict.getItem, hw, Except.ok.injEq]
      constructor
      · rintro rfl
        refine ⟨m, hmk, hw, ?_⟩
        intro j' h1 h2
        cases hj : h.x.get? j' with
        | none => rfl
        | some u => have := hmax j' ((hi.same j').2 (by simp [hj])) h2; omega
      · rintro ⟨j, hj, hv, hn⟩
        by_cases hjm : j = m
        · subst hjm; rw [hw] at hv; simpa using hv
        · by_cases hlt : j < m
          · have := hn m hlt hmk; rw [hw] at this; simp at this
          · have := hmax j ((hi.same j).2 (by simp [hv])) hj; omega

theorem getX_cases {h : History α} (hi : h.Inv) (k : Int) (hk : 0 ≤ k) :
    (∃ v, h.getX k = .ok v) ∨ (h.getX k = .error .valueError ∧ ∀ j ≤ k, h.x.get? j = none) := by
  unfold getX
  rw [if_neg (by omega), if_neg (by omega)]
  by_cases hc : h.x.contains k = true
  · rw [if_pos hc]
    obtain ⟨w, hw⟩ := Option.isSome_iff_exists.1 hc
    exact Or.inl ⟨w, by simp [PyDict.getItem, hw]⟩
  · rw [if_neg hc]
    split
    · rename_i hb
      refine Or.inr ⟨rfl, fun j hj => ?_⟩
      have hb' := (bisectRight_eq_zero _ _ hi.sorted).1 hb
      cases hv : h.x.get? j with
      | none => rfl
      | some u => have := hb' j ((hi.same j).2 (by simp [hv])); omega
    · rename_i idx hb
      obtain ⟨m, hm, hmk, hmax⟩ := bisectRight_succ _ _ hi.sorted _ hb
      obtain ⟨w, hw⟩ := Option.isSome_iff_exists.1 ((hi.same m).1 (List.mem_of_getElem? hm))
      exact Or.inl ⟨w, by simp [hm, PyDict.getItem, hw]⟩

end History
end Verif
