import Verif.Lemmas.History
/-! # C01: agent history behaves as a sorted predecessor map -/
namespace Verif.Props
open Verif
variable {α : Type}

/-! ## Specification (independent of the model) -/

/-- the value most recently written at iteration `k`; writes at negative iterations are rejected -/
def lastWrite (ws : List (Int × α)) (k : Int) : Option α :=
  ((ws.filter (fun w => decide (0 ≤ w.1 ∧ w.1 = k))).getLast?).map (·.2)

/-- iteration `k` has been recorded -/
def Recorded (ws : List (Int × α)) (k : Int) : Prop := 0 ≤ k ∧ ∃ v, (k, v) ∈ ws

/-- `j` is the greatest recorded iteration `≤ k` -/
def Pred (ws : List (Int × α)) (k j : Int) : Prop :=
  Recorded ws j ∧ j ≤ k ∧ ∀ j', Recorded ws j' → j' ≤ k → j' ≤ j

/-! ## Connection -/

theorem lastWrite_append (ws : List (Int × α)) (k' : Int) (v : α) (k : Int) :
    lastWrite (ws ++ [(k', v)]) k = if 0 ≤ k' ∧ k = k' then some v else lastWrite ws k := by
  unfold lastWrite
  rw [List.filter_append]
  by_cases h : 0 ≤ k' ∧ k = k'
  · obtain ⟨h1, h2⟩ := h
    subst h2
    simp [h1]
  · rw [if_neg h]
    have : ¬ (0 ≤ k' ∧ k' = k) := fun ⟨a, b⟩ => h ⟨a, b.symm⟩
    simp [this]

theorem lastWrite_isSome (ws : List (Int × α)) (k : Int) :
    (lastWrite ws k).isSome = true ↔ Recorded ws k := by
  unfold lastWrite Recorded
  rw [Option.isSome_map]
  constructor
  · intro h
    obtain ⟨w, hw⟩ := List.exists_mem_of_ne_nil
      (ws.filter (fun w : Int × α => decide (0 ≤ w.1 ∧ w.1 = k))) (by intro e; rw [e] at h; simp at h)
    rw [List.mem_filter] at hw
    have h2 := of_decide_eq_true hw.2
    refine ⟨by omega, w.2, ?_⟩
    rw [← h2.2]; exact hw.1
  · rintro ⟨h0, v, hv⟩
    have : (k, v) ∈ ws.filter (fun w => decide (0 ≤ w.1 ∧ w.1 = k)) := by
      rw [List.mem_filter]; exact ⟨hv, by simp [h0]⟩
    have hne := List.ne_nil_of_mem this
    rw [List.getLast?_eq_some_getLast hne]; rfl

theorem writes_append (h : History α) (ws ws' : List (Int × α)) :
    h.writes (ws ++ ws') = (h.writes ws).writes ws' := by
  induction ws generalizing h with
  | nil => rfl
  | cons w t ih =>
    obtain ⟨k, v⟩ := w
    simp only [List.cons_append, History.writes]
    split <;> exact ih _

theorem get?_writes (ws : List (Int × α)) (k : Int) :
    (History.empty.writes ws).x.get? k = lastWrite ws k := by
  have key : ∀ n (ws : List (Int × α)), ws.length = n →
      (History.empty.writes ws).x.get? k = lastWrite ws k := by
    intro n
    induction n with
    | zero =>
      intro ws h
      have : ws = [] := List.length_eq_zero_iff.1 h
      subst this; rfl
    | succ n ih =>
      intro ws h
      have hne : ws ≠ [] := by intro e; subst e; simp at h
      rcases hl : ws.getLast hne with ⟨k', v⟩
      have hs := List.dropLast_concat_getLast hne
      rw [hl] at hs
      rw [← hs, writes_append, lastWrite_append]
      simp only [History.writes]
      have hlen : ws.dropLast.length = n := by rw [List.length_dropLast]; omega
      split
      · rename_i h' e
        rw [History.get?_setX e, ih _ hlen]
        have : 0 ≤ k' := by
          unfold History.setX at e
          split at e
          · simp at e
          · omega
        simp [this]
      · rename_i e
        rw [ih _ hlen]
        have : ¬ 0 ≤ k' := by
          intro h0
          unfold History.setX at e
          rw [if_neg (by omega)] at e
          simp at e
        simp [this]
  exact key _ ws rfl

/-! ## Properties -/

/-- Reading `k ≥ 0` returns `v` iff `v` is the last value written at the greatest recorded iteration `≤ k`. -/
theorem C01_get_predecessor (ws : List (Int × α)) (k : Int) (hk : 0 ≤ k) (v : α) :
    (History.empty.writes ws).getX k = .ok v ↔ ∃ j, Pred ws k j ∧ lastWrite ws j = some v := by
  rw [History.getX_ok_iff (History.inv_writes _ ws History.inv_empty) k hk]
  simp only [get?_writes]
  constructor
  · rintro ⟨j, hj, hv, hn⟩
    refine ⟨j, ⟨(lastWrite_isSome ws j).1 (by simp [hv]), hj, ?_⟩, hv⟩
    intro j' hr hle
    refine Int.not_lt.1 (fun hlt => ?_)
    have := (lastWrite_isSome ws j').2 hr
    rw [hn j' hlt hle] at this; simp at this
  · rintro ⟨j, ⟨_, hj, hmax⟩, hv⟩
    refine ⟨j, hj, hv, ?_⟩
    intro j' hlt hle
    cases h : lastWrite ws j' with
    | none => rfl
    | some u =>
      have := hmax j' ((lastWrite_isSome ws j').1 (by simp [h])) hle
      omega

/-- Reading `k ≥ 0` raises ValueError iff nothing is recorded at or before `k`; no other outcome occurs. -/
theorem C01_get_before_first (ws : List (Int × α)) (k : Int) (hk : 0 ≤ k) :
    ((History.empty.writes ws).getX k = .error .valueError ↔ ∀ j, Recorded ws j → k < j) ∧
    (∀ e, (History.empty.writes ws).getX k = .error e → e = .valueError) := by
  have hi := History.inv_writes _ ws (History.inv_empty (α := α))
  rcases History.getX_cases hi k hk with ⟨v, hv⟩ | ⟨he, hn⟩
  · refine ⟨?_, by intro e h; rw [hv] at h; simp at h⟩
    rw [hv]
    simp only [reduceCtorEq, false_iff]
    intro hall
    obtain ⟨j, ⟨hr, hle, _⟩, _⟩ := (C01_get_predecessor ws k hk v).1 hv
    have := hall j hr; omega
  · refine ⟨?_, by intro e h; rw [he] at h; simpa using h.symm⟩
    simp only [he, true_iff]
    intro j hr
    refine Int.not_le.1 (fun hle => ?_)
    have h1 := hn j hle
    rw [get?_writes] at h1
    have := (lastWrite_isSome ws j).2 hr
    rw [h1] at this; simp at this

/-- Index -1 reads the value at the greatest recorded iteration, and raises ValueError iff the history is empty. -/
theorem C01_get_latest (ws : List (Int × α)) :
    (∀ v, (History.empty.writes ws).getX (-1) = .ok v ↔
      ∃ j, Recorded ws j ∧ (∀ j', Recorded ws j' → j' ≤ j) ∧ lastWrite ws j = some v) ∧
    ((History.empty.writes ws).getX (-1) = .error .valueError ↔ ∀ j, ¬ Recorded ws j) := by
  have hi := History.inv_writes _ ws (History.inv_empty (α := α))
  have hmem : ∀ j, j ∈ (History.empty.writes ws).keys ↔ Recorded ws j := by
    intro j; rw [hi.same, get?_writes, lastWrite_isSome]
  unfold History.getX History.max
  simp only [show ¬ ((-1 : Int) < -1) by omega, if_false, if_true]
  cases hl : (History.empty.writes ws).keys.getLast? with
  | none =>
    have hnil := List.getLast?_eq_none_iff.1 hl
    have hno : ∀ j, ¬ Recorded ws j := by
      intro j hr; have := (hmem j).2 hr; rw [hnil] at this; simp at this
    refine ⟨fun v => ?_, ?_⟩
    · simp only [bind, Except.bind, reduceCtorEq, false_iff, not_exists, not_and]
      intro j hr; exact absurd hr (hno j)
    · simpa [bind, Except.bind] using hno
  | some m =>
    obtain ⟨hm, hmax⟩ := getLast_max _ hi.sorted m hl
    have hr := (hmem m).1 hm
    obtain ⟨w, hw⟩ := Option.isSome_iff_exists.1 ((lastWrite_isSome ws m).2 hr)
    have hget : (History.empty.writes ws).x.getItem m = .ok w := by
      simp [PyDict.getItem, get?_writes, hw]
    simp only [bind, Except.bind, hget, Except.ok.injEq, reduceCtorEq, false_iff]
    refine ⟨fun v => ⟨?_, ?_⟩, fun h => h m hr⟩
    · rintro rfl
      exact ⟨m, hr, fun j' h' => hmax j' ((hmem j').2 h'), hw⟩
    · rintro ⟨j, hj, hjm, hv⟩
      have h1 := hjm m hr
      have h2 := hmax j ((hmem j).2 hj)
      have : j = m := by omega
      subst this; rw [hw] at hv; simpa using hv

/-- Any index below -1 raises ValueError, whatever the history. -/
theorem C01_get_invalid (h : History α) (k : Int) (hk : k < -1) : h.getX k = .error .valueError := by
  simp [History.getX, hk]

/-- Writing a negative iteration raises ValueError; any other write succeeds. -/
theorem C01_set_guard (h : History α) (k : Int) (v : α) :
    (k < 0 → h.setX k v = .error .valueError) ∧ (0 ≤ k → ∃ h', h.setX k v = .ok h') := by
  constructor
  · intro hk; simp [History.setX, hk]
  · intro hk; exact ⟨_, by simp only [History.setX, if_neg (show ¬ k < 0 by omega)]; rfl⟩

/-- The recorded iterations are strictly increasing (hence without duplicates), and are exactly the written ones;
`in`, `len`, `min`, `max` and `items` agree with them. -/
theorem C01_keys_sorted (ws : List (Int × α)) :
    (History.empty.writes ws).keysList.Pairwise (· < ·) ∧
    (∀ k, k ∈ (History.empty.writes ws).keysList ↔ Recorded ws k) ∧
    (∀ k, (History.empty.writes ws).contains k = true ↔ Recorded ws k) := by
  have hi := History.inv_writes _ ws (History.inv_empty (α := α))
  refine ⟨hi.sorted, fun k => ?_, fun k => ?_⟩
  · unfold History.keysList; rw [hi.same, get?_writes, lastWrite_isSome]
  · unfold History.contains PyDict.contains; rw [get?_writes, lastWrite_isSome]

/-- `min`/`max` return the least/greatest recorded iteration and raise ValueError iff nothing is recorded. -/
theorem C01_min_max (ws : List (Int × α)) :
    (∀ m, (History.empty.writes ws).max = .ok m ↔ Recorded ws m ∧ ∀ j, Recorded ws j → j ≤ m) ∧
    (∀ m, (History.empty.writes ws).min = .ok m ↔ Recorded ws m ∧ ∀ j, Recorded ws j → m ≤ j) ∧
    ((∀ j, ¬ Recorded ws j) → (History.empty.writes ws).max = .error .valueError ∧
      (History.empty.writes ws).min = .error .valueError) := by
  have hi := History.inv_writes _ ws (History.inv_empty (α := α))
  have hmem : ∀ j, j ∈ (History.empty.writes ws).keys ↔ Recorded ws j := by
    intro j; rw [hi.same, get?_writes, lastWrite_isSome]
  refine ⟨fun m => ?_, fun m => ?_, fun hno => ?_⟩
  · unfold History.max
    cases hl : (History.empty.writes ws).keys.getLast? with
    | none =>
      have hnil := List.getLast?_eq_none_iff.1 hl
      simp only [reduceCtorEq, false_iff, not_and]
      intro hr; have := (hmem m).2 hr; rw [hnil] at this; simp at this
    | some k =>
      obtain ⟨hk, hmax⟩ := getLast_max _ hi.sorted k hl
      simp only [Except.ok.injEq]
      constructor
      · rintro rfl; exact ⟨(hmem k).1 hk, fun j hj => hmax j ((hmem j).2 hj)⟩
      · rintro ⟨h1, h2⟩
        have a := hmax m ((hmem m).2 h1); have b := h2 k ((hmem k).1 hk); omega
  · unfold History.min
    cases hl : (History.empty.writes ws).keys.head? with
    | none =>
      have hnil := List.head?_eq_none_iff.1 hl
      simp only [reduceCtorEq, false_iff, not_and]
      intro hr; have := (hmem m).2 hr; rw [hnil] at this; simp at this
    | some k =>
      obtain ⟨hk, hmin⟩ := head_min _ hi.sorted k hl
      simp only [Except.ok.injEq]
      constructor
      · rintro rfl; exact ⟨(hmem k).1 hk, fun j hj => hmin j ((hmem j).2 hj)⟩
      · rintro ⟨h1, h2⟩
        have a := hmin m ((hmem m).2 h1); have b := h2 k ((hmem k).1 hk); omega
  · have : (History.empty.writes ws).keys = [] := by
      rw [List.eq_nil_iff_forall_not_mem]; intro j hj; exact hno j ((hmem j).1 hj)
    simp [History.max, History.min, this]

/-- `items()` never raises, and yields, in strictly increasing iteration order, exactly the recorded iterations each
paired with its last written value. -/
theorem C01_items (ws : List (Int × α)) :
    ∃ l, (History.empty.writes ws).items = .ok l ∧ (l.map Prod.fst).Pairwise (· < ·) ∧
      ∀ k v, (k, v) ∈ l ↔ lastWrite ws k = some v := by
  have hi := History.inv_writes _ ws (History.inv_empty (α := α))
  have gen : ∀ ks : List Int, (∀ k ∈ ks, ((History.empty.writes ws).x.get? k).isSome = true) →
      ∃ l, (ks.mapM (fun k => do
        let v ← (History.empty.writes ws).x.getItem k
        pure (k, v)) : Py (List (Int × α))) = .ok l ∧ l.map Prod.fst = ks ∧
        ∀ k v, (k, v) ∈ l ↔ k ∈ ks ∧ (History.empty.writes ws).x.get? k = some v := by
    intro ks
    induction ks with
    | nil => intro _; exact ⟨[], rfl, rfl, by simp⟩
    | cons a t ih =>
      intro hall
      obtain ⟨l, hl, hm, hc⟩ := ih (fun k hk => hall k (List.mem_cons_of_mem _ hk))
      obtain ⟨w, hw⟩ := Option.isSome_iff_exists.1 (hall a (by simp))
      refine ⟨(a, w) :: l, ?_, by simp [hm], ?_⟩
      · rw [List.mapM_cons, hl]
        simp [PyDict.getItem, hw, bind, Except.bind, pure, Except.pure]
      · intro k v
        simp only [List.mem_cons, Prod.mk.injEq, hc]
        constructor
        · rintro (⟨rfl, rfl⟩ | ⟨h1, h2⟩)
          · exact ⟨Or.inl rfl, hw⟩
          · exact ⟨Or.inr h1, h2⟩
        · rintro ⟨rfl | h1, h2⟩
          · rw [hw] at h2; exact Or.inl ⟨rfl, by simpa using h2.symm⟩
          · exact Or.inr ⟨h1, h2⟩
  obtain ⟨l, hl, hm, hc⟩ := gen (History.empty.writes ws).keys (fun k hk => (hi.same k).1 hk)
  refine ⟨l, hl, by rw [hm]; exact hi.sorted, ?_⟩
  intro k v
  rw [hc, hi.same, get?_writes]
  constructor
  · exact fun h => h.2
  · intro h; exact ⟨by simp [h], h⟩

/-! ## Non-vacuity -/

example : Pred [(0, 'a'), (20, 'c'), (10, 'b'), (10, 'd')] 13 10 ∧
    lastWrite [(0, 'a'), (20, 'c'), (10, 'b'), (10, 'd')] 10 = some 'd' := by
  refine ⟨⟨⟨by decide, 'd', by simp⟩, by decide, ?_⟩, by decide⟩
  rintro j ⟨_, v, hv⟩ h
  simp at hv
  omega

example : (History.empty.writes [(0, 'a'), (20, 'c'), (10, 'b'), (10, 'd')]).getX 13 = .ok 'd' := by rfl
example : (History.empty.writes [(5, 'a'), (-3, 'z')]).getX 4 = .error .valueError := by rfl

end Verif.Props
