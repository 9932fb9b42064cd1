import Verif.Lemmas.LabelNet
import Verif.Lemmas.Partition
import Mathlib.Data.List.Dedup
import Mathlib.Data.Int.CardIntervalMod
import Mathlib.Algebra.BigOperators.Group.List.Lemmas
import Mathlib.Algebra.Order.BigOperators.Group.List
/-!
# From flows to label-quantity partitions
-/
set_option linter.unusedSectionVars false
namespace Verif
namespace Part

/-! ### more fuel changes nothing -/

theorem bfs_mono (adj : Nat → List Nat) (r : Caps) (sink : Nat) {f g : Nat} (h : f ≤ g) (q : List Nat) (par res : Parents)
    (he : bfs adj r sink f q par = some res) : bfs adj r sink g q par = some res := by
  induction f generalizing g q par with
  | zero =>
    cases q with
    | nil => cases g <;> simpa [bfs] using he
    | cons a q => simp [bfs] at he
  | succ f ih =>
    obtain ⟨g, rfl⟩ : ∃ g', g = g' + 1 := ⟨g - 1, by omega⟩
    cases q with
    | nil => simpa [bfs] using he
    | cons a q =>
      simp only [bfs] at he ⊢
      split
      · rename_i h1; rw [if_pos h1] at he; exact he
      · rename_i h1; rw [if_neg h1] at he; exact ih (by omega) _ _ he

theorem walk_mono (par : Parents) (s : Nat) {f g : Nat} (h : f ≤ g) (x : Nat) (es : List (Nat × Nat))
    (he : walk par s f x = some es) : walk par s g x = some es := by
  induction f generalizing g x es with
  | zero =>
    by_cases hx : x = s
    · rw [walk, if_pos hx] at he
      cases g with
      | zero => rw [walk, if_pos hx]; exact he
      | succ g => rw [walk, if_pos hx]; exact he
    · rw [walk, if_neg hx] at he; simp at he
  | succ f ih =>
    obtain ⟨g, rfl⟩ : ∃ g', g = g' + 1 := ⟨g - 1, by omega⟩
    rw [walk] at he ⊢
    split
    · rename_i hx; rw [if_pos hx] at he; exact he
    · rename_i hx
      rw [if_neg hx] at he
      cases hp : par x with
      | none => rw [hp] at he; simp at he
      | some prev =>
        rw [hp] at he
        simp only [Option.map_eq_some_iff] at he ⊢
        obtain ⟨es', h1, h2⟩ := he
        exact ⟨es', ih (by omega) _ _ h1, h2⟩

theorem maxFlow_mono (adj : Nat → List Nat) (s t : Nat) {i i' : Nat} (hi : i ≤ i') {f g : Nat} (h : f ≤ g) (r : Caps)
    (F : Int) (res : Int × Caps) (he : maxFlow adj s t i f r F = some res) : maxFlow adj s t i' g r F = some res := by
  induction f generalizing g r F with
  | zero => simp [maxFlow] at he
  | succ f ih =>
    obtain ⟨g, rfl⟩ : ∃ g', g = g' + 1 := ⟨g - 1, by omega⟩
    rw [maxFlow] at he ⊢
    cases hp : findAugmentingPath adj r s t i with
    | none => rw [hp] at he; simp at he
    | some par =>
      rw [hp] at he
      rw [findAugmentingPath, bfs_mono adj r t hi _ _ _ hp]
      simp only at he ⊢
      cases hs : par t with
      | none => rw [hs] at he; simpa using he
      | some _ =>
        rw [hs] at he
        simp only at he ⊢
        cases hw : walk par s i t with
        | none => rw [hw] at he; simp at he
        | some es =>
          rw [hw] at he
          rw [walk_mono par s hi _ _ hw]
          simp only at he ⊢
          exact ih (by omega) _ _ he

variable {L : Type} [DecidableEq L]

/-- budget that always suffices -/
def enough (labels : List L) (counts : List Nat) : Nat := labels.length + counts.length + 2 + counts.sum

/-- the allocation table: it exists exactly if there is an allocation -/
theorem labelAllocations_spec (labels : List L) (supply : L → Nat) (allowed : Nat → L → Bool) (counts : List Nat) :
    ∃ res, (∀ fuel, enough labels counts ≤ fuel → labelAllocations labels supply allowed counts fuel = some res) ∧
      ((∃ x, AllocOK labels supply allowed counts x) → ∃ rows, res = .ok rows ∧ rows.length = labels.length ∧
        (∀ row ∈ rows, row.length = counts.length) ∧
        AllocOK labels supply allowed counts (fun i j => (rows.getD i []).getD j 0)) ∧
      ((¬ ∃ x, AllocOK labels supply allowed counts x) → res = .error .valueError) := by
  have hok := labelNet_ok labels supply allowed counts
  obtain ⟨F, r, h1, h2, S, hS, hs, ht, hF⟩ := maxFlow_spec hok (enough labels counts) (by unfold enough; omega)
    (enough labels counts) _ 0 (resInv_init hok) (by
      rw [sink_bound]; unfold enough; push_cast; omega)
  refine ⟨if F ≠ ((counts.sum : Nat) : Int) then .error .valueError
    else .ok ((List.range labels.length).map (fun i => (List.range counts.length).map (fun j => r (1 + labels.length + j) (1 + i)))),
    ?_, ?_, ?_⟩
  · intro fuel hf
    simp only [labelAllocations]
    rw [maxFlow_mono _ _ _ hf hf _ _ _ h1]
    simp only
    split <;> rfl
  · rintro ⟨x, hx⟩
    have hle := alloc_complete labels supply allowed counts hx S hS hs ht
    have hub := h2.bound hok
    rw [sink_bound] at hub
    have hFe : F = ((counts.sum : Nat) : Int) := by omega
    rw [if_neg (by simpa using hFe)]
    refine ⟨_, rfl, by simp, ?_, ?_⟩
    · intro row hrow
      obtain ⟨i, _, rfl⟩ := List.mem_map.1 hrow
      simp
    · subst hFe
      have hso := alloc_sound labels supply allowed counts h2
      have hv : ∀ i j : Nat, i < labels.length → j < counts.length →
          (((List.range labels.length).map (fun i => (List.range counts.length).map
            (fun j => r (1 + labels.length + j) (1 + i)))).getD i []).getD j 0 = r (1 + labels.length + j) (1 + i) := by
        intro i j hi hj
        simp [List.getD_eq_getElem?_getD, hi, hj]
      refine ⟨?_, ?_, ?_, ?_⟩
      · intro i j hi hj
        rw [hv i j hi hj]; exact hso.nonneg i j hi hj
      · intro i j l hl hj hne
        rw [hv i j (getElem?_lt hl) hj] at hne
        exact hso.allowed i j l hl hj hne
      · intro i l hl
        rw [Finset.sum_congr rfl (fun j hj => hv i j (getElem?_lt hl) (Finset.mem_range.1 hj))]
        exact hso.supply i l hl
      · intro j c hc
        rw [Finset.sum_congr rfl (fun i hi => hv i j (Finset.mem_range.1 hi) (getElem?_lt hc))]
        exact hso.size j c hc
  · intro hno
    rw [if_pos ?_]
    intro hFe
    subst hFe
    exact hno ⟨_, alloc_sound labels supply allowed counts h2⟩

/-! ### filling -/

theorem sum_getD_range (row : List Int) (n : Nat) (hn : row.length = n) :
    ∑ j ∈ Finset.range n, row.getD j 0 = row.sum := by
  subst hn
  induction row with
  | nil => simp
  | cons a row ih =>
    rw [List.length_cons, Finset.sum_range_succ']
    simp only [List.getD_cons_succ, List.getD_cons_zero, List.sum_cons]
    rw [ih]; ring

theorem sum_toNat (row : List Int) (h : ∀ x ∈ row, 0 ≤ x) : (((row.map Int.toNat).sum : Nat) : Int) = row.sum := by
  induction row with
  | nil => rfl
  | cons a row ih =>
    have := h a (by simp)
    simp [ih (fun x hx => h x (List.mem_cons_of_mem _ hx)), this]

theorem getD_map_toNat (row : List Int) (j : Nat) : (row.map Int.toNat).getD j 0 = (row.getD j 0).toNat := by
  simp only [List.getD_eq_getElem?_getD, List.getElem?_map]
  cases row[j]? <;> rfl

theorem fillLabels_spec (iss : List (List Nat)) (rows : List (List Int)) (parts : List (List Nat))
    (hl : iss.length = rows.length) (hr : ∀ row ∈ rows, row.length = parts.length) (hn : ∀ row ∈ rows, ∀ x ∈ row, 0 ≤ x)
    (hs : ∀ (i : Nat), i < iss.length → (rows.getD i []).sum ≤ ((iss.getD i []).length : Int)) :
    (fillLabels iss rows parts).length = parts.length ∧
    (∀ j : Nat, ((((fillLabels iss rows parts).getD j []).length : Nat) : Int) =
      ((parts.getD j []).length : Int) + ∑ i ∈ Finset.range iss.length, (rows.getD i []).getD j 0) ∧
    (fillLabels iss rows parts).flatten.Subperm (parts.flatten ++ iss.flatten) ∧
    (∀ j k : Nat, k ∈ (fillLabels iss rows parts).getD j [] → k ∈ parts.getD j [] ∨
      ∃ i : Nat, i < iss.length ∧ k ∈ iss.getD i [] ∧ (rows.getD i []).getD j 0 ≠ 0) := by
  induction iss generalizing rows parts with
  | nil =>
    refine ⟨by simp [fillLabels], by simp [fillLabels], by simpa [fillLabels] using List.Subperm.refl _, ?_⟩
    intro j k hk
    left
    simpa [fillLabels] using hk
  | cons is iss ih =>
    cases rows with
    | nil => simp at hl
    | cons row rows =>
      have hrl : (splitByCounts is (row.map Int.toNat)).length = parts.length := by
        rw [splitByCounts_length, List.length_map]; exact hr row (by simp)
      have hzl : (List.zipWith (· ++ ·) parts (splitByCounts is (row.map Int.toNat))).length = parts.length := by
        rw [List.length_zipWith, hrl, Nat.min_self]
      have hsum : (row.map Int.toNat).sum ≤ is.length := by
        have h0 := hs 0 (by simp)
        have h1 := sum_toNat row (hn row (by simp))
        simp only [List.getD_cons_zero] at h0
        omega
      obtain ⟨a1, a2, a3, a4⟩ := ih rows (List.zipWith (· ++ ·) parts (splitByCounts is (row.map Int.toNat)))
        (by simpa using hl) (fun row' h' => by rw [hzl]; exact hr row' (List.mem_cons_of_mem _ h'))
        (fun row' h' => hn row' (List.mem_cons_of_mem _ h'))
        (fun i hi => by
          have := hs (i + 1) (by simpa using hi)
          simpa using this)
      have hlen : ∀ j : Nat, ((splitByCounts is (row.map Int.toNat)).getD j []).length = (row.getD j 0).toNat := by
        intro j
        rw [← getD_map_length, splitByCounts_lengths _ _ hsum, getD_map_toNat]
      have hpos : ∀ j : Nat, 0 ≤ row.getD j 0 := by
        intro j
        rw [List.getD_eq_getElem?_getD]
        cases hj : row[j]? with
        | none => simp
        | some x => exact hn row (by simp) x (List.mem_of_getElem? hj)
      refine ⟨?_, ?_, ?_, ?_⟩
      · rw [fillLabels, a1, hzl]
      · intro j
        rw [fillLabels, a2 j, getD_zipWith_append _ _ hrl.symm, List.length_append, hlen j, List.length_cons,
          Finset.sum_range_succ']
        simp only [List.getD_cons_succ, List.getD_cons_zero]
        have := hpos j
        push_cast
        rw [Int.toNat_of_nonneg this]
        ring
      · rw [fillLabels]
        refine a3.trans ?_
        have hz := flatten_zipWith_append parts (splitByCounts is (row.map Int.toNat)) hrl.symm
        rw [splitByCounts_flatten] at hz
        refine (hz.append_right iss.flatten).subperm.trans ?_
        rw [List.append_assoc, List.flatten_cons]
        exact (List.subperm_append_left _).2 ((List.subperm_append_right _).2 (List.take_sublist _ _).subperm)
      · intro j k hk
        rw [fillLabels] at hk
        rcases a4 j k hk with h | ⟨i, hi, h1, h2⟩
        · rw [getD_zipWith_append _ _ hrl.symm] at h
          rcases List.mem_append.1 h with h | h
          · exact Or.inl h
          · right
            refine ⟨0, by simp, ?_, ?_⟩
            · rcases getD_mem_or_nil (splitByCounts is (row.map Int.toNat)) j with hm | hm
              · simpa using mem_of_mem_splitByCounts hm h
              · rw [hm] at h; simp at h
            · simp only [List.getD_cons_zero]
              intro h0
              have := hlen j
              rw [h0] at this
              simp at this
              rw [List.getD_eq_getElem?_getD, this] at h
              simp at h
        · right
          exact ⟨i + 1, by simpa using hi, by simpa using h1, by simpa using h2⟩

/-! ### shuffled items -/

theorem shuffleItems_spec {Ω : Type} {r : Rng Ω} (hr : r.Lawful) (items : List (L × List Nat)) (ω : Ω) :
    List.Forall₂ (fun a b => a.1 = b.1 ∧ a.2.Perm b.2) (shuffleItems r items ω).1 items := by
  induction items generalizing ω with
  | nil => exact List.Forall₂.nil
  | cons it its ih => exact List.Forall₂.cons ⟨rfl, shuffledSequence_perm hr _ _⟩ (ih _)

theorem forall₂_fst {a b : List (L × List Nat)} (h : List.Forall₂ (fun a b => a.1 = b.1 ∧ a.2.Perm b.2) a b) :
    a.map Prod.fst = b.map Prod.fst := by
  induction h with
  | nil => rfl
  | cons h _ ih => simp [h.1, ih]

theorem forall₂_snd_flatten {a b : List (L × List Nat)} (h : List.Forall₂ (fun a b => a.1 = b.1 ∧ a.2.Perm b.2) a b) :
    (a.map Prod.snd).flatten.Perm (b.map Prod.snd).flatten := by
  induction h with
  | nil => exact List.Perm.refl _
  | cons h _ ih => simpa using h.2.append ih

theorem forall₂_mem {a b : List (L × List Nat)} (h : List.Forall₂ (fun a b => a.1 = b.1 ∧ a.2.Perm b.2) a b)
    {x : L × List Nat} (hx : x ∈ a) : ∃ y ∈ b, x.1 = y.1 ∧ x.2.Perm y.2 := by
  induction h with
  | nil => simp at hx
  | cons h _ ih =>
    rcases List.mem_cons.1 hx with rfl | hx
    · exact ⟨_, by simp, h⟩
    · obtain ⟨y, hy, hh⟩ := ih hx
      exact ⟨y, List.mem_cons_of_mem _ hy, hh⟩

theorem lookupL_of_nodup (items : List (L × List Nat)) (hn : (items.map Prod.fst).Nodup) {it : L × List Nat}
    (h : it ∈ items) : PyDict.lookupL it.1 items = some it.2 := by
  induction items with
  | nil => simp at h
  | cons a items ih =>
    obtain ⟨k, v⟩ := a
    simp only [List.map_cons, List.nodup_cons] at hn
    rcases List.mem_cons.1 h with rfl | h
    · simp [PyDict.lookupL]
    · have hne : it.1 ≠ k := by
        intro e
        exact hn.1 (e ▸ List.mem_map_of_mem h)
      rw [PyDict.lookupL, if_neg hne]
      exact ih hn.2 h

theorem idxOf_length (labels : List L) (l : L) : (idxOf labels l).length = labels.count l := by
  induction labels using List.reverseRecOn with
  | nil => rfl
  | append_singleton pre a ih =>
    rw [idxOf_snoc, List.length_append, ih, List.count_append]
    by_cases h : a = l <;> simp [h]

theorem items_keys_perm (labels : List L) : ((indicesByLabel labels).entries.map Prod.fst).Perm labels.dedup := by
  refine (List.perm_ext_iff_of_nodup (indicesByLabel_spec labels).1 (List.nodup_dedup _)).2 ?_
  intro l
  rw [List.mem_dedup]
  constructor
  · intro h
    unfold PyDict.keys at h
    obtain ⟨it, hit, rfl⟩ := List.mem_map.1 h
    exact (indicesByLabel_entry hit).1
  · intro h
    exact List.mem_map.2 ⟨_, indicesByLabel_mem h, rfl⟩

theorem items_usable (labels : List L) (q : L → Bool) :
    (((indicesByLabel labels).entries.filter (fun it => q it.1)).map (fun it => it.2.length)).sum = labels.countP q := by
  have h1 : ((indicesByLabel labels).entries.filter (fun it => q it.1)).map (fun it => it.2.length) =
      (((indicesByLabel labels).entries.map Prod.fst).filter q).map (fun l => labels.count l) := by
    rw [List.filter_map, List.map_map]
    apply List.map_congr_left
    intro it hit
    have := (indicesByLabel_entry (List.mem_filter.1 hit).1).2
    simp only [Function.comp_apply]
    rw [this, idxOf_length]
  rw [h1, (((items_keys_perm labels).filter q).map (fun l => labels.count l)).sum_eq,
    List.sum_map_count_dedup_filter_eq_countP]

/-! ### groups -/

theorem labelGroup_eq (order : List L) (f : Nat → L) (hf : ∀ k, k < order.length → order[k]? = some (f k))
    (hm : 0 < order.length) (c i : Nat) :
    labelGroup order c i = (List.range c).map (fun o => f ((i * c + o) % order.length)) := by
  unfold labelGroup
  rw [← List.filterMap_eq_map]
  apply List.filterMap_congr
  intro o _
  exact hf _ (Nat.mod_lt _ hm)

theorem exists_enum (order : List L) (hm : 0 < order.length) :
    ∃ f : Nat → L, ∀ k, k < order.length → order[k]? = some (f k) := by
  refine ⟨fun k => (order[k]?).getD order[0], fun k hk => ?_⟩
  simp [hk]

theorem mod_window_inj {m b o o' : Nat} (h : (b + o) % m = (b + o') % m) (ho : o < m) (ho' : o' < m) : o = o' := by
  have : o ≡ o' [MOD m] := Nat.ModEq.add_left_cancel' b h
  rw [Nat.ModEq, Nat.mod_eq_of_lt ho, Nat.mod_eq_of_lt ho'] at this
  exact this

theorem countP_window (m q b c : Nat) (hc : c ≤ m) :
    (List.range c).countP (fun o => decide ((b + o) % m = q)) =
      if (List.range c).any (fun o => decide ((b + o) % m = q)) = true then 1 else 0 := by
  induction c with
  | zero => simp
  | succ c ih =>
    rw [List.range_succ, List.countP_append, ih (by omega), List.any_append]
    simp only [List.countP_singleton, decide_eq_true_eq, List.any_cons, List.any_nil, Bool.or_false]
    by_cases h1 : (List.range c).any (fun o => decide ((b + o) % m = q)) = true
    · obtain ⟨o, ho, he⟩ := List.any_eq_true.1 h1
      have ho := List.mem_range.1 ho
      have he := of_decide_eq_true he
      rw [if_pos h1, if_neg ?_, h1]
      · simp
      intro h
      have := mod_window_inj (he.trans h.symm) (by omega) (by omega)
      omega
    · rw [if_neg h1, Bool.eq_false_iff.2 h1]
      by_cases h2 : (b + c) % m = q <;> simp [h2]

theorem countP_blocks (m q c p : Nat) (hc : c ≤ m) :
    (List.range p).countP (fun i => (List.range c).any (fun o => decide ((i * c + o) % m = q))) =
      (List.range (p * c)).countP (fun k => decide (k % m = q)) := by
  induction p with
  | zero => simp
  | succ p ih =>
    rw [List.range_succ, List.countP_append, ih, Nat.succ_mul, List.range_add, List.countP_append, List.countP_map]
    congr 1
    have := countP_window m q (p * c) c hc
    simp only [List.countP_singleton]
    rw [← this]
    rfl

theorem countP_mod (N m q : Nat) (hq : q < m) :
    (List.range N).countP (fun k => decide (k % m = q)) = N / m + if q < N % m then 1 else 0 := by
  have h := Nat.count_modEq_card N (r := m) (by omega) q
  rw [Nat.mod_eq_of_lt hq, Nat.count] at h
  rw [← h]
  apply List.countP_congr
  intro k _
  simp only [decide_eq_true_eq, Nat.ModEq, Nat.mod_eq_of_lt hq]

end Part
end Verif
