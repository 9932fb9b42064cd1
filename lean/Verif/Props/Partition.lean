import Verif.Lemmas.Partition
import Mathlib.Algebra.Order.BigOperators.Ring.List
/-!
# C44 (partitions), C45 (apportionment), C46 (shards), C48 (split validation), C67 (stratification)

Specification vocabulary: `IsPartition`, `ValidRequest`, `SizesOK` and `InLabel` below mention only the arguments and
results of the public functions.
-/
set_option linter.unusedSectionVars false
namespace Verif.Props
open Verif Verif.Part

variable {Ω : Type} {L : Type} [DecidableEq L]

/-- `parts` are index lists of the given sizes, without repetition inside or across lists, all in range. -/
def IsPartition (n : Nat) (sizes : List Nat) (parts : List (List Nat)) : Prop :=
  parts.map List.length = sizes ∧ parts.flatten.Nodup ∧ ∀ i ∈ parts.flatten, i < n

/-- The user asked for something possible: a positive number of partitions, and sizes (if given) that are non-negative,
one per partition, and add up to at most the number of datapoints. -/
def ValidRequest (n : Nat) (p : Int) : Samples → Prop
  | .none => 0 < p
  | .each k => 0 < p ∧ 0 ≤ k ∧ p * k ≤ n
  | .list l => 0 < p ∧ (l.length : Int) = p ∧ (∀ k ∈ l, 0 ≤ k) ∧ l.sum ≤ n

/-- The sizes a request stands for: as given, or all datapoints spread as evenly as possible. -/
def SizesOK (n : Nat) (p : Int) (sizes : List Nat) : Samples → Prop
  | .none => (sizes.length : Int) = p ∧ sizes.sum = n ∧ ∀ a ∈ sizes, ∀ b ∈ sizes, a ≤ b + 1
  | .each k => (sizes.length : Int) = p ∧ ∀ a ∈ sizes, (a : Int) = k
  | .list l => sizes.map (fun a : Nat => (a : Int)) = l

/-- number of datapoints with label `l` among the indices `is` -/
def InLabel (labels : List L) (l : L) (is : List Nat) : Nat :=
  (is.filter (fun i => decide (labels[i]? = some l))).length

/-- What a partitioner promises: partitions of the requested sizes; everything is used when no sizes are requested. -/
def Fulfils (n : Nat) (p : Int) (s : Samples) (parts : List (List Nat)) : Prop :=
  ∃ sizes, SizesOK n p sizes s ∧ IsPartition n sizes parts ∧ (s = .none → parts.flatten.Perm (List.range n))

/-! ### C45: apportionment -/

/-- **C45.** Even counts: one per partition, adding up to the number of datapoints, differing by at most one. -/
theorem C45_even_counts (n p : Nat) (hp : 0 < p) :
    (evenCounts n p).length = p ∧ (evenCounts n p).sum = n ∧ ∀ a ∈ evenCounts n p, ∀ b ∈ evenCounts n p, a ≤ b + 1 := by
  refine ⟨evenCounts_length n p, evenCounts_sum n p hp, ?_⟩
  intro a ha b hb
  obtain ⟨i, _, rfl⟩ := List.mem_map.1 ha
  obtain ⟨j, _, rfl⟩ := List.mem_map.1 hb
  split <;> split <;> omega

example : evenCounts 11 4 = [3, 3, 3, 2] := by decide

/-- **C45.** Proportional counts: for every total not exceeding what is available they add up to the total, never exceed
the available counts, and each differs from the exact proportion `total * count / available` by less than one. -/
theorem C45_proportional_counts {frac : Frac} (hf : frac.Lawful) (counts : List Nat) (total : Nat)
    (ht : total ≤ counts.sum) :
    (propCounts frac counts total).length = counts.length ∧
    (propCounts frac counts total).sum = total ∧
    (∀ j, (propCounts frac counts total).getD j 0 ≤ counts.getD j 0) ∧
    (0 < counts.sum → ∀ j, |((propCounts frac counts total).getD j 0 : ℚ) - (total : ℚ) * counts.getD j 0 / counts.sum| < 1) := by
  refine ⟨propCounts_length _ _ _, propCounts_sum hf _ _ ht, propCounts_le hf _ _ ht, fun hpos j => ?_⟩
  obtain ⟨h1, h2⟩ := propCounts_quota hf counts total ht j hpos
  have hq : (0 : ℚ) < counts.sum := by exact_mod_cast hpos
  have h1' : (total : ℚ) * (counts.getD j 0 : Nat) < counts.sum * ((propCounts frac counts total).getD j 0 + 1) := by
    exact_mod_cast h1
  have h2' : (counts.sum : ℚ) * ((propCounts frac counts total).getD j 0 : Nat) < total * (counts.getD j 0 : Nat) + counts.sum := by
    exact_mod_cast h2
  rw [abs_lt]
  constructor
  · rw [neg_lt_sub_iff_lt_add, div_lt_iff₀ hq]
    linarith
  · rw [sub_lt_iff_lt_add, ← sub_lt_iff_lt_add', lt_div_iff₀ hq]
    linarith

/-- the exact fractional part satisfies what is assumed of the floating point one -/
theorem exact_lawful : Frac.exact.Lawful := by
  intro t c a ha
  unfold Frac.exact
  refine ⟨by positivity, ?_⟩
  have : (a : ℚ) ≠ 0 := by positivity
  rw [div_eq_zero_iff]
  simp [this]

example : propCounts Frac.exact [5, 3, 2] 7 = [4, 2, 1] := by decide +kernel

/-- **C45.** Largest remainders first: if one count was rounded up and another was not, then the former's fractional part
(as computed) is at least the latter's. -/
theorem C45_largest_remainders_first {frac : Frac} (hf : frac.Lawful) (counts : List Nat) (total : Nat)
    (ht : total ≤ counts.sum) (i j : Nat) (hj : j < counts.length)
    (hup : total * counts.getD i 0 < counts.sum * (propCounts frac counts total).getD i 0)
    (hdown : counts.sum * (propCounts frac counts total).getD j 0 ≤ total * counts.getD j 0) :
    frac total (counts.getD j 0) counts.sum ≤ frac total (counts.getD i 0) counts.sum := by
  have hpos : 0 < counts.sum := by
    rcases Nat.eq_zero_or_pos counts.sum with h | h
    · rw [h] at hup; simp at hup
    · exact h
  obtain ⟨_, A, _, hA, hres⟩ := propCounts_shape hf counts total ht hpos
  refine hA i ?_ j hj ?_
  · by_contra h
    rw [hres, if_neg h, Nat.add_zero] at hup
    have := Nat.mul_div_le (total * counts.getD i 0) counts.sum
    omega
  · intro h
    rw [hres, if_pos h] at hdown
    have := Nat.lt_mul_div_succ (total * counts.getD j 0) hpos
    omega

-- counts 5, 3, 2 with total 7: fractional parts 1/2, 1/10, 4/10; the first is rounded up, the second is not
example : 7 * 5 < 10 * (propCounts Frac.exact [5, 3, 2] 7).getD 0 0 ∧
    10 * (propCounts Frac.exact [5, 3, 2] 7).getD 1 0 ≤ 7 * 3 := by decide +kernel

/-! ### C44: requests -/

theorem sum_replicate_nat (a b : Nat) : (List.replicate a b).sum = a * b := by
  induction a with
  | zero => simp
  | succ a ih => rw [List.replicate_succ, List.sum_cons, ih]; ring

theorem partitionCounts_valid (n : Nat) (p : Int) (s : Samples) (h : ValidRequest n p s) :
    ∃ counts, partitionCounts n p s = .ok counts ∧ SizesOK n p counts s ∧ counts.sum ≤ n ∧ (counts.length : Int) = p := by
  cases s with
  | none =>
    have hp : 0 < p := h
    obtain ⟨h1, h2, h3⟩ := C45_even_counts n p.toNat (by omega)
    refine ⟨evenCounts n p.toNat, ?_, ⟨by rw [h1]; omega, h2, h3⟩, h2.le, by rw [h1]; omega⟩
    simp only [partitionCounts]
    rw [if_neg (by omega), if_neg (by omega)]
  | each k =>
    obtain ⟨hp, hk, hpk⟩ := h
    have hsum : (List.replicate p.toNat k.toNat).sum ≤ n := by
      rw [sum_replicate_nat]
      have : ((p.toNat * k.toNat : Nat) : Int) = p * k := by
        push_cast; rw [Int.toNat_of_nonneg hp.le, Int.toNat_of_nonneg hk]
      omega
    refine ⟨List.replicate p.toNat k.toNat, ?_, ⟨by simp; omega, ?_⟩, hsum, by simp; omega⟩
    · simp only [partitionCounts]
      rw [if_neg (by omega), if_neg (by omega)]
      simp only
      rw [if_neg (by omega)]
    · intro a ha
      rw [(List.mem_replicate.1 ha).2]
      omega
  | list l =>
    obtain ⟨hp, hl, hk, hs⟩ := h
    have hmap : (l.map Int.toNat).map (fun a : Nat => (a : Int)) = l := by
      rw [List.map_map]
      conv_rhs => rw [← List.map_id l]
      apply List.map_congr_left
      intro a ha
      simp [hk a ha]
    have hsum : ((l.map Int.toNat).sum : Int) = l.sum := by
      conv_rhs => rw [← hmap]
      generalize l.map Int.toNat = m
      induction m with
      | nil => rfl
      | cons a m ih => simp [ih]
    refine ⟨l.map Int.toNat, ?_, hmap, by omega, by simpa using hl⟩
    simp only [partitionCounts]
    rw [if_neg (by omega), if_neg (by simpa using hl)]
    have : l.any (fun k => decide (k < 0)) = false := by
      rw [List.any_eq_false]
      intro k hk'
      have := hk k hk'
      simp; exact this
    rw [this]
    simp only [Bool.false_eq_true, if_false]
    rw [if_neg (by omega)]

theorem partitionCounts_invalid (n : Nat) (p : Int) (s : Samples) (h : ¬ ValidRequest n p s) :
    partitionCounts n p s = .error .valueError := by
  by_cases hp : p ≤ 0
  · simp [partitionCounts, hp]
  have hp' : 0 < p := by omega
  simp only [partitionCounts, if_neg hp]
  cases s with
  | none => exact absurd hp' h
  | each k =>
    by_cases hk : k < 0
    · simp [hk]
    · simp only [if_neg hk]
      have : (List.replicate p.toNat k.toNat).sum > n := by
        by_contra hle
        apply h
        refine ⟨hp', by omega, ?_⟩
        rw [sum_replicate_nat] at hle
        have : ((p.toNat * k.toNat : Nat) : Int) = p * k := by
          push_cast; rw [Int.toNat_of_nonneg hp'.le, Int.toNat_of_nonneg (by omega)]
        omega
      rw [if_pos this]
  | list l =>
    by_cases hl : (l.length : Int) = p
    · by_cases hk : l.any (fun k => decide (k < 0)) = true
      · simp [hl, hk]
      · have hk' : ∀ k ∈ l, 0 ≤ k := by
          intro k hkl
          have := List.any_eq_false.1 (Bool.eq_false_iff.2 hk) k hkl
          simpa using this
        simp only [hl, ne_eq, not_true_eq_false, if_false, Bool.eq_false_iff.2 hk, Bool.false_eq_true]
        have hgt : (l.map Int.toNat).sum > n := by
          by_contra hle
          apply h
          refine ⟨hp', hl, hk', ?_⟩
          have hsum : ((l.map Int.toNat).sum : Int) = l.sum := by
            clear hle h hl hk
            induction l with
            | nil => rfl
            | cons a m ih =>
              have := hk' a (by simp)
              simp [ih (fun k hk => hk' k (List.mem_cons_of_mem _ hk)), this]
          omega
        rw [if_pos hgt]
    · simp [hl]

theorem sizes_sum_none {n : Nat} {p : Int} {sizes : List Nat} {s : Samples} (h : SizesOK n p sizes s)
    (hs : s = .none) : sizes.sum = n := by subst hs; exact h.2.1

theorem isPartition_of_subperm {n : Nat} {sizes : List Nat} {parts : List (List Nat)}
    (hl : parts.map List.length = sizes) (h : parts.flatten.Subperm (List.range n)) : IsPartition n sizes parts := by
  refine ⟨hl, ?_, fun i hi => List.mem_range.1 (h.subset hi)⟩
  obtain ⟨l, hp, hs⟩ := h
  exact hp.nodup_iff.1 (List.nodup_range.sublist hs)

theorem perm_of_full {n : Nat} {sizes : List Nat} {parts : List (List Nat)}
    (hl : parts.map List.length = sizes) (h : parts.flatten.Subperm (List.range n)) (hs : sizes.sum = n) :
    parts.flatten.Perm (List.range n) := by
  refine h.perm_of_length_le ?_
  rw [List.length_range, List.length_flatten, hl, hs]

theorem split_fulfils {n : Nat} {p : Int} {s : Samples} {counts : List Nat} (hs : SizesOK n p counts s)
    (hle : counts.sum ≤ n) {l : List Nat} (hl : l.Perm (List.range n)) : Fulfils n p s (splitByCounts l counts) := by
  have hlen : (splitByCounts l counts).map List.length = counts :=
    splitByCounts_lengths _ _ (by rw [hl.length_eq, List.length_range]; exact hle)
  have hsub : (splitByCounts l counts).flatten.Subperm (List.range n) := by
    rw [splitByCounts_flatten]; exact take_subperm_of_perm hl _
  exact ⟨counts, hs, isPartition_of_subperm hlen hsub, fun h => perm_of_full hlen hsub (sizes_sum_none hs h)⟩

/-- **C44.** `split_iid` succeeds on every valid request, for every draw, with disjoint in-range partitions of exactly the
requested sizes (all datapoints being used when no sizes are given), and raises `ValueError` on every other request. -/
theorem C44_iid {r : Rng Ω} (hr : r.Lawful) (n : Nat) (p : Int) (s : Samples) (ω : Ω) :
    (ValidRequest n p s → ∃ parts ω', splitIid r n p s ω = .ok (parts, ω') ∧ Fulfils n p s parts) ∧
    (¬ ValidRequest n p s → splitIid r n p s ω = .error .valueError) := by
  constructor
  · intro h
    obtain ⟨counts, hc, hs, hle, _⟩ := partitionCounts_valid n p s h
    refine ⟨_, _, by simp only [splitIid, hc]; rfl, ?_⟩
    exact split_fulfils hs hle (hr.perm n ω)
  · intro h
    simp [splitIid, partitionCounts_invalid n p s h]

/-- **C44.** `split_iid` can produce every such family of partitions: nothing but the draw decides the assignment. -/
theorem C44_iid_every_assignment (n : Nat) (p : Int) (s : Samples) (parts : List (List Nat))
    (hv : ValidRequest n p s) (hp : ∃ counts, partitionCounts n p s = .ok counts ∧ IsPartition n counts parts) :
    ∃ r : Rng Unit, r.Lawful ∧ splitIid r n p s () = .ok (parts, ()) := by
  obtain ⟨counts, hc, h1, h2, h3⟩ := hp
  have hsub : parts.flatten.Subperm (List.range n) :=
    List.subperm_of_subset h2 (fun i hi => List.mem_range.2 (h3 i hi))
  obtain ⟨rest, hrest⟩ : ∃ rest, (parts.flatten ++ rest).Perm (List.range n) := by
    obtain ⟨l, hl1, hl2⟩ := hsub
    obtain ⟨rest, hrest⟩ := hl2.exists_perm_append
    exact ⟨rest, (hl1.symm.append_right rest).trans hrest.symm⟩
  refine ⟨⟨fun m ω => (if m = n then parts.flatten ++ rest else List.range m, ω), fun _ ω => (fun _ => 0, ω),
    fun l _ ω => (l.headD 0, ω)⟩, ⟨?_, ?_⟩, ?_⟩
  · intro m ω
    by_cases h : m = n
    · subst h; simpa using hrest
    · simp [h]
  · intro l w ω hl
    cases l with
    | nil => exact absurd rfl hl
    | cons a t => simp
  · simp only [splitIid, hc, shuffledRange, if_true]
    congr 2
    subst h1
    clear hrest hsub h2 h3 hc
    induction parts with
    | nil => rfl
    | cons a t ih =>
      simp only [List.map_cons, splitByCounts, List.flatten_cons, List.append_assoc]
      rw [List.take_left, List.drop_left, ih]

/-- **C44.** `split_size`: the same for explicit sizes, of which there must be at least one. -/
theorem C44_size {r : Rng Ω} (hr : r.Lawful) (n : Nat) (sizes : List Int) (ω : Ω) :
    (sizes ≠ [] ∧ (∀ k ∈ sizes, 0 ≤ k) ∧ sizes.sum ≤ n →
      ∃ parts ω', splitSize r n sizes ω = .ok (parts, ω') ∧
        ∃ counts, counts.map (fun a : Nat => (a : Int)) = sizes ∧ IsPartition n counts parts) ∧
    (¬ (sizes ≠ [] ∧ (∀ k ∈ sizes, 0 ≤ k) ∧ sizes.sum ≤ n) → splitSize r n sizes ω = .error .valueError) := by
  constructor
  · rintro ⟨h0, h1, h2⟩
    have hv : ValidRequest n sizes.length (.list sizes) := by
      refine ⟨?_, rfl, h1, h2⟩
      have := List.length_pos_iff.2 h0
      omega
    obtain ⟨counts, hc, hs, hle, _⟩ := partitionCounts_valid n _ _ hv
    refine ⟨_, _, by rw [splitSize, if_neg (by simpa using h0)]; simp only [hc]; rfl, ?_⟩
    obtain ⟨c, h1, h2, _⟩ := split_fulfils hs hle (hr.perm n ω)
    exact ⟨c, h1, h2⟩
  · intro h
    unfold splitSize
    split
    · rfl
    · rename_i h0
      have hno : ¬ ValidRequest n sizes.length (.list sizes) := fun hv =>
        h ⟨by simpa using h0, hv.2.2.1, hv.2.2.2⟩
      rw [partitionCounts_invalid n _ _ hno]

/-- a generator for the examples: reverses, and picks the first available partition -/
def reverser : Rng Unit where
  perm n ω := ((List.range n).reverse, ω)
  dirichlet _ ω := (fun _ => 0, ω)
  choice l _ ω := (l.headD 0, ω)

theorem reverser_lawful : reverser.Lawful :=
  ⟨fun n _ => (List.reverse_perm _), fun l _ _ hl => by cases l with
    | nil => exact absurd rfl hl
    | cons a t => simp [reverser]⟩

example : splitIid reverser 7 3 .none () = .ok ([[6, 5, 4], [3, 2], [1, 0]], ()) := rfl
example : splitSize reverser 7 [1, 0, 4] () = .ok ([[6], [], [5, 4, 3, 2]], ()) := rfl
example : ValidRequest 7 3 (.list [1, 0, 4]) ∧ ¬ ValidRequest 7 3 (.each 3) := by
  constructor
  · refine ⟨by omega, rfl, by decide, by decide⟩
  · rintro ⟨_, _, h⟩; omega

/-! ### C44: label-aware partitioners -/

/-- the label groups of a dataset, in whatever order -/
theorem items_facts (labels : List L) {items : List (L × List Nat)} (hp : items.Perm (indicesByLabel labels).entries) :
    (items.map (fun it => it.2.length)).sum = labels.length ∧
    ((items.map Prod.snd).flatten).Perm (List.range labels.length) ∧ (items.map Prod.fst).Nodup ∧
    (∀ it ∈ items, ∀ i ∈ it.2, labels[i]? = some it.1) ∧
    (∀ l ∈ labels, (l, idxOf labels l) ∈ items) := by
  have hperm : ((items.map Prod.snd).flatten).Perm (List.range labels.length) :=
    ((hp.map Prod.snd).flatten).trans (indicesByLabel_flatten labels)
  refine ⟨?_, hperm, ?_, ?_, ?_⟩
  · have := hperm.length_eq
    rw [List.length_flatten, List.length_range, List.map_map] at this
    exact this
  · exact (hp.map Prod.fst).nodup_iff.2 (indicesByLabel_spec labels).1
  · intro it hit i hi
    have := (indicesByLabel_entry (hp.mem_iff.1 hit)).2
    rw [this, mem_idxOf] at hi
    exact hi
  · intro l hl
    exact hp.mem_iff.2 (indicesByLabel_mem hl)

theorem zip_map_fst_snd (items : List (L × List Nat)) (lcs : List Nat) (h : items.length = lcs.length) :
    (items.zip lcs).map (fun a => a.1.2) = items.map Prod.snd ∧ (items.zip lcs).map (fun a => a.1.1) = items.map Prod.fst ∧
    (items.zip lcs).map Prod.snd = lcs := by
  induction items generalizing lcs with
  | nil => cases lcs with
    | nil => simp
    | cons => simp at h
  | cons a t ih =>
    cases lcs with
    | nil => simp at h
    | cons b m =>
      obtain ⟨h1, h2, h3⟩ := ih m (by simpa using h)
      simp [h1, h2, h3]

theorem zip_mem_getD (items : List (L × List Nat)) (lcs : List Nat) (h : items.length = lcs.length)
    (it : L × List Nat) (lc : Nat) :
    (it, lc) ∈ items.zip lcs ↔ ∃ j : Nat, items[j]? = some it ∧ lcs[j]? = some lc := by
  constructor
  · intro hm
    obtain ⟨j, hj⟩ := List.mem_iff_getElem?.1 hm
    rw [List.getElem?_zip_eq_some] at hj
    exact ⟨j, hj.1, hj.2⟩
  · rintro ⟨j, h1, h2⟩
    exact List.mem_of_getElem? (List.getElem?_zip_eq_some.2 ⟨h1, h2⟩)

/-- facts about the label counts both label-aware partitioners start from -/
theorem labelCounts_facts {frac : Frac} (hf : frac.Lawful) (labels : List L) {items : List (L × List Nat)}
    (hp : items.Perm (indicesByLabel labels).entries) (total : Nat) (ht : total ≤ labels.length) :
    let lcs := propCounts frac (items.map (fun it => it.2.length)) total
    items.length = lcs.length ∧ (∀ a ∈ items.zip lcs, a.2 ≤ a.1.2.length) ∧ lcs.sum = total ∧
    ∀ a ∈ items.zip lcs, 0 < labels.length →
      |((a.2 : Nat) : ℚ) - (total : ℚ) * a.1.2.length / labels.length| < 1 := by
  intro lcs
  obtain ⟨h1, _⟩ := items_facts labels hp
  obtain ⟨q1, q2, q3, q4⟩ := C45_proportional_counts hf (items.map (fun it => it.2.length)) total (by rw [h1]; exact ht)
  have hlen : items.length = lcs.length := by rw [show lcs.length = _ from q1]; simp
  refine ⟨hlen, ?_, q2, ?_⟩
  · rintro ⟨it, lc⟩ ha
    obtain ⟨j, hj1, hj2⟩ := (zip_mem_getD items lcs hlen it lc).1 ha
    have := q3 j
    simp only [List.getD_eq_getElem?_getD, List.getElem?_map, hj1] at this
    rw [show (propCounts frac (items.map (fun it => it.2.length)) total)[j]? = some lc from hj2] at this
    simpa using this
  · rintro ⟨it, lc⟩ ha hpos
    obtain ⟨j, hj1, hj2⟩ := (zip_mem_getD items lcs hlen it lc).1 ha
    have := q4 (by rw [h1]; exact hpos) j
    simp only [List.getD_eq_getElem?_getD, List.getElem?_map, hj1, h1] at this
    rw [show (propCounts frac (items.map (fun it => it.2.length)) total)[j]? = some lc from hj2] at this
    simpa using this

/-- Every label is represented in proportion: the number of used datapoints with label `l` differs from
`(number used) * (number of datapoints with label l) / n` by less than one; all are used if everything is used. -/
def LabelTotalsOK (labels : List L) (parts : List (List Nat)) : Prop :=
  ∀ l ∈ labels, |((InLabel labels l parts.flatten : Nat) : ℚ) -
    (parts.flatten.length : ℚ) * (InLabel labels l (List.range labels.length) : Nat) / labels.length| < 1

theorem labelTotals_of_sel {frac : Frac} (hf : frac.Lawful) (labels : List L) {items : List (L × List Nat)}
    (hp : items.Perm (indicesByLabel labels).entries) (total : Nat) (ht : total ≤ labels.length)
    {as : List ((L × List Nat) × Nat)}
    (has : as.Perm (items.zip (propCounts frac (items.map (fun it => it.2.length)) total)))
    {sel : List (List Nat)} (hsel : Sel as sel) {parts : List (List Nat)} (hparts : parts.flatten.Perm sel.flatten) :
    LabelTotalsOK labels parts := by
  obtain ⟨f1, f2, f3, f4⟩ := labelCounts_facts hf labels hp total ht
  obtain ⟨_, _, i3, i4, i5⟩ := items_facts labels hp
  obtain ⟨z1, z2, z3⟩ := zip_map_fst_snd items _ f1
  intro l hl
  have hmem := i5 l hl
  obtain ⟨j, hj⟩ := List.mem_iff_getElem?.1 hmem
  have hjl : j < (propCounts frac (items.map (fun it => it.2.length)) total).length := by
    rw [← f1]; exact (List.getElem?_eq_some_iff.1 hj).1
  have hz : ((l, idxOf labels l), (propCounts frac (items.map (fun it => it.2.length)) total)[j]) ∈
      items.zip (propCounts frac (items.map (fun it => it.2.length)) total) :=
    (zip_mem_getD items _ f1 _ _).2 ⟨j, hj, List.getElem?_eq_getElem hjl⟩
  have hcount := hsel.label labels (by rw [(has.map _).nodup_iff, z2]; exact i3) (by
    intro a ha i hi
    have ha' : a.1 ∈ items := (List.of_mem_zip (has.mem_iff.1 ha)).1
    exact i4 a.1 ha' i hi) _ (has.mem_iff.2 hz)
  have h1 : InLabel labels l parts.flatten = (propCounts frac (items.map (fun it => it.2.length)) total)[j] := by
    unfold InLabel
    rw [(hparts.filter _).length_eq]
    exact hcount
  have h2 : parts.flatten.length = total := by
    rw [hparts.length_eq, hsel.sum, (has.map Prod.snd).sum_eq, z3, f3]
  have := f4 _ hz (List.length_pos_of_mem hl)
  rw [h1, h2]
  exact this

/-- **C44, C45.** `split_stratified_iid` succeeds for every draw on every valid request for a dataset with one label per
datapoint - its internal "could not create" error is unreachable - with disjoint partitions of the requested sizes in
which every label is represented in proportion; otherwise it raises `ValueError`. -/
theorem C44_stratified {r : Rng Ω} (hr : r.Lawful) {frac : Frac} (hf : frac.Lawful) (le : L → L → Bool)
    (d : Labelled L) (p : Int) (s : Samples) (ω : Ω) :
    (d.labels.length = d.n ∧ ValidRequest d.n p s →
      ∃ parts ω', splitStratified r frac le d p s ω = .ok (parts, ω') ∧ Fulfils d.n p s parts ∧
        LabelTotalsOK d.labels parts) ∧
    (¬ (d.labels.length = d.n ∧ ValidRequest d.n p s) → splitStratified r frac le d p s ω = .error .valueError) := by
  constructor
  · rintro ⟨hn, hv⟩
    obtain ⟨counts, hc, hs, hle, hpl⟩ := partitionCounts_valid d.n p s hv
    set items := pySorted (fun a b => le a.1 b.1) (indicesByLabel d.labels).entries with hitems
    have hp : items.Perm (indicesByLabel d.labels).entries := pySorted_perm _ _
    obtain ⟨f1, f2, f3, f4⟩ := labelCounts_facts hf d.labels hp counts.sum (by omega)
    set lcs := propCounts frac (items.map (fun it => it.2.length)) counts.sum with hlcs
    have hpn : p.toNat = counts.length := by omega
    obtain ⟨sel, s1, s2, s3, s4, s5⟩ := stratLoop_spec hr hf items lcs (List.replicate p.toNat []) counts ω f1 f2 f3
      (by rw [List.length_replicate, hpn])
    set res := stratLoop r frac items lcs (List.replicate p.toNat []) counts ω with hres
    rw [flatten_replicate_nil, List.nil_append] at s2
    rw [hpn, cap_replicate] at s3
    have hlens : res.1.1.map List.length = counts := by rw [cap_zero _ _ s5 s4, s3]
    have hsh := shuffledAll_perm hr res.1.1 res.2
    have hflat : ((shuffledAll r res.1.1 res.2).1.flatten).Perm sel.flatten := (forall₂_perm_flatten hsh).trans s2
    have hlen2 : (shuffledAll r res.1.1 res.2).1.map List.length = counts := by
      rw [forall₂_perm_lengths hsh, hlens]
    have hsub : ((shuffledAll r res.1.1 res.2).1.flatten).Subperm (List.range d.n) := by
      refine hflat.subperm.trans (s1.flatten.trans ?_)
      rw [(zip_map_fst_snd items lcs f1).1, ← hn]
      exact (items_facts d.labels hp).2.1.subperm
    refine ⟨(shuffledAll r res.1.1 res.2).1, (shuffledAll r res.1.1 res.2).2, ?_, ⟨counts, hs, isPartition_of_subperm hlen2 hsub,
      fun h => perm_of_full hlen2 hsub (sizes_sum_none hs h)⟩,
      labelTotals_of_sel hf d.labels hp counts.sum (by omega) (List.Perm.refl _) s1 hflat⟩
    simp only [splitStratified, normalizedLabels, hn, ne_eq, not_true_eq_false, if_false, hc]
    rw [← hitems, ← hlcs, ← hres]
    simp only [(any_ne_zero_iff res.1.2).2 s4, Bool.false_eq_true, if_false]
  · intro h
    unfold splitStratified normalizedLabels
    by_cases hn : d.labels.length = d.n
    · simp only [hn, ne_eq, not_true_eq_false, if_false]
      rw [partitionCounts_invalid d.n p s (fun hv => h ⟨hn, hv⟩)]
    · simp [hn]

/-- five datapoints with labels 0, 1, 2, 2, 2 -/
def unbalanced : Labelled Nat := ⟨5, [0, 1, 2, 2, 2]⟩

example : (splitStratified reverser Frac.exact (fun a b => decide (a ≤ b)) unbalanced 2 .none ()).toOption.map Prod.fst =
    some [[4, 1, 0], [2, 3]] := by decide +kernel

theorem dirOnce_spec {r : Rng Ω} (hr : r.Lawful) {frac : Frac} (hf : frac.Lawful) (labels : List L)
    (counts : List Nat) (hle : counts.sum ≤ labels.length) (ω : Ω) :
    ∃ parts ω', dirOnce r frac labels counts ω = .ok (parts, ω') ∧ parts.map List.length = counts ∧
      parts.flatten.Subperm (List.range labels.length) ∧ LabelTotalsOK labels parts := by
  set items := (indicesByLabel labels).entries with hitems
  have hp : items.Perm (indicesByLabel labels).entries := List.Perm.refl _
  obtain ⟨f1, f2, f3, f4⟩ := labelCounts_facts hf labels hp counts.sum hle
  set lcs := propCounts frac (items.map (fun it => it.2.length)) counts.sum with hlcs
  set as := shuffledSequence r (items.zip lcs) ω with has
  have hasp : as.1.Perm (items.zip lcs) := shuffledSequence_perm hr _ _
  obtain ⟨z1, z2, z3⟩ := zip_map_fst_snd items lcs f1
  obtain ⟨sel, s1, s2, s3, s4, s5⟩ := dirLoop_spec hr counts.length as.1 (List.replicate counts.length []) counts as.2
    (fun a ha => f2 a (hasp.mem_iff.1 ha)) (by rw [(hasp.map Prod.snd).sum_eq, z3, f3]) (by simp)
  set res := dirLoop r counts.length as.1 (List.replicate counts.length []) counts as.2 with hres
  rw [flatten_replicate_nil, List.nil_append] at s2
  rw [cap_replicate] at s3
  have hlens : res.1.1.map List.length = counts := by rw [cap_zero _ _ s5 s4, s3]
  have hsh := shuffledAll_perm hr res.1.1 res.2
  have hflat : ((shuffledAll r res.1.1 res.2).1.flatten).Perm sel.flatten := (forall₂_perm_flatten hsh).trans s2
  refine ⟨(shuffledAll r res.1.1 res.2).1, (shuffledAll r res.1.1 res.2).2, ?_, ?_, ?_, ?_⟩
  · simp only [dirOnce]
    rw [← hitems, ← hlcs, ← has, ← hres]
    simp only [(any_ne_zero_iff res.1.2).2 s4, Bool.false_eq_true, if_false]
  · rw [forall₂_perm_lengths hsh, hlens]
  · refine hflat.subperm.trans (s1.flatten.trans ?_)
    have h1 : ((as.1.map (fun a => a.1.2)).flatten).Perm ((items.map Prod.snd).flatten) := by
      rw [← z1]; exact (hasp.map _).flatten
    exact (h1.trans (items_facts labels hp).2.1).subperm
  · exact labelTotals_of_sel hf labels hp counts.sum hle hasp s1 hflat

/-- **C44.** `split_dirichlet_label`: for every valid request whose sizes respect `min_partition_size` it succeeds for
every draw at the first attempt, with disjoint partitions of exactly the requested sizes and proportional label totals;
it raises `ValueError` otherwise - retrying can never help, because sizes are not random. -/
theorem C44_dirichlet {r : Rng Ω} (hr : r.Lawful) {frac : Frac} (hf : frac.Lawful)
    (d : Labelled L) (p : Int) (alpha : ℚ) (s : Samples) (minSize maxRetries : Int) (ω : Ω) :
    (0 < alpha ∧ 0 ≤ minSize ∧ 0 < maxRetries ∧ d.labels.length = d.n ∧ ValidRequest d.n p s ∧
        (∀ sizes, partitionCounts d.n p s = .ok sizes → ∀ k ∈ sizes, minSize ≤ (k : Int)) →
      ∃ parts ω', splitDirichlet r frac d p alpha s minSize maxRetries ω = .ok (parts, ω') ∧ Fulfils d.n p s parts ∧
        LabelTotalsOK d.labels parts) ∧
    (¬ (0 < alpha ∧ 0 ≤ minSize ∧ 0 < maxRetries ∧ d.labels.length = d.n ∧ ValidRequest d.n p s ∧
        (∀ sizes, partitionCounts d.n p s = .ok sizes → ∀ k ∈ sizes, minSize ≤ (k : Int))) →
      splitDirichlet r frac d p alpha s minSize maxRetries ω = .error .valueError) := by
  constructor
  · rintro ⟨h1, h2, h3, hn, hv, hmin⟩
    obtain ⟨counts, hc, hs, hle, hpl⟩ := partitionCounts_valid d.n p s hv
    obtain ⟨parts, ω', ho, hlen, hsub, htot⟩ := dirOnce_spec hr hf d.labels counts (by omega) ω
    rw [hn] at hsub
    refine ⟨parts, ω', ?_, ⟨counts, hs, isPartition_of_subperm hlen hsub,
      fun h => perm_of_full hlen hsub (sizes_sum_none hs h)⟩, htot⟩
    unfold splitDirichlet normalizedLabels
    rw [if_neg (by linarith), if_neg (by omega), if_neg (by omega)]
    simp only [hn, ne_eq, not_true_eq_false, if_false, hc]
    obtain ⟨k, hk⟩ : ∃ k, maxRetries.toNat = k + 1 := ⟨maxRetries.toNat - 1, by omega⟩
    rw [hk, dirRetry, ho]
    simp only
    rw [if_pos]
    rw [List.all_eq_true]
    intro q hq
    have := hmin counts hc q.length (by rw [← hlen]; exact List.mem_map.2 ⟨q, hq, rfl⟩)
    simp only [decide_eq_true_eq]
    omega
  · intro h
    unfold splitDirichlet normalizedLabels
    by_cases h1 : alpha ≤ 0
    · rw [if_pos h1]
    rw [if_neg h1]
    by_cases h2 : minSize < 0
    · rw [if_pos h2]
    rw [if_neg h2]
    by_cases h3 : maxRetries ≤ 0
    · rw [if_pos h3]
    rw [if_neg h3]
    by_cases hn : d.labels.length = d.n
    swap
    · simp [hn]
    simp only [hn, ne_eq, not_true_eq_false, if_false]
    by_cases hv : ValidRequest d.n p s
    swap
    · rw [partitionCounts_invalid d.n p s hv]
    obtain ⟨counts, hc, hs, hle, hpl⟩ := partitionCounts_valid d.n p s hv
    rw [hc]
    simp only
    have hsmall : ∃ k ∈ counts, (k : Int) < minSize := by
      by_contra hno
      push Not at hno
      exact h ⟨by linarith, by omega, by omega, hn, hv, fun sizes hsz => by
        rw [hc] at hsz
        cases hsz
        exact hno⟩
    generalize maxRetries.toNat = m
    induction m generalizing ω with
    | zero => rfl
    | succ m ih =>
      obtain ⟨parts, ω', ho, hlen, hsub, htot⟩ := dirOnce_spec hr hf d.labels counts (by omega) ω
      rw [dirRetry, ho]
      simp only
      rw [if_neg, ih]
      rw [List.all_eq_true]
      intro hall
      obtain ⟨k, hk, hlt⟩ := hsmall
      rw [← hlen] at hk
      obtain ⟨q, hq, rfl⟩ := List.mem_map.1 hk
      have := hall q hq
      simp only [decide_eq_true_eq] at this
      omega

example : (splitDirichlet reverser Frac.exact unbalanced 2 (1/2) (.list [2, 2]) 1 3 ()).toOption.map Prod.fst =
    some [[3, 4], [0, 1]] := by decide +kernel


/-! ### C67: how close the stratified split is to proportional -/

theorem forall₂_getD {a b : List (List Nat)} (h : List.Forall₂ List.Perm a b) (j : Nat) :
    (a.getD j []).Perm (b.getD j []) := by
  induction h generalizing j with
  | nil => simp
  | cons h _ ih => cases j with
    | zero => simpa using h
    | succ j => simpa using ih j

/-- label counts of a successful stratified split, partition by partition -/
theorem stratified_table {r : Rng Ω} (hr : r.Lawful) {frac : Frac} (hf : frac.Lawful) (le : L → L → Bool)
    (d : Labelled L) (p : Int) (s : Samples) (ω : Ω) {parts : List (List Nat)} {ω' : Ω}
    (h : splitStratified r frac le d p s ω = .ok (parts, ω')) :
    ∃ counts items, partitionCounts d.n p s = .ok counts ∧ counts.sum ≤ d.n ∧ d.labels.length = d.n ∧
      items = pySorted (fun a b => le a.1 b.1) (indicesByLabel d.labels).entries ∧
      ∀ (j t : Nat) (it : L × List Nat), items[t]? = some it →
        InLabel d.labels it.1 (parts.getD j []) =
          ((stratTable frac (propCounts frac (items.map (fun it => it.2.length)) counts.sum) counts).getD t []).getD j 0 := by
  have hok : d.labels.length = d.n ∧ ValidRequest d.n p s := by
    by_contra hno
    rw [(C44_stratified hr hf le d p s ω).2 hno] at h
    cases h
  obtain ⟨hn, hv⟩ := hok
  obtain ⟨counts, hc, hs, hle, hpl⟩ := partitionCounts_valid d.n p s hv
  refine ⟨counts, _, hc, hle, hn, rfl, ?_⟩
  have hpn : p.toNat = counts.length := by omega
  set items := pySorted (fun a b => le a.1 b.1) (indicesByLabel d.labels).entries with hitems
  have hp : items.Perm (indicesByLabel d.labels).entries := pySorted_perm _ _
  obtain ⟨f1, f2, f3, f4⟩ := labelCounts_facts hf d.labels hp counts.sum (by omega)
  obtain ⟨_, _, i3, i4, i5⟩ := items_facts d.labels hp
  intro j t it ht
  simp only [splitStratified, normalizedLabels, hn, ne_eq, not_true_eq_false, if_false, hc] at h
  rw [← hitems] at h
  set lcs := propCounts frac (items.map (fun it => it.2.length)) counts.sum with hlcs
  have htab := (stratLoop_table hr hf d.labels items lcs (List.replicate p.toNat []) counts ω f1 f2 f3
    (by rw [List.length_replicate, hpn]) i3 i4 j).2 t it ht
  set res := stratLoop r frac items lcs (List.replicate p.toNat []) counts ω with hres
  split at h
  · cases h
  · simp only [Except.ok.injEq] at h
    have hparts : parts = (shuffledAll r res.1.1 res.2).1 := by rw [h]
    have hperm := forall₂_getD (shuffledAll_perm hr res.1.1 res.2) j
    have h0 : labCount d.labels it.1 ((List.replicate p.toNat ([] : List Nat)).getD j []) = 0 := by
      rcases getD_mem_or_nil (List.replicate p.toNat ([] : List Nat)) j with h | h
      · rw [(List.mem_replicate.1 h).2]; rfl
      · rw [h]; rfl
    rw [h0, Nat.zero_add] at htab
    rw [hparts, ← htab]
    exact labCount_perm _ _ hperm

/-- **C67.** The label composition of every partition is independent of the random draws. -/
theorem C67_stratified_composition_deterministic {Ω' : Type} {r : Rng Ω} (hr : r.Lawful) {r' : Rng Ω'} (hr' : r'.Lawful)
    {frac : Frac} (hf : frac.Lawful) (le : L → L → Bool)
    (d : Labelled L) (p : Int) (s : Samples) (ω : Ω) (ω' : Ω') {parts parts' : List (List Nat)} {ω₁ : Ω} {ω₁' : Ω'}
    (h : splitStratified r frac le d p s ω = .ok (parts, ω₁))
    (h' : splitStratified r' frac le d p s ω' = .ok (parts', ω₁')) :
    ∀ l ∈ d.labels, ∀ j, InLabel d.labels l (parts.getD j []) = InLabel d.labels l (parts'.getD j []) := by
  obtain ⟨c, its, hc, _, _, hi, ht⟩ := stratified_table hr hf le d p s ω h
  obtain ⟨c', its', hc', _, _, hi', ht'⟩ := stratified_table hr' hf le d p s ω' h'
  subst hi hi'
  rw [hc] at hc'
  cases hc'
  intro l hl j
  obtain ⟨t, hit⟩ := List.mem_iff_getElem?.1 ((items_facts d.labels (pySorted_perm (fun a b => le a.1 b.1) _)).2.2.2.2 l hl)
  have h1 := ht j t _ hit
  have h2 := ht' j t _ hit
  simp only at h1 h2
  rw [h1, h2]

/-- **C67.** In every partition, the number of samples of a label differs from its exact share
`size * (used samples with this label) / (used samples)` by less than the number of distinct labels (hence by less
than one when there is one label). -/
theorem C67_stratified_drift {r : Rng Ω} (hr : r.Lawful) {frac : Frac} (hf : frac.Lawful) (le : L → L → Bool)
    (d : Labelled L) (p : Int) (s : Samples) (ω : Ω) {parts : List (List Nat)} {ω' : Ω}
    (h : splitStratified r frac le d p s ω = .ok (parts, ω')) :
    ∀ l ∈ d.labels, ∀ j, |((InLabel d.labels l (parts.getD j []) : Nat) : ℚ) -
        ((InLabel d.labels l parts.flatten : Nat) : ℚ) * ((parts.getD j []).length : ℚ) / (parts.flatten.length : ℚ)|
      < (d.labels.dedup.length : ℚ) := by
  obtain ⟨counts, items, hc, hle, hn, hitems, htab⟩ := stratified_table hr hf le d p s ω h
  have hp : items.Perm (indicesByLabel d.labels).entries := by rw [hitems]; exact pySorted_perm _ _
  obtain ⟨f1, f2, f3, f4⟩ := labelCounts_facts hf d.labels hp counts.sum (by omega)
  obtain ⟨_, i2, i3, i4, i5⟩ := items_facts d.labels hp
  set lcs := propCounts frac (items.map (fun it => it.2.length)) counts.sum with hlcs
  -- sizes of the partitions and of the labels
  have hpl : (counts.length : Int) = p ∧ ValidRequest d.n p s := by
    have hv : ValidRequest d.n p s := by
      by_contra hno
      rw [partitionCounts_invalid _ _ _ hno] at hc
      cases hc
    obtain ⟨c, hc', _, _, hl⟩ := partitionCounts_valid d.n p s hv
    rw [hc] at hc'; cases hc'
    exact ⟨hl, hv⟩
  have hpn : p.toNat = counts.length := by omega
  simp only [splitStratified, normalizedLabels, hn, ne_eq, not_true_eq_false, if_false, hc] at h
  rw [← hitems] at h
  obtain ⟨sel, s1, s2, s3, s4, s5⟩ := stratLoop_spec hr hf items lcs (List.replicate p.toNat []) counts ω f1 f2 f3
      (by rw [List.length_replicate, hpn])
  set res := stratLoop r frac items lcs (List.replicate p.toNat []) counts ω with hres
  rw [flatten_replicate_nil, List.nil_append] at s2
  rw [hpn, cap_replicate] at s3
  have hlens : res.1.1.map List.length = counts := by rw [cap_zero _ _ s5 s4, s3]
  have hsh := shuffledAll_perm hr res.1.1 res.2
  have hparts : parts = (shuffledAll r res.1.1 res.2).1 := by
    split at h
    · cases h
    · simp only [Except.ok.injEq] at h
      rw [h]
  have hflat : (parts.flatten).Perm sel.flatten := by rw [hparts]; exact (forall₂_perm_flatten hsh).trans s2
  have hlen2 : parts.map List.length = counts := by
    rw [hparts, forall₂_perm_lengths hsh, hlens]
  have hP : parts.flatten.length = counts.sum := by rw [List.length_flatten, hlen2]
  intro l hl j
  obtain ⟨t, hit⟩ := List.mem_iff_getElem?.1 (i5 l hl)
  have htl : t < items.length := (List.getElem?_eq_some_iff.1 hit).1
  have htl' : t < lcs.length := by omega
  have hz : ((l, idxOf d.labels l), lcs.getD t 0) ∈ items.zip lcs :=
    (zip_mem_getD items _ f1 _ _).2 ⟨t, hit, by simp [List.getD_eq_getElem?_getD, htl']⟩
  have hN : InLabel d.labels l parts.flatten = lcs.getD t 0 := by
    have hcount := s1.label d.labels (by rw [(zip_map_fst_snd items lcs f1).2.1]; exact i3) (by
      intro a ha i hi
      exact i4 a.1 (List.of_mem_zip ha).1 i hi) _ hz
    unfold InLabel
    rw [(hflat.filter _).length_eq]
    exact hcount
  have hsize : (parts.getD j []).length = counts.getD j 0 := by rw [← getD_map_length, hlen2]
  have hd := htab j t _ hit
  simp only at hd
  rw [hd, hN, hP, hsize]
  have hcs0 : |((counts.getD j 0 : Nat) : ℚ) - ((counts.getD j 0 : Nat) : ℚ) * ((counts.sum : Nat) : ℚ) / ((counts.sum : Nat) : ℚ)| ≤ 0 := by
    rcases Nat.eq_zero_or_pos counts.sum with h0 | h0
    · have hz : counts.any (fun k => decide (k ≠ 0)) = false := (any_ne_zero_iff counts).2 h0
      have : counts.getD j 0 = 0 := by
        simp only [List.getD_eq_getElem?_getD]
        cases h : counts[j]? with
        | none => rfl
        | some x =>
          have := List.any_eq_false.1 hz x (List.mem_of_getElem? h)
          simpa using this
      rw [this]; simp
    · have : ((counts.sum : Nat) : ℚ) ≠ 0 := by positivity
      rw [mul_div_cancel_right₀ _ this]
      simp
  have := stratTable_drift hf ((counts.sum : Nat) : ℚ) ((counts.getD j 0 : Nat) : ℚ) j lcs counts f3 0 le_rfl hcs0 t htl'
  refine lt_of_lt_of_le this ?_
  have hcard : items.length = d.labels.dedup.length := by
    have hperm : (items.map Prod.fst).Perm d.labels.dedup := by
      rw [List.perm_ext_iff_of_nodup i3 (List.nodup_dedup _)]
      intro x
      rw [List.mem_dedup]
      constructor
      · intro hx
        obtain ⟨it, hit, rfl⟩ := List.mem_map.1 hx
        exact (indicesByLabel_entry (hp.mem_iff.1 hit)).1
      · intro hx
        exact List.mem_map.2 ⟨_, i5 x hx, rfl⟩
    simpa using hperm.length_eq
  have : t + 1 ≤ d.labels.dedup.length := by omega
  have : ((t + 1 : Nat) : ℚ) ≤ (d.labels.dedup.length : ℚ) := by exact_mod_cast this
  push_cast at this
  linarith

/-- **C67 (refutation).** "as closely as integer partition sizes allow" does not hold: with labels 0, 1, 2, 2, 2 and sizes
2, 1, 1, 1, for every draw, the partition of size 2 gets no sample at all of the majority label (exact share 1.2),
although an allocation with the same sizes exists that is within one of the exact share for every label and partition. -/
theorem C67_stratified_not_closest {r : Rng Ω} (hr : r.Lawful) (ω : Ω) :
    (∃ parts ω', splitStratified r Frac.exact (fun a b => decide (a ≤ b)) unbalanced 4 (.list [2, 1, 1, 1]) ω = .ok (parts, ω') ∧
      InLabel unbalanced.labels 2 (parts.getD 0 []) = 0) ∧
    ∃ better : List (List Nat), IsPartition 5 [2, 1, 1, 1] better ∧
      ∀ l ∈ unbalanced.labels, ∀ j < 4, |((InLabel unbalanced.labels l (better.getD j []) : Nat) : ℚ) -
        ((InLabel unbalanced.labels l (List.range 5) : Nat) : ℚ) * ((better.getD j []).length : ℚ) / 5| < 1 := by
  constructor
  · obtain ⟨parts, ω', h, _⟩ := (C44_stratified hr exact_lawful (fun a b => decide (a ≤ b)) unbalanced 4
      (.list [2, 1, 1, 1]) ω).1 ⟨rfl, by refine ⟨by omega, rfl, by decide, by decide⟩⟩
    refine ⟨parts, ω', h, ?_⟩
    obtain ⟨parts', ω'', h', hh⟩ : ∃ parts' ω'', splitStratified reverser Frac.exact (fun a b => decide (a ≤ b)) unbalanced 4
        (.list [2, 1, 1, 1]) () = .ok (parts', ω'') ∧ InLabel unbalanced.labels 2 (parts'.getD 0 []) = 0 := by
      refine ⟨[[1, 0], [4], [3], [2]], (), ?_, by decide⟩
      decide +kernel
    rw [C67_stratified_composition_deterministic hr reverser_lawful exact_lawful _ unbalanced 4 _ ω () h h' 2
      (by decide) 0, hh]
  · refine ⟨[[0, 2], [1], [3], [4]], ⟨rfl, by decide, by decide⟩, ?_⟩
    have key : ∀ l ∈ [0, 1, 2], ∀ j < 4, |((InLabel unbalanced.labels l (([[0, 2], [1], [3], [4]] : List (List Nat)).getD j []) : Nat) : ℚ) -
        ((InLabel unbalanced.labels l (List.range 5) : Nat) : ℚ) *
          ((([[0, 2], [1], [3], [4]] : List (List Nat)).getD j []).length : ℚ) / 5| < 1 := by
      decide +kernel
    intro l hl
    exact key l (by simp [unbalanced] at hl ⊢; omega)

/-! ### C46: shards -/

theorem shardLoop_spec {r : Rng Ω} (hr : r.Lawful) (shards : List (List Nat)) (order : List Nat) (spp : Nat)
    (is : List Nat) (ω : Ω) :
    List.Forall₂ (fun part g => part.Perm (List.flatMap (fun s => shards.getD s []) g)) (shardLoop r shards order spp is ω).1
      (is.map (fun i => (order.drop (i * spp)).take spp)) := by
  induction is generalizing ω with
  | nil => exact List.Forall₂.nil
  | cons i is ih => exact List.Forall₂.cons (shuffledSequence_perm hr _ ω) (ih _)

theorem chunks_flatten {T : Type} (order : List T) (spp p : Nat) :
    ((List.range p).map (fun i => (order.drop (i * spp)).take spp)).flatten = order.take (p * spp) := by
  induction p with
  | zero => simp
  | succ p ih =>
    rw [List.range_succ, List.map_append, List.flatten_append, ih]
    simp only [List.map_cons, List.map_nil, List.flatten_cons, List.flatten_nil, List.append_nil]
    rw [Nat.succ_mul, List.take_add]

theorem flatMap_getD_range (shards : List (List Nat)) :
    (List.range shards.length).flatMap (fun s => shards.getD s []) = shards.flatten := by
  have : (List.range shards.length).map (fun s => shards.getD s []) = shards := by
    apply List.ext_getElem
    · simp
    · intro i h1 h2
      simp [List.getD_eq_getElem?_getD, h2]
  rw [List.flatMap_def, this]

theorem forall₂_flatten_perm {shards : List (List Nat)} {parts groups : List (List Nat)}
    (h : List.Forall₂ (fun part g => part.Perm (List.flatMap (fun s => shards.getD s []) g)) parts groups) :
    parts.flatten.Perm (groups.flatten.flatMap (fun s => shards.getD s [])) := by
  induction h with
  | nil => exact List.Perm.refl _
  | cons h _ ih => simp only [List.flatten_cons, List.flatMap_append]; exact h.append ih

/-- **C46.** `split_shard` succeeds for every draw iff both numbers are positive, there is one label per datapoint and at
least as many datapoints as shards (`ValueError` otherwise).  The datapoints, sorted by label, are cut into
`n_partitions * shards_per_partition` consecutive shards of even size; every partition receives exactly
`shards_per_partition` shards, every shard goes to exactly one partition, and so does every datapoint. -/
theorem C46_shard {r : Rng Ω} (hr : r.Lawful) (le : L → L → Bool) (d : Labelled L) (p spp : Int) (ω : Ω) :
    (0 < p ∧ 0 < spp ∧ d.labels.length = d.n ∧ p * spp ≤ d.n →
      ∃ parts ω', splitShard r le d p spp ω = .ok (parts, ω') ∧ (parts.length : Int) = p ∧
        parts.flatten.Perm (List.range d.n) ∧
        ∃ shards groups : List (List Nat),
          (shards.length : Int) = p * spp ∧ (∀ a ∈ shards, ∀ b ∈ shards, a.length ≤ b.length + 1) ∧
          shards.flatten.Perm (List.range d.n) ∧
          ((∀ a b c, le a b = true → le b c = true → le a c = true) → (∀ a b, (le a b || le b a) = true) →
            shards.flatten.Pairwise (fun i j => ∀ a b, d.labels[i]? = some a → d.labels[j]? = some b → le a b = true)) ∧
          groups.flatten.Perm (List.range shards.length) ∧ (∀ g ∈ groups, (g.length : Int) = spp) ∧
          List.Forall₂ (fun part g => part.Perm (List.flatMap (fun s => shards.getD s []) g)) parts groups) ∧
    (¬ (0 < p ∧ 0 < spp ∧ d.labels.length = d.n ∧ p * spp ≤ d.n) → splitShard r le d p spp ω = .error .valueError) := by
  have hmul : 0 < p → 0 < spp → ((p.toNat * spp.toNat : Nat) : Int) = p * spp := by
    intro h1 h2
    push_cast; rw [Int.toNat_of_nonneg h1.le, Int.toNat_of_nonneg h2.le]
  constructor
  · rintro ⟨h1, h2, hn, hle⟩
    have htot := hmul h1 h2
    set total := p.toNat * spp.toNat with htotal
    have hpos : 0 < total := Nat.mul_pos (by omega) (by omega)
    set key : Nat → Nat → Bool :=
      fun i j => (d.labels[i]?).elim true (fun a => (d.labels[j]?).elim true (fun b => le a b)) with hkey
    set sorted := pySorted key (List.range d.n) with hsorted
    set shards := splitByCounts sorted (evenCounts d.n total) with hshards
    have hsp : sorted.Perm (List.range d.n) := pySorted_perm _ _
    obtain ⟨e1, e2, e3⟩ := C45_even_counts d.n total hpos
    have hsl : shards.map List.length = evenCounts d.n total :=
      splitByCounts_lengths _ _ (by rw [e2, hsp.length_eq, List.length_range])
    have hslen : shards.length = total := by rw [hshards, splitByCounts_length, e1]
    have hsf : shards.flatten = sorted := by
      rw [hshards, splitByCounts_flatten, e2]
      apply List.take_of_length_le
      rw [hsp.length_eq, List.length_range]
    have hop : ((r.perm total ω).1).Perm (List.range total) := hr.perm total ω
    have hsl2 := shardLoop_spec hr shards (r.perm total ω).1 spp.toNat (List.range p.toNat) (r.perm total ω).2
    set groups := (List.range p.toNat).map (fun i => ((r.perm total ω).1.drop (i * spp.toNat)).take spp.toNat) with hgroups
    have hgf : groups.flatten = (r.perm total ω).1 := by
      rw [hgroups, chunks_flatten]
      apply List.take_of_length_le
      rw [hop.length_eq, List.length_range]
    have hflat := forall₂_flatten_perm hsl2
    refine ⟨(shardLoop r shards (r.perm total ω).1 spp.toNat (List.range p.toNat) (r.perm total ω).2).1,
      (shardLoop r shards (r.perm total ω).1 spp.toNat (List.range p.toNat) (r.perm total ω).2).2, ?_, ?_, ?_,
      shards, groups, by rw [hslen, htot], ?_, by rw [hsf]; exact hsp, ?_, by rw [hgf, hslen]; exact hop, ?_, hsl2⟩
    · unfold splitShard normalizedLabels
      rw [if_neg (by omega), if_neg (by omega)]
      simp only [hn, ne_eq, not_true_eq_false, if_false]
      rw [if_neg (by omega)]
      rfl
    · have := hsl2.length_eq
      rw [this]
      simp [hgroups]
      omega
    · refine hflat.trans ?_
      rw [hgf]
      refine (hop.flatMap_right _).trans ?_
      rw [← hslen, flatMap_getD_range, hsf]
      exact hsp
    · intro a ha b hb
      apply e3
      · rw [← hsl]; exact List.mem_map.2 ⟨a, ha, rfl⟩
      · rw [← hsl]; exact List.mem_map.2 ⟨b, hb, rfl⟩
    · intro htrans htotal'
      rw [hsf]
      -- compare only indices in range
      have hlab : ∀ i ∈ List.range d.n, ∃ a, d.labels[i]? = some a := by
        intro i hi
        rw [List.mem_range, ← hn] at hi
        exact ⟨_, List.getElem?_eq_getElem hi⟩
      have hpw : sorted.Pairwise (fun i j => i ∈ List.range d.n → j ∈ List.range d.n → key i j = true) := by
        rw [hsorted]
        unfold pySorted
        clear_value shards groups
        clear hsl2 hflat hgf hsl hslen hsf hgroups hsp hsorted
        have : ∀ l : List Nat, (∀ i ∈ l, i ∈ List.range d.n) →
            (l.insertionSort (fun a b => key a b = true)).Pairwise (fun i j => key i j = true) := by
          intro l hl
          induction l with
          | nil => simp
          | cons a t ih =>
            have ih' := ih (fun i hi => hl i (List.mem_cons_of_mem _ hi))
            rw [List.insertionSort_cons]
            have hmem : ∀ i ∈ t.insertionSort (fun a b => key a b = true), i ∈ List.range d.n := fun i hi =>
              hl i (List.mem_cons_of_mem _ ((List.mem_insertionSort _).1 hi))
            have ha := hl a (by simp)
            generalize t.insertionSort (fun a b => key a b = true) = u at ih' hmem
            clear ih hl
            induction u with
            | nil => simp
            | cons b u ihu =>
              obtain ⟨hb1, hb2⟩ := List.pairwise_cons.1 ih'
              rw [List.orderedInsert_cons]
              obtain ⟨la, hla⟩ := hlab a ha
              obtain ⟨lb, hlb⟩ := hlab b (hmem b (by simp))
              split
              · rename_i hab
                refine List.pairwise_cons.2 ⟨?_, ih'⟩
                intro c hc
                rcases List.mem_cons.1 hc with rfl | hc
                · exact hab
                · obtain ⟨lc, hlc⟩ := hlab c (hmem c (List.mem_cons_of_mem _ hc))
                  have hbc := hb1 c hc
                  simp only [hkey, hla, hlb, hlc, Option.elim_some] at hab hbc ⊢
                  exact htrans _ _ _ hab hbc
              · rename_i hab
                refine List.pairwise_cons.2 ⟨?_, ihu hb2 (fun i hi => hmem i (List.mem_cons_of_mem _ hi))⟩
                intro c hc
                rcases (List.mem_orderedInsert _).1 hc with rfl | hc
                · simp only [hkey, hla, hlb, Option.elim_some] at hab ⊢
                  have := htotal' la lb
                  simp only [Bool.or_eq_true] at this
                  exact this.resolve_left hab
                · exact hb1 c hc
        exact (this _ (fun i hi => hi)).imp (fun h _ _ => h)
      refine hpw.imp_of_mem ?_
      intro i j hi hj hij a b ha hb
      have := hij (hsp.mem_iff.1 hi) (hsp.mem_iff.1 hj)
      simpa only [hkey, ha, hb, Option.elim_some] using this
    · intro g hg
      obtain ⟨i, hi, rfl⟩ := List.mem_map.1 hg
      rw [List.mem_range] at hi
      rw [List.length_take, List.length_drop, hop.length_eq, List.length_range]
      have hge : (i + 1) * spp.toNat ≤ total := Nat.mul_le_mul_right _ (by omega)
      rw [Nat.add_mul, Nat.one_mul] at hge
      have : min spp.toNat (total - i * spp.toNat) = spp.toNat := Nat.min_eq_left (by omega)
      rw [this]
      omega
  · intro h
    unfold splitShard normalizedLabels
    by_cases h1 : p ≤ 0
    · rw [if_pos h1]
    rw [if_neg h1]
    by_cases h2 : spp ≤ 0
    · rw [if_pos h2]
    rw [if_neg h2]
    by_cases hn : d.labels.length = d.n
    swap
    · simp [hn]
    have htot := hmul (by omega) (by omega)
    simp only [hn, ne_eq, not_true_eq_false, if_false]
    rw [if_pos]
    by_contra hle
    exact h ⟨by omega, by omega, hn, by omega⟩

example : (splitShard reverser (fun a b : Nat => decide (a ≤ b)) ⟨6, [2, 0, 1, 2, 0, 1]⟩ 2 2 ()).toOption.map Prod.fst =
    some [[0, 3], [4, 1, 5, 2]] := by decide +kernel

/-! ### C48: materialising partitions -/

theorem resolveOne_ok (n : Nat) (is : List Nat) (seen : List Nat) (hr : ∀ i ∈ is, i < n) (hn : is.Nodup)
    (hd : ∀ i ∈ is, i ∉ seen) :
    ∃ s, resolveOne n (is.map (fun i : Nat => Idx.int (i : Int))) seen = .ok (is, s) ∧ ∀ i, i ∈ s ↔ i ∈ is ∨ i ∈ seen := by
  induction is generalizing seen with
  | nil => exact ⟨seen, rfl, by simp⟩
  | cons i is ih =>
    obtain ⟨h1, h2⟩ := List.nodup_cons.1 hn
    obtain ⟨s, hs, hm⟩ := ih (i :: seen) (fun j hj => hr j (List.mem_cons_of_mem _ hj)) h2 (fun j hj => by
      rw [List.mem_cons, not_or]
      exact ⟨fun e => h1 (e ▸ hj), hd j (List.mem_cons_of_mem _ hj)⟩)
    have hi := hr i (by simp)
    refine ⟨s, ?_, ?_⟩
    · simp only [List.map_cons, resolveOne]
      rw [if_neg (by omega), Int.toNat_natCast, if_neg (hd i (by simp)), hs]
    · intro j
      rw [hm, List.mem_cons, List.mem_cons]
      tauto

theorem resolveOne_ok_inv (n : Nat) (l : List Idx) (seen : List Nat) (is s : List Nat)
    (h : resolveOne n l seen = .ok (is, s)) :
    l = is.map (fun i : Nat => Idx.int (i : Int)) ∧ (∀ i ∈ is, i < n) ∧ is.Nodup ∧ (∀ i ∈ is, i ∉ seen) ∧
    ∀ i, i ∈ s ↔ i ∈ is ∨ i ∈ seen := by
  induction l generalizing seen is s with
  | nil =>
    simp only [resolveOne, Except.ok.injEq, Prod.mk.injEq] at h
    obtain ⟨rfl, rfl⟩ := h
    simp
  | cons x l ih =>
    cases x with
    | bool b => simp [resolveOne] at h
    | other => simp [resolveOne] at h
    | int i =>
      rw [resolveOne] at h
      split at h
      · cases h
      · rename_i hrange
        split at h
        · cases h
        · rename_i hseen
          cases hrec : resolveOne n l (i.toNat :: seen) with
          | error e => rw [hrec] at h; cases h
          | ok res =>
            obtain ⟨is', s'⟩ := res
            rw [hrec] at h
            simp only [Except.ok.injEq, Prod.mk.injEq] at h
            obtain ⟨rfl, rfl⟩ := h
            obtain ⟨h1, h2, h3, h4, h5⟩ := ih _ _ _ hrec
            have hi : ((i.toNat : Nat) : Int) = i := by omega
            refine ⟨by rw [List.map_cons, hi, h1], ?_, ?_, ?_, ?_⟩
            · intro j hj
              rcases List.mem_cons.1 hj with rfl | hj
              · omega
              · exact h2 j hj
            · rw [List.nodup_cons]
              exact ⟨fun hm => (h4 _ hm) (by simp), h3⟩
            · intro j hj
              rcases List.mem_cons.1 hj with rfl | hj
              · exact hseen
              · exact fun hm => h4 j hj (List.mem_cons_of_mem _ hm)
            · intro j
              rw [h5, List.mem_cons, List.mem_cons]
              tauto

theorem resolveLoop_iff (n : Nat) (ps : List (List Idx)) (seen : List Nat) (parts : List (List Nat)) :
    resolveLoop n ps seen = .ok parts ↔
      ps = parts.map (fun p => p.map (fun i : Nat => Idx.int (i : Int))) ∧ (∀ i ∈ parts.flatten, i < n) ∧
      parts.flatten.Nodup ∧ ∀ i ∈ parts.flatten, i ∉ seen := by
  induction ps generalizing seen parts with
  | nil =>
    constructor
    · intro h
      simp only [resolveLoop, Except.ok.injEq] at h
      subst h; simp
    · rintro ⟨h, _⟩
      have : parts = [] := by simpa using h.symm
      subst this; rfl
  | cons p ps ih =>
    constructor
    · intro h
      rw [resolveLoop] at h
      cases h1 : resolveOne n p seen with
      | error e => rw [h1] at h; cases h
      | ok res =>
        obtain ⟨l, s⟩ := res
        rw [h1] at h
        cases h2 : resolveLoop n ps s with
        | error e => simp only [h2] at h; cases h
        | ok ls =>
          simp only [h2, Except.ok.injEq] at h
          subst h
          obtain ⟨a1, a2, a3, a4, a5⟩ := resolveOne_ok_inv n p seen l s h1
          obtain ⟨b1, b2, b3, b4⟩ := (ih s ls).1 h2
          refine ⟨by rw [List.map_cons, ← a1, ← b1], ?_, ?_, ?_⟩
          · intro i hi
            rw [List.flatten_cons, List.mem_append] at hi
            exact hi.elim (a2 i) (b2 i)
          · rw [List.flatten_cons, List.nodup_append]
            refine ⟨a3, b3, ?_⟩
            rintro a ha b hb rfl
            exact b4 a hb ((a5 a).2 (Or.inl ha))
          · intro i hi
            rw [List.flatten_cons, List.mem_append] at hi
            rcases hi with hi | hi
            · exact a4 i hi
            · exact fun hs => b4 i hi ((a5 i).2 (Or.inr hs))
    · rintro ⟨h1, h2, h3, h4⟩
      cases parts with
      | nil => simp at h1
      | cons l ls =>
        rw [List.map_cons] at h1
        injection h1 with hp hps
        subst hp
        rw [List.flatten_cons] at h2 h3 h4
        obtain ⟨n1, n2, n3⟩ := List.nodup_append.1 h3
        obtain ⟨s, hs, hm⟩ := resolveOne_ok n l seen (fun i hi => h2 i (List.mem_append_left _ hi)) n1
          (fun i hi => h4 i (List.mem_append_left _ hi))
        have hrec : resolveLoop n ps s = .ok ls := (ih s ls).2 ⟨hps, fun i hi => h2 i (List.mem_append_right _ hi), n2, by
          intro i hi hs
          rcases (hm i).1 hs with h | h
          · exact n3 i h i hi rfl
          · exact h4 i (List.mem_append_right _ hi) h⟩
        rw [resolveLoop, hs]
        simp only [hrec]

/-- **C48.** `split` returns normally exactly when the argument consists of genuine integers (no booleans, floats, ...)
that are in range and pairwise different across all partitions; the result then consists of exactly the datapoints with
these indices, partition by partition, in the given order. -/
theorem C48_split_iff {X : Type} (n : Nat) (data : Nat → X) (ps : List (List Idx)) (res : List (List X)) :
    splitData n data ps = .ok res ↔
      ∃ parts : List (List Nat), ps = parts.map (fun p => p.map (fun i : Nat => Idx.int (i : Int))) ∧
        parts.flatten.Nodup ∧ (∀ i ∈ parts.flatten, i < n) ∧ res = parts.map (fun p => p.map data) := by
  unfold splitData resolvePartitions
  constructor
  · intro h
    cases hr : resolveLoop n ps [] with
    | error e => rw [hr] at h; cases h
    | ok parts =>
      rw [hr] at h
      simp only [Except.ok.injEq] at h
      obtain ⟨h1, h2, h3, _⟩ := (resolveLoop_iff n ps [] parts).1 hr
      exact ⟨parts, h1, h3, h2, h.symm⟩
  · rintro ⟨parts, h1, h2, h3, rfl⟩
    rw [(resolveLoop_iff n ps [] parts).2 ⟨h1, h3, h2, by simp⟩]

/-- **C48.** The exception tells what was wrong: `TypeError` needs an element that is not a genuine integer, `IndexError`
one out of range, and `ValueError` one that occurs twice; no other exception is raised. -/
theorem C48_split_errors {X : Type} (n : Nat) (data : Nat → X) (ps : List (List Idx)) (e : PyErr)
    (h : splitData n data ps = .error e) :
    (e = .typeError ∧ ∃ x ∈ ps.flatten, ∀ i, x ≠ Idx.int i) ∨
    (e = .indexError ∧ ∃ i : Int, Idx.int i ∈ ps.flatten ∧ (i < 0 ∨ (n : Int) ≤ i)) ∨
    (e = .valueError ∧ ¬ ps.flatten.Nodup) := by
  have hone : ∀ (l : List Idx) (seen : List Nat) (e : PyErr), resolveOne n l seen = .error e →
      (e = .typeError ∧ ∃ x ∈ l, ∀ i, x ≠ Idx.int i) ∨
      (e = .indexError ∧ ∃ i : Int, Idx.int i ∈ l ∧ (i < 0 ∨ (n : Int) ≤ i)) ∨
      (e = .valueError ∧ (¬ l.Nodup ∨ ∃ i ∈ seen, Idx.int (i : Int) ∈ l)) := by
    intro l
    induction l with
    | nil => intro seen e h; simp [resolveOne] at h
    | cons x l ih =>
      intro seen e h
      cases x with
      | bool b =>
        simp only [resolveOne, Except.error.injEq] at h
        exact Or.inl ⟨h.symm, .bool b, by simp, by simp⟩
      | other =>
        simp only [resolveOne, Except.error.injEq] at h
        exact Or.inl ⟨h.symm, .other, by simp, by simp⟩
      | int i =>
        rw [resolveOne] at h
        split at h
        · rename_i hr
          simp only [Except.error.injEq] at h
          exact Or.inr (Or.inl ⟨h.symm, i, by simp, by omega⟩)
        · rename_i hr
          have hi : ((i.toNat : Nat) : Int) = i := by omega
          split at h
          · rename_i hs
            simp only [Except.error.injEq] at h
            exact Or.inr (Or.inr ⟨h.symm, Or.inr ⟨i.toNat, hs, by rw [hi]; simp⟩⟩)
          · cases hrec : resolveOne n l (i.toNat :: seen) with
            | ok res => rw [hrec] at h; cases h
            | error e' =>
              rw [hrec] at h
              simp only [Except.error.injEq] at h
              subst h
              rcases ih _ _ hrec with ⟨h1, x, hx, h2⟩ | ⟨h1, j, hj, h2⟩ | ⟨h1, h2⟩
              · exact Or.inl ⟨h1, x, List.mem_cons_of_mem _ hx, h2⟩
              · exact Or.inr (Or.inl ⟨h1, j, List.mem_cons_of_mem _ hj, h2⟩)
              · refine Or.inr (Or.inr ⟨h1, ?_⟩)
                rcases h2 with h2 | ⟨j, hj, h2⟩
                · left; intro hn; exact h2 (List.nodup_cons.1 hn).2
                · rcases List.mem_cons.1 hj with rfl | hj
                  · left; intro hn; rw [hi] at h2; exact (List.nodup_cons.1 hn).1 h2
                  · right; exact ⟨j, hj, List.mem_cons_of_mem _ h2⟩
  have hloop : ∀ (ps : List (List Idx)) (seen : List Nat) (e : PyErr), resolveLoop n ps seen = .error e →
      (e = .typeError ∧ ∃ x ∈ ps.flatten, ∀ i, x ≠ Idx.int i) ∨
      (e = .indexError ∧ ∃ i : Int, Idx.int i ∈ ps.flatten ∧ (i < 0 ∨ (n : Int) ≤ i)) ∨
      (e = .valueError ∧ (¬ ps.flatten.Nodup ∨ ∃ i ∈ seen, Idx.int (i : Int) ∈ ps.flatten)) := by
    intro ps
    induction ps with
    | nil => intro seen e h; simp [resolveLoop] at h
    | cons p ps ih =>
      intro seen e h
      rw [resolveLoop] at h
      simp only [List.flatten_cons, List.mem_append, List.nodup_append]
      cases h1 : resolveOne n p seen with
      | error e' =>
        rw [h1] at h
        simp only [Except.error.injEq] at h
        subst h
        rcases hone _ _ _ h1 with ⟨h1, x, hx, h2⟩ | ⟨h1, j, hj, h2⟩ | ⟨h1, h2⟩
        · exact Or.inl ⟨h1, x, Or.inl hx, h2⟩
        · exact Or.inr (Or.inl ⟨h1, j, Or.inl hj, h2⟩)
        · refine Or.inr (Or.inr ⟨h1, ?_⟩)
          rcases h2 with h2 | ⟨j, hj, h2⟩
          · left; intro hn; exact h2 hn.1
          · right; exact ⟨j, hj, Or.inl h2⟩
      | ok res =>
        obtain ⟨l, s⟩ := res
        rw [h1] at h
        obtain ⟨a1, a2, a3, a4, a5⟩ := resolveOne_ok_inv n p seen l s h1
        cases h2 : resolveLoop n ps s with
        | ok ls => simp only [h2] at h; cases h
        | error e' =>
          simp only [h2, Except.error.injEq] at h
          subst h
          rcases ih _ _ h2 with ⟨h1, x, hx, h2⟩ | ⟨h1, j, hj, h2⟩ | ⟨h1, h2⟩
          · exact Or.inl ⟨h1, x, Or.inr hx, h2⟩
          · exact Or.inr (Or.inl ⟨h1, j, Or.inr hj, h2⟩)
          · refine Or.inr (Or.inr ⟨h1, ?_⟩)
            rcases h2 with h2 | ⟨j, hj, h2⟩
            · left; intro hn; exact h2 hn.2.1
            · rcases (a5 j).1 hj with hj | hj
              · left; intro hn
                exact hn.2.2 _ (by rw [a1]; exact List.mem_map.2 ⟨j, hj, rfl⟩) _ h2 rfl
              · right; exact ⟨j, hj, Or.inr h2⟩
  unfold splitData resolvePartitions at h
  cases hr : resolveLoop n ps [] with
  | ok parts => rw [hr] at h; cases h
  | error e' =>
    rw [hr] at h
    simp only [Except.error.injEq] at h
    subst h
    rcases hloop _ _ _ hr with h | h | ⟨h1, h2⟩
    · exact Or.inl h
    · exact Or.inr (Or.inl h)
    · refine Or.inr (Or.inr ⟨h1, ?_⟩)
      rcases h2 with h2 | ⟨j, hj, _⟩
      · exact h2
      · simp at hj

example : splitData 4 (fun i => i * 10) [[.int 2, .int 0], [], [.int 3]] = .ok [[20, 0], [], [30]] := rfl
example : splitData 4 (fun i => i * 10) [[.int 2], [.int 2]] = .error .valueError := rfl
example : splitData 4 (fun i => i * 10) [[.bool true]] = .error .typeError := rfl
example : splitData 4 (fun i => i * 10) [[.int (-1)]] = .error .indexError := rfl

end Verif.Props
