import Verif.Lemmas.LabelQuantity
import Verif.Props.Partition
import Mathlib.Tactic.IntervalCases
/-!
# C47: label-quantity partitioning

`FitsGroups` and `GroupsOK` mention only the dataset's labels, the request and the resulting index lists; networks, flows
and cuts appear only in the proofs.
-/
set_option linter.unusedSectionVars false
namespace Verif.Props
open Verif Verif.Part

variable {Ω : Type} {L : Type} [DecidableEq L]

/-- Every partition is given a group of exactly `classes` distinct labels of the dataset, and no label is used in more than
one group more than another label. -/
def GroupsOK (labels : List L) (p classes : Int) (groups : List (List L)) : Prop :=
  (groups.length : Int) = p ∧
  (∀ g ∈ groups, g.Nodup ∧ (g.length : Int) = classes ∧ ∀ l ∈ g, l ∈ labels) ∧
  ∀ l ∈ labels, ∀ l' ∈ labels, groups.countP (fun g => decide (l ∈ g)) ≤ groups.countP (fun g => decide (l' ∈ g)) + 1

/-- disjoint partitions of the given sizes, partition `j` consisting of datapoints whose label is in group `j` -/
def FitsGroups (labels : List L) (groups : List (List L)) (sizes : List Nat) (parts : List (List Nat)) : Prop :=
  IsPartition labels.length sizes parts ∧
  ∀ j k : Nat, k ∈ parts.getD j [] → ∃ l ∈ groups.getD j [], labels[k]? = some l

/-- datapoints whose label is in some group -/
def Usable (labels : List L) (groups : List (List L)) : Nat :=
  labels.countP (fun l => groups.any (fun g => decide (l ∈ g)))

/-! ### the allocation step -/

theorem fillAllowed_spec {r : Rng Ω} (hr : r.Lawful) (le : L → L → Bool) (labels : List L) (groups : List (List L))
    (counts : List Nat) (hg : groups.length = counts.length) (ω : Ω) :
    ∃ res, (∃ B, ∀ fuel, B ≤ fuel → fillAllowed r le (indicesByLabel labels).entries groups counts fuel ω = some res) ∧
      ((∃ parts, FitsGroups labels groups counts parts) → ∃ parts ω', res = .ok (parts, ω') ∧ FitsGroups labels groups counts parts) ∧
      ((¬ ∃ parts, FitsGroups labels groups counts parts) → res = .error .valueError) := by
  set kept := (indicesByLabel labels).entries.filter (fun it => groups.any (fun g => decide (it.1 ∈ g))) with hkept
  set sh := shuffleItems r kept ω with hsh
  set sorted := pySorted (fun a b => le a.1 b.1) sh.1 with hsorted
  set supply : L → Nat := fun l => ((PyDict.lookupL l sh.1).getD []).length with hsupply
  set allowed : Nat → L → Bool := fun j l => decide (l ∈ groups.getD j []) with hallowed
  have hsp := shuffleItems_spec hr kept ω
  rw [← hsh] at hsp
  have hperm : sorted.Perm sh.1 := pySorted_perm _ _
  have hkn : (kept.map Prod.fst).Nodup :=
    ((List.filter_sublist).map Prod.fst).nodup (indicesByLabel_spec labels).1
  have hshn : (sh.1.map Prod.fst).Nodup := by rw [forall₂_fst hsp]; exact hkn
  have hsn : (sorted.map Prod.fst).Nodup := (hperm.map Prod.fst).nodup_iff.2 hshn
  -- what is in `sorted`
  have hmem : ∀ it ∈ sorted, it.2.Perm (idxOf labels it.1) ∧ groups.any (fun g => decide (it.1 ∈ g)) = true := by
    intro it hit
    obtain ⟨y, hy, h1, h2⟩ := forall₂_mem hsp (hperm.mem_iff.1 hit)
    obtain ⟨hy1, hy2⟩ := List.mem_filter.1 hy
    have := (indicesByLabel_entry hy1).2
    rw [h1, ← this]
    exact ⟨h2, hy2⟩
  have hall : ∀ l ∈ labels, groups.any (fun g => decide (l ∈ g)) = true → l ∈ sorted.map Prod.fst := by
    intro l hl hin
    rw [(hperm.map Prod.fst).mem_iff, forall₂_fst hsp]
    exact List.mem_map.2 ⟨_, List.mem_filter.2 ⟨indicesByLabel_mem hl, hin⟩, rfl⟩
  have hflat : ((sorted.map Prod.snd).flatten).Subperm (List.range labels.length) := by
    refine (((hperm.map Prod.snd).flatten).trans (forall₂_snd_flatten hsp)).subperm.trans ?_
    refine List.Subperm.trans ?_ (indicesByLabel_flatten labels).subperm
    exact ((List.filter_sublist).map Prod.snd).flatten.subperm
  have hget : ∀ (i : Nat) (l : L), (sorted.map Prod.fst)[i]? = some l → ∃ is, sorted[i]? = some (l, is) ∧
      is.Perm (idxOf labels l) ∧ supply l = is.length ∧ (sorted.map Prod.snd).getD i [] = is := by
    intro i l hl
    rw [List.getElem?_map, Option.map_eq_some_iff] at hl
    obtain ⟨⟨l', is⟩, h1, rfl⟩ := hl
    have hm := List.mem_of_getElem? h1
    refine ⟨is, h1, (hmem _ hm).1, ?_, ?_⟩
    · simp only [hsupply]
      rw [lookupL_of_nodup sh.1 hshn (hperm.mem_iff.1 hm)]
      rfl
    · rw [List.getD_eq_getElem?_getD, List.getElem?_map, h1]; rfl
  obtain ⟨res, hres, hyes, hno⟩ := labelAllocations_spec (sorted.map Prod.fst) supply allowed counts
  -- a fitting partition gives an allocation
  have halloc : (∃ parts, FitsGroups labels groups counts parts) → ∃ x, AllocOK (sorted.map Prod.fst) supply allowed counts x := by
    rintro ⟨parts, ⟨hlen, hnd, hlt⟩, hfit⟩
    have hpl : parts.length = counts.length := by rw [← hlen, List.length_map]
    refine ⟨fun i j => ((((sorted.map Prod.fst)[i]?).elim 0 (fun l => InLabel labels l (parts.getD j [])) : Nat) : Int), ?_, ?_, ?_, ?_⟩
    · intro i j _ _; positivity
    · intro i j l hl hj hne
      rw [hl] at hne
      simp only [Option.elim_some] at hne
      have hpos : 0 < InLabel labels l (parts.getD j []) := by omega
      obtain ⟨k, hk⟩ := List.exists_mem_of_length_pos hpos
      obtain ⟨hk1, hk2⟩ := List.mem_filter.1 hk
      have hk2 := of_decide_eq_true hk2
      obtain ⟨l', hl', hk3⟩ := hfit j k hk1
      rw [hk2] at hk3
      simp only [hallowed, decide_eq_true_eq]
      rw [Option.some.inj hk3]; exact hl'
    · intro i l hl
      rw [hl]
      simp only [Option.elim_some]
      obtain ⟨is, h1, h2, h3, _⟩ := hget i l hl
      rw [h3, h2.length_eq]
      have hs : ∀ ps : List (List Nat), ∑ j ∈ Finset.range ps.length, ((InLabel labels l (ps.getD j []) : Nat) : Int) =
          ((InLabel labels l ps.flatten : Nat) : Int) := by
        intro ps
        induction ps with
        | nil => simp [InLabel]
        | cons a ps ih =>
          rw [List.length_cons, Finset.sum_range_succ']
          simp only [List.getD_cons_succ, List.getD_cons_zero]
          rw [ih]
          simp only [InLabel, List.flatten_cons, List.filter_append, List.length_append]
          push_cast; ring
      rw [← hpl, hs]
      have : (parts.flatten.filter (fun i => decide (labels[i]? = some l))).Subperm (idxOf labels l) := by
        refine List.subperm_of_subset (hnd.filter _) ?_
        intro k hk
        rw [mem_idxOf]
        exact of_decide_eq_true (List.mem_filter.1 hk).2
      have := this.length_le
      unfold InLabel
      exact_mod_cast this
    · intro j c hc
      have hj := (List.getElem?_eq_some_iff.1 hc).1
      have hcl : (parts.getD j []).length = c := by
        rw [← getD_map_length, hlen, List.getD_eq_getElem?_getD, hc]; rfl
      rw [← hcl]
      -- summing over labels
      have hgen : ∀ (ls : List L) (ks : List Nat), ls.Nodup → (∀ k ∈ ks, ∃ l ∈ ls, labels[k]? = some l) →
          ∑ i ∈ Finset.range ls.length, (((ls[i]?).elim 0 (fun l => InLabel labels l ks) : Nat) : Int) = ((ks.length : Nat) : Int) := by
        intro ls
        induction ls with
        | nil =>
          intro ks _ h
          cases ks with
          | nil => simp
          | cons k ks => obtain ⟨l, hl, _⟩ := h k (by simp); simp at hl
        | cons a ls ih =>
          intro ks hn h
          simp only [List.nodup_cons] at hn
          rw [List.length_cons, Finset.sum_range_succ']
          simp only [List.getElem?_cons_succ, List.getElem?_cons_zero, Option.elim_some]
          have h1 := ih (ks.filter (fun k => !decide (labels[k]? = some a))) hn.2 (by
            intro k hk
            obtain ⟨hk1, hk2⟩ := List.mem_filter.1 hk
            obtain ⟨l, hl, hlk⟩ := h k hk1
            rcases List.mem_cons.1 hl with rfl | hl
            · simp [hlk] at hk2
            · exact ⟨l, hl, hlk⟩)
          have h2 : ∀ i ∈ Finset.range ls.length, (((ls[i]?).elim 0 (fun l => InLabel labels l ks) : Nat) : Int) =
              (((ls[i]?).elim 0 (fun l => InLabel labels l (ks.filter (fun k => !decide (labels[k]? = some a)))) : Nat) : Int) := by
            intro i hi
            cases hli : ls[i]? with
            | none => rfl
            | some l =>
              simp only [Option.elim_some, InLabel, List.filter_filter]
              congr 2
              apply List.filter_congr
              intro k _
              have hla : l ≠ a := fun e => hn.1 (e ▸ List.mem_of_getElem? hli)
              by_cases hk : labels[k]? = some l
              · simp [hk, hla]
              · simp [hk]
          rw [Finset.sum_congr rfl h2, h1]
          have h3 := List.length_eq_length_filter_add (l := ks) (fun k => decide (labels[k]? = some a))
          unfold InLabel
          rw [h3]
          push_cast
          ring
      refine hgen _ _ hsn ?_
      intro k hk
      obtain ⟨l, hl, hlk⟩ := hfit j k hk
      refine ⟨l, hall l (List.mem_of_getElem? hlk) ?_, hlk⟩
      rw [List.any_eq_true]
      rcases Nat.lt_or_ge j groups.length with hjg | hjg
      · exact ⟨groups.getD j [], by
          rw [List.getD_eq_getElem?_getD, List.getElem?_eq_getElem hjg]; exact List.getElem_mem hjg, by simpa using hl⟩
      · rw [List.getD_eq_getElem?_getD, List.getElem?_eq_none hjg] at hl; simp at hl
  -- an allocation gives a fitting partition
  have hfill : ∀ rows : List (List Int), rows.length = (sorted.map Prod.fst).length → (∀ row ∈ rows, row.length = counts.length) →
      AllocOK (sorted.map Prod.fst) supply allowed counts (fun i j => (rows.getD i []).getD j 0) →
      FitsGroups labels groups counts
        (shuffledAll r (fillLabels (sorted.map Prod.snd) rows (List.replicate counts.length [])) sh.2).1 := by
    intro rows hrl hrow hx
    have hlen2 : (sorted.map Prod.snd).length = rows.length := by rw [hrl]; simp
    have hget' : ∀ i : Nat, i < rows.length → ∃ l is, (sorted.map Prod.fst)[i]? = some l ∧ sorted[i]? = some (l, is) := by
      intro i hi
      have hi' : i < sorted.length := by rw [hrl] at hi; simpa using hi
      refine ⟨sorted[i].1, sorted[i].2, ?_, ?_⟩
      · rw [List.getElem?_map, List.getElem?_eq_getElem hi']; rfl
      · rw [List.getElem?_eq_getElem hi']
    obtain ⟨a1, a2, a3, a4⟩ := fillLabels_spec (sorted.map Prod.snd) rows (List.replicate counts.length []) hlen2
      (fun row h => by rw [hrow row h]; simp)
      (fun row h x hxr => by
        obtain ⟨i, hi, rfl⟩ := List.getElem_of_mem h
        obtain ⟨j, hj, rfl⟩ := List.getElem_of_mem hxr
        have := hx.nonneg i j (by rw [← hrl]; exact hi) (by rw [← hrow _ h]; exact hj)
        simpa [List.getD_eq_getElem?_getD, hi, hj] using this)
      (fun i hi => by
        rw [hlen2] at hi
        obtain ⟨l, is, h1, h2⟩ := hget' i hi
        obtain ⟨is', h3, _, h5, h6⟩ := hget i l h1
        have := hx.supply i l h1
        rw [sum_getD_range] at this
        · rw [h6, ← h5]; exact this
        · rw [List.getD_eq_getElem?_getD, List.getElem?_eq_getElem hi]
          exact hrow _ (List.getElem_mem hi))
    have hsa := shuffledAll_perm hr (fillLabels (sorted.map Prod.snd) rows (List.replicate counts.length [])) sh.2
    set parts := fillLabels (sorted.map Prod.snd) rows (List.replicate counts.length []) with hparts
    refine ⟨isPartition_of_subperm ?_ ?_, ?_⟩
    · rw [forall₂_perm_lengths hsa]
      apply List.ext_getElem
      · rw [List.length_map, a1, List.length_replicate]
      · intro j h1 h2
        have h3 := a2 j
        have h4 := hx.size j counts[j] (List.getElem?_eq_getElem h2)
        rw [hlen2, hrl, h4] at h3
        have h5 : (parts.map List.length)[j] = (parts.getD j []).length := by
          rw [← getD_map_length, List.getD_eq_getElem?_getD, List.getElem?_eq_getElem h1]; rfl
        rw [h5]
        have h6 : ((List.replicate counts.length ([] : List Nat)).getD j []) = [] := by
          simp [List.getD_eq_getElem?_getD, h2]
        rw [h6] at h3
        simpa using h3
    · refine (forall₂_perm_flatten hsa).subperm.trans (a3.trans ?_)
      rw [flatten_replicate_nil, List.nil_append]
      exact hflat
    · intro j k hk
      rw [(forall₂_getD hsa j).mem_iff] at hk
      rcases a4 j k hk with h | ⟨i, hi, h1, h2⟩
      · exfalso
        rcases Nat.lt_or_ge j counts.length with hj | hj
        · simp [List.getD_eq_getElem?_getD, hj] at h
        · simp [List.getD_eq_getElem?_getD, hj] at h
      · rw [hlen2] at hi
        obtain ⟨l, is, h3, h4⟩ := hget' i hi
        obtain ⟨is', h5, h6, _, h8⟩ := hget i l h3
        rw [h8, h6.mem_iff, mem_idxOf] at h1
        have hj : j < counts.length := by
          by_contra hj
          apply h2
          have : (rows.getD i []).length = counts.length := by
            rw [List.getD_eq_getElem?_getD, List.getElem?_eq_getElem hi]
            exact hrow _ (List.getElem_mem hi)
          rw [List.getD_eq_getElem?_getD, List.getElem?_eq_none (by omega)]; rfl
        have := hx.allowed i j l h3 hj h2
        exact ⟨l, by simpa [hallowed] using this, h1⟩
  by_cases hfeas : ∃ parts, FitsGroups labels groups counts parts
  · obtain ⟨rows, h1, h2, h3, h4⟩ := hyes (halloc hfeas)
    refine ⟨.ok (shuffledAll r (fillLabels (sorted.map Prod.snd) rows (List.replicate counts.length [])) sh.2),
      ⟨enough (sorted.map Prod.fst) counts, fun fuel hf => ?_⟩, fun _ => ⟨_, _, rfl, hfill rows h2 h3 h4⟩, fun h => absurd hfeas h⟩
    have := hres fuel hf
    rw [h1] at this
    simp only [fillAllowed]
    rw [← hkept, ← hsh, ← hsorted]
    simp only [hsupply, hallowed] at this
    rw [this]
  · have hna : ¬ ∃ x, AllocOK (sorted.map Prod.fst) supply allowed counts x := by
      intro hx
      obtain ⟨rows, h1, h2, h3, h4⟩ := hyes hx
      exact hfeas ⟨_, hfill rows h2 h3 h4⟩
    refine ⟨.error .valueError, ⟨enough (sorted.map Prod.fst) counts, fun fuel hf => ?_⟩, fun h => absurd h hfeas, fun _ => rfl⟩
    have := hres fuel hf
    rw [hno hna] at this
    simp only [fillAllowed]
    rw [← hkept, ← hsh, ← hsorted]
    simp only [hsupply, hallowed] at this
    rw [this]

/-! ### the groups -/

theorem groups_ok {labels order : List L} (ho : order.Perm labels.dedup) {p classes : Int} (hp : 0 < p) (hc : 0 < classes)
    (hcl : classes ≤ (labels.dedup.length : Int)) :
    GroupsOK labels p classes ((List.range p.toNat).map (fun i => labelGroup order classes.toNat i)) := by
  have hlen := ho.length_eq
  have hm : 0 < order.length := by omega
  obtain ⟨f, hf⟩ := exists_enum order hm
  have hnd : order.Nodup := ho.nodup_iff.2 (List.nodup_dedup _)
  have hinj : ∀ a b, a < order.length → b < order.length → f a = f b → a = b := by
    intro a b ha hb hab
    have h1 := hf a ha
    have h2 := hf b hb
    rw [hab] at h1
    exact (List.getElem?_inj ha hnd).1 (h1.trans h2.symm)
  have hc' : classes.toNat ≤ order.length := by omega
  refine ⟨by simp; omega, ?_, ?_⟩
  · intro g hg
    obtain ⟨i, _, rfl⟩ := List.mem_map.1 hg
    rw [labelGroup_eq order f hf hm]
    refine ⟨?_, by simp; omega, ?_⟩
    · rw [List.nodup_map_iff_inj_on List.nodup_range]
      intro o ho' o' ho'' h
      have h1 := hinj _ _ (Nat.mod_lt _ hm) (Nat.mod_lt _ hm) h
      have := List.mem_range.1 ho'
      have := List.mem_range.1 ho''
      exact mod_window_inj h1 (by omega) (by omega)
    · intro l hl
      obtain ⟨o, _, rfl⟩ := List.mem_map.1 hl
      have := List.mem_of_getElem? (hf _ (Nat.mod_lt (i * classes.toNat + o) hm))
      exact List.mem_dedup.1 (ho.mem_iff.1 this)
  · have key : ∀ l ∈ labels, ∃ q, q < order.length ∧
        ((List.range p.toNat).map (fun i => labelGroup order classes.toNat i)).countP (fun g => decide (l ∈ g)) =
          p.toNat * classes.toNat / order.length + if q < p.toNat * classes.toNat % order.length then 1 else 0 := by
      intro l hl
      obtain ⟨q, hq, he⟩ := List.getElem_of_mem (ho.mem_iff.2 (List.mem_dedup.2 hl))
      refine ⟨q, hq, ?_⟩
      have hfq : f q = l := by
        have := hf q hq
        rw [List.getElem?_eq_getElem hq, he] at this
        exact (Option.some.inj this).symm
      rw [← countP_mod _ _ _ hq, ← countP_blocks _ _ _ _ hc', List.countP_map]
      apply List.countP_congr
      intro i _
      simp only [Function.comp_apply, decide_eq_true_eq, List.any_eq_true, List.mem_range]
      rw [labelGroup_eq order f hf hm, List.mem_map]
      constructor
      · rintro ⟨o, ho', h⟩
        exact ⟨o, List.mem_range.1 ho', hinj _ _ (Nat.mod_lt _ hm) hq (h.trans hfq.symm)⟩
      · rintro ⟨o, ho', h⟩
        exact ⟨o, List.mem_range.2 ho', by rw [h]; exact hfq⟩
    intro l hl l' hl'
    obtain ⟨q, _, h1⟩ := key l hl
    obtain ⟨q', _, h2⟩ := key l' hl'
    rw [h1, h2]
    split <;> split <;> omega

/-- **C47.** For every dataset, request and random draw: label-quantity partitioning terminates.  On a malformed request it
raises `ValueError`.  Otherwise it picks label groups (`GroupsOK`), counts the datapoints usable with them, raises
`ValueError` if the requested sizes do not fit, and else returns disjoint partitions of exactly the requested sizes using
only labels of each partition's group — unless no such partitions exist at all, the only remaining case in which it raises
`ValueError`. -/
theorem C47_label_quantity {r : Rng Ω} (hr : r.Lawful) (le : L → L → Bool) (d : Labelled L) (p classes : Int) (s : Samples)
    (ω : Ω) :
    ∃ res, (∃ B, ∀ fuel, B ≤ fuel → splitLabelQuantity r le d p classes s fuel ω = some res) ∧
      (¬ (0 < p ∧ 0 < classes ∧ d.labels.length = d.n ∧ classes ≤ (d.labels.dedup.length : Int)) → res = .error .valueError) ∧
      (0 < p ∧ 0 < classes ∧ d.labels.length = d.n ∧ classes ≤ (d.labels.dedup.length : Int) →
        ∃ groups, GroupsOK d.labels p classes groups ∧
          (¬ ValidRequest (Usable d.labels groups) p s → res = .error .valueError) ∧
          (ValidRequest (Usable d.labels groups) p s → ∃ sizes, SizesOK (Usable d.labels groups) p sizes s ∧
            ((∃ parts, FitsGroups d.labels groups sizes parts) →
              ∃ parts ω', res = .ok (parts, ω') ∧ FitsGroups d.labels groups sizes parts) ∧
            ((¬ ∃ parts, FitsGroups d.labels groups sizes parts) → res = .error .valueError))) := by
  have hkeys : (pySorted le ((indicesByLabel d.labels).entries.map Prod.fst)).Perm d.labels.dedup :=
    (pySorted_perm _ _).trans (items_keys_perm d.labels)
  by_cases hv : 0 < p ∧ 0 < classes ∧ d.labels.length = d.n ∧ classes ≤ (d.labels.dedup.length : Int)
  · obtain ⟨hp, hc, hn, hcl⟩ := hv
    have ho := (shuffledSequence_perm hr (pySorted le ((indicesByLabel d.labels).entries.map Prod.fst)) ω).trans hkeys
    set order := shuffledSequence r (pySorted le ((indicesByLabel d.labels).entries.map Prod.fst)) ω with horder
    set groups := (List.range p.toNat).map (fun i => labelGroup order.1 classes.toNat i) with hgroups
    have hgo : GroupsOK d.labels p classes groups := groups_ok ho hp hc hcl
    have hus : (((indicesByLabel d.labels).entries.filter (fun it => groups.any (fun g => decide (it.1 ∈ g)))).map
        (fun it => it.2.length)).sum = Usable d.labels groups :=
      items_usable d.labels (fun l => groups.any (fun g => decide (l ∈ g)))
    have hgl : groups.length = p.toNat := by simp [hgroups]
    have hev : partitionCounts (Usable d.labels groups) p .none = .ok (evenCounts (Usable d.labels groups) p.toNat) := by
      have hsum := evenCounts_sum (Usable d.labels groups) p.toNat (by omega)
      simp only [partitionCounts]
      rw [if_neg (by omega), if_neg (by rw [hsum]; omega)]
    have hrun : ∀ fuel, splitLabelQuantity r le d p classes s fuel ω =
        match partitionCounts (Usable d.labels groups) p s with
        | .error e => some (.error e)
        | .ok counts => fillAllowed r le (indicesByLabel d.labels).entries groups counts fuel order.2 := by
      intro fuel
      simp only [splitLabelQuantity]
      rw [if_neg (by omega), if_neg (by omega)]
      simp only [normalizedLabels, hn, ne_eq, not_true_eq_false, if_false]
      rw [if_neg (by rw [hkeys.length_eq]; omega), ← horder, ← hgroups, hus]
      cases s with
      | none => rw [hev]
      | each k => rfl
      | list l => rfl
    by_cases hvr : ValidRequest (Usable d.labels groups) p s
    · obtain ⟨counts, hpc, hsz, _, hlen⟩ := partitionCounts_valid _ p s hvr
      obtain ⟨res, ⟨B, hB⟩, h1, h2⟩ := fillAllowed_spec hr le d.labels groups counts (by omega) order.2
      refine ⟨res, ⟨B, fun fuel hf => ?_⟩, fun h => absurd ⟨hp, hc, hn, hcl⟩ h, fun _ => ⟨groups, hgo, fun h => absurd hvr h,
        fun _ => ⟨counts, hsz, h1, h2⟩⟩⟩
      rw [hrun fuel, hpc]
      exact hB fuel hf
    · refine ⟨.error .valueError, ⟨0, fun fuel _ => ?_⟩, fun _ => rfl, fun _ => ⟨groups, hgo, fun _ => rfl, fun h => absurd h hvr⟩⟩
      rw [hrun fuel, partitionCounts_invalid _ p s hvr]
  · refine ⟨.error .valueError, ⟨0, fun fuel _ => ?_⟩, fun _ => rfl, fun h => absurd h hv⟩
    simp only [splitLabelQuantity]
    by_cases hp : p ≤ 0
    · rw [if_pos hp]
    rw [if_neg hp]
    by_cases hc : classes ≤ 0
    · rw [if_pos hc]
    rw [if_neg hc]
    by_cases hn : d.labels.length = d.n
    · simp only [normalizedLabels, hn, ne_eq, not_true_eq_false, if_false]
      rw [if_pos]
      rw [hkeys.length_eq]
      by_contra h
      exact hv ⟨by omega, by omega, hn, by omega⟩
    · simp [normalizedLabels, hn]

/-- one datapoint of one class, nine of another -/
def skewed : Labelled Bool := ⟨10, [true, false, false, false, false, false, false, false, false, false]⟩

/-- two datapoints of each class -/
def even22 : Labelled Bool := ⟨4, [true, false, false, true]⟩

/-- every draw: with one class for each of two partitions, the groups are the two singletons -/
theorem singleton_groups {labels : List Bool} (ht : true ∈ labels) (hf : false ∈ labels) {groups : List (List Bool)}
    (h : GroupsOK labels 2 1 groups) : groups = [[true], [false]] ∨ groups = [[false], [true]] := by
  obtain ⟨h1, h2, h3⟩ := h
  match groups, h1, h2, h3 with
  | [a, b], _, h2, h3 =>
    obtain ⟨_, ha, _⟩ := h2 a (by simp)
    obtain ⟨_, hb, _⟩ := h2 b (by simp)
    match a, b, ha, hb with
    | [x], [y], _, _ =>
      have h4 := h3 true ht false hf
      have h5 := h3 false hf true ht
      cases x <;> cases y <;> simp_all

/-- **C47** (limits). Without requested sizes the datapoints are spread evenly regardless of the classes, so the default
request can be impossible: with one datapoint of one class and nine of another, two partitions of one class each raise
`ValueError` for every random draw. -/
theorem C47_default_sizes_can_be_infeasible {r : Rng Ω} (hr : r.Lawful) (le : Bool → Bool → Bool) (ω : Ω) :
    ∃ B, ∀ fuel, B ≤ fuel → splitLabelQuantity r le skewed 2 1 .none fuel ω = some (.error .valueError) := by
  obtain ⟨res, ⟨B, hB⟩, _, h2⟩ := C47_label_quantity hr le skewed 2 1 .none ω
  obtain ⟨groups, hg, _, h3⟩ := h2 (by decide)
  have hus : Usable skewed.labels groups = 10 := by
    rcases singleton_groups (by decide) (by decide) hg with rfl | rfl <;> decide
  rw [hus] at h3
  obtain ⟨sizes, ⟨hs1, hs2, hs3⟩, _, h4⟩ := h3 (by show (0 : Int) < 2; omega)
  have hsz : sizes = [5, 5] := by
    match sizes, hs1 with
    | [a, b], _ =>
      have := hs3 a (by simp) b (by simp)
      have := hs3 b (by simp) a (by simp)
      simp only [List.sum_cons, List.sum_nil] at hs2
      have : a = 5 := by omega
      have : b = 5 := by omega
      simp [*]
  subst hsz
  suffices hnone : ¬ ∃ parts, FitsGroups skewed.labels groups [5, 5] parts from
    ⟨B, fun fuel hf => by rw [hB fuel hf, h4 hnone]⟩
  rintro ⟨parts, ⟨p1, p2, p3⟩, pf⟩
  -- the partition of class `true`
  have key : ∀ j : Nat, groups.getD j [] = [true] → (parts.getD j []).length = 5 → False := by
    intro j hgj hl
    have hsub : (parts.getD j []).Subperm [0] := by
      refine List.subperm_of_subset ?_ ?_
      · rcases getD_mem_or_nil parts j with hm | hm
        · exact (List.nodup_flatten.1 p2).1 _ hm
        · rw [hm]; exact List.nodup_nil
      · intro k hk
        obtain ⟨l, hl', hk'⟩ := pf j k hk
        rw [hgj] at hl'
        rw [List.mem_singleton.1 hl'] at hk'
        have hk10 : k < 10 := (List.getElem?_eq_some_iff.1 hk').1
        clear hk
        interval_cases k <;> simp_all [skewed]
    have h6 := hsub.length_le
    rw [hl] at h6
    simp at h6
  have hlen : ∀ j : Nat, (parts.getD j []).length = [5, 5].getD j 0 := by
    intro j; rw [← getD_map_length, p1]
  rcases singleton_groups (by decide) (by decide) hg with hgr | hgr
  · exact key 0 (by rw [hgr]; rfl) (hlen 0)
  · exact key 1 (by rw [hgr]; rfl) (hlen 1)

/-- a concrete case of the hypotheses of `C47_label_quantity`, with partitions that exist -/
example : (0 : Int) < 2 ∧ (0 : Int) < 1 ∧ even22.labels.length = even22.n ∧ (1 : Int) ≤ (even22.labels.dedup.length : Int) ∧
    FitsGroups even22.labels [[true], [false]] [2, 2] [[0, 3], [1, 2]] := by
  refine ⟨by decide, by decide, by decide, by decide, ⟨by decide, by decide, by decide⟩, ?_⟩
  intro j k hk
  match j, hk with
  | 0, hk =>
    have : k = 0 ∨ k = 3 := by simpa using hk
    rcases this with rfl | rfl <;> simp [even22]
  | 1, hk =>
    have : k = 1 ∨ k = 2 := by simpa using hk
    rcases this with rfl | rfl <;> simp [even22]
  | j + 2, hk => simp at hk

end Verif.Props
