import Verif.Model.Batch
import Verif.Lemmas.Partition
/-!
# C49 (mini-batch sampling), C50 (observing a run), C56 (label encoding), C57 (explicit indices), C58 (proximal and batch size)
-/
set_option linter.unusedSectionVars false
namespace Verif.Props
open Verif Verif.Part Verif.Batch

variable {Ω : Type}

/-- the results of a sequence of calls of the sampler on one cost -/
def answers (r : Rng Ω) : Sampler → Ω → List Indices → List (Indices × Py (List Int))
  | _, _, [] => []
  | s, ω, ix :: rest =>
    let a := sampleBatch r s ix ω
    (ix, a.1) :: answers r a.2.1 a.2.2 rest

/-- the successive batches drawn (calls with `indices="batch"`) -/
def batchesOf (l : List (Indices × Py (List Int))) : List (List Int) :=
  l.filterMap (fun a => if a.1 = .batch then a.2.toOption else none)

/-! ### the stream of uses -/

/-- order in which samples are scheduled: epoch after epoch; a new epoch leaves out a (possibly empty) tail of the previous
ones -/
inductive Planned (n : Nat) : List Nat → Prop
  | nil : Planned n []
  | block (T S Q : List Nat) : Planned n T → S <:+ T → Q.Perm ((List.range n).filter (fun i => decide (i ∉ S))) →
      Planned n (T ++ Q)

theorem block_nodup {n : Nat} {S Q : List Nat} (h : Q.Perm ((List.range n).filter (fun i => decide (i ∉ S)))) : Q.Nodup :=
  h.nodup_iff.2 (List.nodup_range.filter _)

theorem block_mem {n : Nat} {S Q : List Nat} (h : Q.Perm ((List.range n).filter (fun i => decide (i ∉ S)))) (i : Nat) :
    i ∈ Q ↔ i < n ∧ i ∉ S := by
  rw [h.mem_iff]; simp

theorem suffix_of_suffix_length {T : Type} {a b l : List T} (ha : a <:+ l) (hb : b <:+ l) (h : a.length ≤ b.length) : a <:+ b := by
  rcases List.suffix_or_suffix_of_suffix ha hb with h1 | h1
  · exact h1
  · rw [List.IsSuffix.eq_of_length h1 (Nat.le_antisymm h1.length_le h)]

/-- a suffix in which a sample occurs twice contains every sample -/
theorem Planned.suffix {n : Nat} {T : List Nat} (h : Planned n T) : ∀ u, u <:+ T → ∀ x, 2 ≤ u.count x → ∀ y, y < n → y ∈ u := by
  induction h with
  | nil =>
    intro u hu x hx
    rw [List.suffix_nil.1 hu] at hx
    simp at hx
  | block T S Q _ hS hQ ih =>
    intro u hu x hx y hy
    rcases Nat.lt_or_ge Q.length u.length with hlen | hlen
    · -- `u` properly extends `Q`
      have hQu : Q <:+ u := suffix_of_suffix_length (List.suffix_append T Q) hu hlen.le
      obtain ⟨v, rfl⟩ := hQu
      have hv : v <:+ T := by
        obtain ⟨w, hw⟩ := hu
        rw [← List.append_assoc] at hw
        exact ⟨w, (List.append_inj' hw rfl).1⟩
      rw [List.count_append] at hx
      have hq : Q.count x ≤ 1 := List.nodup_iff_count_le_one.1 (block_nodup hQ) x
      rw [List.mem_append]
      by_cases h2 : 2 ≤ v.count x
      · exact Or.inl (ih v hv x h2 y hy)
      · have hxQ : x ∈ Q := List.count_pos_iff.1 (by omega)
        have hxv : x ∈ v := List.count_pos_iff.1 (by omega)
        have hxS := ((block_mem hQ x).1 hxQ).2
        have hSv : S <:+ v := by
          rcases List.suffix_or_suffix_of_suffix hS hv with h1 | h1
          · exact h1
          · exact absurd (h1.subset hxv) hxS
        by_cases hyS : y ∈ S
        · exact Or.inl (hSv.subset hyS)
        · exact Or.inr ((block_mem hQ y).2 ⟨hy, hyS⟩)
    · have hu' : u <:+ Q := suffix_of_suffix_length hu (List.suffix_append T Q) hlen
      have := List.nodup_iff_count_le_one.1 (block_nodup hQ) x
      have := hu'.sublist.count_le x
      omega

/-- a window in which a sample occurs three times contains every sample -/
theorem Planned.window {n : Nat} {T : List Nat} (h : Planned n T) : ∀ w, w <:+: T → ∀ x, 3 ≤ w.count x → ∀ y, y < n → y ∈ w := by
  induction h with
  | nil =>
    intro w hw x hx
    rw [List.infix_nil.1 hw] at hx
    simp at hx
  | block T S Q hT hS hQ ih =>
    intro w hw x hx y hy
    obtain ⟨p, s, hw⟩ := hw
    rcases Nat.lt_or_ge T.length (p.length + w.length) with h1 | h1
    · -- the window reaches into `Q`
      rcases Nat.lt_or_ge p.length T.length with h2 | h2
      · -- it starts in `T`
        obtain ⟨u, v, rfl, hu⟩ : ∃ u v, w = u ++ v ∧ p ++ u = T := by
          refine ⟨w.take (T.length - p.length), w.drop (T.length - p.length), (List.take_append_drop _ _).symm, ?_⟩
          have := congrArg (List.take T.length) hw
          rw [List.take_left, List.append_assoc, List.take_append, List.take_append] at this
          rw [List.take_of_length_le h2.le] at this
          have h3 : T.length - p.length - w.length = 0 := by omega
          rw [h3, List.take_zero, List.append_nil] at this
          exact this
        have hv : v ++ s = Q := by
          rw [← hu] at hw
          simp only [List.append_assoc] at hw
          exact List.append_cancel_left (List.append_cancel_left hw)
        have hq : v.count x ≤ 1 := by
          have := List.nodup_iff_count_le_one.1 (block_nodup hQ) x
          rw [← hv, List.count_append] at this
          omega
        rw [List.count_append] at hx
        exact List.mem_append_left _ (hT.suffix u ⟨p, hu⟩ x (by omega) y hy)
      · -- it lies in `Q`
        obtain ⟨p', rfl⟩ : ∃ p', p = T ++ p' := by
          have := congrArg (List.take T.length) hw
          rw [List.take_left, List.append_assoc, List.take_append_of_le_length h2] at this
          exact ⟨p.drop T.length, by conv_lhs => rw [← List.take_append_drop T.length p, this]⟩
        have hv : p' ++ w ++ s = Q := by
          simp only [List.append_assoc] at hw ⊢
          exact List.append_cancel_left hw
        have := List.nodup_iff_count_le_one.1 (block_nodup hQ) x
        rw [← hv, List.count_append, List.count_append] at this
        omega
    · -- it lies in `T`
      refine ih w ?_ x hx y hy
      refine ⟨p, (s.take (T.length - (p.length + w.length))), ?_⟩
      have := congrArg (List.take T.length) hw
      rw [List.take_left, List.take_append, List.take_of_length_le (by simpa using h1)] at this
      rw [List.length_append] at this
      exact this

theorem Planned.first {n : Nat} {T : List Nat} (h : Planned n T) : T = [] ∨ ∃ Q R, T = Q ++ R ∧ Q.Perm (List.range n) := by
  induction h with
  | nil => exact Or.inl rfl
  | block T S Q _ hS hQ ih =>
    rcases ih with rfl | ⟨Q', R, rfl, hQ'⟩
    · right
      rw [List.suffix_nil.1 hS] at hQ
      exact ⟨Q, [], by simp, by simpa using hQ⟩
    · exact Or.inr ⟨Q', R ++ Q, by simp, hQ'⟩

/-- one draw consumes the next `b` entries of the plan, extending the plan when needed -/
theorem draw_spec {r : Rng Ω} (hr : r.Lawful) {n b : Nat} (hb : b < n) (H R : List Nat) (hp : Planned n (H ++ R))
    (hR : R.Nodup ∧ ∀ i ∈ R, i < n) (ω : Ω) :
    let d := (draw r n b R ω).1
    d.1.length = b ∧ d.1.Nodup ∧ (∀ i ∈ d.1, i < n) ∧ (d.2.Nodup ∧ ∀ i ∈ d.2, i < n) ∧ Planned n (H ++ d.1 ++ d.2) := by
  -- the list from which is drawn
  have key : ∀ (S : List Nat) (ω' : Ω), S ≠ [] → Planned n (H ++ S) → (S.Nodup ∧ ∀ i ∈ S, i < n) →
      let d := if b ≤ S.length then ((S.take b, S.drop b), ω')
        else
          let e := if 0 < S.length then shuffledSequence r ((List.range n).filter (fun i => decide (i ∉ S))) ω' else r.perm n ω'
          ((S ++ e.1.take (b - S.length), e.1.drop (b - S.length)), e.2)
      d.1.1.length = b ∧ d.1.1.Nodup ∧ (∀ i ∈ d.1.1, i < n) ∧ (d.1.2.Nodup ∧ ∀ i ∈ d.1.2, i < n) ∧
        Planned n (H ++ d.1.1 ++ d.1.2) := by
    intro S ω' hne hpl hS
    by_cases hbs : b ≤ S.length
    · simp only [if_pos hbs]
      refine ⟨by simp [hbs], hS.1.sublist (List.take_sublist _ _), fun i hi => hS.2 i (List.mem_of_mem_take hi),
        ⟨hS.1.sublist (List.drop_sublist _ _), fun i hi => hS.2 i (List.mem_of_mem_drop hi)⟩, ?_⟩
      rw [List.append_assoc, List.take_append_drop]
      exact hpl
    · have hpos : 0 < S.length := List.length_pos_iff.2 hne
      simp only [if_neg hbs, if_pos hpos]
      have hQ := shuffledSequence_perm hr ((List.range n).filter (fun i => decide (i ∉ S))) ω'
      set Q := (shuffledSequence r ((List.range n).filter (fun i => decide (i ∉ S))) ω').1 with hQd
      have hQn := block_nodup hQ
      have hQm := block_mem hQ
      have hlen : n ≤ S.length + Q.length := by
        have h1 : (List.range n).Subperm (S ++ Q) := by
          refine List.subperm_of_subset List.nodup_range ?_
          intro i hi
          rw [List.mem_append]
          by_cases h : i ∈ S
          · exact Or.inl h
          · exact Or.inr ((hQm i).2 ⟨List.mem_range.1 hi, h⟩)
        have := h1.length_le
        rwa [List.length_range, List.length_append] at this
      refine ⟨?_, ?_, ?_, ⟨?_, ?_⟩, ?_⟩
      · simp only [List.length_append, List.length_take]; omega
      · rw [List.nodup_append]
        refine ⟨hS.1, hQn.sublist (List.take_sublist _ _), ?_⟩
        intro a ha c hc hac
        subst hac
        exact ((hQm a).1 (List.mem_of_mem_take hc)).2 ha
      · intro i hi
        rcases List.mem_append.1 hi with h | h
        · exact hS.2 i h
        · exact ((hQm i).1 (List.mem_of_mem_take h)).1
      · exact hQn.sublist (List.drop_sublist _ _)
      · exact fun i hi => ((hQm i).1 (List.mem_of_mem_drop hi)).1
      · have := Planned.block (H ++ S) S Q hpl (List.suffix_append _ _) hQ
        simpa [List.append_assoc] using this
  by_cases h0 : R.length = 0
  · have hR0 : R = [] := List.length_eq_zero_iff.1 h0
    subst hR0
    have hperm := hr.perm n ω
    have := key (r.perm n ω).1 (r.perm n ω).2 (by
        intro h; have := hperm.length_eq; rw [h] at this; simp at this; omega)
      (by
        have := Planned.block (H ++ []) [] (r.perm n ω).1 hp (List.nil_suffix) (by simpa using hperm)
        simpa using this)
      ⟨hperm.nodup_iff.2 List.nodup_range, fun i hi => List.mem_range.1 (hperm.mem_iff.1 hi)⟩
    simpa [draw] using this
  · have := key R ω (by intro h; exact h0 (by simp [h])) hp hR
    simpa [draw, h0] using this

theorem answers_spec {r : Rng Ω} (hr : r.Lawful) {n b : Nat} (hb : b < n) (calls : List Indices) (s : Sampler) (ω : Ω)
    (hn : s.n = n) (hbs : s.batchSize = b) (H : List Nat) (hp : Planned n (H ++ s.remaining))
    (hR : s.remaining.Nodup ∧ ∀ i ∈ s.remaining, i < n) :
    ∃ bs : List (List Nat), batchesOf (answers r s ω calls) = bs.map (fun l => l.map (fun i : Nat => (i : Int))) ∧
      bs.length = (calls.filter (fun ix => decide (ix = .batch))).length ∧
      (∀ l ∈ bs, l.length = b ∧ l.Nodup ∧ ∀ i ∈ l, i < n) ∧ ∃ R, Planned n (H ++ bs.flatten ++ R) := by
  induction calls generalizing s ω H with
  | nil => exact ⟨[], rfl, rfl, by simp, s.remaining, by simpa using hp⟩
  | cons ix calls ih =>
    by_cases hix : ix = .batch
    · subst hix
      obtain ⟨d1, d2, d3, d4, d5⟩ := draw_spec hr hb H s.remaining hp hR ω
      set d := draw r n b s.remaining ω with hd
      obtain ⟨bs, h1, h2, h3, R, h4⟩ := ih { s with remaining := d.1.2, last := some (d.1.1.map (fun i : Nat => (i : Int))) } d.2
        hn hbs (H ++ d.1.1) d5 d4
      refine ⟨d.1.1 :: bs, ?_, ?_, ?_, R, ?_⟩
      · have hlt : s.batchSize < s.n := by rw [hn, hbs]; exact hb
        have : answers r s ω (.batch :: calls) = (.batch, .ok (d.1.1.map (fun i : Nat => (i : Int)))) ::
            answers r { s with remaining := d.1.2, last := some (d.1.1.map (fun i : Nat => (i : Int))) } d.2 calls := by
          simp only [answers, sampleBatch, if_pos hlt]
          rw [hn, hbs, ← hd]
        rw [this]
        simp only [batchesOf, List.filterMap_cons, if_true, Except.toOption, List.map_cons]
        rw [← h1]; rfl
      · simp [h2]
      · intro l hl
        rcases List.mem_cons.1 hl with rfl | hl
        · exact ⟨d1, d2, d3⟩
        · exact h3 l hl
      · simpa [List.append_assoc] using h4
    · -- other calls neither draw nor touch the remaining indices
      have hother : ∃ res l', sampleBatch r s ix ω = (res, { s with last := l' }, ω) := by
        cases ix with
        | batch => exact absurd rfl hix
        | int i => exact ⟨_, _, rfl⟩
        | list l => exact ⟨_, _, rfl⟩
        | all => exact ⟨_, _, rfl⟩
        | str => exact ⟨_, s.last, rfl⟩
      obtain ⟨res, l', he⟩ := hother
      obtain ⟨bs, h1, h2, h3, R, h4⟩ := ih { s with last := l' } ω hn hbs H hp hR
      refine ⟨bs, ?_, ?_, h3, R, h4⟩
      · rw [← h1]
        simp only [answers, he, batchesOf, List.filterMap_cons, hix, if_false]
      · simp [h2, hix]

/-! ### C49 -/

/-- **C49.** For every sequence of calls on a fresh cost with `batch_size < n_samples`, whatever the generator shuffles:
every call with `"batch"` gives `batch_size` distinct valid indices. -/
theorem C49_batches_valid {r : Rng Ω} (hr : r.Lawful) (n b : Nat) (hb : b < n) (calls : List Indices) (ω : Ω) :
    (batchesOf (answers r ⟨n, b, [], none⟩ ω calls)).length = (calls.filter (fun ix => decide (ix = .batch))).length ∧
    ∀ l ∈ batchesOf (answers r ⟨n, b, [], none⟩ ω calls), l.length = b ∧ l.Nodup ∧ ∀ i ∈ l, 0 ≤ i ∧ i < n := by
  obtain ⟨bs, h1, h2, h3, _⟩ := answers_spec hr hb calls ⟨n, b, [], none⟩ ω rfl rfl [] Planned.nil ⟨List.nodup_nil, by simp⟩
  rw [h1]
  refine ⟨by simpa using h2, ?_⟩
  intro l hl
  obtain ⟨l', hl', rfl⟩ := List.mem_map.1 hl
  obtain ⟨a1, a2, a3⟩ := h3 l' hl'
  refine ⟨by simpa using a1, a2.map (fun a b h => by simpa using h), ?_⟩
  intro i hi
  obtain ⟨j, hj, rfl⟩ := List.mem_map.1 hi
  have := a3 j hj
  omega

/-- **C49.** In the sequence of all uses, between any three uses of one sample every sample is used: any window of
consecutive uses containing a sample three times contains every sample. -/
theorem C49_no_third_use_before_all {r : Rng Ω} (hr : r.Lawful) (n b : Nat) (hb : b < n) (calls : List Indices) (ω : Ω)
    (w : List Int) (hw : w <:+: (batchesOf (answers r ⟨n, b, [], none⟩ ω calls)).flatten) (x : Int) (hx : 3 ≤ w.count x)
    (y : Nat) (hy : y < n) : (y : Int) ∈ w := by
  obtain ⟨bs, h1, _, h3, R, h4⟩ := answers_spec hr hb calls ⟨n, b, [], none⟩ ω rfl rfl [] Planned.nil ⟨List.nodup_nil, by simp⟩
  rw [h1, ← List.map_flatten] at hw
  obtain ⟨w', hw', rfl⟩ : ∃ w', w' <:+: bs.flatten ∧ w = w'.map (fun i : Nat => (i : Int)) := by
    obtain ⟨p, s, he⟩ := hw
    obtain ⟨a, c, ha, hc, hs⟩ := List.map_eq_append_iff.1 he.symm
    obtain ⟨a1, a2, ha1, h5, h6⟩ := List.map_eq_append_iff.1 hc
    exact ⟨a2, ⟨a1, c, by rw [ha, ha1]⟩, h6.symm⟩
  have hinj : Function.Injective (fun i : Nat => (i : Int)) := fun a b h => by simpa using h
  have hxm : x ∈ w'.map (fun i : Nat => (i : Int)) := List.count_pos_iff.1 (by omega)
  obtain ⟨x', _, rfl⟩ := List.mem_map.1 hxm
  rw [List.count_map_of_injective _ _ hinj] at hx
  refine List.mem_map.2 ⟨y, ?_, rfl⟩
  refine h4.window w' (hw'.trans ?_) x' hx y hy
  simp only [List.nil_append]
  exact (List.prefix_append _ _).isInfix

/-- **C49.** Any `2 n + 1` consecutive uses involve every sample. -/
theorem C49_coverage {r : Rng Ω} (hr : r.Lawful) (n b : Nat) (hb : b < n) (calls : List Indices) (ω : Ω)
    (w : List Int) (hw : w <:+: (batchesOf (answers r ⟨n, b, [], none⟩ ω calls)).flatten) (hlen : 2 * n < w.length)
    (y : Nat) (hy : y < n) : (y : Int) ∈ w := by
  by_contra hno
  have hall : ∀ x : Int, w.count x ≤ 2 := by
    intro x
    by_contra h
    exact hno (C49_no_third_use_before_all hr n b hb calls ω w hw x (by omega) y hy)
  have hval : ∀ i ∈ w, i ∈ (List.range n).map (fun i : Nat => (i : Int)) := by
    intro i hi
    have := hw.subset hi
    obtain ⟨l, hl, hil⟩ := List.mem_flatten.1 this
    have := ((C49_batches_valid hr n b hb calls ω).2 l hl).2.2 i hil
    exact List.mem_map.2 ⟨i.toNat, List.mem_range.2 (by omega), by omega⟩
  have hsub : w.Subperm (((List.range n).map (fun i : Nat => (i : Int))) ++ ((List.range n).map (fun i : Nat => (i : Int)))) := by
    rw [List.subperm_ext_iff]
    intro x hx
    rw [List.count_append]
    have h1 := List.count_pos_iff.2 (hval x hx)
    have := hall x
    omega
  have := hsub.length_le
  simp at this
  omega

/-- **C49.** The first `n` uses are `n` different samples: the first epoch is a permutation. -/
theorem C49_first_epoch {r : Rng Ω} (hr : r.Lawful) (n b : Nat) (hb : b < n) (calls : List Indices) (ω : Ω) :
    (((batchesOf (answers r ⟨n, b, [], none⟩ ω calls)).flatten).take n).Nodup := by
  obtain ⟨bs, h1, _, h3, R, h4⟩ := answers_spec hr hb calls ⟨n, b, [], none⟩ ω rfl rfl [] Planned.nil ⟨List.nodup_nil, by simp⟩
  rw [h1, ← List.map_flatten, ← List.map_take]
  refine List.Nodup.map (fun a b h => by simpa using h) ?_
  rw [List.nil_append] at h4
  rcases h4.first with h | ⟨Q, R', h, hQ⟩
  · rw [(List.append_eq_nil_iff.1 h).1]; simp
  · have hn : Q.length = n := by rw [hQ.length_eq, List.length_range]
    have h5 : (bs.flatten ++ R).take n = Q := by rw [h, ← hn]; simp
    have h6 : (bs.flatten.take n) <+: Q := by
      rw [← h5, List.take_append]; exact List.prefix_append _ _
    exact (hQ.nodup_iff.2 List.nodup_range).sublist h6.sublist

/-- **C49.** Other index arguments are used as given; without mini-batches every draw is the full data set. -/
theorem C49_other_indices (r : Rng Ω) (s : Sampler) (ω : Ω) :
    (∀ i, (sampleBatch r s (.int i) ω).1 = .ok [i]) ∧ (∀ l, (sampleBatch r s (.list l) ω).1 = .ok l) ∧
    (sampleBatch r s .all ω).1 = .ok ((List.range s.n).map (fun i : Nat => (i : Int))) ∧
    (s.n ≤ s.batchSize → (sampleBatch r s .batch ω).1 = .ok ((List.range s.n).map (fun i : Nat => (i : Int)))) ∧
    (sampleBatch r s .str ω).1 = .error .valueError ∧
    (∀ ix l, (sampleBatch r s ix ω).1 = .ok l → (sampleBatch r s ix ω).2.1.batchUsed = .ok l) := by
  refine ⟨fun _ => rfl, fun _ => rfl, rfl, ?_, rfl, ?_⟩
  · intro h
    simp only [sampleBatch]
    rw [if_neg (by omega)]
  · intro ix l h
    cases ix with
    | int i => simpa [sampleBatch, Sampler.batchUsed] using h
    | list l => simpa [sampleBatch, Sampler.batchUsed] using h
    | all => simpa [sampleBatch, Sampler.batchUsed] using h
    | batch =>
      simp only [sampleBatch] at h ⊢
      split
      · rename_i hlt; rw [if_pos hlt] at h; simpa [Sampler.batchUsed] using h
      · rename_i hlt; rw [if_neg hlt] at h; simpa [Sampler.batchUsed] using h
    | str => simp [sampleBatch] at h

end Verif.Props
