import Verif.Model.TorchCost
import Verif.Props.BatchMore
/-!
# C97: the samples a `PyTorchCost` evaluates on
-/
set_option linter.unusedSectionVars false
namespace Verif.Props
open Verif Verif.Part Verif.Batch Verif.Torch

variable {Ω X : Type}

/-! ### specification -/

/-- what happens to a cost, as far as its batches are concerned: an evaluation with some `indices`, or being pickled and
restored (checkpoints, worker processes) -/
inductive Event where
  | use (ix : Indices)
  | pickle
  deriving DecidableEq, Repr

/-- an evaluation: its `indices`, the chunks of samples it computed on, and `batch_used` afterwards -/
structure Evaluation (X : Type) where
  ix : Indices
  result : Py (List (List X))
  used : List Int

/-- all evaluations of a history of events -/
def evaluations (r : Rng Ω) (c : Cfg X) : St X → Ω → List Event → List (Evaluation X)
  | _, _, [] => []
  | s, ω, .pickle :: rest => evaluations r c s.restored ω rest
  | s, ω, .use ix :: rest =>
    let a := Torch.getBatchData r c s ix ω
    ⟨ix, a.1, a.2.1.lastUsed⟩ :: evaluations r c a.2.1 a.2.2 rest

/-- the batches drawn: `batch_used` after the evaluations with `indices="batch"` -/
def drawn (l : List (Evaluation X)) : List (List Int) :=
  l.filterMap (fun e => if e.ix = .batch then (match e.result with | .ok _ => some e.used | .error _ => none) else none)

/-- a list given by the caller: `indices=[...]`, or `indices=i` -/
def explicitList : Indices → Option (List Int)
  | .int i => some [i]
  | .list l => some l
  | _ => none

/-- the position numbers `0, 1, …, n - 1` -/
def positions (n : Nat) : List Int := (List.range n).map (fun i : Nat => (i : Int))

/-- a batch size the constructor accepts -/
def ValidSize (c : Cfg X) : Prop := 1 ≤ c.batchSize ∧ c.batchSize ≤ c.data.length

/-- the constructor produces nothing else (and `"all"` on an empty data set) -/
theorem C97_construct (data : List X) (hd : data ≠ []) (b : BatchArg) (m : Option Int) (l1 l2 l3 l4 : Bool) :
    (∀ c, construct data b m l1 l2 l3 l4 = .ok c → ValidSize c ∧ c.data = data) ∧
    ((∃ c, construct data b m l1 l2 l3 l4 = .ok c) ↔ b = .all ∨ ∃ k : Nat, 1 ≤ k ∧ k ≤ data.length ∧ b = .int k) ∧
    (∀ e, construct data b m l1 l2 l3 l4 = .error e → e = .valueError) := by
  have hl : 1 ≤ data.length := List.length_pos_iff.2 hd
  cases b with
  | int k =>
    by_cases hk : k ≤ 0 ∨ (data.length : Int) < k
    · simp only [construct, if_pos hk, reduceCtorEq, exists_false, false_iff, false_imp_iff, implies_true, true_and, Except.error.injEq]
      refine ⟨?_, fun e h => h.symm⟩
      rintro (h | ⟨j, h1, h2, h3⟩)
      · exact h
      · cases h3; omega
    · simp only [construct, if_neg hk, Except.ok.injEq]
      push Not at hk
      refine ⟨?_, ?_, ?_⟩
      · rintro c rfl
        exact ⟨⟨by simp only []; omega, by simp only []; omega⟩, rfl⟩
      · simp only [exists_eq', true_iff]
        exact Or.inr ⟨k.toNat, by omega, by omega, by rw [Int.toNat_of_nonneg (by omega)]⟩
      · intro e h; cases h
  | all =>
    simp only [construct, Except.ok.injEq]
    refine ⟨?_, ?_, ?_⟩
    · rintro c rfl; exact ⟨⟨hl, le_refl _⟩, rfl⟩
    · simp
    · intro e h; cases h
  | str => simp [construct, eq_comm]

/-! ### chunks -/

theorem chunks_nil {Y : Type} (m : Nat) (hm : 1 ≤ m) : chunks m ([] : List Y) = [] := by
  have : (([] : List Y).length + m - 1) / m = 0 := Nat.div_eq_of_lt (by simp; omega)
  unfold chunks; rw [this]; rfl

theorem chunks_cons {Y : Type} (m : Nat) (hm : 1 ≤ m) (l : List Y) (hl : l ≠ []) :
    chunks m l = l.take m :: chunks m (l.drop m) := by
  have hp : 1 ≤ l.length := List.length_pos_iff.2 hl
  have hlen : (l.length + m - 1) / m = ((l.drop m).length + m - 1) / m + 1 := by
    rw [List.length_drop]
    rcases Nat.lt_or_ge l.length m with h | h
    · have e1 : l.length - m = 0 := by omega
      rw [e1, Nat.div_eq_of_lt (show 0 + m - 1 < m by omega)]
      have : l.length + m - 1 = (l.length - 1) + m := by omega
      rw [this, Nat.add_div_right _ (by omega), Nat.div_eq_of_lt (by omega)]
    · have : l.length + m - 1 = (l.length - m + m - 1) + m := by omega
      rw [this, Nat.add_div_right _ (by omega)]
  unfold chunks
  rw [hlen, List.range_succ_eq_map, List.map_cons, List.map_map]
  congr 1
  · simp
  · apply List.map_congr_left
    intro k _
    simp only [Function.comp_apply, List.drop_drop]
    congr 2
    rw [Nat.succ_mul]; omega

/-- chunks are a way of cutting a list into pieces: their concatenation is the list -/
theorem cut_flatten {Y : Type} (m : Nat) (hm : 1 ≤ m) (l : List Y) : (chunks m l).flatten = l := by
  induction h : l.length using Nat.strong_induction_on generalizing l with
  | _ n ih =>
    by_cases hl : l = []
    · subst hl; rw [chunks_nil m hm]; rfl
    · rw [chunks_cons m hm l hl, List.flatten_cons, ih (l.drop m).length _ (l.drop m) rfl, List.take_append_drop]
      rw [List.length_drop, ← h]
      have := List.length_pos_iff.2 hl
      omega

theorem chunks_piece {Y : Type} (m : Nat) (hm : 1 ≤ m) (l : List Y) (b : List Y) (hb : b ∈ chunks m l) :
    b ≠ [] ∧ b.length ≤ m := by
  induction h : l.length using Nat.strong_induction_on generalizing l with
  | _ n ih =>
    by_cases hl : l = []
    · subst hl; rw [chunks_nil m hm] at hb; cases hb
    · have hp := List.length_pos_iff.2 hl
      rw [chunks_cons m hm l hl] at hb
      rcases List.mem_cons.1 hb with rfl | hb
      · refine ⟨?_, by simp⟩
        intro he
        rcases List.take_eq_nil_iff.1 he with h1 | h1
        · omega
        · exact hl h1
      · exact ih (l.drop m).length (by rw [List.length_drop]; omega) (l.drop m) hb rfl

theorem chunks_length {Y : Type} (m : Nat) (l : List Y) : (chunks m l).length = (l.length + m - 1) / m := by
  simp [chunks]

/-- one piece if the pieces may be as long as the list -/
theorem chunks_single {Y : Type} (m : Nat) (l : List Y) (hl : l ≠ []) (h : l.length ≤ m) : chunks m l = [l] := by
  have hp := List.length_pos_iff.2 hl
  rw [chunks_cons m (by omega) l hl, List.take_of_length_le h, List.drop_eq_nil_of_le h, chunks_nil m (by omega)]

/-! ### reachable states -/

/-- the rows of a loader's batch can be read, and leave the data set's size unreached -/
def LoaderOk (c : Cfg X) (b : List Nat) : Prop := b ≠ [] ∧ b.length ≤ c.batchSize ∧ b.Nodup ∧ ∀ i ∈ b, i < c.data.length

structure Inv (c : Cfg X) (s : St X) : Prop where
  cached : ∀ rows, s.cache = some rows → readRows c.data s.lastUsed = .ok rows ∧ rows ≠ []
  whole : s.lastUsed.length = c.data.length → c.loadDataset = true → s.lastUsed = allIdx c
  owed : ∃ p : List Nat, p.Perm (List.range c.data.length) ∧ s.remaining <:+ p
  ahead : ∀ bs, s.loader = some bs → ∀ b ∈ bs, LoaderOk c b

theorem inv_fresh (c : Cfg X) : Inv c St.fresh := by
  refine ⟨fun rows h => (by cases h), fun h _ => ?_, ⟨List.range c.data.length, List.Perm.refl _, List.nil_suffix⟩, fun bs h => (by cases h)⟩
  simp only [St.fresh, List.length_nil] at h
  simp only [St.fresh, allIdx, ← h, List.range_zero, List.map_nil]

theorem inv_restored {c : Cfg X} {s : St X} (h : Inv c s) : Inv c s.restored := by
  refine ⟨fun rows hr => (by cases hr), h.whole, h.owed, ?_⟩
  intro bs hb b hbm
  unfold St.restored at hb
  cases hl : s.loader with
  | none => rw [hl] at hb; cases hb
  | some bs' => rw [hl] at hb; cases hb; cases hbm

/-- what a list of indices selects, without any cache -/
def select (c : Cfg X) (is : List Int) : Py (List X × List Int) :=
  handleList c ⟨[], [], none, none⟩ is

theorem handleList_none (c : Cfg X) (s : St X) (h : s.cache = none) (is : List Int) : handleList c s is = select c is := by
  have h1 : (if is = s.lastUsed then s.cache else none) = none := by rw [h]; simp
  have h2 : (if is = ([] : List Int) then (none : Option (List X)) else none) = none := by simp
  simp only [select, handleList, h1, h2]

theorem handleList_eq {c : Cfg X} {s : St X} (h : Inv c s) (is : List Int) : handleList c s is = select c is := by
  by_cases his : is = s.lastUsed
  · cases hc : s.cache with
    | none => exact handleList_none c s hc is
    | some rows =>
      obtain ⟨h1, h2⟩ := h.cached rows hc
      have e1 : handleList c s is = .ok (rows, s.lastUsed) := by simp only [handleList, if_pos his, hc]
      have e2 : (if s.lastUsed.length = c.data.length ∧ c.loadDataset = true then allIdx c else s.lastUsed) = s.lastUsed := by
        split
        · rename_i h3; exact (h.whole h3.1 h3.2).symm
        · rfl
      have e3 : (if s.lastUsed = ([] : List Int) then (none : Option (List X)) else none) = none := by simp
      rw [e1, his]
      unfold select
      simp only [handleList, e3, e2, h1]
  · have e1 : (if is = s.lastUsed then s.cache else none) = none := by simp [his]
    have h2 : (if is = ([] : List Int) then (none : Option (List X)) else none) = none := by simp
    simp only [select, handleList, e1, h2]

/-- the indices actually used for a given list -/
def usedFor (c : Cfg X) (is : List Int) : List Int :=
  if is.length = c.data.length ∧ c.loadDataset = true then positions c.data.length else is

theorem select_ok {c : Cfg X} {is : List Int} {p : List X × List Int} (h : select c is = .ok p) :
    p.2 = usedFor c is ∧ readRows c.data (usedFor c is) = .ok p.1 ∧ p.1 ≠ [] := by
  have h2 : (if is = ([] : List Int) then (none : Option (List X)) else none) = none := by simp
  simp only [select, handleList, h2] at h
  have h3 : (if is.length = c.data.length ∧ c.loadDataset = true then allIdx c else is) = usedFor c is := rfl
  rw [h3] at h
  cases hr : readRows c.data (usedFor c is) with
  | error e => rw [hr] at h; cases h
  | ok rows =>
    rw [hr] at h
    cases rows with
    | nil => cases h
    | cons a t => cases h; exact ⟨rfl, rfl, by simp⟩

theorem select_err {c : Cfg X} {is : List Int} {e : PyErr} (h : select c is = .error e) :
    (usedFor c is = [] ∧ e = .valueError) ∨
    (e = .indexError ∧ ∃ i ∈ usedFor c is, i < -(c.data.length : Int) ∨ (c.data.length : Int) ≤ i) := by
  have h2 : (if is = ([] : List Int) then (none : Option (List X)) else none) = none := by simp
  simp only [select, handleList, h2] at h
  have h3 : (if is.length = c.data.length ∧ c.loadDataset = true then allIdx c else is) = usedFor c is := rfl
  rw [h3] at h
  cases hr : readRows c.data (usedFor c is) with
  | error e' =>
    rw [hr] at h
    cases h
    exact Or.inr (readRows_err _ _ _ hr)
  | ok rows =>
    rw [hr] at h
    cases rows with
    | nil =>
      cases h
      left
      have := ((readRows_ok _ _ _).1 hr).length_eq
      exact ⟨List.eq_nil_of_length_eq_zero (by simpa using this), rfl⟩
    | cons a t => cases h

theorem positions_length (n : Nat) : (positions n).length = n := by simp [positions]

theorem usedFor_positions (c : Cfg X) : usedFor c (positions c.data.length) = positions c.data.length := by
  unfold usedFor; split <;> rfl

theorem readRows_positions (data : List X) : readRows data (positions data.length) = .ok data :=
  (readRows_ok _ _ _).2 (sampleAt_range data)

theorem readRows_mem_ok (data : List X) (is : List Int) (h : ∀ i ∈ is, -(data.length : Int) ≤ i ∧ i < data.length) :
    ∃ rows, readRows data is = .ok rows ∧ rows.length = is.length := by
  cases hr : readRows data is with
  | ok rows => exact ⟨rows, rfl, ((readRows_ok _ _ _).1 hr).length_eq.symm⟩
  | error e =>
    obtain ⟨_, i, hi, hb⟩ := readRows_err _ _ _ hr
    have := h i hi
    omega

theorem select_in_range {c : Cfg X} {is : List Int} (hne : is ≠ [])
    (h : ∀ i ∈ is, -(c.data.length : Int) ≤ i ∧ i < c.data.length) : ∃ p, select c is = .ok p := by
  cases hs : select c is with
  | ok p => exact ⟨p, rfl⟩
  | error e =>
    exfalso
    have hi : ∀ i ∈ usedFor c is, -(c.data.length : Int) ≤ i ∧ i < c.data.length := by
      intro i hi
      unfold usedFor at hi
      split at hi
      · simp only [positions, List.mem_map, List.mem_range] at hi
        obtain ⟨j, hj, rfl⟩ := hi
        omega
      · exact h i hi
    rcases select_err hs with ⟨h1, _⟩ | ⟨_, i, h1, h2⟩
    · have hz : usedFor c is = [] := h1
      unfold usedFor at hz
      split at hz
      · rename_i h3
        have := congrArg List.length hz
        rw [positions_length] at this
        have h5 := List.length_pos_iff.2 hne
        rw [List.length_nil] at this
        omega
      · exact hne hz
    · have := hi i h1; omega

/-! ### one evaluation -/

/-- the batch state after an evaluation that got its samples -/
def St.keep (s : St X) (p : List X × List Int) : St X := { s with lastUsed := p.2, cache := some p.1 }

theorem loaderEpoch_ok {r : Rng Ω} (hr : r.Lawful) {c : Cfg X} (hv : ValidSize c) (ω : Ω) :
    ∃ order, order.Perm (List.range c.data.length) ∧
      ((c.dropLast = false → (loaderEpoch r c ω).1 = chunks c.batchSize order) ∧
       (loaderEpoch r c ω).1.Sublist (chunks c.batchSize order)) ∧
      ∀ b ∈ (loaderEpoch r c ω).1, LoaderOk c b := by
  obtain ⟨order, ho⟩ : ∃ order, (if c.shuffle then (r.perm c.data.length ω).1 else List.range c.data.length) = order := ⟨_, rfl⟩
  have hperm : order.Perm (List.range c.data.length) := by
    rw [← ho]; split
    · exact hr.perm _ _
    · exact List.Perm.refl _
  have he : (loaderEpoch r c ω).1 = if c.dropLast then (chunks c.batchSize order).filter (fun b => decide (b.length = c.batchSize))
      else chunks c.batchSize order := by rw [← ho]; rfl
  have hsub : (loaderEpoch r c ω).1.Sublist (chunks c.batchSize order) := by
    rw [he]; split
    · exact List.filter_sublist
    · exact List.Sublist.refl _
  refine ⟨order, hperm, ⟨fun hd => by rw [he, hd]; rfl, hsub⟩, ?_⟩
  intro b hb
  have hb' := hsub.subset hb
  obtain ⟨h1, h2⟩ := chunks_piece c.batchSize hv.1 order b hb'
  have h3 : b.Sublist order := by
    rw [← cut_flatten c.batchSize hv.1 order]
    exact List.sublist_flatten_of_mem hb'
  refine ⟨h1, h2, (hperm.nodup_iff.2 List.nodup_range).sublist h3, fun i hi => ?_⟩
  have := hperm.mem_iff.1 (h3.subset hi)
  simpa using this

theorem readRows_loader {c : Cfg X} {b : List Nat} (hb : LoaderOk c b) :
    ∃ rows, readRows c.data (b.map (fun i : Nat => (i : Int))) = .ok rows ∧ rows ≠ [] := by
  obtain ⟨h1, h2, h3, h4⟩ := hb
  obtain ⟨rows, e1, e2⟩ := readRows_mem_ok c.data (b.map (fun i : Nat => (i : Int))) (by
    intro i hi
    obtain ⟨j, hj, rfl⟩ := List.mem_map.1 hi
    have := h4 j hj
    omega)
  refine ⟨rows, e1, ?_⟩
  rintro rfl
  simp at e2
  exact h1 (List.eq_nil_of_length_eq_zero e2.symm)

/-- the first batch a loader yields, and what it has left -/
theorem handleLoader_spec {r : Rng Ω} (hr : r.Lawful) {c : Cfg X} (hv : ValidSize c)
    {s : St X} (hs : Inv c s) (ω : Ω) :
    ∃ b rest rows ω', LoaderOk c b ∧ (∀ b' ∈ rest, LoaderOk c b') ∧
      readRows c.data (b.map (fun i : Nat => (i : Int))) = .ok rows ∧ rows ≠ [] ∧
      handleLoader r c s ω = (.ok (rows, b.map (fun i : Nat => (i : Int))), { s with loader := some rest }, ω') ∧
      (s.loader = some (b :: rest) ∧ ω' = ω ∨
        (s.loader = none ∨ s.loader = some []) ∧ (loaderEpoch r c ω).1 = b :: rest ∧ ω' = (loaderEpoch r c ω).2) := by
  have new : (s.loader = none ∨ s.loader = some []) → ∃ b rest rows ω', LoaderOk c b ∧ (∀ b' ∈ rest, LoaderOk c b') ∧
      readRows c.data (b.map (fun i : Nat => (i : Int))) = .ok rows ∧ rows ≠ [] ∧
      handleLoader r c s ω = (.ok (rows, b.map (fun i : Nat => (i : Int))), { s with loader := some rest }, ω') ∧
      (s.loader = some (b :: rest) ∧ ω' = ω ∨
        (s.loader = none ∨ s.loader = some []) ∧ (loaderEpoch r c ω).1 = b :: rest ∧ ω' = (loaderEpoch r c ω).2) := by
    intro hl
    obtain ⟨order, ho, ⟨_, _⟩, hok⟩ := loaderEpoch_ok hr hv ω
    have hne : (loaderEpoch r c ω).1 ≠ [] := by
      obtain ⟨order', ho'⟩ : ∃ order, (if c.shuffle then (r.perm c.data.length ω).1 else List.range c.data.length) = order := ⟨_, rfl⟩
      have hlen : order'.length = c.data.length := by
        rw [← ho']; split
        · rw [(hr.perm _ _).length_eq, List.length_range]
        · rw [List.length_range]
      have he : (loaderEpoch r c ω).1 = if c.dropLast then (chunks c.batchSize order').filter (fun b => decide (b.length = c.batchSize))
          else chunks c.batchSize order' := by rw [← ho']; rfl
      have hne' : order' ≠ [] := by
        intro h; rw [h] at hlen; simp at hlen
        have := hv.1; have := hv.2; omega
      rw [he, chunks_cons c.batchSize hv.1 order' hne']
      split
      · rw [List.filter_cons_of_pos]
        · simp
        · have := hv.2
          simp [hlen]; omega
      · simp
    obtain ⟨b, rest, hbr⟩ := List.exists_cons_of_ne_nil hne
    have hb : LoaderOk c b := hok b (by rw [hbr]; simp)
    obtain ⟨rows, e1, e2⟩ := readRows_loader hb
    refine ⟨b, rest, rows, (loaderEpoch r c ω).2, hb, fun b' hb' => hok b' (by rw [hbr]; simp [hb']), e1, e2, ?_, Or.inr ⟨hl, hbr, rfl⟩⟩
    rcases hl with hl | hl
    · simp only [handleLoader, hl, hbr, yieldBatch, e1]
    · simp only [handleLoader, hl, hbr, yieldBatch, e1]
  cases hl : s.loader with
  | none => rw [hl] at new; exact new (Or.inl rfl)
  | some bs =>
    cases bs with
    | nil => rw [hl] at new; exact new (Or.inr rfl)
    | cons b rest =>
      have hok := hs.ahead _ hl
      have hb : LoaderOk c b := hok b (by simp)
      obtain ⟨rows, e1, e2⟩ := readRows_loader hb
      refine ⟨b, rest, rows, ω, hb, fun b' hb' => hok b' (by simp [hb']), e1, e2, ?_, Or.inl ⟨rfl, rfl⟩⟩
      simp only [handleLoader, hl, yieldBatch, e1]

/-- a batch drawn without a loader -/
theorem drawTorch_spec {r : Rng Ω} (hr : r.Lawful) {c : Cfg X} (hv : ValidSize c) {s : St X} (hs : Inv c s) (ω : Ω) :
    ∃ p : List Nat, p.Perm (List.range c.data.length) ∧ ∃ q : List Nat, q <:+ p ∧ c.batchSize ≤ q.length ∧
      (drawTorch r c s ω).1 = (q.take c.batchSize, q.drop c.batchSize) ∧
      (q = s.remaining ∨ s.remaining.length < c.batchSize ∧ q = p) := by
  unfold drawTorch
  by_cases h : s.remaining.length < c.batchSize
  · simp only [if_pos h]
    refine ⟨(r.perm c.data.length ω).1, hr.perm _ _, (r.perm c.data.length ω).1, List.suffix_refl _, ?_, rfl, Or.inr ⟨h, rfl⟩⟩
    rw [(hr.perm _ _).length_eq, List.length_range]; exact hv.2
  · simp only [if_neg h]
    obtain ⟨p, hp, hsuf⟩ := hs.owed
    exact ⟨p, hp, s.remaining, hsuf, by omega, rfl, Or.inl rfl⟩

/-- an evaluation with a list of indices -/
theorem keep_inv {c : Cfg X} {s : St X} (hs : Inv c s) {rows : List X} {used : List Int}
    (h1 : readRows c.data used = .ok rows) (h2 : rows ≠ []) (h3 : used.length = c.data.length → c.loadDataset = true → used = allIdx c) :
    Inv c (St.keep s (rows, used)) := by
  refine ⟨?_, h3, hs.owed, hs.ahead⟩
  intro rows' hr
  simp only [St.keep, Option.some.injEq] at hr
  subst hr
  exact ⟨h1, h2⟩

theorem usedFor_whole (c : Cfg X) (is : List Int) (h : (usedFor c is).length = c.data.length) (hl : c.loadDataset = true) :
    usedFor c is = allIdx c := by
  unfold usedFor at h ⊢
  split
  · rfl
  · rename_i hn
    rw [if_neg hn] at h
    exact absurd ⟨h, hl⟩ hn

/-- the list behind an argument that does not draw a batch -/
def listFor (c : Cfg X) : Indices → Option (List Int)
  | .int i => some [i]
  | .list l => some l
  | .all => some (positions c.data.length)
  | .batch => if c.batchSize < c.data.length then none else some (positions c.data.length)
  | .str => none

/-- evaluation by list: state and answer -/
theorem eval_list {r : Rng Ω} {c : Cfg X} {s : St X} (hs : Inv c s) (ix : Indices) (is : List Int) (hix : listFor c ix = some is) (ω : Ω) :
    (∃ p, select c is = .ok p ∧ Torch.getBatchData r c s ix ω = (pyChunks c.maxBatch p.1, St.keep s p, ω)) ∨
    (∃ e, select c is = .error e ∧ Torch.getBatchData r c s ix ω = (.error e, s, ω)) := by
  have hh : handleIndices r c s ix ω = (select c is, s, ω) := by
    rw [← handleList_eq hs is]
    cases ix with
    | int i => cases hix; rfl
    | list l => cases hix; rfl
    | all => cases hix; rfl
    | batch =>
      simp only [listFor] at hix
      split at hix
      · cases hix
      · rename_i h
        cases hix
        simp only [handleIndices, if_neg h]; rfl
    | str => cases hix
  unfold Torch.getBatchData
  rw [hh]
  cases hsel : select c is with
  | ok p => exact Or.inl ⟨p, rfl, rfl⟩
  | error e => exact Or.inr ⟨e, rfl, rfl⟩

/-- evaluation on a drawn batch, without and with a loader -/
theorem eval_draw {r : Rng Ω} (hr : r.Lawful) {c : Cfg X} (hv : ValidSize c) (hlt : c.batchSize < c.data.length)
    (hl : c.useLoader = false) {s : St X} (hs : Inv c s) (ω : Ω) :
    ∃ q rows, q.length = c.batchSize ∧ q = (drawTorch r c s ω).1.1 ∧ q.Nodup ∧ (∀ i ∈ q, i < c.data.length) ∧
      readRows c.data (q.map (fun i : Nat => (i : Int))) = .ok rows ∧ rows ≠ [] ∧
      Torch.getBatchData r c s .batch ω = (pyChunks c.maxBatch rows,
        St.keep { s with remaining := (drawTorch r c s ω).1.2 } (rows, q.map (fun i : Nat => (i : Int))), (drawTorch r c s ω).2) ∧
      Inv c { s with remaining := (drawTorch r c s ω).1.2 } := by
  obtain ⟨p, hp, q, hq, hlen, hd, _⟩ := drawTorch_spec hr hv hs ω
  have hinv : Inv c { s with remaining := (drawTorch r c s ω).1.2 } := by
    refine ⟨hs.cached, hs.whole, ⟨p, hp, ?_⟩, hs.ahead⟩
    rw [hd]; exact (List.drop_suffix _ _).trans hq
  have hnd : p.Nodup := hp.nodup_iff.2 List.nodup_range
  have hsub : (q.take c.batchSize).Sublist p := (List.take_sublist _ _).trans hq.sublist
  have hlen' : (q.take c.batchSize).length = c.batchSize := by rw [List.length_take]; omega
  have hrange : ∀ i ∈ q.take c.batchSize, i < c.data.length := by
    intro i hi
    have := hp.mem_iff.1 (hsub.subset hi)
    simpa using this
  obtain ⟨rows, e1, e2⟩ := readRows_mem_ok c.data ((q.take c.batchSize).map (fun i : Nat => (i : Int))) (by
    intro i hi
    obtain ⟨j, hj, rfl⟩ := List.mem_map.1 hi
    have := hrange j hj
    omega)
  have hne : rows ≠ [] := by
    rintro rfl
    have h0 := hv.1
    simp at e2
    omega
  refine ⟨q.take c.batchSize, rows, hlen', by rw [hd], hnd.sublist hsub, hrange, e1, hne, ?_, hinv⟩
  have hu : usedFor c ((q.take c.batchSize).map (fun i : Nat => (i : Int))) = (q.take c.batchSize).map (fun i : Nat => (i : Int)) := by
    unfold usedFor
    rw [if_neg]
    rw [List.length_map, hlen']
    omega
  have hsel : select c ((q.take c.batchSize).map (fun i : Nat => (i : Int))) = .ok (rows, (q.take c.batchSize).map (fun i : Nat => (i : Int))) := by
    cases hs' : select c ((q.take c.batchSize).map (fun i : Nat => (i : Int))) with
    | ok p' =>
      obtain ⟨a1, a2, _⟩ := select_ok hs'
      rw [hu] at a1 a2
      rw [e1] at a2
      cases a2
      rw [← a1]
    | error e =>
      exfalso
      rcases select_err hs' with ⟨h1, _⟩ | ⟨_, i, h1, h2⟩
      · rw [hu] at h1
        have := congrArg List.length h1
        rw [List.length_map, hlen'] at this
        have := hv.1
        simp at *
        omega
      · rw [hu] at h1
        obtain ⟨j, hj, rfl⟩ := List.mem_map.1 h1
        have := hrange j hj
        omega
  have hh : handleIndices r c s .batch ω = (.ok (rows, (q.take c.batchSize).map (fun i : Nat => (i : Int))),
      { s with remaining := (drawTorch r c s ω).1.2 }, (drawTorch r c s ω).2) := by
    simp only [handleIndices, if_pos hlt, hl, Bool.false_eq_true, if_false]
    rw [handleList_eq hinv, hd, hsel]
  unfold Torch.getBatchData
  rw [hh]
  rfl

theorem eval_loader {r : Rng Ω} (hr : r.Lawful) {c : Cfg X} (hv : ValidSize c) (hlt : c.batchSize < c.data.length)
    (hl : c.useLoader = true) {s : St X} (hs : Inv c s) (ω : Ω) :
    ∃ b rest rows ω', LoaderOk c b ∧ readRows c.data (b.map (fun i : Nat => (i : Int))) = .ok rows ∧ rows ≠ [] ∧
      Torch.getBatchData r c s .batch ω = (pyChunks c.maxBatch rows,
        St.keep { s with loader := some rest } (rows, b.map (fun i : Nat => (i : Int))), ω') ∧
      Inv c { s with loader := some rest } ∧
      (s.loader = some (b :: rest) ∧ ω' = ω ∨
        (s.loader = none ∨ s.loader = some []) ∧ (loaderEpoch r c ω).1 = b :: rest ∧ ω' = (loaderEpoch r c ω).2) := by
  obtain ⟨b, rest, rows, ω', h1, h2, h3, h4, h5, h6⟩ := handleLoader_spec hr hv hs ω
  refine ⟨b, rest, rows, ω', h1, h3, h4, ?_, ⟨hs.cached, hs.whole, hs.owed, fun bs h => ?_⟩, h6⟩
  · have hh : handleIndices r c s .batch ω = (.ok (rows, b.map (fun i : Nat => (i : Int))), { s with loader := some rest }, ω') := by
      simp only [handleIndices, if_pos hlt, hl, if_true]
      exact h5
    unfold Torch.getBatchData
    rw [hh]; rfl
  · cases h; exact h2

/-- the invariant is kept by every evaluation -/
theorem eval_inv {r : Rng Ω} (hr : r.Lawful) {c : Cfg X} (hv : ValidSize c) {s : St X} (hs : Inv c s) (ix : Indices) (ω : Ω) :
    Inv c (Torch.getBatchData r c s ix ω).2.1 := by
  cases hf : listFor c ix with
  | some is =>
    rcases eval_list (r := r) hs ix is hf ω with ⟨p, h1, h2⟩ | ⟨e, h1, h2⟩
    · rw [h2]
      obtain ⟨a1, a2, a3⟩ := select_ok h1
      have := keep_inv hs a2 a3 (usedFor_whole c is)
      rw [← a1] at this
      exact this
    · rw [h2]; exact hs
  | none =>
    cases ix with
    | int i => cases hf
    | list l => cases hf
    | all => cases hf
    | str => exact hs
    | batch =>
      have hlt : c.batchSize < c.data.length := by
        simp only [listFor] at hf
        split at hf
        · assumption
        · cases hf
      cases hl : c.useLoader with
      | false =>
        obtain ⟨q, rows, h1, h2, h3, h4, h5, h6, h7, h8⟩ := eval_draw hr hv hlt hl hs ω
        rw [h7]
        exact keep_inv h8 h5 h6 (fun h _ => by rw [List.length_map] at h; omega)
      | true =>
        obtain ⟨b, rest, rows, ω', h1, h2, h3, h4, h5, _⟩ := eval_loader hr hv hlt hl hs ω
        rw [h4]
        exact keep_inv h5 h2 h3 (fun h _ => by rw [List.length_map] at h; have := h1.2.1; omega)

/-- a property of evaluations that holds from every reachable state holds of every evaluation of a history -/
theorem evaluations_all {r : Rng Ω} (hr : r.Lawful) {c : Cfg X} (hv : ValidSize c) (P : Evaluation X → Prop)
    (hP : ∀ s ω ix, Inv c s → P ⟨ix, (Torch.getBatchData r c s ix ω).1, (Torch.getBatchData r c s ix ω).2.1.lastUsed⟩)
    (evs : List Event) : ∀ s ω, Inv c s → ∀ e ∈ evaluations r c s ω evs, P e := by
  induction evs with
  | nil => intro s ω _ e he; cases he
  | cons ev rest ih =>
    intro s ω hs e he
    cases ev with
    | pickle => exact ih _ _ (inv_restored hs) e he
    | use ix =>
      rcases List.mem_cons.1 he with rfl | he
      · exact hP s ω ix hs
      · exact ih _ _ (eval_inv hr hv hs ix ω) e he

theorem pyChunks_pos {Y : Type} (m : Int) (hm : 0 < m) (l : List Y) : pyChunks m l = .ok (chunks m.toNat l) := by
  unfold pyChunks
  rw [if_neg (by omega), if_neg (by omega)]

/-- the outcome of any evaluation, in one place -/
theorem eval_outcome {r : Rng Ω} (hr : r.Lawful) {c : Cfg X} (hv : ValidSize c) {s : St X} (hs : Inv c s) (ix : Indices) (ω : Ω) :
    (∃ rows used s' ω', Torch.getBatchData r c s ix ω = (pyChunks c.maxBatch rows, s', ω') ∧ s'.lastUsed = used ∧
      readRows c.data used = .ok rows ∧ rows ≠ [] ∧
      ((∃ is, listFor c ix = some is ∧ used = usedFor c is) ∨
       (ix = .batch ∧ c.batchSize < c.data.length ∧ ∃ q : List Nat, used = q.map (fun i : Nat => (i : Int)) ∧ q.Nodup ∧ q ≠ [] ∧
         q.length ≤ c.batchSize ∧ (c.useLoader = false → q.length = c.batchSize) ∧ ∀ i ∈ q, i < c.data.length))) ∨
    (∃ e, Torch.getBatchData r c s ix ω = (.error e, s, ω) ∧
      ((ix = .str ∧ e = .valueError) ∨ ∃ is, listFor c ix = some is ∧ select c is = .error e)) := by
  cases hf : listFor c ix with
  | some is =>
    rcases eval_list (r := r) hs ix is hf ω with ⟨p, h1, h2⟩ | ⟨e, h1, h2⟩
    · obtain ⟨a1, a2, a3⟩ := select_ok h1
      left
      exact ⟨p.1, p.2, St.keep s p, ω, h2, rfl, by rw [a1]; exact a2, a3, Or.inl ⟨is, rfl, a1⟩⟩
    · right
      exact ⟨e, h2, Or.inr ⟨is, rfl, h1⟩⟩
  | none =>
    cases ix with
    | int i => cases hf
    | list l => cases hf
    | all => cases hf
    | str => right; exact ⟨.valueError, rfl, Or.inl ⟨rfl, rfl⟩⟩
    | batch =>
      have hlt : c.batchSize < c.data.length := by
        simp only [listFor] at hf
        split at hf
        · assumption
        · cases hf
      left
      cases hl : c.useLoader with
      | false =>
        obtain ⟨q, rows, h1, h2, h3, h4, h5, h6, h7, h8⟩ := eval_draw hr hv hlt hl hs ω
        refine ⟨rows, _, _, _, h7, rfl, h5, h6, Or.inr ⟨rfl, hlt, q, rfl, h3, ?_, by omega, fun _ => h1, h4⟩⟩
        rintro rfl
        have := hv.1
        simp at h1; omega
      | true =>
        obtain ⟨b, rest, rows, ω', h1, h2, h3, h4, h5, _⟩ := eval_loader hr hv hlt hl hs ω
        exact ⟨rows, _, _, _, h4, rfl, h2, h3, Or.inr ⟨rfl, hlt, b, rfl, h1.2.2.1, h1.1, h1.2.1, fun h => (by cases h), h1.2.2.2⟩⟩

/-! ### C97 -/

/-- **C97.** Whatever happened before (any evaluations, any pickling), an evaluation that succeeds computed on the samples
`batch_used` then names, in that order, cut into pieces of at most `max_batch_size`; there is at least one sample. -/
theorem C97_aligned {r : Rng Ω} (hr : r.Lawful) {c : Cfg X} (hv : ValidSize c) (hm : 0 < c.maxBatch) (evs : List Event) (ω : Ω)
    (e : Evaluation X) (he : e ∈ evaluations r c St.fresh ω evs) (bs : List (List X)) (hb : e.result = .ok bs) :
    List.Forall₂ (SampleAt c.data) e.used bs.flatten ∧ e.used ≠ [] ∧ (∀ b ∈ bs, b ≠ [] ∧ (b.length : Int) ≤ c.maxBatch) := by
  revert bs
  refine evaluations_all hr hv (P := fun e => ∀ bs, e.result = .ok bs → List.Forall₂ (SampleAt c.data) e.used bs.flatten ∧ e.used ≠ [] ∧
    (∀ b ∈ bs, b ≠ [] ∧ (b.length : Int) ≤ c.maxBatch)) ?_ evs St.fresh ω (inv_fresh c) e he
  intro s ω ix hs bs hb
  simp only at hb ⊢
  rcases eval_outcome hr hv hs ix ω with ⟨rows, used, s', ω', h1, h2, h3, h4, _⟩ | ⟨e, h1, _⟩
  · rw [h1] at hb ⊢
    rw [pyChunks_pos _ hm] at hb
    cases hb
    have hm1 : 1 ≤ c.maxBatch.toNat := by omega
    refine ⟨?_, ?_, ?_⟩
    · rw [cut_flatten _ hm1, h2]; exact (readRows_ok _ _ _).1 h3
    · simp only [h2]
      rintro rfl
      cases h3
      exact h4 rfl
    · intro b hb
      obtain ⟨a1, a2⟩ := chunks_piece _ hm1 rows b hb
      exact ⟨a1, by omega⟩
  · rw [h1] at hb; cases hb

/-- **C97.** Which samples: an explicit list or index selects itself, unless the data set was loaded and the list is as long as
the data set: then it is replaced by the whole data set in order.  `"all"` is the whole data set; so is `"batch"` when the
batch size is the number of samples; else `"batch"` is a set of `batch_size` different samples (a data loader's last batch of a
pass may be smaller). -/
theorem C97_selected {r : Rng Ω} (hr : r.Lawful) {c : Cfg X} (hv : ValidSize c) (hm : 0 < c.maxBatch) (evs : List Event) (ω : Ω)
    (e : Evaluation X) (he : e ∈ evaluations r c St.fresh ω evs) (bs : List (List X)) (hb : e.result = .ok bs) :
    (∀ l, explicitList e.ix = some l → (c.loadDataset = false ∨ l.length ≠ c.data.length) → e.used = l) ∧
    (∀ l, explicitList e.ix = some l → c.loadDataset = true → l.length = c.data.length → e.used = positions c.data.length) ∧
    (e.ix = .all → e.used = positions c.data.length) ∧
    (e.ix = .batch → c.batchSize = c.data.length → e.used = positions c.data.length) ∧
    (e.ix = .batch → c.batchSize < c.data.length → e.used.Nodup ∧ (∀ i ∈ e.used, 0 ≤ i ∧ i < c.data.length) ∧
      1 ≤ e.used.length ∧ e.used.length ≤ c.batchSize ∧ (c.useLoader = false → e.used.length = c.batchSize)) := by
  revert bs
  revert e
  refine evaluations_all hr hv _ ?_ evs St.fresh ω (inv_fresh c)
  intro s ω ix hs bs hb
  simp only at hb ⊢
  rcases eval_outcome hr hv hs ix ω with ⟨rows, used, s', ω', h1, h2, h3, h4, h5⟩ | ⟨e, h1, _⟩
  · rw [h1]
    simp only [h2]
    rcases h5 with ⟨is, h5, h6⟩ | ⟨rfl, hlt, q, rfl, q1, q2, q3, q4, q5⟩
    · have hex : ∀ l, explicitList ix = some l → l = is := by
        intro l hl
        cases ix <;> simp_all [explicitList, listFor]
      refine ⟨?_, ?_, ?_, ?_, ?_⟩
      · intro l hl hor
        rw [h6, hex l hl]
        unfold usedFor
        rw [if_neg]
        rintro ⟨a1, a2⟩
        rw [← hex l hl] at a1
        rcases hor with hor | hor
        · rw [hor] at a2; cases a2
        · exact hor a1
      · intro l hl hld hlen
        rw [h6, ← hex l hl]
        unfold usedFor
        rw [if_pos ⟨hlen, hld⟩]
      · rintro rfl
        cases h5
        rw [h6, usedFor_positions]
      · rintro rfl hbe
        simp only [listFor] at h5
        rw [if_neg (by omega)] at h5
        cases h5
        rw [h6, usedFor_positions]
      · rintro rfl hlt
        simp only [listFor] at h5
        rw [if_pos hlt] at h5
        cases h5
    · refine ⟨fun l hl => (by cases hl), fun l hl => (by cases hl), fun h => (by cases h), fun _ h => by omega, fun _ _ => ⟨?_, ?_, ?_, by simpa using q3, fun h => by simpa using q4 h⟩⟩
      · exact q1.map (fun a b h => by simpa using h)
      · intro i hi
        obtain ⟨j, hj, rfl⟩ := List.mem_map.1 hi
        have := q5 j hj
        omega
      · rw [List.length_map]; exact List.length_pos_iff.2 q2
  · rw [h1] at hb; cases hb

/-- **C97.** When an evaluation succeeds: always for `"all"` and `"batch"`; for an explicit list if it is not empty and its
indices lie in the range Python allows, or if it is as long as a loaded data set (whatever its entries).  Otherwise the
evaluation raises (ValueError for an unknown string or an empty list, IndexError for an index out of range). -/
theorem C97_errors {r : Rng Ω} (hr : r.Lawful) {c : Cfg X} (hv : ValidSize c) (hm : 0 < c.maxBatch) (evs : List Event) (ω : Ω)
    (e : Evaluation X) (he : e ∈ evaluations r c St.fresh ω evs) :
    ((∃ bs, e.result = .ok bs) ↔ e.ix = .all ∨ e.ix = .batch ∨ ∃ l, explicitList e.ix = some l ∧
      ((l ≠ [] ∧ ∀ i ∈ l, -(c.data.length : Int) ≤ i ∧ i < c.data.length) ∨ (c.loadDataset = true ∧ l.length = c.data.length))) ∧
    (e.ix = .str → e.result = .error .valueError) ∧ (e.ix = .list [] → e.result = .error .valueError) ∧
    (∀ err, e.result = .error err → e.ix ≠ .str → e.ix ≠ .list [] → err = .indexError) := by
  have hlen : 1 ≤ c.data.length := hv.1.trans hv.2
  revert e
  refine evaluations_all hr hv _ ?_ evs St.fresh ω (inv_fresh c)
  intro s ω ix hs
  simp only
  have hpos : ∃ p, select c (positions c.data.length) = .ok p := by
    apply select_in_range
    · intro h
      have := congrArg List.length h
      rw [positions_length] at this
      rw [List.length_nil] at this; omega
    · intro i hi
      simp only [positions, List.mem_map, List.mem_range] at hi
      obtain ⟨j, hj, rfl⟩ := hi
      omega
  rcases eval_outcome hr hv hs ix ω with ⟨rows, used, s', ω', h1, h2, h3, h4, h5⟩ | ⟨err, h1, h5⟩
  · rw [h1, pyChunks_pos _ hm]
    have hns : ix ≠ .str ∧ ix ≠ .list [] := by
      rcases h5 with ⟨is, h5, h6⟩ | ⟨rfl, _⟩
      · refine ⟨?_, ?_⟩
        · rintro rfl; cases h5
        · rintro rfl
          cases h5
          have : usedFor c [] = [] := by
            unfold usedFor
            rw [if_neg]; simp; omega
          rw [h6, this] at h3
          cases h3
          exact h4 rfl
      · exact ⟨by simp, by simp⟩
    refine ⟨⟨fun _ => ?_, fun _ => ⟨_, rfl⟩⟩, fun h => absurd h hns.1, fun h => absurd h hns.2, fun e h => (by cases h)⟩
    rcases h5 with ⟨is, h5, h6⟩ | ⟨rfl, _⟩
    · have key : explicitList ix = some is → ((is ≠ [] ∧ ∀ i ∈ is, -(c.data.length : Int) ≤ i ∧ i < c.data.length) ∨ (c.loadDataset = true ∧ is.length = c.data.length)) := by
        intro hx
        by_cases hc : is.length = c.data.length ∧ c.loadDataset = true
        · exact Or.inr ⟨hc.2, hc.1⟩
        · left
          have hu : usedFor c is = is := by unfold usedFor; rw [if_neg hc]
          rw [h6, hu] at h3
          refine ⟨?_, ?_⟩
          · rintro rfl; cases h3; exact h4 rfl
          · intro i hi
            have hf := (readRows_ok _ _ _).1 h3
            obtain ⟨k, hk, hik⟩ := List.getElem_of_mem hi
            have hkr : k < rows.length := by rw [← hf.length_eq]; exact hk
            have hat := hf.get hk hkr
            simp only [List.get_eq_getElem, hik] at hat
            rcases hat with ⟨a1, a2⟩ | ⟨a1, a2, a3⟩
            · have := (List.getElem?_eq_some_iff.1 a2).1
              omega
            · omega
      cases ix with
      | int i => cases h5; exact Or.inr (Or.inr ⟨_, rfl, key rfl⟩)
      | list l => cases h5; exact Or.inr (Or.inr ⟨_, rfl, key rfl⟩)
      | all => exact Or.inl rfl
      | batch => exact Or.inr (Or.inl rfl)
      | str => cases h5
    · exact Or.inr (Or.inl rfl)
  · rw [h1]
    rcases h5 with ⟨rfl, rfl⟩ | ⟨is, h5, h6⟩
    · refine ⟨?_, fun _ => rfl, fun h => (by cases h), fun e _ h => absurd rfl h⟩
      constructor
      · rintro ⟨bs, h⟩; cases h
      · rintro (h | h | ⟨l, h, _⟩) <;> cases h
    · have hnotpos : is ≠ positions c.data.length := by
        rintro rfl
        obtain ⟨p, hp⟩ := hpos
        rw [hp] at h6; cases h6
      have hall : ix ≠ .all := by rintro rfl; cases h5; exact hnotpos rfl
      have hbat : ix ≠ .batch := by
        rintro rfl
        simp only [listFor] at h5
        split at h5
        · cases h5
        · cases h5; exact hnotpos rfl
      have hex : explicitList ix = some is := by
        cases ix with
        | int i => exact h5
        | list l => exact h5
        | all => exact absurd rfl hall
        | batch => exact absurd rfl hbat
        | str => cases h5
      have hnw : ¬ (is.length = c.data.length ∧ c.loadDataset = true) := by
        intro hc
        have hu : usedFor c is = positions c.data.length := by unfold usedFor; rw [if_pos hc]
        rcases select_err h6 with ⟨a, _⟩ | ⟨_, i, a, b⟩
        · rw [hu] at a
          have := congrArg List.length a
          rw [positions_length] at this
          rw [List.length_nil] at this; omega
        · rw [hu] at a
          simp only [positions, List.mem_map, List.mem_range] at a
          obtain ⟨j, hj, rfl⟩ := a
          omega
      have hu : usedFor c is = is := by unfold usedFor; rw [if_neg hnw]
      have herr := select_err h6
      rw [hu] at herr
      refine ⟨?_, ?_, ?_, ?_⟩
      · constructor
        · rintro ⟨bs, h⟩; cases h
        · rintro (h | h | ⟨l, h, h'⟩)
          · exact absurd h hall
          · exact absurd h hbat
          · rw [hex] at h
            cases h
            rcases h' with ⟨a1, a2⟩ | ⟨a1, a2⟩
            · obtain ⟨p, hp⟩ := select_in_range a1 a2
              rw [hp] at h6; cases h6
            · exact absurd ⟨a2, a1⟩ hnw
      · rintro rfl; cases hex
      · rintro rfl
        cases hex
        rcases herr with ⟨_, rfl⟩ | ⟨_, i, a, _⟩
        · rfl
        · cases a
      · intro e he _ hnl
        cases he
        rcases herr with ⟨a, _⟩ | ⟨a, _⟩
        · cases ix with
          | int i => cases hex; cases a
          | list l => cases hex; exact absurd (by rw [a]) hnl
          | all => exact absurd rfl hall
          | batch => exact absurd rfl hbat
          | str => cases hex
        · exact a

/-! ### epochs -/

/-- an index as Python sees it -/
abbrev toInts (l : List Nat) : List Int := l.map (fun i : Nat => (i : Int))

theorem drawn_cons (e : Evaluation X) (l : List (Evaluation X)) :
    drawn (e :: l) = (if e.ix = .batch then (match e.result with | .ok _ => [e.used] | .error _ => []) else []) ++ drawn l := by
  unfold drawn
  rw [List.filterMap_cons]
  by_cases h : e.ix = .batch
  · simp only [if_pos h]
    cases e.result <;> rfl
  · simp only [if_neg h]; rfl

/-- evaluations that do not draw a batch leave the indices owed and the loader alone -/
theorem eval_other {r : Rng Ω} {c : Cfg X} {s : St X} (hs : Inv c s) (ix : Indices) (hix : ix ≠ .batch) (ω : Ω) :
    (Torch.getBatchData r c s ix ω).2.1.remaining = s.remaining ∧ (Torch.getBatchData r c s ix ω).2.1.loader = s.loader ∧
    (Torch.getBatchData r c s ix ω).2.2 = ω := by
  cases hf : listFor c ix with
  | some is =>
    rcases eval_list (r := r) hs ix is hf ω with ⟨p, h1, h2⟩ | ⟨e, h1, h2⟩
    · rw [h2]; exact ⟨rfl, rfl, rfl⟩
    · rw [h2]; exact ⟨rfl, rfl, rfl⟩
  | none =>
    cases ix with
    | int i => cases hf
    | list l => cases hf
    | all => cases hf
    | batch => exact absurd rfl hix
    | str => exact ⟨rfl, rfl, rfl⟩

theorem epochs_from {r : Rng Ω} (hr : r.Lawful) {c : Cfg X} (hv : ValidSize c) (hlt : c.batchSize < c.data.length)
    (hl : c.useLoader = false) (hm : 0 < c.maxBatch) (evs : List Event) : ∀ s ω, Inv c s →
    ((drawn (evaluations r c s ω evs)).take (s.remaining.length / c.batchSize)).flatten <+: toInts s.remaining ∧
    ∀ i : Nat, ∃ ω', (((drawn (evaluations r c s ω evs)).drop (s.remaining.length / c.batchSize + c.data.length / c.batchSize * i)).take
      (c.data.length / c.batchSize)).flatten <+: toInts (r.perm c.data.length ω').1 := by
  induction evs with
  | nil =>
    intro s ω _
    exact ⟨by simp [evaluations, drawn], fun i => ⟨ω, by simp [evaluations, drawn]⟩⟩
  | cons ev rest ih =>
    intro s ω hs
    cases ev with
    | pickle => exact ih s.restored ω (inv_restored hs)
    | use ix =>
      have hinv := eval_inv hr hv hs ix ω
      simp only [evaluations, drawn_cons]
      by_cases hix : ix = .batch
      · subst hix
        obtain ⟨q, rows, h1, h2, h3, h4, h5, h6, h7, h8⟩ := eval_draw hr hv hlt hl hs ω
        have ih' := ih _ (Torch.getBatchData r c s .batch ω).2.2 hinv
        rw [h7] at ih' ⊢
        simp only [pyChunks_pos _ hm, if_true, St.keep, List.singleton_append] at ih' ⊢
        obtain ⟨i1, i2⟩ := ih'
        generalize drawn (evaluations r c _ _ rest) = bs at i1 i2 ⊢
        have hb := hv.1
        have hd : (drawTorch r c s ω).1 =
            (if s.remaining.length < c.batchSize then ((r.perm c.data.length ω).1.take c.batchSize, (r.perm c.data.length ω).1.drop c.batchSize)
             else (s.remaining.take c.batchSize, s.remaining.drop c.batchSize)) := by
          unfold drawTorch
          by_cases h : s.remaining.length < c.batchSize
          · simp only [if_pos h]
          · simp only [if_neg h]
        by_cases hsh : s.remaining.length < c.batchSize
        · rw [if_pos hsh] at hd
          rw [hd] at h2 i1 i2
          simp only at h2 i1 i2
          have hlen : (r.perm c.data.length ω).1.length = c.data.length := by rw [(hr.perm _ _).length_eq, List.length_range]
          have hq : (((r.perm c.data.length ω).1.drop c.batchSize).length / c.batchSize) + 1 = c.data.length / c.batchSize := by
            rw [List.length_drop, hlen, ← Nat.add_div_right _ (by omega : 0 < c.batchSize)]
            congr 1; omega
          rw [Nat.div_eq_of_lt hsh]
          refine ⟨by simp, ?_⟩
          intro i
          cases i with
          | zero =>
            refine ⟨ω, ?_⟩
            rw [Nat.mul_zero, Nat.add_zero, List.drop_zero, ← hq, List.take_succ_cons, List.flatten_cons]
            have : toInts (r.perm c.data.length ω).1 = toInts q ++ toInts ((r.perm c.data.length ω).1.drop c.batchSize) := by
              rw [h2, ← List.map_append, List.take_append_drop]
            rw [this]
            exact (List.prefix_append_right_inj _).2 i1
          | succ i =>
            obtain ⟨ω', h⟩ := i2 i
            refine ⟨ω', ?_⟩
            have : 0 + c.data.length / c.batchSize * (i + 1) =
                (((r.perm c.data.length ω).1.drop c.batchSize).length / c.batchSize + c.data.length / c.batchSize * i) + 1 := by
              rw [Nat.mul_succ]
              omega
            rw [this, List.drop_succ_cons]
            exact h
        · rw [if_neg hsh] at hd
          rw [hd] at h2 i1 i2
          simp only at h2 i1 i2
          have hq : ((s.remaining.drop c.batchSize).length / c.batchSize) + 1 = s.remaining.length / c.batchSize := by
            rw [List.length_drop, ← Nat.add_div_right _ (by omega : 0 < c.batchSize)]
            congr 1; omega
          rw [← hq]
          refine ⟨?_, ?_⟩
          · rw [List.take_succ_cons, List.flatten_cons]
            have : toInts s.remaining = toInts q ++ toInts (s.remaining.drop c.batchSize) := by
              rw [h2, ← List.map_append, List.take_append_drop]
            rw [this]
            exact (List.prefix_append_right_inj _).2 i1
          · intro i
            obtain ⟨ω', h⟩ := i2 i
            refine ⟨ω', ?_⟩
            have : (s.remaining.drop c.batchSize).length / c.batchSize + 1 + c.data.length / c.batchSize * i =
                ((s.remaining.drop c.batchSize).length / c.batchSize + c.data.length / c.batchSize * i) + 1 := by omega
            rw [this, List.drop_succ_cons]
            exact h
      · have ho := eval_other (r := r) hs ix hix ω
        have := ih _ (Torch.getBatchData r c s ix ω).2.2 hinv
        rw [ho.1] at this
        simp only [if_neg hix, List.nil_append]
        exact this

/-- **C97.** Without a data loader, mini-batches come in epochs of `⌊n / b⌋` batches, whatever other evaluations and pickling
happen in between: the batches of an epoch are consecutive pieces of one random order of the samples, so no sample is used
twice in an epoch. -/
theorem C97_epochs {r : Rng Ω} (hr : r.Lawful) {c : Cfg X} (hv : ValidSize c) (hlt : c.batchSize < c.data.length)
    (hl : c.useLoader = false) (hm : 0 < c.maxBatch) (evs : List Event) (ω : Ω) (i : Nat) :
    ∃ order : List Nat, order.Perm (List.range c.data.length) ∧ (∃ ω', order = (r.perm c.data.length ω').1) ∧
      (((drawn (evaluations r c St.fresh ω evs)).drop (c.data.length / c.batchSize * i)).take
        (c.data.length / c.batchSize)).flatten <+: toInts order := by
  obtain ⟨ω', h⟩ := (epochs_from hr hv hlt hl hm evs St.fresh ω (inv_fresh c)).2 i
  refine ⟨_, hr.perm _ ω', ⟨ω', rfl⟩, ?_⟩
  simpa [St.fresh] using h

theorem drawn_lengths {r : Rng Ω} (hr : r.Lawful) {c : Cfg X} (hv : ValidSize c) (hlt : c.batchSize < c.data.length)
    (hl : c.useLoader = false) (hm : 0 < c.maxBatch) (evs : List Event) (ω : Ω) :
    ∀ u ∈ drawn (evaluations r c St.fresh ω evs), u.length = c.batchSize := by
  intro u hu
  unfold drawn at hu
  rw [List.mem_filterMap] at hu
  obtain ⟨e, he, h⟩ := hu
  by_cases hb : e.ix = .batch
  · rw [if_pos hb] at h
    cases hres : e.result with
    | error err => rw [hres] at h; cases h
    | ok bs =>
      rw [hres] at h
      cases h
      exact ((C97_selected hr hv hm evs ω e he bs hres).2.2.2.2 hb hlt).2.2.2.2 hl
  · rw [if_neg hb] at h; cases h

/-- **C97.** A complete epoch uses `⌊n / b⌋ · b` different samples; if the batch size divides the number of samples, every
sample exactly once. -/
theorem C97_epoch_complete {r : Rng Ω} (hr : r.Lawful) {c : Cfg X} (hv : ValidSize c) (hlt : c.batchSize < c.data.length)
    (hl : c.useLoader = false) (hm : 0 < c.maxBatch) (evs : List Event) (ω : Ω) (i : Nat)
    (hfull : c.data.length / c.batchSize * (i + 1) ≤ (drawn (evaluations r c St.fresh ω evs)).length) :
    let epoch := (((drawn (evaluations r c St.fresh ω evs)).drop (c.data.length / c.batchSize * i)).take
        (c.data.length / c.batchSize)).flatten
    epoch.Nodup ∧ epoch.length = c.data.length / c.batchSize * c.batchSize ∧
      (c.batchSize ∣ c.data.length → epoch.Perm (positions c.data.length)) := by
  intro epoch
  obtain ⟨order, h1, _, h2⟩ := C97_epochs hr hv hlt hl hm evs ω i
  have hlen : epoch.length = c.data.length / c.batchSize * c.batchSize := by
    have hall : ∀ u ∈ ((drawn (evaluations r c St.fresh ω evs)).drop (c.data.length / c.batchSize * i)).take
        (c.data.length / c.batchSize), u.length = c.batchSize := fun u hu =>
      drawn_lengths hr hv hlt hl hm evs ω u (List.mem_of_mem_drop (List.mem_of_mem_take hu))
    show (List.flatten _).length = _
    rw [List.length_flatten, List.map_congr_left (g := fun _ => c.batchSize) hall, List.map_const', List.sum_replicate,
      List.length_take, List.length_drop, Nat.min_eq_left, smul_eq_mul]
    rw [Nat.mul_succ] at hfull
    omega
  have hnd : (toInts order).Nodup := (h1.nodup_iff.2 List.nodup_range).map (fun a b h => by simpa using h)
  refine ⟨hnd.sublist h2.sublist, hlen, ?_⟩
  intro hdvd
  have : epoch = toInts order := by
    apply h2.eq_of_length
    rw [hlen, Nat.div_mul_cancel hdvd, List.length_map, h1.length_eq, List.length_range]
  rw [this]
  exact h1.map _

/-- **C97 (limit).** Otherwise the last `n mod b` samples of every epoch's order are dropped: with a generator that never
rearranges, these samples are never used by any history of mini-batches (compare the batches of the other costs, C49, which
use them at the start of the next epoch). -/
theorem C97_leftover {c : Cfg X} (hv : ValidSize c) (hlt : c.batchSize < c.data.length)
    (hl : c.useLoader = false) (hm : 0 < c.maxBatch) (evs : List Event) :
    ∀ u ∈ drawn (evaluations straight c St.fresh () evs), ∀ j ∈ u, j < ((c.data.length / c.batchSize * c.batchSize : Nat) : Int) := by
  intro u hu j hj
  obtain ⟨k, hk, huk⟩ := List.getElem_of_mem hu
  have hb := hv.1
  have hq : 0 < c.data.length / c.batchSize := Nat.div_pos hlt.le (by omega)
  obtain ⟨order, h1, ⟨ω', h3⟩, h2⟩ := C97_epochs straight_lawful hv hlt hl hm evs () (k / (c.data.length / c.batchSize))
  have ho : order = List.range c.data.length := h3
  have hlens : ∀ u ∈ ((drawn (evaluations straight c St.fresh () evs)).drop (c.data.length / c.batchSize * (k / (c.data.length / c.batchSize)))).take
      (c.data.length / c.batchSize), u.length = c.batchSize := fun u hu =>
    drawn_lengths straight_lawful hv hlt hl hm evs () u (List.mem_of_mem_drop (List.mem_of_mem_take hu))
  have hmem : u ∈ ((drawn (evaluations straight c St.fresh () evs)).drop (c.data.length / c.batchSize * (k / (c.data.length / c.batchSize)))).take
      (c.data.length / c.batchSize) := by
    rw [List.mem_iff_getElem]
    have hmod := Nat.mod_lt k hq
    have hdm := Nat.div_add_mod k (c.data.length / c.batchSize)
    refine ⟨k % (c.data.length / c.batchSize), ?_, ?_⟩
    · rw [List.length_take, List.length_drop]
      omega
    · rw [List.getElem_take, List.getElem_drop]
      rw [← huk]
      congr 1
  generalize ((drawn (evaluations straight c St.fresh () evs)).drop (c.data.length / c.batchSize * (k / (c.data.length / c.batchSize)))).take
      (c.data.length / c.batchSize) = L at h2 hlens hmem
  have hLlen : L.flatten.length ≤ c.data.length / c.batchSize * c.batchSize := by
    have h4 : L.flatten.length = L.length * c.batchSize := by
      rw [List.length_flatten, List.map_congr_left (g := fun _ => c.batchSize) hlens, List.map_const', List.sum_replicate, smul_eq_mul]
    have h5 := h2.length_le
    rw [List.length_map, ho, List.length_range, h4] at h5
    rw [h4]
    exact Nat.mul_le_mul_right _ ((Nat.le_div_iff_mul_le (by omega)).2 h5)
  have hjm : j ∈ L.flatten := List.mem_flatten.2 ⟨u, hmem, hj⟩
  rw [List.prefix_iff_eq_take.1 h2, ho] at hjm
  obtain ⟨a, ha, hja⟩ := List.getElem_of_mem hjm
  rw [List.getElem_take] at hja
  simp only [List.getElem_map, List.getElem_range] at hja
  rw [List.length_take] at ha
  omega

/-- passes of a data loader, from any reachable state -/
theorem loader_from {r : Rng Ω} (hr : r.Lawful) {c : Cfg X} (hv : ValidSize c) (hlt : c.batchSize < c.data.length)
    (hl : c.useLoader = true) (hd : c.dropLast = false) (hm : 0 < c.maxBatch) (ixs : List Indices) : ∀ s ω, Inv c s →
    (drawn (evaluations r c s ω (ixs.map .use))).take (s.loader.getD []).length <+: (s.loader.getD []).map toInts ∧
    ∀ i : Nat, ∃ order : List Nat, order.Perm (List.range c.data.length) ∧
      ((drawn (evaluations r c s ω (ixs.map .use))).drop ((s.loader.getD []).length + (c.data.length + c.batchSize - 1) / c.batchSize * i)).take
        ((c.data.length + c.batchSize - 1) / c.batchSize) <+: (chunks c.batchSize order).map toInts := by
  induction ixs with
  | nil =>
    intro s ω _
    exact ⟨by simp [evaluations, drawn], fun i => ⟨List.range c.data.length, List.Perm.refl _, by simp [evaluations, drawn]⟩⟩
  | cons ix rest ih =>
    intro s ω hs
    have hinv := eval_inv hr hv hs ix ω
    simp only [List.map_cons, evaluations, drawn_cons]
    by_cases hix : ix = .batch
    · subst hix
      obtain ⟨b, more, rows, ω', h1, h2, h3, h4, h5, h6⟩ := eval_loader hr hv hlt hl hs ω
      have ih' := ih _ (Torch.getBatchData r c s .batch ω).2.2 hinv
      rw [h4] at ih' ⊢
      simp only [pyChunks_pos _ hm, if_true, St.keep, List.singleton_append, Option.getD_some] at ih' ⊢
      obtain ⟨i1, i2⟩ := ih'
      generalize drawn (evaluations r c _ _ (rest.map .use)) = bs at i1 i2 ⊢
      rcases h6 with ⟨h6, _⟩ | ⟨h6, h7, _⟩
      · rw [h6]
        simp only [Option.getD_some, List.length_cons, List.map_cons, List.take_succ_cons]
        refine ⟨(List.cons_prefix_cons).2 ⟨rfl, i1⟩, ?_⟩
        intro i
        obtain ⟨order, ho, hp⟩ := i2 i
        refine ⟨order, ho, ?_⟩
        rw [show more.length + 1 + (c.data.length + c.batchSize - 1) / c.batchSize * i =
          (more.length + (c.data.length + c.batchSize - 1) / c.batchSize * i) + 1 by omega, List.drop_succ_cons]
        exact hp
      · have hz : s.loader.getD [] = [] := by rcases h6 with h | h <;> rw [h] <;> rfl
        rw [hz]
        refine ⟨by simp, ?_⟩
        obtain ⟨order, ho, ⟨hc, _⟩, _⟩ := loaderEpoch_ok hr hv ω
        have hch := hc hd
        rw [h7] at hch
        have hQ : (c.data.length + c.batchSize - 1) / c.batchSize = more.length + 1 := by
          have := congrArg List.length hch
          rw [chunks_length, ho.length_eq, List.length_range, List.length_cons] at this
          exact this.symm
        intro i
        cases i with
        | zero =>
          refine ⟨order, ho, ?_⟩
          rw [← hch, hQ, Nat.mul_zero, List.length_nil, Nat.add_zero, List.drop_zero, List.take_succ_cons, List.map_cons]
          exact (List.cons_prefix_cons).2 ⟨rfl, i1⟩
        | succ i =>
          obtain ⟨order', ho', hp⟩ := i2 i
          refine ⟨order', ho', ?_⟩
          have : ([] : List (List Nat)).length + (c.data.length + c.batchSize - 1) / c.batchSize * (i + 1) =
              (more.length + (c.data.length + c.batchSize - 1) / c.batchSize * i) + 1 := by
            rw [Nat.mul_succ, List.length_nil]; omega
          rw [this, List.drop_succ_cons]
          exact hp
    · have ho := eval_other (r := r) hs ix hix ω
      have := ih _ (Torch.getBatchData r c s ix ω).2.2 hinv
      rw [ho.2.1] at this
      simp only [if_neg hix, List.nil_append]
      exact this

/-- **C97.** With a data loader that keeps its last, smaller batch, mini-batches come in passes of `⌈n / b⌉` batches, as long as
the cost is not pickled: the batches of a pass are the consecutive pieces of one order of all samples, so a complete pass uses
every sample exactly once. -/
theorem C97_loader {r : Rng Ω} (hr : r.Lawful) {c : Cfg X} (hv : ValidSize c) (hlt : c.batchSize < c.data.length)
    (hl : c.useLoader = true) (hd : c.dropLast = false) (hm : 0 < c.maxBatch) (ixs : List Indices) (ω : Ω) (i : Nat) :
    let passLength := (c.data.length + c.batchSize - 1) / c.batchSize
    let pass := ((drawn (evaluations r c St.fresh ω (ixs.map .use))).drop (passLength * i)).take passLength
    pass.flatten.Nodup ∧ (passLength * (i + 1) ≤ (drawn (evaluations r c St.fresh ω (ixs.map .use))).length →
      pass.flatten.Perm (positions c.data.length)) := by
  intro passLength pass
  obtain ⟨order, ho, hp⟩ := (loader_from hr hv hlt hl hd hm ixs St.fresh ω (inv_fresh c)).2 i
  simp only [St.fresh, Option.getD_none, List.length_nil, Nat.zero_add] at hp
  have hp' : pass <+: (chunks c.batchSize order).map toInts := hp
  have hfl : ((chunks c.batchSize order).map toInts).flatten = toInts order := by
    rw [← List.map_flatten, cut_flatten _ hv.1]
  have hnd : (toInts order).Nodup := (ho.nodup_iff.2 List.nodup_range).map (fun a b h => by simpa using h)
  refine ⟨?_, ?_⟩
  · obtain ⟨t, ht⟩ := hp'
    rw [← ht, List.flatten_append] at hfl
    rw [← hfl] at hnd
    exact hnd.sublist (List.sublist_append_left _ _)
  · intro hfull
    have : pass = (chunks c.batchSize order).map toInts := by
      apply hp'.eq_of_length
      rw [List.length_map, chunks_length, ho.length_eq, List.length_range]
      show (List.take _ _).length = _
      rw [List.length_take, List.length_drop, Nat.min_eq_left]
      rw [Nat.mul_succ] at hfull
      omega
    rw [this, hfl]
    exact ho.map _

/-! ### the cache is invisible -/

theorem same_up_to_cache {r : Rng Ω} (hr : r.Lawful) {c : Cfg X} (hv : ValidSize c) (hl : c.useLoader = false) {s s' : St X}
    (hs : Inv c s) (hs' : Inv c s') (h1 : s.remaining = s'.remaining) (h2 : s.lastUsed = s'.lastUsed) (ix : Indices) (ω : Ω) :
    (Torch.getBatchData r c s ix ω).1 = (Torch.getBatchData r c s' ix ω).1 ∧
    (Torch.getBatchData r c s ix ω).2.2 = (Torch.getBatchData r c s' ix ω).2.2 ∧
    (Torch.getBatchData r c s ix ω).2.1.remaining = (Torch.getBatchData r c s' ix ω).2.1.remaining ∧
    (Torch.getBatchData r c s ix ω).2.1.lastUsed = (Torch.getBatchData r c s' ix ω).2.1.lastUsed := by
  have hdr : drawTorch r c s ω = drawTorch r c s' ω := by unfold drawTorch; rw [h1]
  cases hf : listFor c ix with
  | some is =>
    rcases eval_list (r := r) hs ix is hf ω with ⟨p, a1, a2⟩ | ⟨e, a1, a2⟩ <;>
    rcases eval_list (r := r) hs' ix is hf ω with ⟨p', b1, b2⟩ | ⟨e', b1, b2⟩ <;> rw [a1] at b1 <;> cases b1 <;>
    rw [a2, b2] <;> simp only [St.keep] <;> tauto
  | none =>
    cases ix with
    | int i => cases hf
    | list l => cases hf
    | all => cases hf
    | str => exact ⟨rfl, rfl, h1, h2⟩
    | batch =>
      have hlt : c.batchSize < c.data.length := by
        simp only [listFor] at hf
        split at hf
        · assumption
        · cases hf
      obtain ⟨q, rows, a1, a2, _, _, a5, _, a7, _⟩ := eval_draw hr hv hlt hl hs ω
      obtain ⟨q', rows', b1, b2, _, _, b5, _, b7, _⟩ := eval_draw hr hv hlt hl hs' ω
      rw [hdr] at a2 a7
      have hqq : q = q' := by rw [a2, b2]
      subst hqq
      rw [a5] at b5
      cases b5
      rw [a7, b7]
      exact ⟨rfl, rfl, rfl, rfl⟩

/-- **C97.** Pickling and restoring a cost that does not use a data loader, at any points of its history, changes no evaluation:
neither the samples nor `batch_used`, nor the batches drawn later (the cached batch is only a shortcut). -/
theorem C97_pickle_invisible {r : Rng Ω} (hr : r.Lawful) {c : Cfg X} (hv : ValidSize c) (hl : c.useLoader = false)
    (evs : List Event) (ω : Ω) :
    evaluations r c St.fresh ω evs = evaluations r c St.fresh ω (evs.filter (fun e => decide (e ≠ .pickle))) := by
  have gen : ∀ (evs : List Event) (s s' : St X) (ω : Ω), Inv c s → Inv c s' → s.remaining = s'.remaining → s.lastUsed = s'.lastUsed →
      evaluations r c s ω evs = evaluations r c s' ω (evs.filter (fun e => decide (e ≠ .pickle))) := by
    intro evs
    induction evs with
    | nil => intro s s' ω _ _ _ _; rfl
    | cons ev rest ih =>
      intro s s' ω hs hs' h1 h2
      cases ev with
      | pickle =>
        rw [List.filter_cons_of_neg (by simp)]
        exact ih s.restored s' ω (inv_restored hs) hs' h1 h2
      | use ix =>
        rw [List.filter_cons_of_pos (by simp)]
        obtain ⟨a1, a2, a3, a4⟩ := same_up_to_cache hr hv hl hs hs' h1 h2 ix ω
        simp only [evaluations]
        rw [a1, a4, ih _ _ _ (eval_inv hr hv hs ix ω) (eval_inv hr hv hs' ix ω) a3 a4, a2]
  exact gen evs St.fresh St.fresh ω (inv_fresh c) (inv_fresh c) rfl rfl

/-! ### concrete histories -/

/-- five samples, batches of two, computed at most three at a time -/
def torch5 : Cfg Nat := ⟨[10, 11, 12, 13, 14], 2, 3, false, true, false, true⟩

example : ValidSize torch5 := ⟨by decide, by decide⟩
example : construct [10, 11, 12, 13, 14] (.int 2) (some 3) false true false true = .ok torch5 := rfl
example : (evaluations straight torch5 St.fresh () [.use .batch, .use .all, .pickle, .use .batch, .use (.list [4, -5]), .use .batch]).map
    (fun e => (e.result.toOption, e.used)) =
    [(some [[10, 11]], [0, 1]), (some [[10, 11, 12], [13, 14]], [0, 1, 2, 3, 4]), (some [[12, 13]], [2, 3]),
     (some [[14, 10]], [4, -5]), (some [[10, 11]], [0, 1])] := by decide +kernel
/-- a full-length list of a loaded data set is replaced by the whole data set; an unloaded one respects it -/
example : (evaluations straight torch5 St.fresh () [.use (.list [4, 3, 2, 1, 1])]).map (fun e => e.used) = [[0, 1, 2, 3, 4]] ∧
    (evaluations straight { torch5 with loadDataset := false } St.fresh () [.use (.list [4, 3, 2, 1, 1])]).map (fun e => e.used) =
      [[4, 3, 2, 1, 1]] := by decide +kernel
/-- with a data loader, the last batch of a pass is smaller and every sample is used -/
example : drawn (evaluations straight { torch5 with useLoader := true } St.fresh () (List.replicate 4 (.use .batch))) =
    [[0, 1], [2, 3], [4], [0, 1]] := by decide +kernel

end Verif.Props
