import Verif.Model.Handlers
import Verif.Props.Partition
import Verif.Props.LabelQuantity
import Verif.Props.StateMetrics
import Mathlib.Data.List.GetD
/-!
# C117: the Kaggle and PyTorch dataset handlers
-/
set_option linter.unusedSectionVars false
namespace Verif
namespace Props
open Part Handlers

/-! ### specification -/

/-- the entry of row `i` in the column called `c` -/
def entryAt (df : Handlers.Table) (i : Nat) (c : String) : Scalar := (df.rows.getD i []).getD (df.columns.idxOf c) .nan

/-- a data frame whose columns have different names -/
structure FrameOK (df : Handlers.Table) : Prop where
  names : df.columns.Nodup
  width : ∀ r ∈ df.rows, r.length = df.columns.length

/-- partitions as the user writes them down -/
def asIdx (parts : List (List Nat)) : List (List Idx) := parts.map fun p => p.map fun i : Nat => Idx.int (i : Int)

/-- indices of different samples of a dataset of `n` -/
def Disjoint_ (n : Nat) (parts : List (List Nat)) : Prop := parts.flatten.Nodup ∧ ∀ i ∈ parts.flatten, i < n

/-! ### Kaggle -/

/-- The constructor raises ImportError without the packages, RuntimeError if nothing was loaded, ValueError if the label column is not in the
frame; otherwise it succeeds and keeps what it was given. -/
theorem C117_kaggle_construct (available : Bool) (df : Option Handlers.Table) (fs ts : List String) (c : Option String) :
    (available = false → Kaggle.construct available df fs ts c = .error .importError) ∧
    (available = true → df = none → Kaggle.construct available df fs ts c = .error .runtimeError) ∧
    (∀ d, available = true → df = some d → (∃ l, c = some l ∧ l ∉ d.columns) → Kaggle.construct available df fs ts c = .error .valueError) ∧
    (∀ d, available = true → df = some d → (∀ l, c = some l → l ∈ d.columns) → Kaggle.construct available df fs ts c = .ok ⟨d, fs, ts, c⟩) := by
  refine ⟨?_, ?_, ?_, ?_⟩
  · rintro rfl; rfl
  · rintro rfl rfl; rfl
  · rintro d rfl rfl ⟨l, rfl, hl⟩
    simp [Kaggle.construct, hl]
  · rintro d rfl rfl h
    cases c with
    | none => rfl
    | some l => simp [Kaggle.construct, h l rfl]

theorem valuesIn_eq {columns : List String} (hn : columns.Nodup) {row : List Scalar} (hr : row.length = columns.length) {c : String}
    (hc : c ∈ columns) : valuesIn columns row c = [row.getD (columns.idxOf c) .nan] := by
  unfold valuesIn
  induction columns generalizing row with
  | nil => cases hc
  | cons a t ih =>
    cases row with
    | nil => cases hr
    | cons x xs =>
      rw [List.nodup_cons] at hn
      have hlen : xs.length = t.length := by simpa using hr
      by_cases hac : a = c
      · subst hac
        have : (t.zip xs).filter (fun p => p.1 == a) = [] := by
          rw [List.filter_eq_nil_iff]
          intro p hp hpa
          have := (List.of_mem_zip hp).1
          rw [eq_of_beq hpa] at this
          exact hn.1 this
        simp [this]
      · have hct : c ∈ t := by
          rcases List.mem_cons.mp hc with h | h
          · exact absurd h.symm hac
          · exact h
        have := ih hn.2 hlen hct
        rw [List.zip_cons_cons, List.filter_cons_of_neg (by simpa using hac), this, List.idxOf_cons_ne _ hac]
        rfl

theorem pick_ok {columns : List String} (hn : columns.Nodup) {row : List Scalar} (hr : row.length = columns.length) (cs : List String)
    (hc : ∀ c ∈ cs, c ∈ columns) : pick columns row cs = .ok (cs.map fun c => row.getD (columns.idxOf c) .nan) := by
  induction cs with
  | nil => rfl
  | cons c t ih =>
    simp only [pick]
    rw [if_pos (hc c (by simp)), ih (fun d hd => hc d (by simp [hd])), valuesIn_eq hn hr (hc c (by simp))]
    rfl

theorem pick_missing {columns : List String} (row : List Scalar) (cs : List String) (hc : ∃ c ∈ cs, c ∉ columns) :
    pick columns row cs = .error .keyError := by
  induction cs with
  | nil => obtain ⟨c, h, _⟩ := hc; cases h
  | cons c t ih =>
    simp only [pick]
    by_cases h : c ∈ columns
    · rw [if_pos h, ih]
      · rfl
      · obtain ⟨d, hd, hd'⟩ := hc
        rcases List.mem_cons.mp hd with rfl | hd
        · exact absurd h hd'
        · exact ⟨d, hd, hd'⟩
    · rw [if_neg h]

theorem castAll_ok {R : Type} {conv : Scalar → Option R} (l : List Scalar) (r : List R) :
    castAll conv l = .ok r ↔ List.Forall₂ (fun s v => conv s = some v) l r := by
  induction l generalizing r with
  | nil =>
    constructor
    · intro h; cases h; exact .nil
    · intro h; cases h; rfl
  | cons s t ih =>
    simp only [castAll]
    constructor
    · intro h
      split at h
      · cases h
      · rename_i v hv
        cases ht : castAll conv t with
        | error e => rw [ht] at h; cases h
        | ok rest =>
          rw [ht] at h
          cases h
          exact .cons hv ((ih rest).mp ht)
    · intro h
      cases h with
      | cons hv ht =>
        rw [hv]
        simp only []
        rw [(ih _).mpr ht]
        rfl

/-- what a datapoint of row `i` is -/
def IsPoint {R : Type} (conv : Scalar → Option R) (k : Kaggle) (i : Nat) (p : List R × List R) : Prop :=
  List.Forall₂ (fun c v => conv (entryAt k.df i c) = some v) k.features p.1 ∧ List.Forall₂ (fun c v => conv (entryAt k.df i c) = some v) k.targets p.2

theorem forall2_map {α β γ : Type} (f : α → β) (R : β → γ → Prop) (l : List α) (r : List γ) :
    List.Forall₂ R (l.map f) r ↔ List.Forall₂ (fun a c => R (f a) c) l r := by
  induction l generalizing r with
  | nil => constructor <;> (intro h; cases h; exact .nil)
  | cons a t ih =>
    constructor
    · intro h; cases h with | cons h1 h2 => exact .cons h1 ((ih _).mp h2)
    · intro h; cases h with | cons h1 h2 => exact .cons h1 ((ih _).mpr h2)

theorem point_spec {R : Type} (conv : Scalar → Option R) {k : Kaggle} (hf : FrameOK k.df) (h1 : ∀ c ∈ k.features, c ∈ k.df.columns)
    (h2 : ∀ c ∈ k.targets, c ∈ k.df.columns) {i : Nat} (hi : i < k.n) (p : List R × List R) :
    k.point conv (k.df.rows.getD i []) = .ok p ↔ IsPoint conv k i p := by
  have hrow : (k.df.rows.getD i []).length = k.df.columns.length := by
    rw [List.getD_eq_getElem _ _ hi]; exact hf.width _ (List.getElem_mem hi)
  unfold Kaggle.point IsPoint
  rw [pick_ok hf.names hrow _ h1, pick_ok hf.names hrow _ h2]
  have e1 : ∀ cs : List String, ∀ v : List R, castAll conv (cs.map fun c => (k.df.rows.getD i []).getD (k.df.columns.idxOf c) .nan) = .ok v ↔
      List.Forall₂ (fun c v => conv (entryAt k.df i c) = some v) cs v := by
    intro cs v
    rw [castAll_ok, forall2_map]
    rfl
  constructor
  · intro h
    cases ha : castAll conv (k.features.map fun c => (k.df.rows.getD i []).getD (k.df.columns.idxOf c) .nan) with
    | error e => simp only [Except.bind, bind, ha] at h; cases h
    | ok x =>
      cases hb : castAll conv (k.targets.map fun c => (k.df.rows.getD i []).getD (k.df.columns.idxOf c) .nan) with
      | error e => simp only [Except.bind, bind, ha, hb] at h; cases h
      | ok y =>
        simp only [Except.bind, bind, ha, hb] at h
        cases h
        exact ⟨(e1 _ _).mp ha, (e1 _ _).mp hb⟩
  · rintro ⟨ha, hb⟩
    have ha := (e1 _ _).mpr ha
    have hb := (e1 _ _).mpr hb
    simp only [Except.bind, bind, ha, hb]

/-- With the feature and target columns in the frame, `get_datapoints` gives one datapoint per row, in row order, holding the converted entries
of the feature columns in the configured order and of the target columns in the configured order, so as many as `n_features` and `n_targets`
report; and it returns as soon as all these entries can be converted. -/
theorem C117_kaggle_data {R : Type} (conv : Scalar → Option R) (k : Kaggle) (hf : FrameOK k.df) (h1 : ∀ c ∈ k.features, c ∈ k.df.columns)
    (h2 : ∀ c ∈ k.targets, c ∈ k.df.columns) :
    (∀ pts, k.datapoints conv = .ok pts → pts.length = k.n ∧ ∀ i p, pts[i]? = some p → IsPoint conv k i p ∧
      p.1.length = k.features.length ∧ p.2.length = k.targets.length) ∧
    ((∀ i < k.n, ∀ c, c ∈ k.features ∨ c ∈ k.targets → (conv (entryAt k.df i c)).isSome) → ∃ pts, k.datapoints conv = .ok pts) := by
  have key : ∀ pts, k.datapoints conv = .ok pts ↔ pts.length = k.n ∧ ∀ i p, pts[i]? = some p → IsPoint conv k i p := by
    intro pts
    unfold Kaggle.datapoints Kaggle.create
    rw [mapM_ok, List.forall₂_iff_get]
    constructor
    · rintro ⟨hl, h⟩
      refine ⟨hl.symm, ?_⟩
      intro i p hp
      obtain ⟨hi, hp⟩ := List.getElem?_eq_some_iff.mp hp
      have hi' : i < k.df.rows.length := by omega
      have := h i hi' hi
      rw [List.get_eq_getElem, List.get_eq_getElem, hp] at this
      rw [← point_spec conv hf h1 h2 hi', List.getD_eq_getElem _ _ hi']
      exact this
    · rintro ⟨hl, h⟩
      refine ⟨hl.symm, ?_⟩
      intro i hi hi'
      have := h i _ (List.getElem?_eq_getElem hi')
      rw [← point_spec conv hf h1 h2 hi, List.getD_eq_getElem _ _ hi] at this
      exact this
  constructor
  · intro pts hp
    obtain ⟨hl, h⟩ := (key pts).mp hp
    refine ⟨hl, fun i p hip => ?_⟩
    have := h i p hip
    exact ⟨this, this.1.length_eq.symm, this.2.length_eq.symm⟩
  · intro hc
    have ex : ∀ i < k.n, ∃ p : List R × List R, IsPoint conv k i p := by
      intro i hi
      have build : ∀ cs : List String, (∀ c ∈ cs, (conv (entryAt k.df i c)).isSome) →
          ∃ v : List R, List.Forall₂ (fun c v => conv (entryAt k.df i c) = some v) cs v := by
        intro cs
        induction cs with
        | nil => intro _; exact ⟨[], .nil⟩
        | cons c t ih =>
          intro h
          obtain ⟨v, hv⟩ := Option.isSome_iff_exists.mp (h c (by simp))
          obtain ⟨vs, hvs⟩ := ih fun d hd => h d (by simp [hd])
          exact ⟨v :: vs, .cons hv hvs⟩
      obtain ⟨x, hx⟩ := build k.features fun c hc' => hc i hi c (Or.inl hc')
      obtain ⟨y, hy⟩ := build k.targets fun c hc' => hc i hi c (Or.inr hc')
      exact ⟨(x, y), hx, hy⟩
    classical
    refine ⟨(List.range k.n).pmap (fun i hi => (ex i hi).choose) (fun i hi => List.mem_range.mp hi), (key _).mpr ⟨by simp, ?_⟩⟩
    intro i p hp
    obtain ⟨hi, hp⟩ := List.getElem?_eq_some_iff.mp hp
    simp only [List.getElem_pmap, List.getElem_range] at hp
    rw [← hp]
    exact (ex i (by simpa using hi)).choose_spec

/-- A misspelt feature or target column is not noticed by the constructor, although a misspelt label column is: the handler reports its
sizes, and raises KeyError only when data is read, for every frame with rows. -/
theorem C117_kaggle_missing_column_refuted {R : Type} (conv : Scalar → Option R) (df : Handlers.Table) (hr : df.rows ≠ []) (fs ts : List String)
    (hm : ∃ c ∈ fs, c ∉ df.columns) :
    ∃ k, Kaggle.construct true (some df) fs ts none = .ok k ∧ k.n = df.rows.length ∧ k.datapoints conv = .error .keyError := by
  refine ⟨⟨df, fs, ts, none⟩, rfl, rfl, ?_⟩
  unfold Kaggle.datapoints Kaggle.create
  cases hd : df.rows with
  | nil => exact absurd hd hr
  | cons a t =>
    rw [List.mapM_cons]
    have : Kaggle.point conv (⟨df, fs, ts, none⟩ : Kaggle) a = .error .keyError := by
      unfold Kaggle.point
      rw [pick_missing a fs hm]
      rfl
    rw [this]
    rfl

/-- The labels are the entries of the label column, or of the only target column if no label column was configured, one per row in row order;
with several target columns (or none) and no label column ValueError, with an unknown target column KeyError. -/
theorem C117_kaggle_labels (k : Kaggle) (hk : ∀ c, k.labelColumn = some c → c ∈ k.df.columns) :
    (∀ c, (k.labelColumn = some c ∨ (k.labelColumn = none ∧ k.targets = [c] ∧ c ∈ k.df.columns)) →
      k.labels = .ok ((List.range k.n).map fun i => Label.scalar (entryAt k.df i c))) ∧
    (k.labelColumn = none → k.targets.length ≠ 1 → k.labels = .error .valueError) ∧
    (∀ c, k.labelColumn = none → k.targets = [c] → c ∉ k.df.columns → k.labels = .error .keyError) := by
  have col : ∀ c, c ∈ k.df.columns → columnOf k.df c = .ok ((List.range k.n).map fun i => entryAt k.df i c) := by
    intro c hc
    unfold columnOf
    rw [if_pos hc]
    congr 1
    apply List.ext_getElem
    · simp [Kaggle.n]
    · intro i h1 h2
      simp only [List.getElem_map, List.getElem_range, entryAt]
      rw [List.getD_eq_getElem k.df.rows [] (by simpa using h1)]
  refine ⟨?_, ?_, ?_⟩
  · rintro c (hc | ⟨hc, ht, hm⟩)
    · unfold Kaggle.labels
      rw [hc]
      simp only []
      rw [col c (hk c hc)]
      simp [Except.map]
    · unfold Kaggle.labels
      rw [hc, ht]
      simp only []
      rw [col c hm]
      simp [Except.map]
  · intro hc ht
    unfold Kaggle.labels
    rw [hc]
    simp only []
    split
    · rename_i c h; rw [h] at ht; exact absurd rfl ht
    · rfl
  · intro c hc ht hm
    unfold Kaggle.labels columnOf
    rw [hc, ht]
    simp only []
    rw [if_neg hm]
    rfl

/-- Without a label column, the label of a row and the target of its datapoint are the same entry, as read and as converted. -/
theorem C117_kaggle_label_is_target {R : Type} (conv : Scalar → Option R) (k : Kaggle) (hf : FrameOK k.df) (h1 : ∀ c ∈ k.features, c ∈ k.df.columns)
    (c : String) (hl : k.labelColumn = none) (ht : k.targets = [c]) (hc : c ∈ k.df.columns) (pts : List (List R × List R))
    (hp : k.datapoints conv = .ok pts) :
    ∃ ls, k.labels = .ok ls ∧ ls.length = pts.length ∧ ∀ (i : Nat) (p : List R × List R), pts[i]? = some p →
      ∃ s r, ls[i]? = some (Label.scalar s) ∧ conv s = some r ∧ p.2 = [r] := by
  have hlab := (C117_kaggle_labels k (by rw [hl]; intro c h; cases h)).1 c (Or.inr ⟨hl, ht, hc⟩)
  obtain ⟨hlen, hpt⟩ := (C117_kaggle_data conv k hf h1 (by rw [ht]; simpa using hc)).1 pts hp
  refine ⟨_, hlab, by simp [hlen], ?_⟩
  intro i p hip
  have hi : i < k.n := by rw [← hlen]; exact (List.getElem?_eq_some_iff.mp hip).1
  obtain ⟨⟨_, h2⟩, _⟩ := hpt i p hip
  rw [ht] at h2
  cases hp2 : p.2 with
  | nil => rw [hp2] at h2; cases h2
  | cons r rest =>
    rw [hp2] at h2
    cases h2 with
    | cons h3 h4 =>
      cases h4
      exact ⟨entryAt k.df i c, r, by simp [hi], h3, rfl⟩

theorem resolve_asIdx {n : Nat} {parts : List (List Nat)} (h : Disjoint_ n parts) : resolvePartitions n (asIdx parts) = .ok parts := by
  have := (C48_split_iff n (fun i => i) (asIdx parts) (parts.map fun p => p.map fun i => i)).mpr ⟨parts, rfl, h.1, h.2, rfl⟩
  unfold splitData at this
  cases hr : resolvePartitions n (asIdx parts) with
  | error e => rw [hr] at this; cases this
  | ok q =>
    rw [hr] at this
    simp only [List.map_id', Except.ok.injEq] at this
    rw [this]

/-- Splitting: for all partitions into different samples the pieces hold exactly the datapoints with the given indices, in the given order. -/
theorem C117_kaggle_split {R : Type} (conv : Scalar → Option R) (k : Kaggle) (pts : List (List R × List R)) (hp : k.datapoints conv = .ok pts)
    (parts : List (List Nat)) (hd : Disjoint_ k.n parts) :
    ∃ pieces, k.split conv (asIdx parts) = .ok pieces ∧ List.Forall₂ (fun is piece => is.map (fun i => pts[i]?) = piece.map some) parts pieces := by
  unfold Kaggle.datapoints Kaggle.create at hp
  rw [mapM_ok, List.forall₂_iff_get] at hp
  obtain ⟨hlen, hp⟩ := hp
  have hat : ∀ i, i < k.n → ∃ p, pts[i]? = some p ∧ k.point conv (k.df.rows.getD i []) = .ok p := by
    intro i hi
    have hi' : i < pts.length := by have : k.n = pts.length := hlen; omega
    refine ⟨pts[i], List.getElem?_eq_getElem hi', ?_⟩
    rw [List.getD_eq_getElem _ _ hi]
    exact hp i hi hi'
  have one : ∀ is : List Nat, (∀ i ∈ is, i < k.n) → ∃ piece, k.create conv (is.map fun i => k.df.rows.getD i []) = .ok piece ∧
      is.map (fun i => pts[i]?) = piece.map some := by
    intro is
    induction is with
    | nil => intro _; exact ⟨[], rfl, rfl⟩
    | cons i t ih =>
      intro h
      obtain ⟨p, hp1, hp2⟩ := hat i (h i (by simp))
      obtain ⟨piece, h1, h2⟩ := ih fun j hj => h j (by simp [hj])
      refine ⟨p :: piece, ?_, by simp [hp1, h2]⟩
      unfold Kaggle.create at h1 ⊢
      rw [List.map_cons, List.mapM_cons, hp2, h1]
      rfl
  have all : ∀ l : List (List Nat), (∀ i ∈ l.flatten, i < k.n) →
      ∃ pieces, l.mapM (fun is => k.create conv (is.map fun i => k.df.rows.getD i [])) = .ok pieces ∧
        List.Forall₂ (fun is piece => is.map (fun i => pts[i]?) = piece.map some) l pieces := by
    intro l
    induction l with
    | nil => intro _; exact ⟨[], rfl, .nil⟩
    | cons a t ih =>
      intro h
      obtain ⟨piece, h1, h2⟩ := one a fun i hi => h i (by simp [hi])
      obtain ⟨pieces, h3, h4⟩ := ih fun i hi => h i (by rw [List.flatten_cons, List.mem_append]; exact Or.inr hi)
      refine ⟨piece :: pieces, ?_, .cons h2 h4⟩
      rw [List.mapM_cons, h1, h3]
      rfl
  obtain ⟨pieces, h1, h2⟩ := all parts hd.2
  refine ⟨pieces, ?_, h2⟩
  unfold Kaggle.split
  rw [resolve_asIdx hd]
  exact h1

/-! ### PyTorch -/

variable {X : Type}

/-- the labels a PyTorch dataset reports through its attributes are those of its items -/
def LabelsAgree (d : TorchData X) : Prop :=
  (∀ l, d.targets = some l → l = d.datapoints.map Prod.snd) ∧ (d.targets = none → ∀ l, d.labels = some l → l = d.datapoints.map Prod.snd)

/-- The labels are the targets of the datapoints, one each and in the same order, for exactly the datasets whose attribute `targets` (or, without
it, `labels`) says so; a dataset without these attributes is one of them. -/
theorem C117_torch_labels (d : TorchData X) : d.getLabels = d.datapoints.map Prod.snd ↔ LabelsAgree d := by
  unfold TorchData.getLabels LabelsAgree
  constructor
  · intro h
    refine ⟨fun l hl => ?_, fun hn l hl => ?_⟩
    · rw [hl] at h; exact h
    · rw [hn, hl] at h; exact h
  · rintro ⟨h1, h2⟩
    split
    · rename_i l hl; exact h1 l hl
    · rename_i hn
      split
      · rename_i l hl; exact h2 hn l hl
      · simp [TorchData.datapoints]

/-- The handler promises to preserve transforms, but with a transform of the targets the labels are those before the transform: for every
dataset keeping its raw targets in `targets`, the labels are the raw ones, whatever the items hold. -/
theorem C117_torch_transform_refuted (d : TorchData X) (f : Label → Label) (raw : List Label) (hraw : d.targets = some raw)
    (hitem : d.datapoints.map Prod.snd = raw.map f) (hf : ∃ l ∈ raw, f l ≠ l) : d.getLabels = raw ∧ d.getLabels ≠ d.datapoints.map Prod.snd := by
  have e : d.getLabels = raw := by unfold TorchData.getLabels; rw [hraw]
  refine ⟨e, ?_⟩
  rw [e, hitem]
  intro h
  obtain ⟨l, hl, hne⟩ := hf
  obtain ⟨i, hi, rfl⟩ := List.getElem_of_mem hl
  have hi' : i < (raw.map f).length := by simpa using hi
  have : raw[i] = (raw.map f)[i] := List.getElem_of_eq h hi
  rw [List.getElem_map] at this
  exact hne this.symm

/-- All datapoints, and splitting: the pieces read exactly the items with the given indices, in the given order. -/
theorem C117_torch_split (d : TorchData X) (parts : List (List Nat)) (hd : Disjoint_ d.len parts) :
    d.split (asIdx parts) = .ok (parts.map fun is => is.map d.item) ∧ d.datapoints.length = d.len ∧ ∀ i < d.len, d.datapoints[i]? = some (d.item i) := by
  refine ⟨(C48_split_iff d.len d.item (asIdx parts) _).mpr ⟨parts, rfl, hd.1, hd.2, rfl⟩, by simp [TorchData.datapoints], ?_⟩
  intro i hi
  simp [TorchData.datapoints, hi]

/-! ### what counts as the same label -/

/-- no missing value in a label -/
def Complete : Label → Prop
  | .scalar s => s ≠ .nan
  | .array xs => Scalar.nan ∉ xs

theorem entry_inj {i j p : Nat} {a b : Scalar} (h : a.entry i p = b.entry j p) : (a = b ∧ a ≠ .nan) ∨ (a = .nan ∧ b = .nan ∧ i = j) := by
  cases a <;> cases b <;> simp [Scalar.entry] at h <;> simp [h]

theorem normLabel_eq {i j : Nat} {a b : Label} : normLabel i a = normLabel j b ↔ (a = b ∧ (Complete a ∨ i = j)) := by
  constructor
  · intro h
    cases a with
    | scalar a =>
      cases b with
      | scalar b =>
        simp only [normLabel, Norm.one.injEq] at h
        rcases entry_inj h with ⟨rfl, h1⟩ | ⟨rfl, rfl, h1⟩
        · exact ⟨rfl, Or.inl h1⟩
        · exact ⟨rfl, Or.inr h1⟩
      | array ys => cases h
    | array xs =>
      cases b with
      | scalar b => cases h
      | array ys =>
        simp only [normLabel, Norm.tuple.injEq] at h
        have hlen : xs.length = ys.length := by have := congrArg List.length h; simpa using this
        have hat : ∀ p (hp : p < xs.length), (xs[p]).entry i p = (ys[p]'(hlen ▸ hp)).entry j p := by
          intro p hp
          have := List.getElem_of_eq h (by simpa using hp : p < (xs.mapIdx fun j s => s.entry i j).length)
          simpa using this
        refine ⟨?_, ?_⟩
        · congr 1
          apply List.ext_getElem hlen
          intro p hp hp'
          rcases entry_inj (hat p hp) with ⟨h1, _⟩ | ⟨h1, h2, _⟩
          · exact h1
          · rw [h1, h2]
        · by_cases hn : Scalar.nan ∈ xs
          · obtain ⟨p, hp, hpn⟩ := List.getElem_of_mem hn
            right
            rcases entry_inj (hat p hp) with ⟨_, h2⟩ | ⟨_, _, h2⟩
            · exact absurd hpn h2
            · exact h2
          · exact Or.inl hn
  · rintro ⟨rfl, h | rfl⟩
    · cases a with
      | scalar a =>
        have h : a ≠ .nan := h
        cases a <;> first | rfl | exact absurd rfl h
      | array xs =>
        have h : Scalar.nan ∉ xs := h
        simp only [normLabel]
        congr 1
        apply List.ext_getElem (by simp)
        intro p hp hp'
        simp only [List.getElem_mapIdx]
        have : xs[p]'(by simpa using hp) ≠ .nan := by
          intro hc
          exact h (hc ▸ List.getElem_mem _)
        generalize xs[p]'(by simpa using hp) = s at this
        cases s <;> first | rfl | exact absurd rfl this
    · rfl

/-- The label-based partitioners treat two samples as one class exactly if their labels are equal (numbers by value, arrays entry by entry) and
complete. -/
theorem C117_same_class (n : Nat) (ls : List Label) (i j : Nat) (a b : Label) (hi : ls[i]? = some a) (hj : ls[j]? = some b) :
    (labelled n ls).labels[i]? = (labelled n ls).labels[j]? ↔ a = b ∧ (Complete a ∨ i = j) := by
  have e : ∀ m c, ls[m]? = some c → (labelled n ls).labels[m]? = some (normLabel m c) := by
    intro m c h
    simp [labelled, h]
  rw [e i a hi, e j b hj, Option.some.injEq, normLabel_eq]

/-- Samples with a missing label are not one class: each of them is a class of its own, so with `k` missing labels there are at least `k`
classes. -/
theorem C117_missing_labels_refuted (n : Nat) (ls : List Label) (i j : Nat) (hi : ls[i]? = some (.scalar .nan)) (hj : ls[j]? = some (.scalar .nan))
    (hij : i ≠ j) : (labelled n ls).labels[i]? ≠ (labelled n ls).labels[j]? := by
  intro h
  obtain ⟨_, h | h⟩ := (C117_same_class n ls i j _ _ hi hj).mp h
  · exact h rfl
  · exact hij h

/-! ### partition, then split -/

theorem disjoint_of_fulfils {n : Nat} {p : Int} {s : Samples} {parts : List (List Nat)} (h : Fulfils n p s parts) : Disjoint_ n parts := by
  obtain ⟨_, _, h, _⟩ := h
  exact h.2

theorem disjoint_of_perm {n : Nat} {parts : List (List Nat)} (h : parts.flatten.Perm (List.range n)) : Disjoint_ n parts :=
  ⟨(h.nodup_iff).mpr List.nodup_range, fun i hi => List.mem_range.mp (h.mem_iff.mp hi)⟩

theorem labelled_length (n : Nat) (ls : List Label) : (labelled n ls).labels.length = ls.length := by simp [labelled]

/-- Every request that `split_iid`, `split_stratified_iid`, `split_dirichlet_label` or `split_shard` grants can be materialised, by every handler
of either kind: what the partitioner returns always satisfies `split`, and every sample ends in at most one piece. -/
theorem C117_partition_then_split {Ω : Type} {r : Rng Ω} (hr : r.Lawful) {frac : Frac} (hf : frac.Lawful) (le : Norm → Norm → Bool) (n : Nat)
    (ls : List Label) (hl : ls.length = n) (p : Int) (ω : Ω) :
    (∀ s, ValidRequest n p s → ∃ parts ω', splitIid r n p s ω = .ok (parts, ω') ∧ Disjoint_ n parts) ∧
    (∀ s, ValidRequest n p s → ∃ parts ω', splitStratified r frac le (labelled n ls) p s ω = .ok (parts, ω') ∧ Disjoint_ n parts) ∧
    (∀ alpha : ℚ, 0 < alpha → ∀ s, ValidRequest n p s →
      ∃ parts ω', splitDirichlet r frac (labelled n ls) p alpha s 0 100 ω = .ok (parts, ω') ∧ Disjoint_ n parts) ∧
    (∀ spp, 0 < p → 0 < spp → p * spp ≤ n → ∃ parts ω', splitShard r le (labelled n ls) p spp ω = .ok (parts, ω') ∧ Disjoint_ n parts) := by
  have hn : (labelled n ls).labels.length = (labelled n ls).n := by rw [labelled_length]; exact hl
  refine ⟨?_, ?_, ?_, ?_⟩
  · intro s hv
    obtain ⟨parts, ω', h1, h2⟩ := (C44_iid hr n p s ω).1 hv
    exact ⟨parts, ω', h1, disjoint_of_fulfils h2⟩
  · intro s hv
    obtain ⟨parts, ω', h1, h2, _⟩ := (C44_stratified hr hf le (labelled n ls) p s ω).1 ⟨hn, hv⟩
    exact ⟨parts, ω', h1, disjoint_of_fulfils h2⟩
  · intro alpha ha s hv
    obtain ⟨parts, ω', h1, h2, _⟩ := (C44_dirichlet hr hf (labelled n ls) p alpha s 0 100 ω).1
      ⟨ha, by omega, by omega, hn, hv, fun sizes _ k _ => by omega⟩
    exact ⟨parts, ω', h1, disjoint_of_fulfils h2⟩
  · intro spp h1 h2 h3
    obtain ⟨parts, ω', h4, _, h5, _⟩ := (C46_shard hr le (labelled n ls) p spp ω).1 ⟨h1, h2, hn, h3⟩
    exact ⟨parts, ω', h4, disjoint_of_perm h5⟩

/-- A PyTorch dataset whose `targets` list does not have one entry per item (a subset that kept the targets of the whole dataset, say) cannot
be partitioned by label at all: all four label-based partitioners raise ValueError, whatever the request. -/
theorem C117_torch_wrong_length {Ω : Type} {r : Rng Ω} (hr : r.Lawful) {frac : Frac} (hf : frac.Lawful) (le : Norm → Norm → Bool) (d : TorchData X)
    (hne : d.getLabels.length ≠ d.len) (p : Int) (ω : Ω) :
    (∀ s, splitStratified r frac le (labelled d.len d.getLabels) p s ω = .error .valueError) ∧
    (∀ alpha s lo tries, splitDirichlet r frac (labelled d.len d.getLabels) p alpha s lo tries ω = .error .valueError) ∧
    (∀ spp, splitShard r le (labelled d.len d.getLabels) p spp ω = .error .valueError) ∧
    (∀ classes s, ∃ B, ∀ fuel, B ≤ fuel → splitLabelQuantity r le (labelled d.len d.getLabels) p classes s fuel ω = some (.error .valueError)) := by
  have hn : (labelled d.len d.getLabels).labels.length ≠ (labelled d.len d.getLabels).n := by rw [labelled_length]; exact hne
  refine ⟨?_, ?_, ?_, ?_⟩
  · intro s; exact (C44_stratified hr hf le _ p s ω).2 fun h => hn h.1
  · intro alpha s lo tries; exact (C44_dirichlet hr hf _ p alpha s lo tries ω).2 fun h => hn h.2.2.2.1
  · intro spp; exact (C46_shard hr le _ p spp ω).2 fun h => hn h.2.2.1
  · intro classes s
    obtain ⟨res, ⟨B, hB⟩, h1, _⟩ := C47_label_quantity hr le (labelled d.len d.getLabels) p classes s ω
    refine ⟨B, fun fuel hfu => ?_⟩
    rw [hB fuel hfu, h1 fun h => hn h.2.2.1]

/-! ### examples -/

/-- three rows, the last without a class -/
def animals : Handlers.Table :=
  ⟨["size", "class", "weight"], [[.num 1, .str "cat", .num 4], [.num 2, .str "cow", .num 700], [.num 3, .nan, .num 5]]⟩

example : FrameOK animals := ⟨by decide, by intro r hr; simp [animals] at hr; rcases hr with rfl | rfl | rfl <;> rfl⟩

/-- numbers only -/
def toNumber : Scalar → Option ℚ
  | .num q => some q
  | _ => none

example : (Kaggle.datapoints toNumber ⟨animals, ["weight", "size"], ["size"], some "class"⟩) =
    .ok [([4, 1], [1]), ([700, 2], [2]), ([5, 3], [3])] := rfl

example : (Kaggle.split toNumber ⟨animals, ["weight"], ["size"], some "class"⟩ (asIdx [[2], [0]])) = .ok [[([5], [3])], [([4], [1])]] := rfl

example : Disjoint_ 3 [[2], [0]] := ⟨by decide, by decide⟩

/-- two items whose targets are the raw ones plus one -/
def plusOne : TorchData Unit := ⟨2, fun i => ((), .scalar (.num (i + 1))), some [.scalar (.num 0), .scalar (.num 1)], none⟩

example : plusOne.targets = some [.scalar (.num 0), .scalar (.num 1)] ∧ plusOne.datapoints.map Prod.snd = [.scalar (.num 1), .scalar (.num 2)] := by
  constructor
  · rfl
  · decide +kernel

end Props
end Verif
