import Verif.Model.Tables
import Verif.Props.Aggregate
import Verif.Props.StateMetrics
/-!
# C115: the tables that are displayed
-/
set_option linter.unusedSectionVars false
namespace Verif
namespace Props
open Metrics Tables

/-! ### specification -/

/-- the number formatting used for a metric: its own format if that is valid for floats, `.2e` otherwise -/
def Renders (lib : Tables.Lib) (m : TMetric) (f : Val → String) : Prop :=
  lib.format m.fmt = some f ∨ (lib.format m.fmt = none ∧ lib.format ".2e" = some f)

/-- the number `c · v` of floating-point arithmetic: not-a-number stays, an infinite value keeps or changes its sign with `c` and becomes
not-a-number when `c` is zero -/
noncomputable def timesNumber (c : ℝ) : Val → Val
  | .fin r => .fin (c * r)
  | .posInf => if c = 0 then .nan else if 0 < c then .posInf else .negInf
  | .negInf => if c = 0 then .nan else if 0 < c then .negInf else .posInf
  | .nan => .nan

theorem scaleVal_times (c : ℝ) (v : Val) : scaleVal c v = timesNumber c v := by
  cases v with
  | fin r => simp [scaleVal, timesNumber, mul_comm]
  | nan => rfl
  | posInf =>
    rcases lt_trichotomy c 0 with h | h | h
    · simp [scaleVal, timesNumber, h, h.ne, h.not_gt]
    · simp [scaleVal, timesNumber, h]
    · simp [scaleVal, timesNumber, h, h.ne']
  | negInf =>
    rcases lt_trichotomy c 0 with h | h | h
    · simp [scaleVal, timesNumber, h, h.ne, h.not_gt]
    · simp [scaleVal, timesNumber, h]
    · simp [scaleVal, timesNumber, h, h.ne']

/-- the number shown: counters of calls are multiplied by `scale_compute` -/
noncomputable def shownNumber (m : TMetric) (scale : ℝ) (v : Val) : Val := if m.calls then timesNumber scale v else v

/-- the text of a cell -/
noncomputable def cellText (f : Val → String) (m : TMetric) (scale : ℝ) (r : ARow) : String :=
  f (shownNumber m scale r.mean) ++ " ± " ++ f (shownNumber m scale r.std)

/-- the table that should be shown for the aggregated rows: one cell per row, and nothing else -/
structure ShowsRows (lib : Tables.Lib) (scale : ℝ) (ms : List TMetric) (rows : List ARow) (t : Table) : Prop where
  cell : ∀ r ∈ rows, ∀ m ∈ ms, m.description = r.metric → ∀ f, Renders lib m f → t.cell r.metric r.stat r.alg = some (cellText f m scale r)
  blank : ∀ m s a, (∀ r ∈ rows, ¬ (r.metric = m ∧ r.stat = s ∧ r.alg = a)) → t.cell m s a = none
  rows_ : ∀ m s, (m, s) ∈ t.rows ↔ ∃ r ∈ rows, r.metric = m ∧ r.stat = s
  rows_once : t.rows.Nodup
  cols_ : ∀ a, a ∈ t.cols ↔ ∃ r ∈ rows, r.alg = a
  cols_once : t.cols.Nodup

/-- a metric result as `compute_metrics` produces it: no two metrics with the same description, every row belongs to one of the metrics,
no two rows with the same metric, statistic and algorithm -/
structure Consistent (ms : List TMetric) (rows : List ARow) : Prop where
  once : (ms.map TMetric.description).Nodup
  known : ∀ r ∈ rows, r.metric ∈ ms.map TMetric.description
  keys : (rows.map fun r => (r.metric, r.stat, r.alg)).Nodup

/-! ### the loop -/

/-- what the loop has made of a row once the metrics `done` are through -/
noncomputable def rowAfter (lib : Tables.Lib) (scale : ℝ) (done : List TMetric) (r : ARow) : Tables.Row :=
  match done.find? fun m => m.description == r.metric with
  | none => r.row
  | some m =>
    match lib.format (getFormat lib m.fmt) with
    | some f => ⟨r.metric, r.alg, r.stat, .text (f (shownNumber m scale r.mean)), .text (f (shownNumber m scale r.std))⟩
    | none => r.row

theorem getFormat_renders {lib : Tables.Lib} (hl : (lib.format ".2e").isSome) (m : TMetric) :
    ∃ f, lib.format (getFormat lib m.fmt) = some f ∧ Renders lib m f ∧ ∀ g, Renders lib m g → g = f := by
  unfold getFormat
  cases h : lib.format m.fmt with
  | some f =>
    refine ⟨f, by simp [h], Or.inl h, ?_⟩
    intro g hg
    rcases hg with h1 | ⟨h1, _⟩
    · rw [h] at h1; exact (Option.some.inj h1).symm
    · rw [h] at h1; cases h1
  | none =>
    obtain ⟨f, hf⟩ := Option.isSome_iff_exists.mp hl
    refine ⟨f, by simp [hf], Or.inr ⟨h, hf⟩, ?_⟩
    intro g hg
    rcases hg with h1 | ⟨_, h1⟩
    · rw [h] at h1; cases h1
    · rw [hf] at h1; exact (Option.some.inj h1).symm

theorem scaleVal_one (v : Val) : scaleVal 1 v = v := by cases v <;> simp [scaleVal]

theorem scaleAndFormat_num {lib : Tables.Lib} {fmt : String} {f : Val → String} (hf : lib.format (getFormat lib fmt) = some f) (c : ℝ) (v : Val) :
    scaleAndFormat lib fmt c (.num v) = .ok (.text (f (scaleVal c v))) := by
  unfold scaleAndFormat
  by_cases h : c = 1
  · subst h
    simp only [ne_eq, not_true_eq_false, if_false, scaleVal_one]
    show formatCell lib (getFormat lib fmt) (.num v) = _
    simp [formatCell, hf]
  · rw [if_pos h]
    show formatCell lib (getFormat lib fmt) (.num (scaleVal c v)) = _
    simp [formatCell, hf]

theorem rowAfter_metric (lib : Tables.Lib) (scale : ℝ) (done : List TMetric) (r : ARow) : (rowAfter lib scale done r).metric = r.metric := by
  unfold rowAfter
  split
  · rfl
  · split <;> rfl

theorem mapM_ok_map {α β γ : Type} (g : γ → α) (h : γ → β) (f : α → Py β) (l : List γ) (hf : ∀ a ∈ l, f (g a) = .ok (h a)) :
    (l.map g).mapM f = .ok (l.map h) := by
  induction l with
  | nil => rfl
  | cons a t ih =>
    simp only [List.map_cons, List.mapM_cons]
    rw [hf a (by simp), ih (fun b hb => hf b (by simp [hb]))]
    rfl

theorem formatRows_after {lib : Tables.Lib} (hl : (lib.format ".2e").isSome) (scale : ℝ) (done : List TMetric) (m : TMetric) (rows : List ARow)
    (hd : m.description ∉ done.map TMetric.description) :
    formatRows lib scale m (rows.map (rowAfter lib scale done)) = .ok (rows.map (rowAfter lib scale (done ++ [m]))) := by
  unfold formatRows
  refine mapM_ok_map _ _ _ rows ?_
  intro r _
  rw [rowAfter_metric]
  obtain ⟨f, hf, _, _⟩ := getFormat_renders hl m
  by_cases hm : r.metric = m.description
  · rw [if_pos hm]
    have h0 : done.find? (fun k => k.description == r.metric) = none := by
      rw [List.find?_eq_none]
      intro k hk hc
      exact hd (List.mem_map.mpr ⟨k, hk, by rw [← hm]; simpa using hc⟩)
    have h1 : rowAfter lib scale done r = r.row := by unfold rowAfter; rw [h0]
    have h2 : rowAfter lib scale (done ++ [m]) r =
        ⟨r.metric, r.alg, r.stat, .text (f (shownNumber m scale r.mean)), .text (f (shownNumber m scale r.std))⟩ := by
      unfold rowAfter
      rw [List.find?_append, h0]
      simp [hm, hf]
    rw [h1, h2]
    have e1 : ∀ v, scaleAndFormat lib m.fmt (if m.calls = true then scale else 1) (.num v) = .ok (.text (f (shownNumber m scale v))) := by
      intro v
      rw [scaleAndFormat_num hf]
      unfold shownNumber
      split
      · rw [scaleVal_times]
      · rw [scaleVal_one]
    simp only [ARow.row, e1]
    rfl
  · rw [if_neg hm]
    have h3 : (fun k : TMetric => k.description == r.metric) m = false := by simpa using fun h => hm h.symm
    unfold rowAfter
    rw [List.find?_append]
    cases h0 : done.find? (fun k => k.description == r.metric) with
    | none => simp [List.find?, h3]
    | some k => simp

theorem formatLoop_after {lib : Tables.Lib} (hl : (lib.format ".2e").isSome) (scale : ℝ) (rows : List ARow) (ms : List TMetric) :
    ∀ (done : List TMetric) (h : Heap), ((done ++ ms).map TMetric.description).Nodup →
      formatLoop lib scale h.length ms (h ++ [rows.map (rowAfter lib scale done)]) = (.ok (), h ++ [rows.map (rowAfter lib scale (done ++ ms))]) := by
  induction ms with
  | nil => intro done h _; simp [formatLoop]
  | cons m t ih =>
    intro done h hn
    have hd : m.description ∉ done.map TMetric.description := by
      rw [List.map_append, List.nodup_append] at hn
      intro hc
      exact hn.2.2 _ hc _ (by simp) rfl
    unfold formatLoop
    have e : (h ++ [rows.map (rowAfter lib scale done)]).getD h.length [] = rows.map (rowAfter lib scale done) := by simp
    rw [e, formatRows_after hl scale done m rows hd]
    have e2 : (h ++ [rows.map (rowAfter lib scale done)]).set h.length (rows.map (rowAfter lib scale (done ++ [m]))) =
        h ++ [rows.map (rowAfter lib scale (done ++ [m]))] := by
      rw [List.set_append_right _ _ (le_refl _)]; simp
    show formatLoop lib scale h.length t _ = _
    rw [e2, ih (done ++ [m]) h (by simpa using hn)]
    simp

/-! ### the table -/

theorem mem_sortedKeys (l : List String) (a : String) : a ∈ sortedKeys l ↔ a ∈ l := by
  unfold sortedKeys; rw [List.mem_mergeSort, List.mem_dedup]

theorem sortedKeys_nodup (l : List String) : (sortedKeys l).Nodup := by
  unfold sortedKeys; exact ((List.mergeSort_perm _ _).nodup_iff).mpr (List.nodup_dedup l)

/-- the formatted entry of a row -/
noncomputable def entryOf (lib : Tables.Lib) (scale : ℝ) (ms : List TMetric) (r : ARow) : String :=
  match ms.find? fun m => m.description == r.metric with
  | none => ""
  | some m =>
    match lib.format (getFormat lib m.fmt) with
    | some f => cellText f m scale r
    | none => ""

theorem entryOf_eq {lib : Tables.Lib} (hl : (lib.format ".2e").isSome) (scale : ℝ) {ms : List TMetric} (hn : (ms.map TMetric.description).Nodup)
    {r : ARow} {m : TMetric} (hm : m ∈ ms) (he : m.description = r.metric) {f : Val → String} (hf : Renders lib m f) :
    entryOf lib scale ms r = cellText f m scale r := by
  have h1 : ms.find? (fun k => k.description == r.metric) = some m := by
    induction ms with
    | nil => cases hm
    | cons k t ih =>
      rw [List.map_cons, List.nodup_cons] at hn
      rcases List.mem_cons.mp hm with rfl | ht
      · simp [he]
      · have : k.description ≠ r.metric := by
          intro hk
          exact hn.1 (List.mem_map.mpr ⟨m, ht, by rw [he, hk]⟩)
        rw [List.find?_cons_of_neg (by simpa using this)]
        exact ih hn.2 ht
  obtain ⟨g, hg, _, hu⟩ := getFormat_renders hl m
  unfold entryOf
  rw [h1]
  simp only [hg]
  rw [hu f hf]

theorem joined_after {lib : Tables.Lib} (hl : (lib.format ".2e").isSome) (scale : ℝ) {ms : List TMetric} {rows : List ARow}
    (hk : ∀ r ∈ rows, r.metric ∈ ms.map TMetric.description) :
    joined (rows.map (rowAfter lib scale ms)) = .ok (rows.map fun r => (r.metric, r.stat, r.alg, entryOf lib scale ms r)) := by
  unfold joined
  refine mapM_ok_map _ _ _ rows ?_
  intro r hr
  obtain ⟨m, hm, he⟩ := List.mem_map.mp (hk r hr)
  have h1 : ∃ k, ms.find? (fun k => k.description == r.metric) = some k := by
    cases h : ms.find? (fun k => k.description == r.metric) with
    | some k => exact ⟨k, rfl⟩
    | none =>
      rw [List.find?_eq_none] at h
      exact absurd (by simpa using he) (h m hm)
  obtain ⟨k, hk'⟩ := h1
  obtain ⟨f, hf, _, _⟩ := getFormat_renders hl k
  unfold rowAfter entryOf
  simp only [hk', hf]
  rfl

theorem find_key {lib : Tables.Lib} {scale : ℝ} {ms : List TMetric} (rows : List ARow)
    (hk : (rows.map fun r => (r.metric, r.stat, r.alg)).Nodup) {r : ARow} (hr : r ∈ rows) :
    ((rows.map fun r => (r.metric, r.stat, r.alg, entryOf lib scale ms r)).find? fun x => x.1 == r.metric && x.2.1 == r.stat && x.2.2.1 == r.alg) =
      some (r.metric, r.stat, r.alg, entryOf lib scale ms r) := by
  induction rows with
  | nil => cases hr
  | cons a t ih =>
    rw [List.map_cons, List.nodup_cons] at hk
    rcases List.mem_cons.mp hr with rfl | ht
    · simp
    · have hne : ¬ (a.metric = r.metric ∧ a.stat = r.stat ∧ a.alg = r.alg) := by
        rintro ⟨h1, h2, h3⟩
        exact hk.1 (List.mem_map.mpr ⟨r, ht, by rw [h1, h2, h3]⟩)
      rw [List.map_cons, List.find?_cons_of_neg]
      · exact ih hk.2 ht
      · simpa [and_assoc] using hne

theorem pivot_shows {lib : Tables.Lib} (hl : (lib.format ".2e").isSome) (scale : ℝ) {ms : List TMetric} {rows : List ARow} (hc : Consistent ms rows) :
    ShowsRows lib scale ms rows (pivot (rows.map fun r => (r.metric, r.stat, r.alg, entryOf lib scale ms r))) := by
  refine ⟨?_, ?_, ?_, ?_, ?_, ?_⟩
  · intro r hr m hm he f hf
    show Option.map _ (List.find? _ _) = _
    rw [find_key rows hc.keys hr]
    simp only [Option.map_some]
    rw [entryOf_eq hl scale hc.once hm he hf]
  · intro m s a h
    show Option.map _ (List.find? _ _) = _
    rw [Option.map_eq_none_iff, List.find?_eq_none]
    intro x hx hc'
    obtain ⟨r, hr, rfl⟩ := List.mem_map.mp hx
    apply h r hr
    simpa [and_assoc] using hc'
  · intro m s
    show (m, s) ∈ sortedPairs _ ↔ _
    unfold sortedPairs
    rw [List.mem_mergeSort, List.mem_dedup, List.map_map, List.mem_map]
    constructor
    · rintro ⟨r, hr, he⟩
      have he' : (r.metric, r.stat) = (m, s) := he
      exact ⟨r, hr, (Prod.mk.inj he').1, (Prod.mk.inj he').2⟩
    · rintro ⟨r, hr, rfl, rfl⟩; exact ⟨r, hr, rfl⟩
  · show (sortedPairs _).Nodup
    unfold sortedPairs; exact ((List.mergeSort_perm _ _).nodup_iff).mpr (List.nodup_dedup _)
  · intro a
    show a ∈ sortedKeys _ ↔ _
    rw [mem_sortedKeys, List.map_map, List.mem_map]
    rfl
  · exact sortedKeys_nodup _

/-- how a call on a consistent result goes -/
theorem display_ok {lib : Tables.Lib} (hl : (lib.format ".2e").isSome) (latex : Bool) (scale : ℝ) (save : Bool) {ms : List TMetric} {rows : List ARow}
    (hc : Consistent ms rows) (h : Heap) {ref : Nat} (hr : h.getD ref [] = rows.map ARow.row) :
    displayTables lib latex scale save (some ms) (some ref) h =
      (.ok (report lib latex save ms ((rows.map ARow.row).any fun r => Tables.isInf r.mean || Tables.isInf r.std)
        (pivot (rows.map fun r => (r.metric, r.stat, r.alg, entryOf lib scale ms r)))), h ++ [rows.map (rowAfter lib scale ms)]) := by
  have e0 : rows.map ARow.row = rows.map (rowAfter lib scale []) := rfl
  have e1 := formatLoop_after hl scale rows ms [] h (by simpa using hc.once)
  unfold displayTables
  simp only []
  rw [hr]
  rw [show (h ++ [rows.map ARow.row]).getD h.length [] = rows.map ARow.row by simp]
  rw [e0, e1, List.nil_append]
  simp only []
  rw [show (h ++ [rows.map (rowAfter lib scale ms)]).getD h.length [] = rows.map (rowAfter lib scale ms) by simp, joined_after hl scale hc.known]

/-! ### C115 -/

/-- For every consistent metric result, `display_tables` succeeds, and the table it prints (as text or LaTeX, as asked) has exactly one cell
per aggregated row, reading "mean ± std" in the metric's own format (or `.2e` if that is invalid), scaled by `scale_compute` for the four
counters of calls and for no other metric; nothing is missing and nothing is added. -/
theorem C115_cells {lib : Tables.Lib} (hl : (lib.format ".2e").isSome) (latex : Bool) (scale : ℝ) (save : Bool) {ms : List TMetric} {rows : List ARow}
    (hc : Consistent ms rows) (h : Heap) {ref : Nat} (hr : h.getD ref [] = rows.map ARow.row) :
    ∃ out t, (displayTables lib latex scale save (some ms) (some ref) h).1 = .ok out ∧ ShowsRows lib scale ms rows t ∧
      out.log.head? = some (.table (if latex then lib.toLatex t else lib.toText t)) :=
  ⟨_, _, by rw [display_ok hl latex scale save hc h hr], pivot_shows hl scale hc, by simp [report]⟩

/-- a printed table -/
def isTable : Msg → Bool
  | .table _ => true
  | _ => false

theorem isInf_num (v : Val) : Tables.isInf (.num v) = true ↔ v = .posInf ∨ v = .negInf := by cases v <;> simp [Tables.isInf]

/-- Besides one table, the call prints the hint on `scale_compute` exactly if one of the metrics counts calls, the hint on divergence exactly
if some mean or standard deviation is infinite, and, with a table path, stores both renderings of the same table whichever was printed. -/
theorem C115_effects {lib : Tables.Lib} (hl : (lib.format ".2e").isSome) (latex : Bool) (scale : ℝ) (save : Bool) {ms : List TMetric} {rows : List ARow}
    (hc : Consistent ms rows) (h : Heap) {ref : Nat} (hr : h.getD ref [] = rows.map ARow.row) :
    ∃ out t, (displayTables lib latex scale save (some ms) (some ref) h).1 = .ok out ∧ ShowsRows lib scale ms rows t ∧
      out.log.filter isTable = [.table (if latex then lib.toLatex t else lib.toText t)] ∧
      (Msg.computeHint ∈ out.log ↔ ∃ m ∈ ms, m.calls = true) ∧
      (Msg.divergenceHint ∈ out.log ↔ ∃ r ∈ rows, r.mean = .posInf ∨ r.mean = .negInf ∨ r.std = .posInf ∨ r.std = .negInf) ∧
      (∀ name content, (name, content) ∈ out.files ↔
        save = true ∧ ((name = "table.tex" ∧ content = lib.toLatex t) ∨ (name = "table.txt" ∧ content = lib.toText t))) := by
  refine ⟨_, _, by rw [display_ok hl latex scale save hc h hr], pivot_shows hl scale hc, ?_, ?_, ?_, ?_⟩
  · unfold report
    simp only [List.filter_append]
    have e1 : ∀ b : Bool, List.filter isTable (if b = true then [Msg.computeHint] else []) = [] := by intro b; cases b <;> rfl
    have e2 : ∀ b : Bool, List.filter isTable (if b = true then [Msg.divergenceHint] else []) = [] := by intro b; cases b <;> rfl
    have e3 : ∀ b : Bool, List.filter isTable (if b = true then [Msg.saved "table.tex", Msg.saved "table.txt"] else []) = [] := by
      intro b; cases b <;> rfl
    rw [e1, e2, e3]
    rfl
  · unfold report
    simp
  · unfold report
    have e : ((rows.map ARow.row).any fun r => Tables.isInf r.mean || Tables.isInf r.std) = true ↔
        ∃ r ∈ rows, r.mean = .posInf ∨ r.mean = .negInf ∨ r.std = .posInf ∨ r.std = .negInf := by
      rw [List.any_eq_true]
      constructor
      · rintro ⟨x, hx, hi⟩
        obtain ⟨r, hr', rfl⟩ := List.mem_map.mp hx
        refine ⟨r, hr', ?_⟩
        rw [Bool.or_eq_true] at hi
        rcases hi with hi | hi
        · rcases (isInf_num r.mean).mp hi with h1 | h1 <;> simp [h1]
        · rcases (isInf_num r.std).mp hi with h1 | h1 <;> simp [h1]
      · rintro ⟨r, hr', hi⟩
        refine ⟨r.row, List.mem_map.mpr ⟨r, hr', rfl⟩, ?_⟩
        rw [Bool.or_eq_true]
        rcases hi with h1 | h1 | h1 | h1
        · exact Or.inl ((isInf_num _).mpr (Or.inl h1))
        · exact Or.inl ((isInf_num _).mpr (Or.inr h1))
        · exact Or.inr ((isInf_num _).mpr (Or.inl h1))
        · exact Or.inr ((isInf_num _).mpr (Or.inr h1))
    rw [← e]
    cases (rows.map ARow.row).any fun r => Tables.isInf r.mean || Tables.isInf r.std <;> cases save <;> simp
  · intro name content
    unfold report
    cases save <;> simp

/-- nothing is printed or stored, and nothing fails, if the result holds no table data -/
theorem C115_no_data (lib : Tables.Lib) (latex : Bool) (scale : ℝ) (save : Bool) (metrics : Option (List TMetric)) (table : Option Nat) (h : Heap)
    (hn : metrics = none ∨ table = none) : displayTables lib latex scale save metrics table h = (.ok ⟨[], []⟩, h) := by
  rcases hn with rfl | rfl
  · rfl
  · cases metrics <;> rfl

theorem formatLoop_keeps (lib : Tables.Lib) (scale : ℝ) (ref : Nat) (ms : List TMetric) :
    ∀ (h : Heap) (i : Nat), i ≠ ref → (formatLoop lib scale ref ms h).2[i]? = h[i]? := by
  induction ms with
  | nil => intro h i _; rfl
  | cons m t ih =>
    intro h i hi
    unfold formatLoop
    split
    · rfl
    · rw [ih _ i hi, List.getElem?_set_ne (fun e => hi e.symm)]

/-- Whatever the result and the options, and whether or not the call fails, every frame that existed before the call, in particular the
aggregated frame of the result and every other frame, has the same content afterwards. -/
theorem C115_result_kept (lib : Tables.Lib) (latex : Bool) (scale : ℝ) (save : Bool) (metrics : Option (List TMetric)) (table : Option Nat) (h : Heap)
    (i : Nat) (hi : i < h.length) : (displayTables lib latex scale save metrics table h).2[i]? = h[i]? := by
  have key : ∀ ms f, (formatLoop lib scale h.length ms (h ++ [f])).2[i]? = h[i]? := by
    intro ms f
    rw [formatLoop_keeps lib scale h.length ms _ i (by omega), List.getElem?_append_left hi]
  unfold displayTables
  split
  · rename_i ms ref
    simp only []
    have k := key ms (h.getD ref [])
    split
    · rename_i e; rw [e] at k; exact k
    · rename_i e
      rw [e] at k
      split <;> exact k
  · rfl

/-- the outcome of a call depends only on the content of the frame it is given -/
theorem display_congr (lib : Tables.Lib) (latex : Bool) (scale : ℝ) (save : Bool) (ms : List TMetric) (ref ref' : Nat) (h h' : Heap)
    (he : h.getD ref [] = h'.getD ref' []) :
    (displayTables lib latex scale save (some ms) (some ref) h).1 = (displayTables lib latex scale save (some ms) (some ref') h').1 := by
  have key : ∀ (ms : List TMetric) (f : List Tables.Row) (h h' : Heap),
      (formatLoop lib scale h.length ms (h ++ [f])).1 = (formatLoop lib scale h'.length ms (h' ++ [f])).1 ∧
      (formatLoop lib scale h.length ms (h ++ [f])).2.getD h.length [] = (formatLoop lib scale h'.length ms (h' ++ [f])).2.getD h'.length [] := by
    intro ms
    induction ms with
    | nil => intro f h h'; simp [formatLoop]
    | cons m t ih =>
      intro f h h'
      unfold formatLoop
      rw [show (h ++ [f]).getD h.length [] = f by simp, show (h' ++ [f]).getD h'.length [] = f by simp]
      cases formatRows lib scale m f with
      | error e => simp
      | ok g =>
        simp only []
        rw [show (h ++ [f]).set h.length g = h ++ [g] by rw [List.set_append_right _ _ (le_refl _)]; simp,
          show (h' ++ [f]).set h'.length g = h' ++ [g] by rw [List.set_append_right _ _ (le_refl _)]; simp]
        exact ih g h h'
  unfold displayTables
  simp only []
  rw [he]
  obtain ⟨f, hf⟩ : ∃ f, h'.getD ref' [] = f := ⟨_, rfl⟩
  rw [hf]
  obtain ⟨k1, k2⟩ := key ms f h h'
  rw [show (h ++ [f]).getD h.length [] = f by simp, show (h' ++ [f]).getD h'.length [] = f by simp]
  rcases e1 : formatLoop lib scale h.length ms (h ++ [f]) with ⟨o1, g1⟩
  rcases e2 : formatLoop lib scale h'.length ms (h' ++ [f]) with ⟨o2, g2⟩
  rw [e1, e2] at k1 k2
  simp only at k1 k2
  subst k1
  cases o1 with
  | error e => rfl
  | ok u =>
    simp only []
    rw [k2]
    cases joined (g2.getD h'.length []) <;> rfl

/-- Displaying the same result again, with the same options, prints and stores the same, however many displays came before. -/
theorem C115_again (lib : Tables.Lib) (latex : Bool) (scale : ℝ) (save : Bool) (ms : List TMetric) (ref : Nat) (h : Heap) (hi : ref < h.length)
    (calls : List (Bool × ℝ × Bool × Option (List TMetric) × Option Nat)) :
    (displayTables lib latex scale save (some ms) (some ref)
      (calls.foldl (fun g c => (displayTables lib c.1 c.2.1 c.2.2.1 c.2.2.2.1 c.2.2.2.2 g).2) h)).1 =
    (displayTables lib latex scale save (some ms) (some ref) h).1 := by
  apply display_congr
  have key : ∀ (calls : List (Bool × ℝ × Bool × Option (List TMetric) × Option Nat)) (g : Heap), ref < g.length →
      (calls.foldl (fun g c => (displayTables lib c.1 c.2.1 c.2.2.1 c.2.2.2.1 c.2.2.2.2 g).2) g)[ref]? = g[ref]? := by
    intro calls
    induction calls with
    | nil => intro g _; rfl
    | cons c t ih =>
      intro g hg
      rw [List.foldl_cons]
      have k := C115_result_kept lib c.1 c.2.1 c.2.2.1 c.2.2.2.1 c.2.2.2.2 g ref hg
      rw [ih _ ?_, k]
      by_contra hlt
      rw [List.getElem?_eq_none (by omega), List.getElem?_eq_getElem hg] at k
      cases k
  have := key calls h hi
  rw [List.getD_eq_getElem?_getD, List.getD_eq_getElem?_getD, this]

/-! ### from the raw frames -/

theorem statName_inj {a b : Stat} (h : statName a = statName b) : a = b := by
  cases a <;> cases b <;> first | rfl | (revert h; decide)

/-- what the aggregated frame of the raw frames should contain: for every metric, every algorithm with rows for it, and every requested
statistic (the empty string if there is one value per trial), one row with mean and standard deviation across trials -/
def Aggregated (cast : Val → Val) (ddof : Nat) (stats : List Stat) (frames : List (String × List TRow)) (r : ARow) : Prop :=
  ∃ f, (r.metric, f) ∈ frames ∧ (∃ x ∈ f, x.alg = r.alg) ∧
    if singleValued f then r.stat = "" ∧ r.mean = cast (tableCell ddof f r.alg .mean).1 ∧ r.std = cast (tableCell ddof f r.alg .mean).2
    else ∃ s ∈ stats, r.stat = statName s ∧ r.mean = cast (tableCell ddof f r.alg s).1 ∧ r.std = cast (tableCell ddof f r.alg s).2

theorem mem_aggregateOne (cast : Val → Val) (ddof : Nat) (stats : List Stat) (d : String) (f : List TRow) (r : ARow) :
    r ∈ aggregateOne cast ddof stats d f ↔ r.metric = d ∧ (∃ x ∈ f, x.alg = r.alg) ∧
      if singleValued f then r.stat = "" ∧ r.mean = cast (tableCell ddof f r.alg .mean).1 ∧ r.std = cast (tableCell ddof f r.alg .mean).2
      else ∃ s ∈ stats, r.stat = statName s ∧ r.mean = cast (tableCell ddof f r.alg s).1 ∧ r.std = cast (tableCell ddof f r.alg s).2 := by
  unfold aggregateOne
  rw [List.mem_flatMap]
  constructor
  · rintro ⟨a, ha, hr⟩
    rw [mem_sortedKeys, List.mem_map] at ha
    by_cases hs : singleValued f = true
    · rw [if_pos hs, List.mem_singleton] at hr
      subst hr
      exact ⟨rfl, ha, by rw [if_pos hs]; exact ⟨rfl, rfl, rfl⟩⟩
    · rw [if_neg hs, List.mem_map] at hr
      obtain ⟨s, hs', rfl⟩ := hr
      exact ⟨rfl, ha, by rw [if_neg hs]; exact ⟨s, hs', rfl, rfl, rfl⟩⟩
  · rintro ⟨hd, ha, hr⟩
    refine ⟨r.alg, ?_, ?_⟩
    · rw [mem_sortedKeys, List.mem_map]; exact ha
    · obtain ⟨m, a, s, u, v⟩ := r
      by_cases hs : singleValued f = true
      · rw [if_pos hs] at hr ⊢
        obtain ⟨h1, h2, h3⟩ := hr
        simp only at hd h1 h2 h3 ⊢
        rw [hd, h1, h2, h3]; exact List.mem_singleton.mpr rfl
      · rw [if_neg hs] at hr ⊢
        obtain ⟨s', hs', h1, h2, h3⟩ := hr
        simp only at hd h1 h2 h3 ⊢
        rw [List.mem_map]
        exact ⟨s', hs', by rw [hd, h1, h2, h3]⟩

theorem keys_aggregateOne (cast : Val → Val) (ddof : Nat) (stats : List Stat) (hs : stats.Nodup) (d : String) (f : List TRow) :
    ((aggregateOne cast ddof stats d f).map fun r => (r.metric, r.stat, r.alg)).Nodup := by
  unfold aggregateOne
  have hk := sortedKeys_nodup (f.map TRow.alg)
  generalize sortedKeys (f.map TRow.alg) = l at hk
  induction l with
  | nil => exact List.nodup_nil
  | cons a t ih =>
    rw [List.nodup_cons] at hk
    rw [List.flatMap_cons, List.map_append, List.nodup_append]
    refine ⟨?_, ih hk.2, ?_⟩
    · split
      · simp
      · rw [List.map_map]
        refine (List.nodup_map_iff ?_).mpr hs
        intro x y hxy
        have h := (Prod.mk.inj (Prod.mk.inj hxy).2).1
        exact statName_inj h
    · intro x hx y hy hxy
      subst hxy
      have h1 : x.2.2 = a := by
        obtain ⟨r, hr, rfl⟩ := List.mem_map.mp hx
        split at hr
        · rw [List.mem_singleton] at hr; rw [hr]
        · obtain ⟨s, _, rfl⟩ := List.mem_map.mp hr; rfl
      have h2 : x.2.2 ∈ t := by
        obtain ⟨r, hr, rfl⟩ := List.mem_map.mp hy
        obtain ⟨b, hb, hr⟩ := List.mem_flatMap.mp hr
        split at hr
        · rw [List.mem_singleton] at hr; rw [hr]; exact hb
        · obtain ⟨s, _, rfl⟩ := List.mem_map.mp hr; exact hb
      exact hk.1 (h1 ▸ h2)

theorem resolveStats_nodup (s : Option (List String)) : (resolveStats s).Nodup := by
  unfold resolveStats
  split
  · decide
  · split
    · decide
    · rw [List.nodup_reverse]; exact List.nodup_dedup _

/-- The aggregated frame holds exactly the rows it should, each once, whatever the raw frames, as long as no two metrics share a description. -/
theorem C115_aggregated (cast : Val → Val) (ddof : Nat) (statistics : Option (List String)) (frames : List (String × List TRow)) (hne : frames ≠ [])
    (hn : (frames.map Prod.fst).Nodup) :
    ∃ rows, aggregateTable cast ddof statistics frames = some rows ∧ (∀ r, r ∈ rows ↔ Aggregated cast ddof (resolveStats statistics) frames r) ∧
      (rows.map fun r => (r.metric, r.stat, r.alg)).Nodup := by
  have hs := resolveStats_nodup statistics
  refine ⟨frames.flatMap fun p => aggregateOne cast ddof (resolveStats statistics) p.1 p.2, ?_, ?_, ?_⟩
  · unfold aggregateTable
    cases frames with
    | nil => exact absurd rfl hne
    | cons a t => rfl
  · intro r
    rw [List.mem_flatMap]
    constructor
    · rintro ⟨⟨d, f⟩, hp, hr⟩
      obtain ⟨rfl, h1, h2⟩ := (mem_aggregateOne _ _ _ _ _ _).mp hr
      exact ⟨f, hp, h1, h2⟩
    · rintro ⟨f, hp, h1, h2⟩
      exact ⟨(r.metric, f), hp, (mem_aggregateOne _ _ _ _ _ _).mpr ⟨rfl, h1, h2⟩⟩
  · clear hne
    induction frames with
    | nil => exact List.nodup_nil
    | cons p t ih =>
      rw [List.map_cons, List.nodup_cons] at hn
      rw [List.flatMap_cons, List.map_append, List.nodup_append]
      refine ⟨keys_aggregateOne cast ddof _ hs p.1 p.2, ih hn.2, ?_⟩
      intro x hx y hy hxy
      subst hxy
      obtain ⟨r, hr, rfl⟩ := List.mem_map.mp hx
      obtain ⟨r', hr', he⟩ := List.mem_map.mp hy
      obtain ⟨q, hq, hr'⟩ := List.mem_flatMap.mp hr'
      have h1 := ((mem_aggregateOne _ _ _ _ _ _).mp hr).1
      have h2 := ((mem_aggregateOne _ _ _ _ _ _).mp hr').1
      have h3 : r'.metric = r.metric := (Prod.mk.inj he).1
      exact hn.1 (List.mem_map.mpr ⟨q, hq, by rw [← h2, h3, h1]⟩)

/-- From the raw frames to the printed table: for every metric, algorithm and statistic, the printed cell shows the mean and the standard
deviation across trials of the statistic across agents of the raw values of that metric and algorithm, for every choice of statistics,
format, scaling and whatever the raw values (infinite and NaN included); pairs that were not measured are left blank. -/
theorem C115_displayed {lib : Tables.Lib} (hl : (lib.format ".2e").isSome) (latex : Bool) (scale : ℝ) (save : Bool) (cast : Val → Val) (ddof : Nat)
    (statistics : Option (List String)) (frames : List (TMetric × List TRow)) (hne : frames ≠ [])
    (hn : (frames.map fun p => p.1.description).Nodup) (h : Heap) :
    ∃ rows out t, aggregateTable cast ddof statistics (frames.map fun p => (p.1.description, p.2)) = some rows ∧
      (displayTables lib latex scale save (some (frames.map Prod.fst)) (some h.length) (h ++ [rows.map ARow.row])).1 = .ok out ∧
      out.log.head? = some (.table (if latex then lib.toLatex t else lib.toText t)) ∧
      (∀ m f, (m, f) ∈ frames → ∀ g, Renders lib m g → ∀ a, (∃ x ∈ f, x.alg = a) → ∀ s ∈ resolveStats statistics,
        t.cell m.description (if singleValued f then "" else statName s) a =
          some (g (shownNumber m scale (cast (tableCell ddof f a s).1)) ++ " ± " ++ g (shownNumber m scale (cast (tableCell ddof f a s).2)))) ∧
      (∀ m f, (m, f) ∈ frames → ∀ a, (∀ x ∈ f, x.alg ≠ a) → ∀ s, t.cell m.description s a = none) := by
  obtain ⟨rows, h1, h2, h3⟩ := C115_aggregated cast ddof statistics (frames.map fun p => (p.1.description, p.2)) (by simpa using hne)
    (by simpa [List.map_map, Function.comp_def] using hn)
  have uniq : ∀ m f f', (m, f) ∈ frames → (m.description, f') ∈ frames.map (fun p => (p.1.description, p.2)) → f' = f := by
    intro m f f' hm hm'
    obtain ⟨⟨m', f''⟩, hq, he⟩ := List.mem_map.mp hm'
    have hd := (Prod.mk.inj he).1
    have hf := (Prod.mk.inj he).2
    have := List.inj_on_of_nodup_map hn hq hm hd
    simp only at hf
    rw [← hf]
    exact (Prod.mk.inj this).2
  have hc : Consistent (frames.map Prod.fst) rows := by
    refine ⟨by simpa [List.map_map, Function.comp_def] using hn, ?_, h3⟩
    intro r hr
    obtain ⟨f, hf, _⟩ := (h2 r).mp hr
    obtain ⟨p, hp, he⟩ := List.mem_map.mp hf
    exact List.mem_map.mpr ⟨p.1, List.mem_map.mpr ⟨p, hp, rfl⟩, (Prod.mk.inj he).1⟩
  obtain ⟨out, t, e1, e2, e3⟩ := C115_cells hl latex scale save hc (h ++ [rows.map ARow.row]) (ref := h.length) (by simp)
  refine ⟨rows, out, t, h1, e1, e3, ?_, ?_⟩
  · intro m f hm g hg a ha s hs
    have hmem : (⟨m.description, a, if singleValued f then "" else statName s, cast (tableCell ddof f a s).1, cast (tableCell ddof f a s).2⟩ : ARow) ∈ rows := by
      rw [h2]
      refine ⟨f, List.mem_map.mpr ⟨(m, f), hm, rfl⟩, ha, ?_⟩
      by_cases hsv : singleValued f = true
      · rw [if_pos hsv]
        simp only [hsv, if_true]
        have : tableCell ddof f a s = tableCell ddof f a .mean := by unfold tableCell perTrial; rw [if_pos hsv, if_pos hsv]
        rw [this]
        exact ⟨trivial, rfl, rfl⟩
      · rw [if_neg hsv]
        exact ⟨s, hs, if_neg hsv, rfl, rfl⟩
    exact e2.cell _ hmem m (List.mem_map.mpr ⟨(m, f), hm, rfl⟩) rfl g hg
  · intro m f hm a ha s
    apply e2.blank
    rintro r hr ⟨r1, r2, r3⟩
    obtain ⟨f', hf', ⟨x, hx, hxa⟩, _⟩ := (h2 r).mp hr
    rw [r1] at hf'
    have := uniq m f f' hm hf'
    subst this
    exact ha x hx (by rw [hxa, r3])

/-! ### what does not hold -/

/-- a library whose formats are all valid and shorten numbers to a word -/
def wordLib : Tables.Lib :=
  { format := fun fmt => if fmt = "bad" then none else some fun v => match v with
      | .fin _ => fmt
      | .posInf => "inf"
      | .negInf => "-inf"
      | .nan => "nan"
    formatText := fun _ => none
    toText := fun _ => "text"
    toLatex := fun _ => "latex" }

/-- The divergence hint reads "Infinite/NaN values likely indicate algorithm divergence", but NaN alone does not bring it up: for every
consistent result without infinite entries, however many of them are NaN, the hint is not printed. -/
theorem C115_nan_hint_refuted {lib : Tables.Lib} (hl : (lib.format ".2e").isSome) (latex : Bool) (scale : ℝ) (save : Bool) {ms : List TMetric}
    {rows : List ARow} (hc : Consistent ms rows) (h : Heap) {ref : Nat} (hr : h.getD ref [] = rows.map ARow.row)
    (hnan : ∀ r ∈ rows, r.mean = .nan ∧ r.std = .nan) :
    ∃ out, (displayTables lib latex scale save (some ms) (some ref) h).1 = .ok out ∧ Msg.divergenceHint ∉ out.log := by
  obtain ⟨out, t, e1, _, _, _, e2, _⟩ := C115_effects hl latex scale save hc h hr
  refine ⟨out, e1, ?_⟩
  rw [e2]
  rintro ⟨r, hr', h1⟩
  obtain ⟨n1, n2⟩ := hnan r hr'
  rw [n1, n2] at h1
  rcases h1 with h1 | h1 | h1 | h1 <;> cases h1

/-- Two metrics with the same description, which `compute_metrics` refuses, could not be displayed: the second one meets the strings the
first one left behind, and formatting a string as a number raises. -/
theorem C115_same_description_fails (lib : Tables.Lib) (hl : (lib.format ".2e").isSome) (latex : Bool) (scale : ℝ) (save : Bool) (m m' : TMetric)
    (he : m'.description = m.description) (ht : lib.formatText (getFormat lib m'.fmt) = none) (rows : List ARow)
    (hr : ∃ r ∈ rows, r.metric = m.description) (h : Heap) (ref : Nat) (hf : h.getD ref [] = rows.map ARow.row) :
    ∃ e, (displayTables lib latex scale save (some [m, m']) (some ref) h).1 = .error e := by
  have e1 := formatRows_after hl scale [] m rows (by simp)
  have e2 : ∃ e, formatRows lib scale m' (rows.map (rowAfter lib scale [m])) = .error e := by
    cases hx : formatRows lib scale m' (rows.map (rowAfter lib scale [m])) with
    | error e => exact ⟨e, rfl⟩
    | ok out =>
      exfalso
      obtain ⟨r, hr1, hr2⟩ := hr
      unfold formatRows at hx
      have hx := (mapM_ok _ _ _).mp hx
      have hall : ∀ x ∈ rows.map (rowAfter lib scale [m]), ∃ y, (if x.metric = m'.description then do
          let scaling := if m'.calls then scale else 1
          let a ← scaleAndFormat lib m'.fmt scaling x.mean
          let b ← scaleAndFormat lib m'.fmt scaling x.std
          Except.ok { x with mean := a, std := b } else .ok x) = Except.ok y := by
        intro x hx'
        obtain ⟨i, hi, rfl⟩ := List.getElem_of_mem hx'
        have hlen := hx.length_eq
        exact ⟨_, hx.get hi (hlen ▸ hi)⟩
      obtain ⟨y, hy⟩ := hall (rowAfter lib scale [m] r) (List.mem_map.mpr ⟨r, hr1, rfl⟩)
      obtain ⟨f, hf', _, _⟩ := getFormat_renders hl m
      have hrow : rowAfter lib scale [m] r =
          ⟨r.metric, r.alg, r.stat, .text (f (shownNumber m scale r.mean)), .text (f (shownNumber m scale r.std))⟩ := by
        unfold rowAfter; simp [hr2, hf']
      rw [hrow] at hy
      rw [if_pos (by rw [hr2, he])] at hy
      have hbad : ∀ c s, ∃ e, scaleAndFormat lib m'.fmt c (.text s) = .error e := by
        intro c s
        unfold scaleAndFormat
        by_cases h1 : c = 1
        · subst h1
          refine ⟨.valueError, ?_⟩
          simp only [ne_eq, not_true_eq_false, if_false]
          show formatCell lib (getFormat lib m'.fmt) (.text s) = _
          simp [formatCell, ht]
        · refine ⟨.typeError, ?_⟩
          rw [if_pos h1]; rfl
      obtain ⟨e, he'⟩ := hbad (if m'.calls = true then scale else 1) (f (shownNumber m scale r.mean))
      simp only [he'] at hy
      cases hy
  obtain ⟨e, e2⟩ := e2
  refine ⟨e, ?_⟩
  unfold displayTables
  simp only []
  rw [hf]
  have e3 : formatLoop lib scale h.length [m, m'] (h ++ [rows.map ARow.row]) = (.error e, h ++ [rows.map (rowAfter lib scale [m])]) := by
    unfold formatLoop
    rw [show (h ++ [rows.map ARow.row]).getD h.length [] = rows.map (rowAfter lib scale []) by simp; intro _ _; rfl, e1]
    simp only [List.nil_append]
    rw [show (h ++ [rows.map ARow.row]).set h.length (rows.map (rowAfter lib scale [m])) = h ++ [rows.map (rowAfter lib scale [m])] by
      rw [List.set_append_right _ _ (le_refl _)]; simp]
    unfold formatLoop
    rw [show (h ++ [rows.map (rowAfter lib scale [m])]).getD h.length [] = rows.map (rowAfter lib scale [m]) by simp, e2]
  rw [e3]

/-! ### examples -/

/-- two metrics, one of them a counter, the other with an invalid format -/
def twoMetrics : List TMetric := [⟨"loss", "bad", false⟩, ⟨"nr gradient calls", ".1f", true⟩]

/-- two algorithms; the second was not measured in the second metric -/
noncomputable def threeRows : List ARow :=
  [⟨"loss", "DGD", "", .fin 1, .nan⟩, ⟨"loss", "EXTRA", "", .posInf, .nan⟩, ⟨"nr gradient calls", "DGD", "mean", .fin 1000, .fin 0⟩]

example : Consistent twoMetrics threeRows := by
  refine ⟨by decide, ?_, ?_⟩
  · intro r hr
    simp only [threeRows, List.mem_cons, List.not_mem_nil, or_false] at hr
    rcases hr with rfl | rfl | rfl <;> decide
  · simp [threeRows]

example : (wordLib.format ".2e").isSome := rfl

example : ∃ f, Renders wordLib (⟨"loss", "bad", false⟩ : TMetric) f ∧ f (.fin 1) = ".2e" ∧ f .posInf = "inf" := ⟨_, Or.inr ⟨rfl, rfl⟩, rfl, rfl⟩

end Props
end Verif
