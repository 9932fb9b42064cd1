import Verif.Model.Results
import Verif.Props.Tables
import Verif.Props.Metrics
set_option linter.unusedSectionVars false
/-!
# C126: what a metric result reports about itself
-/
namespace Verif
namespace Props
open Metrics Tables Results

/-! ### specification -/

/-- strings in alphabetical order, each once, exactly those satisfying `p` -/
structure Alphabetical (p : String → Prop) (l : List String) : Prop where
  exact_ : ∀ a, a ∈ l ↔ p a
  once : l.Nodup
  order : l.Pairwise (· ≤ ·)

variable {V : Type}

/-- the metrics computed: requested (or default) and available -/
def Computed (env : Env V) (requested : Option (List (Metric V))) (default_ : List (Metric V)) (m : Metric V) : Prop :=
  m ∈ requested.getD default_ ∧ env.available m = true

/-- some trial of some algorithm recorded iteration `i` -/
def ReachedAt (env : Env V) (views : List (String × List V)) (i : Nat) : Prop := ∃ p ∈ views, ∃ v ∈ p.2, i ∈ env.iterationsOf v

/-- metric objects are told apart by their identity -/
def Objects (ms : List (Metric V)) : Prop := ∀ m ∈ ms, ∀ m' ∈ ms, m.id = m'.id → m = m'

/-- the metric has at least one value at iteration `i` for some trial of some algorithm -/
def HasValue (views : List (String × List V)) (m : Metric V) (i : Nat) : Prop :=
  ∃ p ∈ views, ∃ v ∈ p.2, ∃ data, m.compute v i = .ok data ∧ data ≠ []

/-- the metric has at least one value at iteration `i` for some trial of the algorithm named `a` -/
def HasValueOf (views : List (String × List V)) (m : Metric V) (i : Nat) (a : String) : Prop :=
  ∃ p ∈ views, p.1 = a ∧ ∃ v ∈ p.2, ∃ data, m.compute v i = .ok data ∧ data ≠ []

/-! ### pieces -/

theorem sortedKeys_alphabetical (l : List String) : Alphabetical (· ∈ l) (sortedKeys l) where
  exact_ a := mem_sortedKeys l a
  once := sortedKeys_nodup l
  order := by
    have := List.pairwise_mergeSort (le := fun a b : String => decide (a ≤ b))
      (fun a b c h1 h2 => by simp at *; exact String.le_trans h1 h2) (fun a b => by simp; exact String.le_total a b) l.dedup
    exact this.imp (fun h => by simpa using h)

theorem mem_sortedSet (l : List Nat) (i : Nat) : i ∈ sortedSet l ↔ i ∈ l := by
  unfold sortedSet; rw [List.mem_mergeSort, List.mem_dedup]

theorem sortedSet_increasing (l : List Nat) : (sortedSet l).Pairwise (· < ·) := by
  have hs : (sortedSet l).Pairwise (fun a b => decide (a ≤ b) = true) :=
    List.pairwise_mergeSort (fun a b c h1 h2 => by simp at *; omega) (fun a b => by simp; omega) _
  have hnd : (sortedSet l).Nodup := (List.mergeSort_perm _ _).nodup_iff.2 (List.nodup_dedup l)
  refine (List.Pairwise.and hs hnd).imp ?_
  intro a b h
  have h1 : a ≤ b := by simpa using h.1
  exact lt_of_le_of_ne h1 h.2

theorem plotLoop_all {cast : Val → Val} {lim : ℝ} {views : List (String × List V)} {its : List Nat} (ms : List (Metric V)) :
    ∀ d plots, plotLoop cast lim views its ms d = .ok plots → (ms.map Metric.id).Nodup →
      (∀ m ∈ ms, ∃ f, plotFrame cast lim views m its = .ok f ∧ plots.get? m.id = some f) ∧
      (∀ k, k ∉ ms.map Metric.id → plots.get? k = d.get? k) := by
  induction ms with
  | nil =>
    intro d plots h _
    simp only [plotLoop] at h
    cases h
    simp
  | cons m ms ih =>
    intro d plots h hn
    simp only [plotLoop] at h
    cases ha : plotFrame cast lim views m its with
    | error e => rw [ha] at h; cases h
    | ok f =>
      rw [ha] at h
      rw [List.map_cons, List.nodup_cons] at hn
      obtain ⟨i1, i2⟩ := ih _ plots h hn.2
      refine ⟨fun m' hm' => ?_, fun k hk => ?_⟩
      · rcases List.mem_cons.1 hm' with rfl | hm'
        · exact ⟨f, ha, by rw [i2 _ hn.1, PyDict.get?_set, if_pos rfl]⟩
        · exact i1 m' hm'
      · rw [List.map_cons, List.mem_cons, not_or] at hk
        rw [i2 k hk.2, PyDict.get?_set, if_neg hk.1]

theorem tableLoop_all {cast : Val → Val} {lim : ℝ} {views : List (String × List V)} {plots : PyDict Nat (List Metrics.Row)} {final : Nat}
    (ms : List (Metric V)) :
    ∀ d tables, tableLoop cast lim views plots final ms d = .ok tables → (ms.map Metric.id).Nodup →
      (∀ m ∈ ms, ∃ f, tableFrame cast lim views plots final m = .ok f ∧ tables.get? m.id = some (f.map Metrics.Row.drop)) ∧
      (∀ k, k ∉ ms.map Metric.id → tables.get? k = d.get? k) := by
  induction ms with
  | nil =>
    intro d tables h _
    simp only [tableLoop] at h
    cases h
    simp
  | cons m ms ih =>
    intro d tables h hn
    simp only [tableLoop] at h
    cases ha : tableFrame cast lim views plots final m with
    | error e => rw [ha] at h; cases h
    | ok f =>
      rw [ha] at h
      rw [List.map_cons, List.nodup_cons] at hn
      obtain ⟨i1, i2⟩ := ih _ tables h hn.2
      refine ⟨fun m' hm' => ?_, fun k hk => ?_⟩
      · rcases List.mem_cons.1 hm' with rfl | hm'
        · exact ⟨f, ha, by rw [i2 _ hn.1, PyDict.get?_set, if_pos rfl]⟩
        · exact i1 m' hm'
      · rw [List.map_cons, List.mem_cons, not_or] at hk
        rw [i2 k hk.2, PyDict.get?_set, if_neg hk.1]

theorem named_all {F : Type} (ms : List (Metric V)) (d : PyDict Nat F) (g : Metric V → F) (h : ∀ m ∈ ms, d.get? m.id = some (g m)) :
    named ms d = ms.map fun m => (m.description, g m) := by
  unfold named
  induction ms with
  | nil => rfl
  | cons m t ih =>
    rw [List.filterMap_cons, h m (by simp), List.map_cons]
    simp only [Option.map_some]
    rw [ih (fun m hm => h m (by simp [hm]))]

theorem named_empty {F : Type} (ms : List (Metric V)) : named ms (PyDict.empty : PyDict Nat F) = [] := by
  unfold named
  simp

theorem mem_plotFrame {cast : Val → Val} {lim : ℝ} (hl : 0 ≤ lim) {m : Metric V} {views : List (String × List V)} (its : List Nat) :
    ∀ pf, plotFrame cast lim views m its = .ok pf → ∀ r, r ∈ pf ↔ ∃ it ∈ its, FrameRow cast lim m it views r := by
  induction its with
  | nil =>
    intro pf h r
    simp only [plotFrame] at h
    cases h
    simp
  | cons i its ih =>
    intro pf h r
    simp only [plotFrame] at h
    cases ha : computeAtIter cast lim m i views with
    | error e => rw [ha] at h; cases h
    | ok f =>
      rw [ha] at h
      cases hc : plotFrame cast lim views m its with
      | error e => rw [hc] at h; cases h
      | ok rest =>
        rw [hc] at h
        have h' : pf = f ++ rest := by
          have : (Except.ok (f ++ rest) : Py (List Metrics.Row)) = .ok pf := h
          injection this with this
          exact this.symm
        subst h'
        rw [List.mem_append, (C60_frame cast lim hl m i views f ha).1, ih rest hc r]
        simp

theorem hasValue_row {cast : Val → Val} {lim : ℝ} {m : Metric V} {views : List (String × List V)} {i : Nat} :
    HasValue views m i ↔ ∃ r, FrameRow cast lim m i views r := by
  constructor
  · rintro ⟨p, hp, v, hv, data, hd, hne⟩
    obtain ⟨t, ht⟩ := List.mem_iff_getElem?.1 hv
    cases data with
    | nil => exact absurd rfl hne
    | cons x l => exact ⟨⟨p.1, t % 65536, 0 % 65536, i % 4294967296, sanitise cast lim x⟩, p.1, p.2, t, v, x :: l, 0, x, hp, ht, hd, rfl, rfl, rfl, rfl, rfl, rfl⟩
  · rintro ⟨r, name, vs, t, v, data, a, x, hp, ht, hd, hx, _⟩
    refine ⟨(name, vs), hp, v, List.mem_iff_getElem?.2 ⟨t, ht⟩, data, hd, ?_⟩
    rintro rfl
    simp at hx

theorem hasValueOf_row {cast : Val → Val} {lim : ℝ} {m : Metric V} {views : List (String × List V)} {i : Nat} {a : String} :
    HasValueOf views m i a ↔ ∃ r, FrameRow cast lim m i views r ∧ r.alg = a := by
  constructor
  · rintro ⟨p, hp, hpa, v, hv, data, hd, hne⟩
    obtain ⟨t, ht⟩ := List.mem_iff_getElem?.1 hv
    cases data with
    | nil => exact absurd rfl hne
    | cons x l => exact ⟨⟨p.1, t % 65536, 0 % 65536, i % 4294967296, sanitise cast lim x⟩, ⟨p.1, p.2, t, v, x :: l, 0, x, hp, ht, hd, rfl, rfl, rfl, rfl, rfl, rfl⟩, hpa⟩
  · rintro ⟨r, ⟨name, vs, t, v, data, k, x, hp, ht, hd, hx, hr, _⟩, ha⟩
    refine ⟨(name, vs), hp, by rw [← ha, hr], v, List.mem_iff_getElem?.2 ⟨t, ht⟩, data, hd, ?_⟩
    rintro rfl
    simp at hx

theorem ids_nodup {ms : List (Metric V)} (hd : (ms.map Metric.description).Nodup) (ho : Objects ms) : (ms.map Metric.id).Nodup := by
  induction ms with
  | nil => exact List.nodup_nil
  | cons m t ih =>
    rw [List.map_cons, List.nodup_cons] at hd ⊢
    refine ⟨fun hm => ?_, ih hd.2 (fun a ha b hb => ho a (by simp [ha]) b (by simp [hb]))⟩
    obtain ⟨m', hm', e⟩ := List.mem_map.1 hm
    have := ho m' (by simp [hm']) m (by simp) e
    subst this
    exact hd.1 (List.mem_map_of_mem hm')

/-- what a successful computation went through -/
structure Outcome (env : Env V) (views : List (String × List V)) (tms pms : List (Metric V)) (statistics : Option (List String))
    (res : MetricResult V) (plots : PyDict Nat (List Metrics.Row)) (tables : PyDict Nat (List TRow)) : Prop where
  uniqueT : (tms.map Metric.description).Nodup
  uniqueP : (pms.map Metric.description).Nodup
  plots_ : computePlots env.cast env.lim views (removeUnavailable env.available pms) (allIterations env.iterationsOf views) = .ok plots
  tables_ : computeTables env.cast env.lim views (removeUnavailable env.available tms) (allIterations env.iterationsOf views) plots = .ok tables
  res_ : res = ⟨some views, some (named (removeUnavailable env.available tms) tables), some (named (removeUnavailable env.available pms) plots),
    aggregateTable env.cast env.ddof statistics (named (removeUnavailable env.available tms) tables)⟩

theorem compute_outcome {env : Env V} {views : List (String × List V)} {tableMetrics plotMetrics : Option (List (Metric V))}
    {statistics : Option (List String)} {res : MetricResult V} (h : computeMetrics env views tableMetrics plotMetrics statistics = .ok res) :
    ∃ plots tables, Outcome env views (tableMetrics.getD env.defaultTable) (plotMetrics.getD env.defaultPlot) statistics res plots tables := by
  unfold computeMetrics at h
  cases h1 : validateDescriptions (tableMetrics.getD env.defaultTable) with
  | error e => simp only [h1] at h; cases h
  | ok u =>
    cases h2 : validateDescriptions (plotMetrics.getD env.defaultPlot) with
    | error e => simp only [h1, h2] at h; cases h
    | ok u' =>
      cases h3 : computePlots env.cast env.lim views (removeUnavailable env.available (plotMetrics.getD env.defaultPlot)) (allIterations env.iterationsOf views) with
      | error e => simp only [h1, h2, h3] at h; cases h
      | ok plots =>
        cases h4 : computeTables env.cast env.lim views (removeUnavailable env.available (tableMetrics.getD env.defaultTable))
            (allIterations env.iterationsOf views) plots with
        | error e =>
          simp only [h1, h2, h3, bind, Except.bind] at h
          rw [h4] at h
          cases h
        | ok tables =>
          simp only [h1, h2, h3, bind, Except.bind] at h
          rw [h4] at h
          cases h
          exact ⟨plots, tables, (C64_descriptions _).1.1 h1, (C64_descriptions _).1.1 h2, h3, h4, rfl⟩

theorem available_nodup {env : Env V} {ms : List (Metric V)} (h : (ms.map Metric.description).Nodup) :
    ((removeUnavailable env.available ms).map Metric.description).Nodup :=
  h.sublist (List.filter_sublist.map _)

theorem mem_available {env : Env V} {ms : List (Metric V)} {m : Metric V} :
    m ∈ removeUnavailable env.available ms ↔ m ∈ ms ∧ env.available m = true := by
  unfold removeUnavailable; rw [List.mem_filter]

theorem Objects.available {env : Env V} {ms : List (Metric V)} (h : Objects ms) : Objects (removeUnavailable env.available ms) :=
  fun m hm m' hm' => h m (mem_available.1 hm).1 m' (mem_available.1 hm').1

theorem none_reached {env : Env V} {views : List (String × List V)} (h : ¬ ∃ i, ReachedAt env views i) :
    allIterations env.iterationsOf views = [] := by
  rw [List.eq_nil_iff_forall_not_mem]
  intro i hi
  exact h ⟨i, ((C61_iterations env.iterationsOf views).2.2 i).1 hi⟩

theorem some_reached {env : Env V} {views : List (String × List V)} (h : ∃ i, ReachedAt env views i) :
    allIterations env.iterationsOf views ≠ [] := by
  obtain ⟨i, hi⟩ := h
  exact List.ne_nil_of_mem (((C61_iterations env.iterationsOf views).2.2 i).2 hi)

/-- the plot frames: one per available metric, in order, each with exactly its rows -/
theorem plots_frames {env : Env V} {views : List (String × List V)} {tms pms : List (Metric V)} {statistics : Option (List String)}
    {res : MetricResult V} {plots : PyDict Nat (List Metrics.Row)} {tables : PyDict Nat (List TRow)}
    (h : Outcome env views tms pms statistics res plots tables) (ho : Objects pms) (hr : ∃ i, ReachedAt env views i) :
    ∃ F : Metric V → List Metrics.Row, named (removeUnavailable env.available pms) plots =
        (removeUnavailable env.available pms).map (fun m => (m.description, F m)) ∧
      ∀ m ∈ removeUnavailable env.available pms, plotFrame env.cast env.lim views m (allIterations env.iterationsOf views) = .ok (F m) := by
  have hp := h.plots_
  unfold computePlots at hp
  rw [if_neg (some_reached hr)] at hp
  obtain ⟨q, _⟩ := plotLoop_all _ _ _ hp (ids_nodup (available_nodup h.uniqueP) ho.available)
  have : ∀ m, ∃ f, m ∈ removeUnavailable env.available pms →
      plotFrame env.cast env.lim views m (allIterations env.iterationsOf views) = .ok f ∧ plots.get? m.id = some f := by
    intro m
    by_cases hm : m ∈ removeUnavailable env.available pms
    · obtain ⟨f, hf⟩ := q m hm; exact ⟨f, fun _ => hf⟩
    · exact ⟨[], fun hh => absurd hh hm⟩
  choose F hF using this
  exact ⟨F, named_all _ _ F (fun m hm => (hF m hm).2), fun m hm => (hF m hm).1⟩

theorem tables_frames {env : Env V} {views : List (String × List V)} {tms pms : List (Metric V)} {statistics : Option (List String)}
    {res : MetricResult V} {plots : PyDict Nat (List Metrics.Row)} {tables : PyDict Nat (List TRow)}
    (h : Outcome env views tms pms statistics res plots tables) (ho : Objects tms) (hr : ∃ i, ReachedAt env views i) :
    ∃ F : Metric V → List Metrics.Row, named (removeUnavailable env.available tms) tables =
        (removeUnavailable env.available tms).map (fun m => (m.description, (F m).map Metrics.Row.drop)) ∧
      ∀ m ∈ removeUnavailable env.available tms,
        tableFrame env.cast env.lim views plots (maxIt (allIterations env.iterationsOf views)) m = .ok (F m) := by
  have hp := h.tables_
  unfold computeTables at hp
  rw [if_neg (some_reached hr)] at hp
  obtain ⟨q, _⟩ := tableLoop_all _ _ _ hp (ids_nodup (available_nodup h.uniqueT) ho.available)
  have : ∀ m, ∃ f, m ∈ removeUnavailable env.available tms →
      tableFrame env.cast env.lim views plots (maxIt (allIterations env.iterationsOf views)) m = .ok f ∧ tables.get? m.id = some (f.map Metrics.Row.drop) := by
    intro m
    by_cases hm : m ∈ removeUnavailable env.available tms
    · obtain ⟨f, hf⟩ := q m hm; exact ⟨f, fun _ => hf⟩
    · exact ⟨[], fun hh => absurd hh hm⟩
  choose F hF using this
  exact ⟨F, named_all _ _ (fun m => (F m).map Metrics.Row.drop) (fun m hm => (hF m hm).2), fun m hm => (hF m hm).1⟩

/-- a metric that computes a list of values for every trial and iteration -/
def NeverFails (m : Metric V) : Prop := ∀ v i, ∃ data, m.compute v i = .ok data

theorem algRows_total (cast : Val → Val) (lim : ℝ) {m : Metric V} (h : NeverFails m) (i : Nat) (name : String) (vs : List V) :
    ∀ t, ∃ f, algRows cast lim m i name t vs = .ok f := by
  induction vs with
  | nil => exact fun t => ⟨[], rfl⟩
  | cons v vs ih =>
    intro t
    obtain ⟨data, hd⟩ := h v i
    obtain ⟨f, hf⟩ := ih (t + 1)
    simp only [algRows, hd, hf]
    exact ⟨_, rfl⟩

theorem atIter_total (cast : Val → Val) (lim : ℝ) {m : Metric V} (h : NeverFails m) (i : Nat) (views : List (String × List V)) :
    ∃ f, computeAtIter cast lim m i views = .ok f := by
  induction views with
  | nil => exact ⟨[], rfl⟩
  | cons p l ih =>
    obtain ⟨f, hf⟩ := ih
    obtain ⟨g, hg⟩ := algRows_total cast lim h i p.1 p.2 0
    simp only [computeAtIter, hf, hg]
    exact ⟨_, rfl⟩

theorem plotFrame_total (cast : Val → Val) (lim : ℝ) {m : Metric V} (h : NeverFails m) (views : List (String × List V)) (its : List Nat) :
    ∃ f, plotFrame cast lim views m its = .ok f := by
  induction its with
  | nil => exact ⟨[], rfl⟩
  | cons i l ih =>
    obtain ⟨f, hf⟩ := ih
    obtain ⟨g, hg⟩ := atIter_total cast lim h i views
    simp only [plotFrame, hf, hg]
    exact ⟨_, rfl⟩

theorem plotLoop_total (cast : Val → Val) (lim : ℝ) (views : List (String × List V)) (its : List Nat) (ms : List (Metric V))
    (h : ∀ m ∈ ms, NeverFails m) : ∀ d, ∃ plots, plotLoop cast lim views its ms d = .ok plots := by
  induction ms with
  | nil => exact fun d => ⟨d, rfl⟩
  | cons m t ih =>
    intro d
    obtain ⟨f, hf⟩ := plotFrame_total cast lim (h m (by simp)) views its
    obtain ⟨p, hp⟩ := ih (fun m hm => h m (by simp [hm])) (d.set m.id f)
    refine ⟨p, ?_⟩
    simp only [plotLoop, hf]
    exact hp

theorem tableLoop_total (cast : Val → Val) (lim : ℝ) (views : List (String × List V)) (plots : PyDict Nat (List Metrics.Row)) (final : Nat)
    (ms : List (Metric V)) (h : ∀ m ∈ ms, NeverFails m) : ∀ d, ∃ tables, tableLoop cast lim views plots final ms d = .ok tables := by
  induction ms with
  | nil => exact fun d => ⟨d, rfl⟩
  | cons m t ih =>
    intro d
    obtain ⟨f, hf⟩ : ∃ f, tableFrame cast lim views plots final m = .ok f := by
      unfold tableFrame
      cases plots.get? m.id with
      | some pf => exact ⟨_, rfl⟩
      | none => exact atIter_total cast lim (h m (by simp)) final views
    obtain ⟨p, hp⟩ := ih (fun m hm => h m (by simp [hm])) (d.set m.id (f.map Metrics.Row.drop))
    refine ⟨p, ?_⟩
    simp only [tableLoop, hf]
    exact hp

/-! ### the property -/

/-- `compute_metrics` raises nothing if the metrics raise nothing and the descriptions are distinct. -/
theorem C126_total (env : Env V) (views : List (String × List V)) (tableMetrics plotMetrics : Option (List (Metric V)))
    (statistics : Option (List String)) (hT : ∀ m, Computed env tableMetrics env.defaultTable m → NeverFails m)
    (hP : ∀ m, Computed env plotMetrics env.defaultPlot m → NeverFails m)
    (uT : ((tableMetrics.getD env.defaultTable).map Metric.description).Nodup)
    (uP : ((plotMetrics.getD env.defaultPlot).map Metric.description).Nodup) :
    ∃ res, computeMetrics env views tableMetrics plotMetrics statistics = .ok res := by
  obtain ⟨plots, hp⟩ : ∃ plots, computePlots env.cast env.lim views (removeUnavailable env.available (plotMetrics.getD env.defaultPlot))
      (allIterations env.iterationsOf views) = .ok plots := by
    unfold computePlots
    split
    · exact ⟨_, rfl⟩
    · exact plotLoop_total _ _ _ _ _ (fun m hm => hP m (mem_available.1 hm)) _
  obtain ⟨tables, ht⟩ : ∃ tables, computeTables env.cast env.lim views (removeUnavailable env.available (tableMetrics.getD env.defaultTable))
      (allIterations env.iterationsOf views) plots = .ok tables := by
    unfold computeTables
    split
    · exact ⟨_, rfl⟩
    · exact tableLoop_total _ _ _ _ _ _ (fun m hm => hT m (mem_available.1 hm)) _
  unfold computeMetrics
  simp only [(C64_descriptions _).1.2 uT, (C64_descriptions _).1.2 uP, bind, Except.bind]
  rw [hp]
  simp only
  rw [ht]
  exact ⟨_, rfl⟩

/-- Two table metrics, or two plot metrics, with one description: `ValueError`, whatever the metrics compute, and also when one of them is
unavailable. -/
theorem C126_duplicates (env : Env V) (views : List (String × List V)) (tableMetrics plotMetrics : Option (List (Metric V)))
    (statistics : Option (List String))
    (h : ¬ ((tableMetrics.getD env.defaultTable).map Metric.description).Nodup ∨ ¬ ((plotMetrics.getD env.defaultPlot).map Metric.description).Nodup) :
    computeMetrics env views tableMetrics plotMetrics statistics = .error .valueError := by
  unfold computeMetrics
  by_cases h1 : ((tableMetrics.getD env.defaultTable).map Metric.description).Nodup
  · have h2 := h.resolve_left (not_not.2 h1)
    simp only [(C64_descriptions _).1.2 h1, (C64_descriptions _).2.2 h2, bind, Except.bind]
  · simp only [(C64_descriptions _).2.2 h1, bind, Except.bind]

/-- `algorithms`: the names of the benchmarked algorithms in alphabetical order. -/
theorem C126_algorithms {env : Env V} {views : List (String × List V)} {tableMetrics plotMetrics : Option (List (Metric V))}
    {statistics : Option (List String)} {res : MetricResult V} (h : computeMetrics env views tableMetrics plotMetrics statistics = .ok res) :
    Alphabetical (fun a => ∃ p ∈ views, p.1 = a) res.algorithms := by
  obtain ⟨plots, tables, ho⟩ := compute_outcome h
  rw [ho.res_]
  have := sortedKeys_alphabetical (views.map Prod.fst)
  simp only [List.mem_map] at this
  exact this

/-- `table_metrics` and `plot_metrics`: the descriptions of the requested (default) and available metrics in alphabetical order, provided
some trial recorded an iteration. -/
theorem C126_metrics {env : Env V} {views : List (String × List V)} {tableMetrics plotMetrics : Option (List (Metric V))}
    {statistics : Option (List String)} {res : MetricResult V} (h : computeMetrics env views tableMetrics plotMetrics statistics = .ok res)
    (hot : Objects (tableMetrics.getD env.defaultTable)) (hop : Objects (plotMetrics.getD env.defaultPlot)) (hr : ∃ i, ReachedAt env views i) :
    Alphabetical (fun d => ∃ m, Computed env tableMetrics env.defaultTable m ∧ m.description = d) res.tableMetrics ∧
    Alphabetical (fun d => ∃ m, Computed env plotMetrics env.defaultPlot m ∧ m.description = d) res.plotMetrics := by
  obtain ⟨plots, tables, ho⟩ := compute_outcome h
  obtain ⟨F, hF, _⟩ := plots_frames ho hop hr
  obtain ⟨T, hT, _⟩ := tables_frames ho hot hr
  rw [ho.res_]
  constructor
  · simp only [MetricResult.tableMetrics, hT, List.map_map, Function.comp_def]
    have := sortedKeys_alphabetical ((removeUnavailable env.available (tableMetrics.getD env.defaultTable)).map Metric.description)
    simpa only [List.mem_map, mem_available, Computed] using this
  · simp only [MetricResult.plotMetrics, hF, List.map_map, Function.comp_def]
    have := sortedKeys_alphabetical ((removeUnavailable env.available (plotMetrics.getD env.defaultPlot)).map Metric.description)
    simpa only [List.mem_map, mem_available, Computed] using this

/-- without any recorded iteration there are no metrics, no iterations and no table -/
theorem C126_nothing_reached {env : Env V} {views : List (String × List V)} {tableMetrics plotMetrics : Option (List (Metric V))}
    {statistics : Option (List String)} {res : MetricResult V} (h : computeMetrics env views tableMetrics plotMetrics statistics = .ok res)
    (hr : ¬ ∃ i, ReachedAt env views i) :
    res.tableMetrics = [] ∧ res.plotMetrics = [] ∧ res.iterations = [] ∧ res.table = none := by
  obtain ⟨plots, tables, ho⟩ := compute_outcome h
  have hp := ho.plots_
  have ht := ho.tables_
  unfold computePlots at hp
  unfold computeTables at ht
  rw [if_pos (none_reached hr)] at hp ht
  cases hp
  cases ht
  rw [ho.res_]
  simp [named_empty, MetricResult.tableMetrics, MetricResult.plotMetrics, MetricResult.iterations, sortedKeys, aggregateTable]

/-- `iterations`: in increasing order exactly the recorded iterations at which the *first* available plot metric has a value. -/
theorem C126_iterations {env : Env V} (hl : 0 ≤ env.lim) {views : List (String × List V)} {tableMetrics plotMetrics : Option (List (Metric V))}
    {statistics : Option (List String)} {res : MetricResult V} (h : computeMetrics env views tableMetrics plotMetrics statistics = .ok res)
    (hop : Objects (plotMetrics.getD env.defaultPlot)) (hlt : ∀ i, ReachedAt env views i → i < 4294967296)
    {m : Metric V} {rest : List (Metric V)} (hm : (plotMetrics.getD env.defaultPlot).filter env.available = m :: rest) :
    res.iterations.Pairwise (· < ·) ∧ ∀ i, i ∈ res.iterations ↔ ReachedAt env views i ∧ HasValue views m i := by
  obtain ⟨plots, tables, ho⟩ := compute_outcome h
  by_cases hr : ∃ i, ReachedAt env views i
  · obtain ⟨F, hF, hf⟩ := plots_frames ho hop hr
    have hm' : removeUnavailable env.available (plotMetrics.getD env.defaultPlot) = m :: rest := hm
    have hfm := hf m (by rw [hm']; simp)
    have e : res.iterations = sortedSet ((F m).map Metrics.Row.iteration) := by
      rw [ho.res_]
      rw [hm', List.map_cons] at hF
      simp only [MetricResult.iterations, hm', hF]
    rw [e]
    refine ⟨sortedSet_increasing _, fun i => ?_⟩
    rw [mem_sortedSet, List.mem_map]
    constructor
    · rintro ⟨r, hr', rfl⟩
      obtain ⟨it, hit, hrow⟩ := (mem_plotFrame hl _ _ hfm r).1 hr'
      have hre := ((C61_iterations env.iterationsOf views).2.2 it).1 hit
      have hit' : r.iteration = it := by
        obtain ⟨_, _, _, _, _, _, _, _, _, _, _, _, _, _, e, _⟩ := hrow
        rw [e, Nat.mod_eq_of_lt (hlt it hre)]
      rw [hit']
      exact ⟨hre, hasValue_row.2 ⟨r, hrow⟩⟩
    · rintro ⟨hre, hv⟩
      obtain ⟨r, hrow⟩ := hasValue_row.1 hv
      refine ⟨r, (mem_plotFrame hl _ _ hfm r).2 ⟨i, ((C61_iterations env.iterationsOf views).2.2 i).2 hre, hrow⟩, ?_⟩
      obtain ⟨_, _, _, _, _, _, _, _, _, _, _, _, _, _, e, _⟩ := hrow
      rw [e, Nat.mod_eq_of_lt (hlt i hre)]
  · have := (C126_nothing_reached h hr).2.2.1
    rw [this]
    refine ⟨List.Pairwise.nil, fun i => ?_⟩
    simp only [List.not_mem_nil, false_iff]
    exact fun hh => hr ⟨i, hh.1⟩

/-- The documentation of `iterations` ("all the iterations that were reached in at least one trial by at least one algorithm") is wrong
without plot metrics: the list is empty although iterations were reached and the table was computed at the last of them. -/
theorem C126_iterations_refuted {env : Env V} {views : List (String × List V)} {tableMetrics : Option (List (Metric V))}
    {statistics : Option (List String)} {res : MetricResult V} (h : computeMetrics env views tableMetrics (some []) statistics = .ok res) :
    res.iterations = [] := by
  obtain ⟨plots, tables, ho⟩ := compute_outcome h
  rw [ho.res_]
  rfl

/-- `update_table_results` gives the table that `compute_metrics` would have given with these statistics, and changes nothing else:
the last call decides. -/
theorem C126_update {env : Env V} {views : List (String × List V)} {tableMetrics plotMetrics : Option (List (Metric V))}
    {statistics : Option (List String)} {res : MetricResult V} (h : computeMetrics env views tableMetrics plotMetrics statistics = .ok res)
    (before : List (Option (List String))) (last : Option (List String)) :
    ∃ res', computeMetrics env views tableMetrics plotMetrics last = .ok res' ∧
      (before ++ [last]).foldl (fun r s => (r.update env.cast env.ddof s).2) res = res' ∧
      (((before.foldl (fun r s => (r.update env.cast env.ddof s).2) res).update env.cast env.ddof last).1 = res'.table) := by
  obtain ⟨plots, tables, ho⟩ := compute_outcome h
  have hu : ∀ s, computeMetrics env views tableMetrics plotMetrics s = .ok { res with
      table := aggregateTable env.cast env.ddof s (named (removeUnavailable env.available (tableMetrics.getD env.defaultTable)) tables) } := by
    intro s
    unfold computeMetrics
    simp only [(C64_descriptions _).1.2 ho.uniqueT, (C64_descriptions _).1.2 ho.uniqueP, bind, Except.bind]
    rw [ho.plots_]
    simp only
    rw [ho.tables_]
    simp only [ho.res_]
  have hone : ∀ s s' r', computeMetrics env views tableMetrics plotMetrics s' = .ok r' →
      (r'.update env.cast env.ddof s).2 = { res with
        table := aggregateTable env.cast env.ddof s (named (removeUnavailable env.available (tableMetrics.getD env.defaultTable)) tables) } ∧
      (r'.update env.cast env.ddof s).1 =
        aggregateTable env.cast env.ddof s (named (removeUnavailable env.available (tableMetrics.getD env.defaultTable)) tables) := by
    intro s s' r' hr'
    rw [hu s'] at hr'
    cases hr'
    unfold MetricResult.update
    rw [ho.res_]
    simp only
    cases hd : named (removeUnavailable env.available (tableMetrics.getD env.defaultTable)) tables with
    | nil => simp [aggregateTable]
    | cons p l => simp
  have hfold : ∀ l : List (Option (List String)), ∃ s', computeMetrics env views tableMetrics plotMetrics s' =
      .ok (l.foldl (fun r s => (r.update env.cast env.ddof s).2) res) := by
    intro l
    induction l using List.reverseRecOn with
    | nil => exact ⟨statistics, h⟩
    | append_singleton l s ih =>
      obtain ⟨s', hs'⟩ := ih
      refine ⟨s, ?_⟩
      rw [List.foldl_append, List.foldl_cons, List.foldl_nil, (hone s s' _ hs').1]
      exact hu s
  obtain ⟨s', hs'⟩ := hfold before
  obtain ⟨k1, k2⟩ := hone last s' _ hs'
  refine ⟨_, hu last, ?_, ?_⟩
  · rw [List.foldl_append, List.foldl_cons, List.foldl_nil, k1]
  · rw [k2]

/-- The result loaded without network views reports the same algorithms, provided the first available table metric has a value at the last
iteration for every algorithm. -/
theorem C126_without_views {env : Env V} (hl : 0 ≤ env.lim) {views : List (String × List V)} {tableMetrics plotMetrics : Option (List (Metric V))}
    {statistics : Option (List String)} {res : MetricResult V} (h : computeMetrics env views tableMetrics plotMetrics statistics = .ok res)
    (hot : Objects (tableMetrics.getD env.defaultTable ++ plotMetrics.getD env.defaultPlot)) (hlt : ∀ i, ReachedAt env views i → i < 4294967296)
    {m : Metric V} {rest : List (Metric V)} (hm : (tableMetrics.getD env.defaultTable).filter env.available = m :: rest)
    {last : Nat} (hlast : ReachedAt env views last) (hmax : ∀ i, ReachedAt env views i → i ≤ last) :
    Alphabetical (fun a => HasValueOf views m last a) ({ res with views := none } : MetricResult V).algorithms ∧
    ((∀ p ∈ views, HasValueOf views m last p.1) → ({ res with views := none } : MetricResult V).algorithms = res.algorithms) := by
  obtain ⟨plots, tables, ho⟩ := compute_outcome h
  have hr : ∃ i, ReachedAt env views i := ⟨last, hlast⟩
  have hot1 : Objects (tableMetrics.getD env.defaultTable) := fun a ha b hb => hot a (by simp [ha]) b (by simp [hb])
  have hop1 : Objects (plotMetrics.getD env.defaultPlot) := fun a ha b hb => hot a (by simp [ha]) b (by simp [hb])
  obtain ⟨T, hT, hf⟩ := tables_frames ho hot1 hr
  obtain ⟨q1, q2, q3⟩ := C61_iterations env.iterationsOf views
  have hfin : maxIt (allIterations env.iterationsOf views) = last := by
    obtain ⟨m1, m2⟩ := maxIt_spec _ (some_reached hr)
    exact le_antisymm (hmax _ ((q3 _).1 m1)) (m2 last ((q3 last).2 hlast))
  have hm' : removeUnavailable env.available (tableMetrics.getD env.defaultTable) = m :: rest := hm
  have hfm := hf m (by rw [hm']; simp)
  rw [hfin] at hfm
  have hrows : ∀ r, r ∈ T m ↔ FrameRow env.cast env.lim m last views r := by
    unfold tableFrame at hfm
    cases hg : plots.get? m.id with
    | none =>
      rw [hg] at hfm
      exact (C60_frame env.cast env.lim hl m last views _ hfm).1
    | some pf =>
      rw [hg] at hfm
      simp only at hfm
      have hp := ho.plots_
      unfold computePlots at hp
      rw [if_neg (some_reached hr)] at hp
      rcases plotLoop_get _ _ _ hp m.id pf hg with h0 | ⟨m', hmm, hid, hpf⟩
      · rw [PyDict.get?_empty] at h0; cases h0
      · have hmt : m ∈ tableMetrics.getD env.defaultTable := (mem_available.1 (by rw [hm']; simp : m ∈ removeUnavailable env.available _)).1
        have he : m' = m := hot m' (by simp [(mem_available.1 hmm).1]) m (by simp [hmt]) hid
        subst he
        obtain ⟨k1, _⟩ := plotFrame_filter hl last (allIterations env.iterationsOf views) pf hpf q2
          (fun i hi => hlt i ((q3 i).1 hi)) (hlt last hlast)
        obtain ⟨f, hf1, hf2⟩ := k1 ((q3 last).2 hlast)
        have : T m' = f := by
          rw [← hf2]
          have := hfm
          injection this with this
          exact this.symm
        rw [this]
        exact (C60_frame env.cast env.lim hl m' last views f hf1).1
  have e : ({ res with views := none } : MetricResult V).algorithms = sortedKeys ((T m).map Metrics.Row.alg) := by
    rw [ho.res_]
    rw [hm', List.map_cons] at hT
    simp only [MetricResult.algorithms, MetricResult.sample, hm', hT, List.map_map]
    rfl
  have halph : Alphabetical (fun a => HasValueOf views m last a) ({ res with views := none } : MetricResult V).algorithms := by
    rw [e]
    have := sortedKeys_alphabetical ((T m).map Metrics.Row.alg)
    refine ⟨fun a => ?_, this.once, this.order⟩
    rw [this.exact_ a, List.mem_map, hasValueOf_row (cast := env.cast) (lim := env.lim)]
    constructor
    · rintro ⟨r, h1, h2⟩; exact ⟨r, (hrows r).1 h1, h2⟩
    · rintro ⟨r, h1, h2⟩; exact ⟨r, (hrows r).2 h1, h2⟩
  refine ⟨halph, fun hall => ?_⟩
  have ha := C126_algorithms h
  have hperm : ({ res with views := none } : MetricResult V).algorithms.Perm res.algorithms := by
    rw [List.perm_ext_iff_of_nodup halph.once ha.once]
    intro a
    rw [halph.exact_, ha.exact_]
    constructor
    · rintro ⟨p, hp, e, _⟩; exact ⟨p, hp, e⟩
    · rintro ⟨p, hp, rfl⟩; exact hall p hp
  exact hperm.eq_of_pairwise (fun a b _ _ h1 h2 => String.le_antisymm h1 h2) halph.order ha.order

/-- `table_metrics` cannot be listed before: with `raw_table_results = {}` and no views, `algorithms` is empty whatever the plots contain -/
theorem C126_empty_table_hides_plots (plots : List (String × List Metrics.Row)) (t : Option (List ARow)) :
    (⟨none, some [], some plots, t⟩ : MetricResult V).algorithms = [] := rfl

/-! ### examples -/

/-- a view is the number of iterations recorded; two algorithms, one trial each -/
def twoViews : List (String × List Nat) := [("b", [2]), ("a", [1])]

/-- value 1 at the iterations recorded, nothing otherwise -/
noncomputable def loss : Metric Nat := ⟨0, "loss", false, true, fun v i => .ok (if i ≤ v then [.fin 1] else [])⟩

/-- value 1 at iteration 1 only -/
noncomputable def early : Metric Nat := ⟨1, "early", false, true, fun _ i => .ok (if i = 1 then [.fin 1] else [])⟩

/-- exact arithmetic, everything available -/
noncomputable def plainEnv : Env Nat := ⟨id, 10, 1, fun _ => true, fun v => List.range (v + 1), [loss], [early, loss]⟩

theorem plain_reached (i : Nat) : ReachedAt plainEnv twoViews i ↔ i ≤ 2 := by
  simp [ReachedAt, plainEnv, twoViews]
  omega

theorem plain_objects : Objects [loss, early, loss] := by
  intro m hm m' hm' h
  simp only [List.mem_cons, List.not_mem_nil, or_false] at hm hm'
  rcases hm with rfl | rfl | rfl <;> rcases hm' with rfl | rfl | rfl <;> simp_all [loss, early]

theorem plain_total : ∃ res, computeMetrics plainEnv twoViews none none none = .ok res := by
  have h : ∀ m, m = loss ∨ m = early → NeverFails m := by
    rintro m (rfl | rfl) <;> exact fun v i => ⟨_, rfl⟩
  refine C126_total _ _ _ _ _ (fun m hm => h m ?_) (fun m hm => h m ?_) ?_ ?_
  · left; simpa [Computed, plainEnv] using hm.1
  · have := hm.1
    simp only [plainEnv, Option.getD_none, List.mem_cons, List.not_mem_nil, or_false] at this
    exact this.symm
  · simp [plainEnv]
  · simp [plainEnv, loss, early]

/-- the first plot metric has a value at iteration 1 only: iterations 0 and 2 are missing from `iterations` -/
example : ∃ res, computeMetrics plainEnv twoViews none none none = .ok res ∧ res.iterations = [1] ∧ ReachedAt plainEnv twoViews 2 := by
  obtain ⟨res, h⟩ := plain_total
  refine ⟨res, h, ?_, (plain_reached 2).2 (by omega)⟩
  obtain ⟨h1, h2⟩ := C126_iterations (env := plainEnv) (by norm_num [plainEnv]) h
    (fun a ha b hb => plain_objects a (List.mem_cons_of_mem _ ha) b (List.mem_cons_of_mem _ hb))
    (fun i hi => by have := (plain_reached i).1 hi; omega) (m := early) (rest := [loss]) (by simp [plainEnv])
  have hmem : ∀ i, i ∈ res.iterations ↔ i ∈ [1] := by
    intro i
    rw [h2 i, plain_reached]
    by_cases hi : i = 1 <;> simp [HasValue, early, twoViews, hi]
  exact ((List.perm_ext_iff_of_nodup (h1.imp (fun h => (ne_of_lt h))) (by simp)).2 hmem).eq_of_pairwise
    (fun a b _ _ h1 h2 => le_antisymm h1 h2) (h1.imp le_of_lt) (by simp)

/-- the final iteration was reached by algorithm `b` only: without the views `a` disappears from `algorithms` -/
example : ∃ res, computeMetrics plainEnv twoViews none none none = .ok res ∧ "a" ∈ res.algorithms ∧
    "a" ∉ ({ res with views := none } : MetricResult Nat).algorithms ∧ "b" ∈ ({ res with views := none } : MetricResult Nat).algorithms := by
  obtain ⟨res, h⟩ := plain_total
  have h1 := C126_algorithms h
  obtain ⟨h2, _⟩ := C126_without_views (env := plainEnv) (by norm_num [plainEnv]) h plain_objects
    (fun i hi => by have := (plain_reached i).1 hi; omega) (m := loss) (rest := []) (by simp [plainEnv]) ((plain_reached 2).2 le_rfl)
    (fun i hi => (plain_reached i).1 hi)
  refine ⟨res, h, (h1.exact_ "a").2 ⟨("a", [1]), by simp [twoViews], rfl⟩, fun hh => ?_, (h2.exact_ "b").2 ?_⟩
  · have := (h2.exact_ "a").1 hh
    simp [HasValueOf, twoViews, loss] at this
  · simp [HasValueOf, twoViews, loss]

/-- repeated updates -/
example : ∃ res, computeMetrics plainEnv twoViews none none none = .ok res ∧
    ∃ res', computeMetrics plainEnv twoViews none none (some ["max"]) = .ok res' ∧
      (([some ["min"]] ++ [some ["max"]]).foldl (fun r s => (r.update plainEnv.cast plainEnv.ddof s).2) res) = res' := by
  obtain ⟨res, h⟩ := plain_total
  obtain ⟨res', h1, h2, _⟩ := C126_update h [some ["min"]] (some ["max"])
  exact ⟨res, h, res', h1, h2⟩

example : computeMetrics plainEnv twoViews (some [loss, { early with description := "loss" }]) none none = .error .valueError :=
  C126_duplicates _ _ _ _ _ (Or.inl (by simp [loss, early]))

end Props
end Verif
