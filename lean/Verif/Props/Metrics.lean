import Verif.Model.Metrics
import Verif.Lemmas.History
import Verif.Model.Benchmark
import Mathlib.Tactic.Linarith
/-! # C60, C61, C64: metric frames, table values, names -/
set_option linter.unusedSectionVars false
namespace Verif.Props
open Metrics

variable {V : Type}

/-! ### C60 -/

/-- what a cleaned value may be, given the raw value after rounding to float32 -/
inductive Cleaned (lim : ℝ) : Val → Val → Prop
  | keep (r : ℝ) : -lim ≤ r → r ≤ lim → Cleaned lim (.fin r) (.fin r)
  | high (r : ℝ) : lim < r → Cleaned lim (.fin r) .posInf
  | low (r : ℝ) : r < -lim → Cleaned lim (.fin r) .negInf
  | pos : Cleaned lim .posInf .posInf
  | neg : Cleaned lim .negInf .negInf
  | nan : Cleaned lim .nan .posInf

/-- **C60.** Every raw value is cleaned as documented: values within ±1e30 are kept (as float32), larger or NaN ones become `inf`,
smaller ones `-inf`. -/
theorem C60_sanitise (cast : Val → Val) (lim : ℝ) (hl : 0 ≤ lim) (v : Val) : Cleaned lim (cast v) (sanitise cast lim v) := by
  unfold sanitise
  cases cast v with
  | fin r =>
    by_cases h1 : r > lim
    · rw [capHigh, if_pos h1]; exact .high r h1
    · rw [capHigh, if_neg h1]
      by_cases h2 : r < -lim
      · rw [capLow, if_pos h2]; exact .low r h2
      · rw [capLow, if_neg h2]; exact .keep r (not_lt.1 h2) (not_lt.1 h1)
  | posInf => exact .pos
  | negInf => exact .neg
  | nan => exact .nan

/-- the rows a metric frame should have: one for each algorithm, trial and value returned by the metric.  The columns wrap around at
the sizes of their types. -/
def FrameRow (cast : Val → Val) (lim : ℝ) (m : Metric V) (it : Nat) (views : List (String × List V)) (r : Row) : Prop :=
  ∃ name vs t v data a x, (name, vs) ∈ views ∧ vs[t]? = some v ∧ m.compute v it = .ok data ∧ data[a]? = some x ∧
    r.alg = name ∧ r.trial = t % 65536 ∧ r.agent = a % 65536 ∧ r.iteration = it % 4294967296 ∧ r.value = sanitise cast lim x

theorem mem_rowsOf (cast : Val → Val) (lim : ℝ) (name : String) (it t : Nat) (data : List Val) (r : Row) :
    r ∈ rowsOf cast lim name it t data ↔ ∃ (a : Nat) (x : Val), data[a]? = some x ∧
      r = ⟨name, t % 65536, a % 65536, it % 4294967296, sanitise cast lim x⟩ := by
  unfold rowsOf
  rw [List.mem_map]
  constructor
  · rintro ⟨⟨x, a⟩, h, e⟩
    exact ⟨a, x, List.mem_zipIdx_iff_getElem?.1 h, e.symm⟩
  · rintro ⟨a, x, h, e⟩
    exact ⟨(x, a), List.mem_zipIdx_iff_getElem?.2 h, e.symm⟩

theorem mem_algRows (cast : Val → Val) (lim : ℝ) (m : Metric V) (it : Nat) (name : String) (vs : List V) :
    ∀ (t : Nat) (f : List Row), algRows cast lim m it name t vs = .ok f → ∀ r, r ∈ f ↔ ∃ (i : Nat) (v : V) (data : List Val) (a : Nat) (x : Val),
      vs[i]? = some v ∧ m.compute v it = .ok data ∧ data[a]? = some x ∧
      r = ⟨name, (t + i) % 65536, a % 65536, it % 4294967296, sanitise cast lim x⟩ := by
  induction vs with
  | nil =>
    intro t f h r
    simp only [algRows] at h
    cases h
    simp
  | cons v vs ih =>
    intro t f h r
    simp only [algRows] at h
    cases hd : m.compute v it with
    | error e => rw [hd] at h; cases h
    | ok data =>
      rw [hd] at h
      cases hr : algRows cast lim m it name (t + 1) vs with
      | error e => rw [hr] at h; cases h
      | ok rest =>
        rw [hr] at h
        have h' : f = rowsOf cast lim name it t data ++ rest := by
          have : (Except.ok (rowsOf cast lim name it t data ++ rest) : Py (List Row)) = .ok f := h
          injection this with this
          exact this.symm
        subst h'
        rw [List.mem_append, mem_rowsOf, ih (t + 1) rest hr r]
        constructor
        · rintro (⟨a, x, hx, e⟩ | ⟨i, w, data', a, x, h1, h2, h3, e⟩)
          · exact ⟨0, v, data, a, x, rfl, hd, hx, by simpa using e⟩
          · exact ⟨i + 1, w, data', a, x, h1, h2, h3, by rw [e]; congr 2; omega⟩
        · rintro ⟨i, w, data', a, x, h1, h2, h3, e⟩
          cases i with
          | zero =>
            simp at h1; subst h1
            rw [hd] at h2; cases h2
            exact Or.inl ⟨a, x, h3, by simpa using e⟩
          | succ i => exact Or.inr ⟨i, w, data', a, x, by simpa using h1, h2, h3, by rw [e]; congr 2; omega⟩

/-- **C60.** The frame has exactly the rows it should have, and none of its values is NaN or a finite number beyond ±1e30. -/
theorem C60_frame (cast : Val → Val) (lim : ℝ) (hl : 0 ≤ lim) (m : Metric V) (it : Nat) (views : List (String × List V)) (f : List Row)
    (h : computeAtIter cast lim m it views = .ok f) :
    (∀ r, r ∈ f ↔ FrameRow cast lim m it views r) ∧ (∀ r ∈ f, r.value ≠ .nan) ∧ (∀ r ∈ f, ∀ x, r.value = .fin x → |x| ≤ lim) := by
  have key : ∀ r, r ∈ f ↔ FrameRow cast lim m it views r := by
    induction views generalizing f with
    | nil =>
      simp only [computeAtIter] at h
      cases h
      intro r
      simp [FrameRow]
    | cons p rest ih =>
      obtain ⟨name, vs⟩ := p
      simp only [computeAtIter] at h
      cases ha : algRows cast lim m it name 0 vs with
      | error e => rw [ha] at h; cases h
      | ok rows =>
        rw [ha] at h
        cases hc : computeAtIter cast lim m it rest with
        | error e => rw [hc] at h; cases h
        | ok more =>
          rw [hc] at h
          have h' : f = rows ++ more := by
            have : (Except.ok (rows ++ more) : Py (List Row)) = .ok f := h
            injection this with this
            exact this.symm
          subst h'
          intro r
          rw [List.mem_append, mem_algRows cast lim m it name vs 0 rows ha r, ih more hc r]
          constructor
          · rintro (⟨i, v, data, a, x, h1, h2, h3, e⟩ | ⟨nm, ws, t, v, data, a, x, h0, h⟩)
            · subst e
              exact ⟨name, vs, i, v, data, a, x, by simp, h1, h2, h3, rfl, by simp, rfl, rfl, rfl⟩
            · exact ⟨nm, ws, t, v, data, a, x, List.mem_cons_of_mem _ h0, h⟩
          · rintro ⟨nm, ws, t, v, data, a, x, h0, h1, h2, h3, e1, e2, e3, e4, e5⟩
            rcases List.mem_cons.1 h0 with h0 | h0
            · cases h0
              refine Or.inl ⟨t, v, data, a, x, h1, h2, h3, ?_⟩
              cases r
              simp only at e1 e2 e3 e4 e5
              subst e1 e2 e3 e4 e5
              simp
            · exact Or.inr ⟨nm, ws, t, v, data, a, x, h0, h1, h2, h3, e1, e2, e3, e4, e5⟩
  refine ⟨key, ?_, ?_⟩
  · intro r hr hn
    obtain ⟨_, _, _, _, _, _, x, _, _, _, _, _, _, _, _, e⟩ := (key r).1 hr
    have := C60_sanitise cast lim hl x
    rw [← e, hn] at this
    generalize cast x = w at this
    cases this
  · intro r hr y hy
    obtain ⟨_, _, _, _, _, _, x, _, _, _, _, _, _, _, _, e⟩ := (key r).1 hr
    have := C60_sanitise cast lim hl x
    rw [← e, hy] at this
    generalize hw : cast x = w at this
    generalize hz : Val.fin y = z at this
    cases this with
    | keep r h1 h2 => injection hz with hz; rw [hz]; exact abs_le.2 ⟨h1, h2⟩
    | _ => cases hz

/-- **C60.** The frame is computed unless the metric raises. -/
theorem C60_computed (cast : Val → Val) (lim : ℝ) (m : Metric V) (it : Nat) (views : List (String × List V))
    (h : ∀ p ∈ views, ∀ v ∈ p.2, ∃ data, m.compute v it = .ok data) : ∃ f, computeAtIter cast lim m it views = .ok f := by
  have ha : ∀ (name : String) (vs : List V), (∀ v ∈ vs, ∃ data, m.compute v it = .ok data) → ∀ t, ∃ f, algRows cast lim m it name t vs = .ok f := by
    intro name vs
    induction vs with
    | nil => intro _ t; exact ⟨[], rfl⟩
    | cons v vs ih =>
      intro h t
      obtain ⟨data, hd⟩ := h v (by simp)
      obtain ⟨f, hf⟩ := ih (fun w hw => h w (by simp [hw])) (t + 1)
      exact ⟨_, by rw [algRows, hd]; simp only [bind, Except.bind]; rw [hf]⟩
  induction views with
  | nil => exact ⟨[], rfl⟩
  | cons p rest ih =>
    obtain ⟨name, vs⟩ := p
    obtain ⟨f, hf⟩ := ha name vs (fun v hv => h _ (List.mem_cons_self) v hv) 0
    obtain ⟨g, hg⟩ := ih (fun p hp => h p (List.mem_cons_of_mem _ hp))
    exact ⟨_, by rw [computeAtIter, hf]; simp only [bind, Except.bind]; rw [hg]⟩

/-- a NaN, a huge and an ordinary value -/
example : ∃ f, computeAtIter id 1e30 (⟨0, "loss", false, false, fun _ _ => .ok [.nan, .fin 1e31, .fin 2]⟩ : Metric Unit) 5 [("DGD", [(), ()])] = .ok f ∧
    f.length = 6 := ⟨_, rfl, rfl⟩

/-! ### C61 -/

theorem iteration_of_mem {cast : Val → Val} {lim : ℝ} {m : Metric V} {it : Nat} {views : List (String × List V)} {f : List Row}
    (hl : 0 ≤ lim) (h : computeAtIter cast lim m it views = .ok f) (r : Row) (hr : r ∈ f) : r.iteration = it % 4294967296 := by
  obtain ⟨_, _, _, _, _, _, _, _, _, _, _, _, _, _, e, _⟩ := ((C60_frame cast lim hl m it views f h).1 r).1 hr
  exact e

theorem plotFrame_filter {cast : Val → Val} {lim : ℝ} (hl : 0 ≤ lim) {m : Metric V} {views : List (String × List V)} (final : Nat) (its : List Nat) :
    ∀ pf, plotFrame cast lim views m its = .ok pf → its.Nodup → (∀ i ∈ its, i < 4294967296) → final < 4294967296 →
      (final ∈ its → ∃ f, computeAtIter cast lim m final views = .ok f ∧ pf.filter (fun r => r.iteration == final) = f) ∧
      (final ∉ its → pf.filter (fun r => r.iteration == final) = []) := by
  induction its with
  | nil =>
    intro pf h _ _ _
    simp only [plotFrame] at h
    cases h
    simp
  | cons i its ih =>
    intro pf h hn hlt hf
    simp only [plotFrame] at h
    cases ha : computeAtIter cast lim m i views with
    | error e => rw [ha] at h; cases h
    | ok f =>
      rw [ha] at h
      cases hc : plotFrame cast lim views m its with
      | error e => rw [hc] at h; cases h
      | ok rest =>
        rw [hc] at h
        have h' : pf = f ++ rest := by
          have : (Except.ok (f ++ rest) : Py (List Row)) = .ok pf := h
          injection this with this
          exact this.symm
        subst h'
        have hi : i % 4294967296 = i := Nat.mod_eq_of_lt (hlt i (by simp))
        have hit : ∀ r ∈ f, r.iteration = i := fun r hr => by rw [iteration_of_mem hl ha r hr, hi]
        obtain ⟨k1, k2⟩ := ih rest hc (List.nodup_cons.1 hn).2 (fun j hj => hlt j (by simp [hj])) hf
        rw [List.filter_append]
        have hself : final = i → f.filter (fun r => r.iteration == final) = f := by
          intro e
          rw [List.filter_eq_self]
          intro r hr
          simp [hit r hr, e]
        have hother : final ≠ i → f.filter (fun r => r.iteration == final) = [] := by
          intro e
          rw [List.filter_eq_nil_iff]
          intro r hr
          simp only [hit r hr, beq_iff_eq]
          exact fun e' => e e'.symm
        refine ⟨fun hm => ?_, fun hm => ?_⟩
        · rcases List.mem_cons.1 hm with e | hm'
          · subst e
            refine ⟨f, ha, ?_⟩
            rw [hself rfl, k2 (List.nodup_cons.1 hn).1, List.append_nil]
          · obtain ⟨g, hg, he⟩ := k1 hm'
            refine ⟨g, hg, ?_⟩
            rw [hother (fun e => (List.nodup_cons.1 hn).1 (e ▸ hm')), he, List.nil_append]
        · rw [hother (fun e => hm (by simp [e])), k2 (fun e => hm (by simp [e]))]; rfl

theorem plotLoop_get {cast : Val → Val} {lim : ℝ} {views : List (String × List V)} {its : List Nat} (ms : List (Metric V)) :
    ∀ d plots, plotLoop cast lim views its ms d = .ok plots → ∀ k pf, plots.get? k = some pf →
      d.get? k = some pf ∨ ∃ m ∈ ms, m.id = k ∧ plotFrame cast lim views m its = .ok pf := by
  induction ms with
  | nil =>
    intro d plots h k pf hk
    simp only [plotLoop] at h
    cases h
    exact Or.inl hk
  | cons m ms ih =>
    intro d plots h k pf hk
    simp only [plotLoop] at h
    cases ha : plotFrame cast lim views m its with
    | error e => rw [ha] at h; cases h
    | ok f =>
      rw [ha] at h
      rcases ih _ plots h k pf hk with h1 | ⟨m', hm', e, h1⟩
      · rw [PyDict.get?_set] at h1
        by_cases he : k = m.id
        · rw [if_pos he] at h1
          cases h1
          exact Or.inr ⟨m, by simp, he.symm, ha⟩
        · rw [if_neg he] at h1
          exact Or.inl h1
      · exact Or.inr ⟨m', by simp [hm'], e, h1⟩

theorem maxIt_spec (its : List Nat) (h : its ≠ []) : maxIt its ∈ its ∧ ∀ i ∈ its, i ≤ maxIt its := by
  induction its with
  | nil => exact absurd rfl h
  | cons a t ih =>
    by_cases ht : t = []
    · subst ht; simp [maxIt]
    · obtain ⟨h1, h2⟩ := ih ht
      have e : maxIt (a :: t) = max a (maxIt t) := rfl
      rw [e]
      refine ⟨?_, ?_⟩
      · rcases le_total a (maxIt t) with hle | hle
        · rw [max_eq_right hle]; simp [h1]
        · rw [max_eq_left hle]; simp
      · intro i hi
        rcases List.mem_cons.1 hi with rfl | hi
        · exact le_max_left _ _
        · exact le_trans (h2 i hi) (le_max_right _ _)

/-- **C61.** Taking table values from the plot series gives the same tables (and raises the same errors) as computing them afresh at
the final iteration, whichever metrics are plotted, tabulated or both.  Metric objects with one identity are one metric. -/
theorem C61_table_equals_recomputation (cast : Val → Val) (lim : ℝ) (hl : 0 ≤ lim) (views : List (String × List V)) (plotMs tableMs : List (Metric V))
    (hid : ∀ m ∈ tableMs, ∀ m' ∈ plotMs, m'.id = m.id → m' = m) (its : List Nat) (hn : its.Nodup) (h32 : ∀ i ∈ its, i < 4294967296)
    (plots : PyDict Nat (List Row)) (hp : computePlots cast lim views plotMs its = .ok plots) :
    computeTables cast lim views tableMs its plots = computeTables cast lim views tableMs its PyDict.empty := by
  unfold computeTables
  by_cases hi : its = []
  · rw [if_pos hi, if_pos hi]
  · rw [if_neg hi, if_neg hi]
    rw [computePlots, if_neg hi] at hp
    obtain ⟨hmem, hmax⟩ := maxIt_spec its hi
    have key : ∀ d, tableLoop cast lim views plots (maxIt its) tableMs d = tableLoop cast lim views PyDict.empty (maxIt its) tableMs d := by
      induction tableMs with
      | nil => intro d; rfl
      | cons m ms ih =>
        intro d
        simp only [tableLoop]
        have hstep : tableFrame cast lim views plots (maxIt its) m = computeAtIter cast lim m (maxIt its) views := by
          unfold tableFrame
          cases hg : plots.get? m.id with
          | none => rfl
          | some pf =>
            rcases plotLoop_get plotMs _ plots hp m.id pf hg with h0 | ⟨m', hm', e, h1⟩
            · simp at h0
            · rw [hid m (by simp) m' hm' e] at h1
              obtain ⟨f, h2, h3⟩ := (plotFrame_filter hl (maxIt its) its pf h1 hn h32 (h32 _ hmem)).1 hmem
              simp only [h2, h3]
        have hstep' : tableFrame cast lim views PyDict.empty (maxIt its) m = computeAtIter cast lim m (maxIt its) views := rfl
        rw [hstep, hstep']
        cases computeAtIter cast lim m (maxIt its) views with
        | error e => rfl
        | ok f => exact ih (fun m1 h1 m2 h2 => hid m1 (by simp [h1]) m2 h2) _
    exact key _

/-- **C61.** The iterations of a benchmark result: in increasing order, exactly those recorded by some trial of some algorithm. -/
theorem C61_iterations (iterationsOf : V → List Nat) (views : List (String × List V)) :
    (allIterations iterationsOf views).Pairwise (· < ·) ∧ (allIterations iterationsOf views).Nodup ∧
    ∀ i, i ∈ allIterations iterationsOf views ↔ ∃ p ∈ views, ∃ v ∈ p.2, i ∈ iterationsOf v := by
  unfold allIterations sortedSet
  set l := (views.flatMap fun p => p.2.flatMap iterationsOf) with hl
  have hs : (l.dedup.mergeSort (fun a b => decide (a ≤ b))).Pairwise (fun a b => decide (a ≤ b) = true) :=
    List.pairwise_mergeSort (fun a b c h1 h2 => by simp at *; omega) (fun a b => by simp; omega) _
  have hperm := List.mergeSort_perm l.dedup (fun a b => decide (a ≤ b))
  have hnd : (l.dedup.mergeSort (fun a b => decide (a ≤ b))).Nodup := hperm.nodup_iff.2 (List.nodup_dedup l)
  refine ⟨?_, hnd, fun i => ?_⟩
  · have := List.Pairwise.and hs hnd
    refine this.imp ?_
    intro a b h
    have h1 : a ≤ b := by simpa using h.1
    exact lt_of_le_of_ne h1 h.2
  · rw [hperm.mem_iff, List.mem_dedup, hl]
    simp only [List.mem_flatMap]

/-- **C61.** Evaluated at the final iteration of the whole benchmark, an agent's history yields its most recent state, also for agents
(trials, algorithms) that stopped earlier. -/
theorem C61_most_recent {α : Type} (ws : List (Int × α)) (final : Nat) (hf : ∀ k ∈ (History.empty.writes ws).keysList, k ≤ (final : Int))
    (hne : (History.empty.writes ws).keysList ≠ []) :
    (History.empty.writes ws).getX final = (History.empty.writes ws).getX (-1) := by
  have hi : (History.empty.writes ws).Inv := History.inv_writes _ ws History.inv_empty
  generalize History.empty.writes ws = h at *
  obtain ⟨k, hk'⟩ : ∃ k, h.keys.getLast? = some k := by
    cases hc : h.keys.getLast? with
    | none => rw [List.getLast?_eq_none_iff] at hc; exact absurd hc hne
    | some k => exact ⟨k, rfl⟩
  have hm : h.max = .ok k := by unfold History.max; rw [hk']
  have hmax := getLast_max h.keys hi.sorted k hk'
  obtain ⟨v, hv⟩ : ∃ v, h.x.get? k = some v := by
    have := (hi.same k).1 hmax.1
    cases hx : h.x.get? k with
    | none => simp [hx] at this
    | some v => exact ⟨v, rfl⟩
  have e2 : h.getX (-1) = .ok v := by
    unfold History.getX
    rw [if_neg (by omega), if_pos rfl, hm]
    change h.x.getItem k = _
    unfold PyDict.getItem; rw [hv]
  rw [e2, History.getX_ok_iff hi _ (by omega)]
  refine ⟨k, hf k hmax.1, hv, fun j' h1 _ => ?_⟩
  by_contra hc
  have : j' ∈ h.keys := (hi.same j').2 (by cases hx : h.x.get? j' with
    | none => exact absurd hx hc
    | some w => rfl)
  have := hmax.2 j' this
  omega

/-- an agent that recorded iterations 0 and 3 in a benchmark reaching iteration 10 -/
example : (History.empty.writes [(0, "a"), (3, "b")]).getX (10 : Nat) = .ok "b" ∧ (History.empty.writes [(0, "a"), (3, "b")]).keysList ≠ [] := by
  decide

/-! ### C64 -/

theorem find_fold (items : List String) : ∀ (seen dups : List String),
    let r := items.foldl (fun (p : List String × List String) x =>
      if x ∈ p.1 then (p.1, if x ∈ p.2 then p.2 else x :: p.2) else (x :: p.1, p.2)) (seen, dups)
    (dups.Nodup → r.2.Nodup) ∧ ∀ y, y ∈ r.2 ↔ y ∈ dups ∨ (y ∈ seen ∧ y ∈ items) ∨ 2 ≤ items.count y := by
  induction items with
  | nil => intro seen dups; simp
  | cons x t ih =>
    intro seen dups
    simp only [List.foldl_cons]
    by_cases h : x ∈ seen
    · rw [if_pos h]
      by_cases h2 : x ∈ dups
      · rw [if_pos h2]
        obtain ⟨k1, k2⟩ := ih seen dups
        refine ⟨k1, fun y => ?_⟩
        rw [k2 y]
        by_cases e : y = x
        · subst e; simp [h2]
        · have hc : (x :: t).count y = t.count y := List.count_cons_of_ne (fun e' => e e'.symm)
          rw [hc]; simp [e]
      · rw [if_neg h2]
        obtain ⟨k1, k2⟩ := ih seen (x :: dups)
        refine ⟨fun hd => k1 (List.nodup_cons.2 ⟨h2, hd⟩), fun y => ?_⟩
        rw [k2 y]
        by_cases e : y = x
        · subst e; simp [h]
        · have hc : (x :: t).count y = t.count y := List.count_cons_of_ne (fun e' => e e'.symm)
          rw [hc]; simp [e]
    · rw [if_neg h]
      obtain ⟨k1, k2⟩ := ih (x :: seen) dups
      refine ⟨k1, fun y => ?_⟩
      rw [k2 y]
      by_cases e : y = x
      · subst e
        have hc : (y :: t).count y = t.count y + 1 := List.count_cons_self
        rw [hc]
        have : y ∈ t ↔ 1 ≤ t.count y := List.one_le_count_iff.symm
        simp only [List.mem_cons, true_or, true_and, h, false_and, false_or, this]
        constructor
        · rintro (h | h | h)
          · exact Or.inl h
          · exact Or.inr (by omega)
          · exact Or.inr (by omega)
        · rintro (h | h)
          · exact Or.inl h
          · exact Or.inr (Or.inl (by omega))
      · have hc : (x :: t).count y = t.count y := List.count_cons_of_ne (fun e' => e e'.symm)
        rw [hc]; simp [e]

/-- **C64.** The reported duplicates are exactly the names occurring more than once, each once, in alphabetical order. -/
theorem C64_duplicates (items : List String) :
    (∀ y, y ∈ findDuplicates items ↔ 2 ≤ items.count y) ∧ (findDuplicates items).Nodup ∧ (findDuplicates items).Pairwise (· ≤ ·) := by
  unfold findDuplicates
  obtain ⟨h1, h2⟩ := find_fold items [] []
  set l := (items.foldl (fun (p : List String × List String) x =>
      if x ∈ p.1 then (p.1, if x ∈ p.2 then p.2 else x :: p.2) else (x :: p.1, p.2)) ([], [])).2 with hl
  have hperm := List.mergeSort_perm l (fun a b => decide (a ≤ b))
  refine ⟨fun y => ?_, hperm.nodup_iff.2 (h1 List.nodup_nil), ?_⟩
  · rw [hperm.mem_iff, h2 y]; simp
  · have := List.pairwise_mergeSort (le := fun a b : String => decide (a ≤ b))
      (fun a b c h1 h2 => by simp at *; exact String.le_trans h1 h2) (fun a b => by simp; exact String.le_total a b) l
    exact this.imp (fun h => by simpa using h)

/-- **C64.** Metric lists are accepted exactly if their descriptions are pairwise different. -/
theorem C64_descriptions (ms : List (Metric V)) :
    (validateDescriptions ms = .ok () ↔ (ms.map Metric.description).Nodup) ∧
    (validateDescriptions ms = .error .valueError ↔ ¬ (ms.map Metric.description).Nodup) := by
  have key : findDuplicates (ms.map Metric.description) = [] ↔ (ms.map Metric.description).Nodup := by
    rw [List.nodup_iff_count_le_one]
    constructor
    · intro h a
      by_contra hc
      have := ((C64_duplicates (ms.map Metric.description)).1 a).2 (by omega)
      rw [h] at this
      simp at this
    · intro h
      rw [List.eq_nil_iff_forall_not_mem]
      intro a ha
      have := ((C64_duplicates _).1 a).1 ha
      have := h a
      omega
  unfold validateDescriptions
  rw [← key]
  by_cases h : findDuplicates (ms.map Metric.description) = []
  · simp [h]
  · simp [h]

theorem unique_fold (names : List String) : ∀ (seen dups : List String),
    ((names.foldl (fun (p : List String × List String) nm =>
      if nm ∈ p.1 then (p.1, nm :: p.2) else (nm :: p.1, p.2)) (seen, dups)).2 = [] ↔
      dups = [] ∧ names.Nodup ∧ ∀ x ∈ names, x ∉ seen) := by
  induction names with
  | nil => intro seen dups; simp
  | cons x t ih =>
    intro seen dups
    simp only [List.foldl_cons]
    by_cases h : x ∈ seen
    · rw [if_pos h, ih]
      constructor
      · rintro ⟨h1, _⟩; cases h1
      · rintro ⟨_, _, h3⟩; exact absurd h (h3 x (by simp))
    · rw [if_neg h, ih, List.nodup_cons]
      constructor
      · rintro ⟨h1, h2, h3⟩
        refine ⟨h1, ⟨fun hx => h3 x hx (by simp), h2⟩, fun y hy => ?_⟩
        rcases List.mem_cons.1 hy with rfl | hy
        · exact h
        · exact fun hs => h3 y hy (by simp [hs])
      · rintro ⟨h1, ⟨h2, h3⟩, h4⟩
        refine ⟨h1, h3, fun y hy => ?_⟩
        rw [List.mem_cons, not_or]
        exact ⟨fun e => h2 (e ▸ hy), h4 y (by simp [hy])⟩

/-- **C64.** Algorithm lists are accepted exactly if their names are pairwise different. -/
theorem C64_algorithm_names (names : List String) :
    (Bench.uniqueNames names = .ok () ↔ names.Nodup) ∧ (Bench.uniqueNames names = .error .valueError ↔ ¬ names.Nodup) := by
  have h := unique_fold names [] []
  simp only [List.not_mem_nil, not_false_eq_true, implies_true, and_true, true_and] at h
  unfold Bench.uniqueNames
  simp only
  rw [← h]
  split <;> simp_all

example : "b" ∈ findDuplicates ["b", "a", "b", "c"] ∧ "c" ∉ findDuplicates ["b", "a", "b", "c"] := by
  rw [(C64_duplicates _).1, (C64_duplicates _).1]
  decide

end Verif.Props
