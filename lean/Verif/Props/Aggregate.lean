import Verif.Props.Metrics
import Mathlib.Tactic.Ring
import Mathlib.Tactic.Positivity
import Mathlib.Algebra.Order.BigOperators.Group.List
/-! # C73: aggregation of metrics across agents and trials -/
set_option linter.unusedSectionVars false
namespace Verif.Props
open Metrics

variable {V : Type}

/-! ### reductions -/

theorem vadd_comm (a b : Val) : Val.add a b = Val.add b a := by
  cases a <;> cases b <;> simp [Val.add, add_comm]

theorem vadd_assoc (a b c : Val) : Val.add (Val.add a b) c = Val.add a (Val.add b c) := by
  cases a <;> cases b <;> cases c <;> simp [Val.add, add_assoc]

theorem vsum_perm {l l' : List Val} (h : l.Perm l') : Val.sum l = Val.sum l' := by
  unfold Val.sum
  induction h with
  | nil => rfl
  | cons x _ ih => simp only [List.foldr_cons, ih]
  | swap x y l => simp only [List.foldr_cons]; rw [← vadd_assoc, vadd_comm y x, vadd_assoc]
  | trans _ _ ih1 ih2 => rw [ih1, ih2]

theorem vmean_perm {l l' : List Val} (h : l.Perm l') : Val.mean l = Val.mean l' := by
  unfold Val.mean
  have hd : (Val.dropna l).Perm (Val.dropna l') := h.filter _
  rw [vsum_perm hd, hd.length_eq]
  have : (Val.dropna l = []) ↔ (Val.dropna l' = []) := by
    rw [← List.length_eq_zero_iff, ← List.length_eq_zero_iff, hd.length_eq]
  simp only [this]

theorem vle_refl {a : Val} (h : a.isNan = false) : Val.le a a := by
  cases a <;> simp_all [Val.le, Val.isNan]

theorem vle_trans {a b c : Val} (h1 : Val.le a b) (h2 : Val.le b c) : Val.le a c := by
  cases a <;> cases b <;> cases c <;> simp_all [Val.le]
  exact le_trans h1 h2

theorem vle_total {a b : Val} (ha : a.isNan = false) (hb : b.isNan = false) : Val.le a b ∨ Val.le b a := by
  cases a <;> cases b <;> simp_all [Val.le, Val.isNan]
  exact le_total _ _

theorem vle_antisymm {a b : Val} (h1 : Val.le a b) (h2 : Val.le b a) : a = b := by
  cases a <;> cases b <;> simp_all [Val.le]
  exact le_antisymm h1 h2

/-- the least of a list of floats -/
def Least (l : List Val) (v : Val) : Prop := v ∈ l ∧ ∀ w ∈ l, Val.le v w

/-- the greatest of a list of floats -/
def Greatest (l : List Val) (v : Val) : Prop := v ∈ l ∧ ∀ w ∈ l, Val.le w v

theorem foldr_vmin (t : List Val) : ∀ a : Val, a.isNan = false → (∀ w ∈ t, w.isNan = false) → Least (a :: t) (t.foldr Val.vmin a) := by
  induction t with
  | nil => intro a ha _; exact ⟨by simp, by simpa using vle_refl ha⟩
  | cons b t ih =>
    intro a ha ht
    obtain ⟨h1, h2⟩ := ih a ha (fun w hw => ht w (by simp [hw]))
    have hb := ht b (by simp)
    have hr : (t.foldr Val.vmin a).isNan = false := by
      rcases List.mem_cons.1 h1 with e | e
      · rw [e]; exact ha
      · exact ht _ (by simp [e])
    simp only [List.foldr_cons]
    unfold Val.vmin at *
    split
    · rename_i hle
      refine ⟨by simp, fun w hw => ?_⟩
      rcases List.mem_cons.1 hw with rfl | hw
      · exact vle_trans hle (h2 _ (by simp))
      · rcases List.mem_cons.1 hw with rfl | hw
        · exact vle_refl hb
        · exact vle_trans hle (h2 w (by simp [hw]))
    · rename_i hle
      refine ⟨?_, fun w hw => ?_⟩
      · rcases List.mem_cons.1 h1 with e | e
        · rw [e]; simp
        · exact List.mem_cons_of_mem _ (List.mem_cons_of_mem _ e)
      · rcases List.mem_cons.1 hw with rfl | hw
        · exact h2 _ (by simp)
        · rcases List.mem_cons.1 hw with rfl | hw
          · exact (vle_total hb hr).resolve_left hle
          · exact h2 w (by simp [hw])

theorem foldr_vmax (t : List Val) : ∀ a : Val, a.isNan = false → (∀ w ∈ t, w.isNan = false) → Greatest (a :: t) (t.foldr Val.vmax a) := by
  induction t with
  | nil => intro a ha _; exact ⟨by simp, by simpa using vle_refl ha⟩
  | cons b t ih =>
    intro a ha ht
    obtain ⟨h1, h2⟩ := ih a ha (fun w hw => ht w (by simp [hw]))
    have hb := ht b (by simp)
    have hr : (t.foldr Val.vmax a).isNan = false := by
      rcases List.mem_cons.1 h1 with e | e
      · rw [e]; exact ha
      · exact ht _ (by simp [e])
    simp only [List.foldr_cons]
    unfold Val.vmax at *
    split
    · rename_i hle
      refine ⟨?_, fun w hw => ?_⟩
      · rcases List.mem_cons.1 h1 with e | e
        · rw [e]; simp
        · exact List.mem_cons_of_mem _ (List.mem_cons_of_mem _ e)
      · rcases List.mem_cons.1 hw with rfl | hw
        · exact h2 _ (by simp)
        · rcases List.mem_cons.1 hw with rfl | hw
          · exact hle
          · exact h2 w (by simp [hw])
    · rename_i hle
      have hle' := (vle_total hb hr).resolve_left hle
      refine ⟨by simp, fun w hw => ?_⟩
      rcases List.mem_cons.1 hw with rfl | hw
      · exact vle_trans (h2 _ (by simp)) hle'
      · rcases List.mem_cons.1 hw with rfl | hw
        · exact vle_refl hb
        · exact vle_trans (h2 w (by simp [hw])) hle'

theorem mem_dropna {l : List Val} {v : Val} : v ∈ Val.dropna l ↔ v ∈ l ∧ v.isNan = false := by
  unfold Val.dropna; rw [List.mem_filter]; simp

theorem minimum_spec {l : List Val} (h : Val.dropna l ≠ []) : Least (Val.dropna l) (Val.minimum l) := by
  unfold Val.minimum
  cases hd : Val.dropna l with
  | nil => exact absurd hd h
  | cons a t =>
    have hn : ∀ w ∈ a :: t, w.isNan = false := fun w hw => (mem_dropna.1 (hd ▸ hw)).2
    exact foldr_vmin t a (hn a (by simp)) (fun w hw => hn w (by simp [hw]))

theorem maximum_spec {l : List Val} (h : Val.dropna l ≠ []) : Greatest (Val.dropna l) (Val.maximum l) := by
  unfold Val.maximum
  cases hd : Val.dropna l with
  | nil => exact absurd hd h
  | cons a t =>
    have hn : ∀ w ∈ a :: t, w.isNan = false := fun w hw => (mem_dropna.1 (hd ▸ hw)).2
    exact foldr_vmax t a (hn a (by simp)) (fun w hw => hn w (by simp [hw]))

theorem minimum_perm {l l' : List Val} (h : l.Perm l') : Val.minimum l = Val.minimum l' := by
  have hd : (Val.dropna l).Perm (Val.dropna l') := h.filter _
  by_cases he : Val.dropna l = []
  · have he' : Val.dropna l' = [] := by rw [← List.length_eq_zero_iff, ← hd.length_eq, he]; rfl
    unfold Val.minimum; rw [he, he']
  · have he' : Val.dropna l' ≠ [] := fun e => he (by rw [← List.length_eq_zero_iff, hd.length_eq, e]; rfl)
    obtain ⟨a1, a2⟩ := minimum_spec he
    obtain ⟨b1, b2⟩ := minimum_spec he'
    exact vle_antisymm (a2 _ (hd.mem_iff.2 b1)) (b2 _ (hd.mem_iff.1 a1))

theorem maximum_perm {l l' : List Val} (h : l.Perm l') : Val.maximum l = Val.maximum l' := by
  have hd : (Val.dropna l).Perm (Val.dropna l') := h.filter _
  by_cases he : Val.dropna l = []
  · have he' : Val.dropna l' = [] := by rw [← List.length_eq_zero_iff, ← hd.length_eq, he]; rfl
    unfold Val.maximum; rw [he, he']
  · have he' : Val.dropna l' ≠ [] := fun e => he (by rw [← List.length_eq_zero_iff, hd.length_eq, e]; rfl)
    obtain ⟨a1, a2⟩ := maximum_spec he
    obtain ⟨b1, b2⟩ := maximum_spec he'
    exact vle_antisymm (b2 _ (hd.mem_iff.1 a1)) (a2 _ (hd.mem_iff.2 b1))

theorem std_perm (ddof : Nat) {l l' : List Val} (h : l.Perm l') : Val.std ddof l = Val.std ddof l' := by
  have hd : (Val.dropna l).Perm (Val.dropna l') := h.filter _
  unfold Val.std
  simp only
  have hm : ((Val.dropna l).map Val.toReal).Perm ((Val.dropna l').map Val.toReal) := hd.map _
  have ha : (Val.dropna l).all Val.isFin = (Val.dropna l').all Val.isFin := hd.all_eq
  rw [hd.length_eq, ha, hm.sum_eq, hm.length_eq]
  have := (hm.map (fun x => (x - ((Val.dropna l').map Val.toReal).sum / (((Val.dropna l').map Val.toReal).length : ℝ)) ^ 2)).sum_eq
  rw [this]

/-! ### which values enter a point -/

/-- the cleaned values of a trial -/
noncomputable def cleanTrial (cast : Val → Val) (lim : ℝ) (m : Metric V) (it : Nat) (v : V) : List Val :=
  match m.compute v it with
  | .ok data => data.map (sanitise cast lim)
  | .error _ => []

theorem algRows_cons_ok {cast : Val → Val} {lim : ℝ} {m : Metric V} {it : Nat} {name : String} {t : Nat} {v : V} {vs : List V} {f : List Row}
    (h : algRows cast lim m it name t (v :: vs) = .ok f) :
    ∃ data rest, m.compute v it = .ok data ∧ algRows cast lim m it name (t + 1) vs = .ok rest ∧ f = rowsOf cast lim name it t data ++ rest := by
  simp only [algRows] at h
  cases hd : m.compute v it with
  | error e => rw [hd] at h; cases h
  | ok data =>
    rw [hd] at h
    cases hr : algRows cast lim m it name (t + 1) vs with
    | error e => rw [hr] at h; cases h
    | ok rest =>
      rw [hr] at h
      have : (Except.ok (rowsOf cast lim name it t data ++ rest) : Py (List Row)) = .ok f := h
      injection this with this
      exact ⟨data, rest, rfl, rfl, this.symm⟩

theorem computeAtIter_cons_ok {cast : Val → Val} {lim : ℝ} {m : Metric V} {it : Nat} {name : String} {vs : List V} {rest : List (String × List V)}
    {f : List Row} (h : computeAtIter cast lim m it ((name, vs) :: rest) = .ok f) :
    ∃ rows more, algRows cast lim m it name 0 vs = .ok rows ∧ computeAtIter cast lim m it rest = .ok more ∧ f = rows ++ more := by
  simp only [computeAtIter] at h
  cases ha : algRows cast lim m it name 0 vs with
  | error e => rw [ha] at h; cases h
  | ok rows =>
    rw [ha] at h
    cases hc : computeAtIter cast lim m it rest with
    | error e => rw [hc] at h; cases h
    | ok more =>
      rw [hc] at h
      have : (Except.ok (rows ++ more) : Py (List Row)) = .ok f := h
      injection this with this
      exact ⟨rows, more, rfl, rfl, this.symm⟩

theorem algRows_alg {cast : Val → Val} {lim : ℝ} {m : Metric V} {it : Nat} {name : String} {t : Nat} {vs : List V} {f : List Row}
    (h : algRows cast lim m it name t vs = .ok f) : ∀ r ∈ f, r.alg = name := by
  intro r hr
  obtain ⟨_, _, _, _, _, _, _, _, e⟩ := (mem_algRows cast lim m it name vs t f h r).1 hr
  rw [e]

/-- the rows of one algorithm -/
theorem filter_alg {cast : Val → Val} {lim : ℝ} (hl : 0 ≤ lim) {m : Metric V} {it : Nat} {name : String} {vs : List V} (views : List (String × List V)) :
    ∀ f, (views.map Prod.fst).Nodup → (name, vs) ∈ views → computeAtIter cast lim m it views = .ok f →
      algRows cast lim m it name 0 vs = .ok (f.filter fun r => r.alg == name) := by
  induction views with
  | nil => intro f _ h; simp at h
  | cons p rest ih =>
    obtain ⟨nm, ws⟩ := p
    intro f hn hmem hc
    obtain ⟨rows, more, h1, h2, e⟩ := computeAtIter_cons_ok hc
    subst e
    rw [List.map_cons, List.nodup_cons] at hn
    rw [List.filter_append]
    have hmore : ∀ r ∈ more, r.alg ∈ rest.map Prod.fst := by
      intro r hr
      obtain ⟨nm', ws', _, _, _, _, _, h0, _, _, _, e1, _⟩ := ((C60_frame cast lim hl m it rest more h2).1 r).1 hr
      rw [e1]; exact List.mem_map.2 ⟨_, h0, rfl⟩
    rcases List.mem_cons.1 hmem with e | hm
    · cases e
      rw [h1, List.filter_eq_self.2 (fun r hr => by simp [algRows_alg h1 r hr]),
        List.filter_eq_nil_iff.2 (fun r hr => by
          have := hmore r hr
          simp only [beq_iff_eq]
          exact fun e => hn.1 (e ▸ this)), List.append_nil]
    · have hne : nm ≠ name := fun e => hn.1 (e ▸ List.mem_map.2 ⟨_, hm, rfl⟩)
      rw [List.filter_eq_nil_iff.2 (fun r hr => by simp [algRows_alg h1 r hr, hne]), List.nil_append]
      exact ih more hn.2 hm h2

theorem rowsOf_trials (cast : Val → Val) (lim : ℝ) (name : String) (it t : Nat) (data : List Val) :
    (rowsOf cast lim name it t data).map Row.trial = List.replicate data.length (t % 65536) := by
  unfold rowsOf
  rw [List.map_map, List.eq_replicate_iff]
  simp
  intro a b c _ e
  exact e.symm

theorem rowsOf_values (cast : Val → Val) (lim : ℝ) (name : String) (it t : Nat) (data : List Val) :
    (rowsOf cast lim name it t data).map Row.value = data.map (sanitise cast lim) := by
  unfold rowsOf
  rw [List.map_map]
  have : (Row.value ∘ fun p : Val × Nat => (⟨name, t % 65536, p.2 % 65536, it % 4294967296, sanitise cast lim p.1⟩ : Row)) =
      sanitise cast lim ∘ Prod.fst := rfl
  rw [this, ← List.map_map, List.zipIdx_map_fst]

theorem dedup_replicate_append (n t : Nat) (l : List Nat) (hn : 0 < n) (ht : t ∉ l) :
    (List.replicate n t ++ l).dedup = t :: l.dedup := by
  obtain ⟨k, rfl⟩ : ∃ k, n = k + 1 := ⟨n - 1, by omega⟩
  induction k with
  | zero => simp [List.dedup_cons_of_notMem ht]
  | succ k ih =>
    rw [List.replicate_succ, List.cons_append, List.dedup_cons_of_mem (by simp [List.replicate_succ]), ih (by omega)]

theorem algRows_trials {cast : Val → Val} {lim : ℝ} {m : Metric V} {it : Nat} {name : String} (vs : List V) :
    ∀ t f, algRows cast lim m it name t vs = .ok f → (∀ v ∈ vs, cleanTrial cast lim m it v ≠ []) → t + vs.length ≤ 65536 →
      (∀ r ∈ f, t ≤ r.trial ∧ r.trial < t + vs.length) ∧ (f.map Row.trial).dedup = List.range' t vs.length ∧
      (List.range' t vs.length).map (fun i => (f.filter fun r => r.trial == i).map Row.value) = vs.map (cleanTrial cast lim m it) := by
  induction vs with
  | nil =>
    intro t f h _ _
    simp only [algRows] at h
    cases h
    simp
  | cons v vs ih =>
    intro t f h hne hlt
    obtain ⟨data, rest, h1, h2, e⟩ := algRows_cons_ok h
    subst e
    rw [List.length_cons] at hlt
    obtain ⟨k1, k2, k3⟩ := ih (t + 1) rest h2 (fun w hw => hne w (by simp [hw])) (by omega)
    have ht : t % 65536 = t := Nat.mod_eq_of_lt (by omega)
    have htr := rowsOf_trials cast lim name it t data
    rw [ht] at htr
    have hmem : ∀ r ∈ rowsOf cast lim name it t data, r.trial = t := by
      intro r hr
      have : r.trial ∈ (rowsOf cast lim name it t data).map Row.trial := List.mem_map.2 ⟨r, hr, rfl⟩
      rw [htr] at this
      exact List.eq_of_mem_replicate this
    have hd : 0 < data.length := by
      have := hne v (by simp)
      unfold cleanTrial at this
      rw [h1] at this
      simp only [ne_eq, List.map_eq_nil_iff] at this
      exact List.length_pos_iff.2 this
    have hnot : t ∉ rest.map Row.trial := by
      intro h
      obtain ⟨r, hr, e⟩ := List.mem_map.1 h
      have := (k1 r hr).1
      omega
    refine ⟨fun r hr => ?_, ?_, ?_⟩
    · rcases List.mem_append.1 hr with hr | hr
      · rw [hmem r hr, List.length_cons]; omega
      · have := k1 r hr
        rw [List.length_cons]; omega
    · rw [List.map_append, htr, dedup_replicate_append _ _ _ hd hnot, k2, List.length_cons, List.range'_succ]
    · rw [List.length_cons, List.range'_succ, List.map_cons, List.map_cons]
      congr 1
      · rw [List.filter_append, List.filter_eq_self.2 (fun r hr => by simp [hmem r hr]),
          List.filter_eq_nil_iff.2 (fun r hr => by have := (k1 r hr).1; simp; omega), List.append_nil, rowsOf_values]
        unfold cleanTrial; rw [h1]
      · rw [← k3]
        apply List.map_congr_left
        intro i hi
        rw [List.mem_range'] at hi
        obtain ⟨j, _, e⟩ := hi
        rw [List.filter_append, List.filter_eq_nil_iff.2 (fun r hr => by simp [hmem r hr]; omega), List.nil_append]

/-- a plotted point: mean, least and greatest of the per-trial means across agents -/
noncomputable def pointOf (trials : List (List Val)) : Val × Val × Val :=
  (Val.mean (trials.map Val.mean), Val.minimum (trials.map Val.mean), Val.maximum (trials.map Val.mean))

/-- a table cell: mean and (population) standard deviation across trials of the statistic across agents -/
noncomputable def cellOf (ddof : Nat) (s : Stat) (trials : List (List Val)) : Val × Val :=
  (Val.mean (trials.map (s.eval ddof)), Val.std 0 (trials.map (s.eval ddof)))

/-- **C73.** The plotted point of an algorithm at an iteration is the mean, min and max over exactly this algorithm's trials of the mean
over agents of the cleaned metric values at this iteration. -/
theorem C73_plot (cast : Val → Val) (lim : ℝ) (hl : 0 ≤ lim) (m : Metric V) (views : List (String × List V)) (hn : (views.map Prod.fst).Nodup)
    (its : List Nat) (hit : its.Nodup) (h32 : ∀ i ∈ its, i < 4294967296) (f : List Row) (hf : plotFrame cast lim views m its = .ok f)
    (name : String) (vs : List V) (hmem : (name, vs) ∈ views) (hlen : vs.length ≤ 65536) (it : Nat) (hi : it ∈ its)
    (hne : ∀ v ∈ vs, cleanTrial cast lim m it v ≠ []) :
    plotPoint f name it = pointOf (vs.map (cleanTrial cast lim m it)) := by
  obtain ⟨g, hg, he⟩ := (plotFrame_filter hl it its f hf hit h32 (h32 it hi)).1 hi
  have ha := filter_alg hl views g hn hmem hg
  set rows := g.filter (fun r => r.alg == name) with hrows
  have hfil : f.filter (fun r => r.alg == name && r.iteration == it) = rows := by
    rw [hrows, ← he, List.filter_filter]
  obtain ⟨_, k2, k3⟩ := algRows_trials vs 0 rows ha hne (by omega)
  have hm : (trialsAt f name it).map (agentMean f name it) = (vs.map (cleanTrial cast lim m it)).map Val.mean := by
    unfold trialsAt
    rw [hfil, k2, ← k3, List.map_map]
    apply List.map_congr_left
    intro t _
    unfold agentMean column
    simp only [Function.comp]
    congr 2
    rw [← hfil, List.filter_filter]
    apply List.filter_congr
    intro r _
    simp [Bool.and_comm, Bool.and_left_comm]
  unfold plotPoint pointOf
  simp only [hm]

/-- **C73.** A table cell of a metric with one value per agent: mean and standard deviation over exactly this algorithm's trials of the
statistic over agents of the cleaned values at the final iteration. -/
theorem C73_table (ddof : Nat) (cast : Val → Val) (lim : ℝ) (hl : 0 ≤ lim) (m : Metric V) (views : List (String × List V))
    (hn : (views.map Prod.fst).Nodup) (final : Nat) (f : List Row) (hf : computeAtIter cast lim m final views = .ok f)
    (hs : singleValued (f.map Row.drop) = false) (name : String) (vs : List V) (hmem : (name, vs) ∈ views) (hlen : vs.length ≤ 65536)
    (hne : ∀ v ∈ vs, cleanTrial cast lim m final v ≠ []) (s : Stat) :
    tableCell ddof (f.map Row.drop) name s = cellOf ddof s (vs.map (cleanTrial cast lim m final)) := by
  have ha := filter_alg hl views f hn hmem hf
  set rows := f.filter (fun r => r.alg == name) with hrows
  obtain ⟨_, k2, k3⟩ := algRows_trials vs 0 rows ha hne (by omega)
  have hm : perTrial ddof (f.map Row.drop) name s = (vs.map (cleanTrial cast lim m final)).map (s.eval ddof) := by
    unfold perTrial
    rw [if_neg (by simp [hs])]
    have h1 : ((f.map Row.drop).filter fun r => r.alg == name).map TRow.trial = rows.map Row.trial := by
      rw [List.filter_map, List.map_map, hrows]; rfl
    rw [h1, k2, ← k3, List.map_map]
    apply List.map_congr_left
    intro t _
    simp only [Function.comp, trialColumn]
    congr 1
    rw [List.filter_map, List.map_map, hrows, List.filter_filter]
    have : ((fun r : TRow => r.alg == name && r.trial == t) ∘ Row.drop) = fun r : Row => r.trial == t && r.alg == name := by
      funext r; simp [Row.drop, Bool.and_comm]
    rw [this]; rfl
  unfold tableCell cellOf
  rw [hm]

/-- **C73.** A table cell of a metric with a single value per trial (all rows have agent number 0). -/
theorem C73_table_single (ddof : Nat) (cast : Val → Val) (lim : ℝ) (hl : 0 ≤ lim) (m : Metric V) (views : List (String × List V))
    (hn : (views.map Prod.fst).Nodup) (final : Nat) (f : List Row) (hf : computeAtIter cast lim m final views = .ok f)
    (hs : singleValued (f.map Row.drop) = true) (name : String) (vs : List V) (hmem : (name, vs) ∈ views) (s : Stat) :
    tableCell ddof (f.map Row.drop) name s =
      (Val.mean (vs.flatMap (cleanTrial cast lim m final)), Val.std 0 (vs.flatMap (cleanTrial cast lim m final))) := by
  have ha := filter_alg hl views f hn hmem hf
  have hv : ∀ (vs : List V) (t : Nat) (rows : List Row), algRows cast lim m final name t vs = .ok rows →
      rows.map Row.value = vs.flatMap (cleanTrial cast lim m final) := by
    intro vs
    induction vs with
    | nil => intro t rows h; simp only [algRows] at h; cases h; rfl
    | cons v vs ih =>
      intro t rows h
      obtain ⟨data, rest, h1, h2, e⟩ := algRows_cons_ok h
      subst e
      rw [List.map_append, rowsOf_values, ih _ _ h2, List.flatMap_cons]
      congr 1
      unfold cleanTrial; rw [h1]
  have hm : perTrial ddof (f.map Row.drop) name s = vs.flatMap (cleanTrial cast lim m final) := by
    unfold perTrial
    rw [if_pos hs, List.filter_map, List.map_map, ← hv vs 0 _ ha]
    rfl
  unfold tableCell
  rw [hm]

/-- **C73.** The order of the trials does not matter. -/
theorem C73_trial_order (ddof : Nat) (s : Stat) {trials trials' : List (List Val)} (h : trials.Perm trials') :
    pointOf trials = pointOf trials' ∧ cellOf ddof s trials = cellOf ddof s trials' := by
  unfold pointOf cellOf
  rw [vmean_perm (h.map Val.mean), minimum_perm (h.map Val.mean), maximum_perm (h.map Val.mean), vmean_perm (h.map _), std_perm 0 (h.map _)]
  exact ⟨rfl, rfl⟩

/-! ### finite values -/

/-- arithmetic mean -/
noncomputable def avg (l : List ℝ) : ℝ := l.sum / l.length

theorem dropna_fin (l : List ℝ) : Val.dropna (l.map Val.fin) = l.map Val.fin := by
  unfold Val.dropna
  rw [List.filter_eq_self]
  intro a ha
  obtain ⟨r, _, rfl⟩ := List.mem_map.1 ha
  rfl

theorem vsum_fin (l : List ℝ) : Val.sum (l.map Val.fin) = .fin l.sum := by
  induction l with
  | nil => rfl
  | cons a t ih =>
    have : Val.sum ((a :: t).map Val.fin) = Val.add (.fin a) (Val.sum (t.map Val.fin)) := rfl
    rw [this, ih]; simp [Val.add]

theorem vmean_fin {l : List ℝ} (h : l ≠ []) : Val.mean (l.map Val.fin) = .fin (avg l) := by
  unfold Val.mean
  rw [dropna_fin, if_neg (by simpa using h), vsum_fin, List.length_map]
  rfl

theorem std_fin {l : List ℝ} {ddof : Nat} (h : ddof < l.length) :
    Val.std ddof (l.map Val.fin) = .fin (Real.sqrt ((l.map fun x => (x - avg l) ^ 2).sum / ((l.length : ℝ) - ddof))) := by
  unfold Val.std
  simp only
  rw [dropna_fin, List.length_map, if_neg (by omega)]
  have hall : (l.map Val.fin).all Val.isFin = true := by simp [Val.isFin]
  rw [hall, if_neg (by simp)]
  have : (l.map Val.fin).map Val.toReal = l := by
    rw [List.map_map]
    have : Val.toReal ∘ Val.fin = id := rfl
    rw [this, List.map_id]
  rw [this]
  rfl

theorem avg_between {l : List ℝ} (h : l ≠ []) {lo hi : ℝ} (h1 : ∀ x ∈ l, lo ≤ x) (h2 : ∀ x ∈ l, x ≤ hi) : lo ≤ avg l ∧ avg l ≤ hi := by
  have hp : (0 : ℝ) < l.length := by exact_mod_cast List.length_pos_iff.2 h
  unfold avg
  rw [le_div_iff₀ hp, div_le_iff₀ hp]
  constructor
  · have := List.card_nsmul_le_sum l lo h1
    rw [nsmul_eq_mul] at this; linarith
  · have := List.sum_le_card_nsmul l hi h2
    rw [nsmul_eq_mul] at this; linarith

/-- **C73.** With finite values the plotted mean is the average of the per-trial averages, and lies between the plotted min and max, which
are the extreme per-trial averages.  Table cells hold the average and the population standard deviation. -/
theorem C73_finite (trials : List (List ℝ)) (h0 : trials ≠ []) (h1 : ∀ l ∈ trials, l ≠ []) :
    ∃ lo hi : ℝ, pointOf (trials.map (List.map Val.fin)) = (.fin (avg (trials.map avg)), .fin lo, .fin hi) ∧
      lo ∈ trials.map avg ∧ hi ∈ trials.map avg ∧ (∀ x ∈ trials.map avg, lo ≤ x ∧ x ≤ hi) ∧
      lo ≤ avg (trials.map avg) ∧ avg (trials.map avg) ≤ hi ∧
      (∀ ddof, cellOf ddof .mean (trials.map (List.map Val.fin)) =
        (.fin (avg (trials.map avg)), .fin (Real.sqrt (avg ((trials.map avg).map fun x => (x - avg (trials.map avg)) ^ 2))))) := by
  have hm : (trials.map (List.map Val.fin)).map Val.mean = (trials.map avg).map Val.fin := by
    rw [List.map_map, List.map_map]
    apply List.map_congr_left
    intro l hl
    exact vmean_fin (h1 l hl)
  have hm' : ∀ ddof, (trials.map (List.map Val.fin)).map (Stat.eval ddof .mean) = (trials.map avg).map Val.fin := fun ddof => hm
  have hne : trials.map avg ≠ [] := by simpa using h0
  set A := trials.map avg with hA
  have hd : Val.dropna (A.map Val.fin) ≠ [] := by rw [dropna_fin]; simpa using hne
  have hlo := minimum_spec hd
  have hhi := maximum_spec hd
  rw [dropna_fin] at hlo hhi
  obtain ⟨lo, hlo1, hlo2⟩ := List.mem_map.1 hlo.1
  obtain ⟨hi, hhi1, hhi2⟩ := List.mem_map.1 hhi.1
  have hb : ∀ x ∈ A, lo ≤ x ∧ x ≤ hi := by
    intro x hx
    have a1 := hlo.2 (.fin x) (List.mem_map.2 ⟨x, hx, rfl⟩)
    have a2 := hhi.2 (.fin x) (List.mem_map.2 ⟨x, hx, rfl⟩)
    rw [← hlo2] at a1; rw [← hhi2] at a2
    exact ⟨a1, a2⟩
  obtain ⟨b1, b2⟩ := avg_between hne (fun x hx => (hb x hx).1) (fun x hx => (hb x hx).2)
  refine ⟨lo, hi, ?_, hlo1, hhi1, hb, b1, b2, fun ddof => ?_⟩
  · unfold pointOf; rw [hm, vmean_fin hne, hlo2, hhi2]
  · unfold cellOf
    rw [hm', vmean_fin hne, std_fin (List.length_pos_iff.2 hne)]
    simp [avg]

/-! ### divergence -/

theorem vmean_posInf {l : List Val} (h : .posInf ∈ l) (h1 : ∀ v ∈ l, v ≠ .negInf) : Val.mean l = .posInf := by
  have hd : Val.posInf ∈ Val.dropna l := mem_dropna.2 ⟨h, rfl⟩
  have key : ∀ d : List Val, .posInf ∈ d → (∀ v ∈ d, v ≠ .negInf ∧ v.isNan = false) → Val.sum d = .posInf := by
    intro d
    induction d with
    | nil => intro h; simp at h
    | cons a t ih =>
      intro hm ha
      have e : Val.sum (a :: t) = Val.add a (Val.sum t) := rfl
      have hs : ∀ d : List Val, (∀ v ∈ d, v ≠ .negInf ∧ v.isNan = false) → Val.sum d = .posInf ∨ ∃ r, Val.sum d = .fin r := by
        intro d
        induction d with
        | nil => intro _; exact Or.inr ⟨0, rfl⟩
        | cons b u ihu =>
          intro hb
          have e : Val.sum (b :: u) = Val.add b (Val.sum u) := rfl
          have hbb := hb b (by simp)
          rcases ihu (fun v hv => hb v (by simp [hv])) with h | ⟨r, h⟩
          · rw [e, h]; cases b <;> simp_all [Val.add, Val.isNan]
          · rw [e, h]; cases b <;> simp_all [Val.add, Val.isNan]
      have hab := ha a (by simp)
      rcases List.mem_cons.1 hm with h | h
      · subst h
        rcases hs t (fun v hv => ha v (by simp [hv])) with h | ⟨r, h⟩ <;> rw [e, h] <;> rfl
      · rw [e, ih h (fun v hv => ha v (by simp [hv]))]
        cases a <;> simp_all [Val.add, Val.isNan]
  unfold Val.mean
  rw [if_neg (List.ne_nil_of_mem hd), key _ hd (fun v hv => ⟨h1 v (mem_dropna.1 hv).1, (mem_dropna.1 hv).2⟩)]
  rfl

theorem vmean_cases {l : List Val} (h : l ≠ []) (h1 : ∀ v ∈ l, v ≠ .negInf ∧ v ≠ .nan) : Val.mean l = .posInf ∨ ∃ r, Val.mean l = .fin r := by
  by_cases hp : Val.posInf ∈ l
  · exact Or.inl (vmean_posInf hp (fun v hv => (h1 v hv).1))
  · have : ∃ rs : List ℝ, l = rs.map Val.fin := by
      clear h
      induction l with
      | nil => exact ⟨[], rfl⟩
      | cons a t ih =>
        obtain ⟨rs, e⟩ := ih (fun v hv => h1 v (by simp [hv])) (fun hm => hp (by simp [hm]))
        have ha := h1 a (by simp)
        have hap : a ≠ .posInf := fun e => hp (by simp [e])
        cases a with
        | fin r => exact ⟨r :: rs, by rw [e]; rfl⟩
        | posInf => exact absurd rfl hap
        | negInf => exact absurd rfl ha.1
        | nan => exact absurd rfl ha.2
    obtain ⟨rs, e⟩ := this
    subst e
    exact Or.inr ⟨_, vmean_fin (by simpa using h)⟩

/-- **C73.** A diverged agent shows: if some value of some trial is `inf` (NaN counts as such) and none is `-inf`, the plotted mean and
max are `inf`, and so is the mean in the table. -/
theorem C73_divergence_shows (ddof : Nat) (trials : List (List Val)) (h0 : ∀ l ∈ trials, l ≠ []) (h1 : ∀ l ∈ trials, ∀ v ∈ l, v ≠ .negInf ∧ v ≠ .nan)
    (l : List Val) (hl : l ∈ trials) (hv : .posInf ∈ l) :
    (pointOf trials).1 = .posInf ∧ (pointOf trials).2.2 = .posInf ∧ (cellOf ddof .mean trials).1 = .posInf := by
  have hc : ∀ w ∈ trials.map Val.mean, w ≠ .negInf ∧ w ≠ .nan := by
    intro w hw
    obtain ⟨k, hk, rfl⟩ := List.mem_map.1 hw
    rcases vmean_cases (h0 k hk) (h1 k hk) with e | ⟨r, e⟩ <;> rw [e] <;> simp
  have hm : Val.posInf ∈ trials.map Val.mean := List.mem_map.2 ⟨l, hl, vmean_posInf hv (fun v hv => (h1 l hl v hv).1)⟩
  have e1 : Val.mean (trials.map Val.mean) = .posInf := vmean_posInf hm (fun w hw => (hc w hw).1)
  refine ⟨e1, ?_, e1⟩
  have hd : Val.posInf ∈ Val.dropna (trials.map Val.mean) := mem_dropna.2 ⟨hm, rfl⟩
  have := (maximum_spec (List.ne_nil_of_mem hd)).2 _ hd
  change Val.maximum (trials.map Val.mean) = .posInf
  cases hx : Val.maximum (trials.map Val.mean) with
  | posInf => rfl
  | _ => rw [hx] at this; exact absurd this (by simp [Val.le])

theorem std_infinite (ddof : Nat) {l : List Val} (h : .posInf ∈ l ∨ .negInf ∈ l) : Val.std ddof l = .nan := by
  unfold Val.std
  simp only
  split
  · rfl
  · have : (Val.dropna l).all Val.isFin = false := by
      rw [List.all_eq_false]
      rcases h with h | h
      · exact ⟨.posInf, mem_dropna.2 ⟨h, rfl⟩, by simp [Val.isFin]⟩
      · exact ⟨.negInf, mem_dropna.2 ⟨h, rfl⟩, by simp [Val.isFin]⟩
    rw [if_pos this]

theorem dropna_cons_nan (l : List Val) : Val.dropna (.nan :: l) = Val.dropna l := by
  unfold Val.dropna; rw [List.filter_cons_of_neg (by simp [Val.isNan])]

/-- **C73 (refuted: the tabulated spread covers every trial).** A trial in which an agent diverged is silently left out of the `std` rows:
the cell is that of the remaining trials. -/
theorem C73_std_leaves_out (ddof : Nat) (bad : List Val) (h : .posInf ∈ bad ∨ .negInf ∈ bad) (rest : List (List Val)) :
    cellOf ddof .std (bad :: rest) = cellOf ddof .std rest := by
  unfold cellOf
  rw [List.map_cons]
  have e : Stat.eval ddof .std bad = .nan := std_infinite ddof h
  rw [e]
  unfold Val.mean Val.std
  rw [dropna_cons_nan]

/-- **C73 (refuted: a diverged trial shows in the plot).** If within one trial one agent's value went to `inf` and another's to `-inf`,
the trial vanishes from the plot: mean, min and max are those of the other trials. -/
theorem C73_plot_leaves_out (bad : List Val) (hp : .posInf ∈ bad) (hn : .negInf ∈ bad) (rest : List (List Val)) :
    pointOf (bad :: rest) = pointOf rest := by
  have hs : ∀ d : List Val, (∀ v ∈ d, v.isNan = false) → (.posInf ∈ d → Val.sum d = .posInf ∨ Val.sum d = .nan) ∧
      (.negInf ∈ d → Val.sum d = .negInf ∨ Val.sum d = .nan) := by
    intro d
    induction d with
    | nil => intro _; simp
    | cons a t ih =>
      intro hd
      have e : Val.sum (a :: t) = Val.add a (Val.sum t) := rfl
      obtain ⟨i1, i2⟩ := ih (fun v hv => hd v (by simp [hv]))
      have ha := hd a (by simp)
      rw [e]
      constructor
      · intro hm
        rcases List.mem_cons.1 hm with h | h
        · subst h; cases Val.sum t <;> simp [Val.add]
        · rcases i1 h with h | h <;> rw [h] <;> cases a <;> simp [Val.add]
      · intro hm
        rcases List.mem_cons.1 hm with h | h
        · subst h; cases Val.sum t <;> simp [Val.add]
        · rcases i2 h with h | h <;> rw [h] <;> cases a <;> simp [Val.add]
  have hd : ∀ v ∈ Val.dropna bad, v.isNan = false := fun v hv => (mem_dropna.1 hv).2
  have hsum : Val.sum (Val.dropna bad) = .nan := by
    rcases (hs _ hd).1 (mem_dropna.2 ⟨hp, rfl⟩) with h | h
    · rcases (hs _ hd).2 (mem_dropna.2 ⟨hn, rfl⟩) with h' | h'
      · rw [h] at h'; cases h'
      · exact h'
    · exact h
  have e : Val.mean bad = .nan := by
    unfold Val.mean
    rw [if_neg (List.ne_nil_of_mem (mem_dropna.2 ⟨hp, rfl⟩)), hsum]
    rfl
  unfold pointOf
  rw [List.map_cons, e]
  unfold Val.mean Val.minimum Val.maximum
  rw [dropna_cons_nan]

/-- two trials of two agents, the second trial diverging in opposite directions; the plot shows the first only -/
example : pointOf [[.posInf, .negInf], [.fin 1, .fin 3]] = (.fin 2, .fin 2, .fin 2) := by
  rw [C73_plot_leaves_out _ (by simp) (by simp)]
  obtain ⟨lo, hi, h, h1, h2, _⟩ := C73_finite [[1, 3]] (by simp) (by simp)
  simp [avg] at h1 h2 h
  rw [h, h1, h2]
  norm_num

/-! ### statistics -/

/-- **C73.** The statistics shown are the valid requested ones (aliases resolved, repetitions removed, in the order requested), and the
default mean and std if none is valid. -/
theorem C73_statistics (names : List String) :
    (resolveStats (some names)).Nodup ∧ resolveStats (some names) ≠ [] ∧
    (∀ s, (∃ n ∈ names, Stat.ofName n = some s) → s ∈ resolveStats (some names)) ∧
    ((∃ n ∈ names, (Stat.ofName n).isSome) → ∀ s, s ∈ resolveStats (some names) ↔ ∃ n ∈ names, Stat.ofName n = some s) ∧
    ((∀ n ∈ names, Stat.ofName n = none) → resolveStats (some names) = [.mean, .std]) ∧ resolveStats none = [.mean, .std] := by
  cases h : names.filterMap Stat.ofName with
  | nil =>
    have hn : ∀ n ∈ names, Stat.ofName n = none := by
      intro n hn
      cases hs : Stat.ofName n with
      | none => rfl
      | some s =>
        have : s ∈ names.filterMap Stat.ofName := List.mem_filterMap.2 ⟨n, hn, hs⟩
        rw [h] at this; simp at this
    have hr : resolveStats (some names) = [.mean, .std] := by simp only [resolveStats, h]
    rw [hr]
    refine ⟨by decide, by simp, ?_, ?_, fun _ => rfl, rfl⟩
    · rintro s ⟨n, hm, e⟩; rw [hn n hm] at e; cases e
    · rintro ⟨n, hm, e⟩; rw [hn n hm] at e; cases e
  | cons a t =>
    have hmem : ∀ s, s ∈ (a :: t).reverse.dedup.reverse ↔ ∃ n ∈ names, Stat.ofName n = some s := by
      intro s
      rw [List.mem_reverse, List.mem_dedup, List.mem_reverse, ← h, List.mem_filterMap]
    have hr : resolveStats (some names) = (a :: t).reverse.dedup.reverse := by simp only [resolveStats, h]
    rw [hr]
    refine ⟨List.nodup_reverse.2 (List.nodup_dedup _), ?_, fun s hs => (hmem s).2 hs, fun _ s => hmem s, fun hn => ?_, rfl⟩
    · have : a ∈ (a :: t).reverse.dedup.reverse := by rw [List.mem_reverse, List.mem_dedup, List.mem_reverse]; simp
      exact List.ne_nil_of_mem this
    · have : a ∈ names.filterMap Stat.ofName := by rw [h]; simp
      obtain ⟨n, hm, e⟩ := List.mem_filterMap.1 this
      rw [hn n hm] at e; cases e

example : resolveStats (some ["avg", "mode", "max", "mean"]) = [.mean, .max] := by decide

end Verif.Props
