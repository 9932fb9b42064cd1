import Verif.Model.StateMetrics
import Verif.Props.History
import Verif.Lemmas.Convergence
import Mathlib.Tactic.Module
/-! # C75: metrics of the agents' states -/
set_option linter.unusedSectionVars false
namespace Verif.Props
open Verif Verif.SMet

/-! ### specification -/

/-- an agent of a finished trial: cost, gradient, and the states recorded during the run, in order of recording -/
structure Trace (E : Type) where
  f : E → ℝ
  g : E → E
  ws : List (Int × E)
  nSelected : Nat := 0

/-- the metrics view of such an agent -/
def Trace.view {E : Type} (d : Trace E) : View E := ⟨d.f, d.g, History.empty.writes d.ws, d.nSelected⟩

/-- `x` is the agent's last recorded state up to iteration `k` -/
def Latest {E : Type} (d : Trace E) (k : Int) (x : E) : Prop := ∃ j, Pred d.ws k j ∧ lastWrite d.ws j = some x

/-- the agent reached iteration `k`: it recorded a state at or after `k` -/
def Reached {E : Type} (d : Trace E) (k : Int) : Prop := ∃ j, Recorded d.ws j ∧ k ≤ j

section
variable {E : Type} [NormedAddCommGroup E] [NormedSpace ℝ E]

theorem getX_latest (d : Trace E) (k : Int) (hk : 0 ≤ k) (x : E) : d.view.hist.getX k = .ok x ↔ Latest d k x :=
  C01_get_predecessor d.ws k hk x

theorem Latest.unique {d : Trace E} {k : Int} {x y : E} (hk : 0 ≤ k) (hx : Latest d k x) (hy : Latest d k y) : x = y := by
  have h1 := (getX_latest d k hk x).2 hx
  rw [(getX_latest d k hk y).2 hy] at h1
  exact (Except.ok.inj h1).symm

theorem mapM_ok {α β : Type} (f : α → Py β) (l : List α) (r : List β) :
    l.mapM f = .ok r ↔ List.Forall₂ (fun a b => f a = .ok b) l r := by
  induction l generalizing r with
  | nil =>
    simp only [List.mapM_nil, pure, Except.pure, Except.ok.injEq]
    constructor
    · rintro rfl; exact .nil
    · intro h; cases h; rfl
  | cons a t ih =>
    rw [List.mapM_cons]
    cases ha : f a with
    | error e =>
      simp only [bind, Except.bind, reduceCtorEq, false_iff]
      intro h; cases h with | cons h1 _ => rw [ha] at h1; cases h1
    | ok b =>
      cases ht : t.mapM f with
      | error e =>
        simp only [bind, Except.bind, reduceCtorEq, false_iff]
        intro h
        cases h with
        | cons h1 h2 => rw [(ih _).2 h2] at ht; cases ht
      | ok bs =>
        simp only [bind, Except.bind, pure, Except.pure, Except.ok.injEq]
        constructor
        · rintro rfl; exact .cons ha ((ih _).1 ht)
        · intro h
          cases h with
          | cons h1 h2 =>
            rw [ha] at h1
            have := (ih _).2 h2
            rw [ht] at this
            cases h1; cases this; rfl

theorem mapM_error {α β : Type} (f : α → Py β) (l : List α) (e : PyErr) (h : l.mapM f = .error e) : ∃ a ∈ l, f a = .error e := by
  induction l with
  | nil => simp [pure, Except.pure] at h
  | cons a t ih =>
    rw [List.mapM_cons] at h
    cases ha : f a with
    | error e' =>
      rw [ha] at h
      simp only [bind, Except.bind, Except.error.injEq] at h
      exact ⟨a, by simp, by rw [ha, h]⟩
    | ok b =>
      rw [ha] at h
      cases ht : t.mapM f with
      | error e' =>
        rw [ht] at h
        simp only [bind, Except.bind, Except.error.injEq] at h
        obtain ⟨a', m, e2⟩ := ih (by rw [ht, h])
        exact ⟨a', by simp [m], e2⟩
      | ok bs => rw [ht] at h; simp [bind, Except.bind, pure, Except.pure] at h

theorem foldl_add_sum (t : List E) (x : E) : t.foldl (· + ·) x = x + t.sum := by
  induction t generalizing x with
  | nil => simp
  | cons a t ih => simp [ih, add_assoc]

theorem average_ok (xs : List E) (m : E) : average xs = .ok m ↔ xs ≠ [] ∧ m = ((xs.length : ℝ)⁻¹) • xs.sum := by
  cases xs with
  | nil => simp [average]
  | cons x t =>
    simp only [average, foldl_add_sum, List.sum_cons, ne_eq, reduceCtorEq, not_false_eq_true, true_and, Except.ok.injEq]
    exact eq_comm

theorem addUp_eq {β : Type} (l : List β) (v : β → ℝ) : addUp l v = (l.map v).sum := by
  have : ∀ s, l.foldl (fun s a => s + v a) s = s + (l.map v).sum := by
    induction l with
    | nil => simp
    | cons a t ih => intro s; simp [ih, add_assoc]
  rw [addUp, this, zero_add]

theorem statesAt_ok (ds : List (Trace E)) (k : Int) (hk : 0 ≤ k) (xs : List E) :
    statesAt (ds.map Trace.view) k = .ok xs ↔ List.Forall₂ (fun d x => Latest d k x) ds xs := by
  rw [statesAt, mapM_ok, List.forall₂_map_left_iff]
  have : (fun (c : Trace E) (d : E) => c.view.hist.getX k = .ok d) = fun d x => Latest d k x := by
    funext d x; exact propext (getX_latest d k hk x)
  rw [this]

/-- **C75.** The mean state at iteration `k` is the average over *all* agents of their last recorded states up to `k`. -/
theorem C75_mean (ds : List (Trace E)) (k : Int) (hk : 0 ≤ k) (m : E) :
    xMean (ds.map Trace.view) k = .ok m ↔
      ds ≠ [] ∧ ∃ xs, List.Forall₂ (fun d x => Latest d k x) ds xs ∧ m = ((ds.length : ℝ)⁻¹) • xs.sum := by
  rw [xMean]
  cases hs : statesAt (ds.map Trace.view) k with
  | error e =>
    simp only [bind, Except.bind, reduceCtorEq, false_iff, not_and, not_exists]
    intro _ xs h _
    rw [(statesAt_ok ds k hk xs).2 h] at hs; cases hs
  | ok xs =>
    have hf := (statesAt_ok ds k hk xs).1 hs
    have hl := hf.length_eq
    simp only [bind, Except.bind]
    rw [average_ok]
    constructor
    · rintro ⟨h1, h2⟩
      refine ⟨fun h => h1 ?_, xs, hf, ?_⟩
      · subst h; cases hf; rfl
      · rw [h2, hl]
    · rintro ⟨h1, ys, hys, h2⟩
      have : ys = xs := by
        have := (statesAt_ok ds k hk ys).2 hys
        rw [hs] at this; exact (Except.ok.inj this).symm
      subst this
      refine ⟨fun h => h1 ?_, by rw [h2, hl]⟩
      subst h; cases hf; rfl

/-- **C75.** It raises ValueError, and nothing else, exactly if there is no agent or some agent recorded nothing up to `k`. -/
theorem C75_mean_error (ds : List (Trace E)) (k : Int) (hk : 0 ≤ k) (e : PyErr) :
    xMean (ds.map Trace.view) k = .error e ↔ e = .valueError ∧ (ds = [] ∨ ∃ d ∈ ds, ∀ j, Recorded d.ws j → k < j) := by
  cases hm : xMean (ds.map Trace.view) k with
  | ok m =>
    obtain ⟨h1, xs, hf, heq⟩ := (C75_mean ds k hk m).1 hm
    simp only [reduceCtorEq, false_iff, not_and, not_or, not_exists]
    refine fun _ => ⟨h1, fun d hd hj => ?_⟩
    obtain ⟨x, _, j, ⟨hr, hle, _⟩, _⟩ : ∃ x, x ∈ xs ∧ Latest d k x := by
      clear hm h1 heq
      induction hf with
      | nil => cases hd
      | cons h _ ih =>
        rcases List.mem_cons.1 hd with rfl | h'
        · exact ⟨_, by simp, h⟩
        · obtain ⟨x, hx, hl⟩ := ih h'; exact ⟨x, by simp [hx], hl⟩
    have := hj j hr; omega
  | error e' =>
    have key : e' = .valueError ∧ (ds = [] ∨ ∃ d ∈ ds, ∀ j, Recorded d.ws j → k < j) := by
      rw [xMean] at hm
      cases hs : statesAt (ds.map Trace.view) k with
      | error e2 =>
        rw [hs] at hm
        simp only [bind, Except.bind, Except.error.injEq] at hm
        subst hm
        obtain ⟨v, hv, he⟩ := mapM_error _ _ _ hs
        obtain ⟨d, hd, rfl⟩ := List.mem_map.1 hv
        have hc := C01_get_before_first d.ws k hk
        have e1 := hc.2 _ he
        subst e1
        exact ⟨rfl, .inr ⟨d, hd, hc.1.1 he⟩⟩
      | ok xs =>
        rw [hs] at hm
        simp only [bind, Except.bind] at hm
        cases xs with
        | nil =>
          have hf := (statesAt_ok ds k hk []).1 hs
          simp only [average, Except.error.injEq] at hm
          refine ⟨hm.symm, .inl ?_⟩
          cases hf; rfl
        | cons x t => simp [average] at hm
    simp only [Except.error.injEq]
    constructor
    · rintro rfl; exact key
    · rintro ⟨rfl, _⟩; exact key.1

theorem latest_single (x : E) (f : E → ℝ) (g : E → E) (k : Int) (hk : 0 ≤ k) : Latest (⟨f, g, [(0, x)], 0⟩ : Trace E) k x := by
  refine ⟨0, ⟨⟨le_refl _, x, by simp⟩, hk, ?_⟩, by simp [lastWrite]⟩
  rintro j' ⟨_, v, hv⟩ _
  simp only [List.mem_singleton, Prod.mk.injEq] at hv
  omega

theorem latest_exact (x : E) (f : E → ℝ) (g : E → E) (y : E) (k : Int) (hk : 0 < k) : Latest (⟨f, g, [(0, x), (k, y)], 0⟩ : Trace E) k y := by
  refine ⟨k, ⟨⟨by omega, y, by simp⟩, le_refl _, fun j' _ h => h⟩, ?_⟩
  simp [lastWrite, show (0 : Int) ≤ k by omega, show ¬ (0 : Int) = k by omega]

/-- **C75 (refuted: "agents that did not reach the iteration are disregarded").** With one agent stuck at its initial state (its trial
failed, or it was never updated) and another one at `v` in iteration `k`, the mean is `(x + v)/2`, whereas the mean of the agents that
reached `k` is `v`. -/
theorem C75_not_disregarded (x v : E) (hne : x ≠ v) (k : Int) (hk : 0 < k) (f : E → ℝ) (g : E → E) :
    let a : Trace E := ⟨f, g, [(0, x)], 0⟩
    let b : Trace E := ⟨f, g, [(0, x), (k, v)], 0⟩
    ¬ Reached a k ∧ Reached b k ∧ xMean [b.view] k = .ok v ∧ xMean [a.view, b.view] k = .ok ((2 : ℝ)⁻¹ • (x + v)) ∧
      (2 : ℝ)⁻¹ • (x + v) ≠ v := by
  intro a b
  have ha : Latest a k x := latest_single x f g k (by omega)
  have hb : Latest b k v := latest_exact x f g v k hk
  refine ⟨?_, ⟨k, ⟨by omega, v, by simp [b]⟩, le_refl _⟩, ?_, ?_, ?_⟩
  · rintro ⟨j, ⟨_, w, hw⟩, hj⟩
    simp only [a, List.mem_singleton, Prod.mk.injEq] at hw
    omega
  · exact (C75_mean [b] k (by omega) v).2 ⟨by simp, [v], .cons hb .nil, by simp⟩
  · exact (C75_mean [a, b] k (by omega) _).2 ⟨by simp, [x, v], .cons ha (.cons hb .nil), by simp⟩
  · intro h
    apply hne
    have h2 : x + v = v + v := by
      have := congrArg (fun z => (2 : ℝ) • z) h
      simpa [smul_smul, two_smul] using this
    exact add_right_cancel h2

/-- **C75.** Hence a trial that stopped early is drawn as a flat line: if no agent recorded anything in `(j, k]`, all metrics of the states
have at `k` the value they have at `j`. -/
theorem C75_flat (ds : List (Trace E)) (sv : Trace E) (z : E) (j k : Int) (hj : 0 ≤ j) (hjk : j ≤ k)
    (hn : ∀ d ∈ sv :: ds, ∀ i, Recorded d.ws i → j < i → k < i) :
    xMean (ds.map Trace.view) k = xMean (ds.map Trace.view) j ∧
    regret (ds.map Trace.view) z k = regret (ds.map Trace.view) z j ∧
    gradientNorm (ds.map Trace.view) k = gradientNorm (ds.map Trace.view) j ∧
    xError (ds.map Trace.view) z k = xError (ds.map Trace.view) z j ∧
    consensusError (ds.map Trace.view) k = consensusError (ds.map Trace.view) j ∧
    drifts (ds.map Trace.view) sv.view k = drifts (ds.map Trace.view) sv.view j ∧
    losses (ds.map Trace.view) k = losses (ds.map Trace.view) j := by
  have hg : ∀ d ∈ sv :: ds, d.view.hist.getX k = d.view.hist.getX j := by
    intro d hd
    have hp : ∀ i, Pred d.ws k i ↔ Pred d.ws j i := by
      intro i
      constructor
      · rintro ⟨h1, h2, h3⟩
        have : i ≤ j := by
          by_contra hc
          have := hn d hd i h1 (by omega); omega
        exact ⟨h1, this, fun i' hi' hle => h3 i' hi' (by omega)⟩
      · rintro ⟨h1, h2, h3⟩
        refine ⟨h1, by omega, fun i' hi' hle => h3 i' hi' ?_⟩
        by_contra hc
        have := hn d hd i' hi' (by omega); omega
    cases hx : d.view.hist.getX j with
    | ok x =>
      obtain ⟨i, h1, h2⟩ := (getX_latest d j hj x).1 hx
      exact (getX_latest d k (by omega) x).2 ⟨i, (hp i).2 h1, h2⟩
    | error e =>
      have hc := C01_get_before_first d.ws j hj
      have := hc.2 e hx
      subst this
      refine (C01_get_before_first d.ws k (by omega)).1.2 fun i hi => ?_
      exact hn d hd i hi (hc.1.1 hx i hi)
  have hl : ∀ {β : Type} (h : View E → Py E → Py β), (ds.map Trace.view).mapM (fun a => h a (a.hist.getX k)) =
      (ds.map Trace.view).mapM (fun a => h a (a.hist.getX j)) := by
    intro β h
    have : ∀ l : List (View E), (∀ a ∈ l, a.hist.getX k = a.hist.getX j) →
        l.mapM (fun a => h a (a.hist.getX k)) = l.mapM (fun a => h a (a.hist.getX j)) := by
      intro l
      induction l with
      | nil => intro _; rfl
      | cons a t ih =>
        intro H
        rw [List.mapM_cons, List.mapM_cons, H a (by simp), ih (fun b hb => H b (by simp [hb]))]
    apply this
    intro a ha
    obtain ⟨d, hd, rfl⟩ := List.mem_map.1 ha
    exact hg d (by simp [hd])
  have hst : statesAt (ds.map Trace.view) k = statesAt (ds.map Trace.view) j := hl (fun _ p => p)
  have hm : xMean (ds.map Trace.view) k = xMean (ds.map Trace.view) j := by rw [xMean, xMean, hst]
  refine ⟨hm, by rw [regret, regret, hm], by rw [gradientNorm, gradientNorm, hm], by rw [xError, xError, hm], ?_, ?_, ?_⟩
  · rw [consensusError, consensusError, hm]
    congr 1; funext m
    exact hl (fun _ p => do let x ← p; pure ‖m - x‖)
  · rw [drifts, drifts, hg sv (by simp)]
    congr 1; funext s
    exact hl (fun _ p => do let x ← p; pure ‖x - s‖)
  · exact hl (fun a p => do let x ← p; pure (a.f x))

example : ∃ (ds : List (Trace ℝ)) (sv : Trace ℝ), ds ≠ [] ∧ (∀ d ∈ sv :: ds, ∀ i, Recorded d.ws i → (3 : Int) < i → (100 : Int) < i) := by
  refine ⟨[⟨fun x => x, fun _ => 1, [(0, 1), (3, 5)], 0⟩], ⟨fun x => x, fun _ => 1, [(0, 2)], 0⟩, by simp, ?_⟩
  intro d hd i ⟨_, v, hv⟩ hi
  simp only [List.mem_cons, List.not_mem_nil, or_false] at hd
  rcases hd with rfl | rfl <;> simp at hv <;> omega

/-! ### regret, gradient norm, distance -/

/-- the global cost: average of the agents' costs -/
noncomputable def globalCost (ds : List (Trace E)) (x : E) : ℝ := (ds.map (fun d => d.f x)).sum / ds.length

/-- its gradient -/
noncomputable def globalGrad (ds : List (Trace E)) (x : E) : E := ((ds.length : ℝ)⁻¹) • (ds.map (fun d => d.g x)).sum

/-- **C75.** Regret, gradient norm and x error are the suboptimality, the gradient norm and the distance to the optimum of the mean state
under the global cost. -/
theorem C75_at_mean (ds : List (Trace E)) (k : Int) (z m : E) (hm : xMean (ds.map Trace.view) k = .ok m) :
    regret (ds.map Trace.view) z k = .ok (globalCost ds m - globalCost ds z) ∧
    gradientNorm (ds.map Trace.view) k = .ok ‖globalGrad ds m‖ ∧
    xError (ds.map Trace.view) z k = .ok ‖m - z‖ := by
  have hne : ds ≠ [] := by
    rintro rfl
    simp [xMean, statesAt, average, bind, Except.bind, pure, Except.pure] at hm
  refine ⟨?_, ?_, ?_⟩
  · rw [regret, hm]
    simp only [bind, Except.bind, pure, Except.pure, addUp_eq, List.map_map, List.length_map, globalCost]
    congr 1
    rw [sub_div]; rfl
  · rw [gradientNorm, hm]
    have : average ((ds.map Trace.view).map (fun a => a.g m)) = .ok (globalGrad ds m) := by
      rw [average_ok]
      refine ⟨by simpa using hne, ?_⟩
      simp only [globalGrad, List.length_map, List.map_map]; rfl
    simp only [bind, Except.bind, this, pure, Except.pure]
  · rw [xError, hm]; rfl

/-- **C75.** With an optimal reference the regret is never negative, and zero exactly when the mean state is optimal. -/
theorem C75_regret_sign (ds : List (Trace E)) (k : Int) (z m : E) (hz : ∀ x, globalCost ds z ≤ globalCost ds x)
    (hm : xMean (ds.map Trace.view) k = .ok m) :
    ∃ r, regret (ds.map Trace.view) z k = .ok r ∧ 0 ≤ r ∧ (r = 0 ↔ ∀ x, globalCost ds m ≤ globalCost ds x) := by
  refine ⟨_, (C75_at_mean ds k z m hm).1, sub_nonneg.2 (hz m), ?_⟩
  constructor
  · intro h x; have := hz x; linarith
  · intro h; have := h z; have := hz m; linarith

/-- **C75.** Without `x_optimal` the metric is unavailable. -/
theorem C75_regret_available (ds : List (View E)) (xopt : Option E) (k : Int) :
    regretMetric ds xopt k = none ↔ xopt = none := by
  cases xopt <;> simp [regretMetric]

/-! ### consensus error and drift -/

theorem errors_eq (ds : List (Trace E)) (k : Int) (hk : 0 ≤ k) (xs : List E) (hx : List.Forall₂ (fun d x => Latest d k x) ds xs)
    (h : E → ℝ) : (ds.map Trace.view).mapM (fun a => do let x ← a.hist.getX k; pure (h x)) = (.ok (xs.map h) : Py (List ℝ)) := by
  rw [mapM_ok, List.forall₂_map_left_iff, List.forall₂_map_right_iff]
  refine hx.imp fun d x hd => ?_
  rw [(getX_latest d k hk x).2 hd]; rfl

/-- **C75.** The consensus errors are the agents' distances to the mean state. -/
theorem C75_consensus (ds : List (Trace E)) (k : Int) (hk : 0 ≤ k) (hne : ds ≠ []) (xs : List E)
    (hx : List.Forall₂ (fun d x => Latest d k x) ds xs) :
    consensusError (ds.map Trace.view) k = .ok (xs.map (fun x => ‖((xs.length : ℝ)⁻¹) • xs.sum - x‖)) := by
  have hm := (C75_mean ds k hk _).2 ⟨hne, xs, hx, rfl⟩
  rw [hx.length_eq] at hm
  rw [consensusError, hm]
  exact errors_eq ds k hk xs hx _

theorem mean_sub (xs : List E) (hne : xs ≠ []) (c : E) : ((xs.length : ℝ)⁻¹) • xs.sum - c = ((xs.length : ℝ)⁻¹) • (xs.map (fun x => x - c)).sum := by
  have hn : (xs.length : ℝ) ≠ 0 := by simpa using hne
  have : (xs.map (fun x => x - c)).sum = xs.sum - (xs.length : ℝ) • c := by
    clear hne hn
    induction xs with
    | nil => simp
    | cons a t ih =>
      simp only [List.map_cons, List.sum_cons, ih, List.length_cons, Nat.cast_add, Nat.cast_one]
      module
  rw [this, smul_sub, smul_smul, inv_mul_cancel₀ hn, one_smul]

/-- **C75.** All consensus errors vanish exactly if all agents agree; no error exceeds the largest distance between two agents. -/
theorem C75_consensus_zero (ds : List (Trace E)) (k : Int) (hk : 0 ≤ k) (hne : ds ≠ []) (xs : List E)
    (hx : List.Forall₂ (fun d x => Latest d k x) ds xs) :
    ∃ es, consensusError (ds.map Trace.view) k = .ok es ∧ es.length = ds.length ∧ ((∀ e ∈ es, e = 0) ↔ ∀ x ∈ xs, ∀ y ∈ xs, x = y) ∧
      ∀ D, (∀ x ∈ xs, ∀ y ∈ xs, ‖x - y‖ ≤ D) → ∀ e ∈ es, e ≤ D := by
  have hxne : xs ≠ [] := by
    rintro rfl
    cases hx; exact hne rfl
  refine ⟨_, C75_consensus ds k hk hne xs hx, by rw [List.length_map, hx.length_eq], ?_, ?_⟩
  · constructor
    · intro h
      have h' : ∀ x ∈ xs, ((xs.length : ℝ)⁻¹) • xs.sum = x := by
        intro x hx'
        have := h _ (List.mem_map.2 ⟨x, hx', rfl⟩)
        exact sub_eq_zero.1 (norm_eq_zero.1 this)
      intro x hx' y hy'
      rw [← h' x hx', ← h' y hy']
    · intro h e he
      obtain ⟨x, hx', rfl⟩ := List.mem_map.1 he
      rw [mean_sub xs hxne x]
      have : (xs.map (fun y => y - x)).sum = 0 := by
        apply List.sum_eq_zero
        intro a ha
        obtain ⟨y, hy, rfl⟩ := List.mem_map.1 ha
        rw [h y hy x hx', sub_self]
      rw [this, smul_zero, norm_zero]
  · intro D hD e he
    obtain ⟨x, hx', rfl⟩ := List.mem_map.1 he
    rw [mean_sub xs hxne x, norm_smul]
    have hpos : (0 : ℝ) < xs.length := by exact_mod_cast List.length_pos_iff.2 hxne
    have h1 : ‖(xs.map (fun y => y - x)).sum‖ ≤ xs.length * D := by
      have : ∀ l : List E, (∀ y ∈ l, ‖y - x‖ ≤ D) → ‖(l.map (fun y => y - x)).sum‖ ≤ l.length * D := by
        intro l
        induction l with
        | nil => simp
        | cons a t ih =>
          intro H
          simp only [List.map_cons, List.sum_cons, List.length_cons, Nat.cast_add, Nat.cast_one]
          have := norm_add_le (a - x) (t.map (fun y => y - x)).sum
          have h2 := ih (fun y hy => H y (by simp [hy]))
          have h3 := H a (by simp)
          linarith
      exact this xs (fun y hy => hD y hy x hx')
    rw [Real.norm_of_nonneg (by positivity), inv_mul_le_iff₀ hpos]
    exact h1

/-- **C75.** The drift of each client is its distance to the server's last recorded state; all drifts vanish exactly if all clients hold
the server's state. -/
theorem C75_drift (ds : List (Trace E)) (sv : Trace E) (k : Int) (hk : 0 ≤ k) (s : E) (hs : Latest sv k s) (xs : List E)
    (hx : List.Forall₂ (fun d x => Latest d k x) ds xs) :
    drifts (ds.map Trace.view) sv.view k = .ok (xs.map (fun x => ‖x - s‖)) ∧
    ((∀ e ∈ xs.map (fun x => ‖x - s‖), e = 0) ↔ ∀ x ∈ xs, x = s) := by
  constructor
  · rw [drifts, (getX_latest sv k hk s).2 hs]
    exact errors_eq ds k hk xs hx _
  · constructor
    · intro h x hx'
      exact sub_eq_zero.1 (norm_eq_zero.1 (h _ (List.mem_map.2 ⟨x, hx', rfl⟩)))
    · intro h e he
      obtain ⟨x, hx', rfl⟩ := List.mem_map.1 he
      rw [h x hx', sub_self, norm_zero]

/-- two agents at 0 and 2: both have consensus error 1 -/
example : consensusError [(⟨fun x => x, fun _ => 1, [(0, 0)], 0⟩ : Trace ℝ).view, (⟨fun x => x, fun _ => 1, [(0, 0), (4, 2)], 0⟩ : Trace ℝ).view] 4
    = .ok [1, 1] := by
  have := C75_consensus [(⟨fun x => x, fun _ => 1, [(0, 0)], 0⟩ : Trace ℝ), (⟨fun x => x, fun _ => 1, [(0, 0), (4, 2)], 0⟩ : Trace ℝ)] 4
    (by norm_num) (by simp) [0, 2] (.cons (latest_single _ _ _ _ (by norm_num)) (.cons (latest_exact _ _ _ _ _ (by norm_num)) .nil))
  simp only [List.map_cons, List.map_nil] at this
  rw [this]
  norm_num

end
end Verif.Props
