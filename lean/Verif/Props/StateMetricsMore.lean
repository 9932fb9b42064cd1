import Verif.Props.StateMetrics
import Verif.Model.Metrics
import Mathlib.Tactic.NormNum
import Mathlib.Tactic.IntervalCases
/-! # C75 (certificates, runtime metrics), C76 (fraction of selected clients), C79 (prediction metrics) -/
set_option linter.unusedSectionVars false
namespace Verif.Props
open Verif Verif.SMet Verif.Costs
open scoped InnerProductSpace

/-! ### how the three optimality metrics bound each other -/
section
variable {d : Nat}

theorem sum_upper (ds : List (Trace (Vec d))) (L : ℝ) (h : ∀ a ∈ ds, Upper a.f a.g L) (x y : Vec d) :
    (ds.map (fun a => a.f y)).sum ≤ (ds.map (fun a => a.f x)).sum + ⟪(ds.map (fun a => a.g x)).sum, y - x⟫_ℝ + ds.length * (L / 2 * ‖y - x‖ ^ 2) := by
  induction ds with
  | nil => simp
  | cons a t ih =>
    have h1 := h a (by simp) x y
    have h2 := ih (fun b hb => h b (by simp [hb]))
    simp only [List.map_cons, List.sum_cons, inner_add_left, List.length_cons, Nat.cast_add, Nat.cast_one]
    linarith

theorem sum_lower (ds : List (Trace (Vec d))) (m : ℝ) (h : ∀ a ∈ ds, Lower a.f a.g m) (x y : Vec d) :
    (ds.map (fun a => a.f x)).sum + ⟪(ds.map (fun a => a.g x)).sum, y - x⟫_ℝ + ds.length * (m / 2 * ‖y - x‖ ^ 2) ≤ (ds.map (fun a => a.f y)).sum := by
  induction ds with
  | nil => simp
  | cons a t ih =>
    have h1 := h a (by simp) x y
    have h2 := ih (fun b hb => h b (by simp [hb]))
    simp only [List.map_cons, List.sum_cons, inner_add_left, List.length_cons, Nat.cast_add, Nat.cast_one]
    linarith

theorem global_upper (ds : List (Trace (Vec d))) (hne : ds ≠ []) (L : ℝ) (h : ∀ a ∈ ds, Upper a.f a.g L) :
    Upper (globalCost ds) (globalGrad ds) L := by
  intro x y
  have hp : (0 : ℝ) < ds.length := by exact_mod_cast List.length_pos_iff.2 hne
  have := sum_upper ds L h x y
  simp only [globalCost, globalGrad, inner_smul_left, map_inv₀, RCLike.conj_to_real]
  rw [div_le_iff₀ hp]
  have e : ((ds.map (fun d => d.f x)).sum / ds.length + (ds.length : ℝ)⁻¹ * ⟪(ds.map (fun a => a.g x)).sum, y - x⟫_ℝ + L / 2 * ‖y - x‖ ^ 2) * ds.length =
      (ds.map (fun a => a.f x)).sum + ⟪(ds.map (fun a => a.g x)).sum, y - x⟫_ℝ + ds.length * (L / 2 * ‖y - x‖ ^ 2) := by
    field_simp
  rw [e]; exact this

theorem global_lower (ds : List (Trace (Vec d))) (hne : ds ≠ []) (m : ℝ) (h : ∀ a ∈ ds, Lower a.f a.g m) :
    Lower (globalCost ds) (globalGrad ds) m := by
  intro x y
  have hp : (0 : ℝ) < ds.length := by exact_mod_cast List.length_pos_iff.2 hne
  have := sum_lower ds m h x y
  simp only [globalCost, globalGrad, inner_smul_left, map_inv₀, RCLike.conj_to_real]
  rw [le_div_iff₀ hp]
  have e : ((ds.map (fun d => d.f x)).sum / ds.length + (ds.length : ℝ)⁻¹ * ⟪(ds.map (fun a => a.g x)).sum, y - x⟫_ℝ + m / 2 * ‖y - x‖ ^ 2) * ds.length =
      (ds.map (fun a => a.f x)).sum + ⟪(ds.map (fun a => a.g x)).sum, y - x⟫_ℝ + ds.length * (m / 2 * ‖y - x‖ ^ 2) := by
    field_simp
  rw [e]; exact this

/-- **C75.** For convex costs, regret ≤ gradient norm × x error: a small gradient norm certifies a small regret near the optimum, and a zero
gradient norm an optimal mean state. -/
theorem C75_convex_certificate (ds : List (Trace (Vec d))) (h : ∀ a ∈ ds, Lower a.f a.g 0) (k : Int) (z m : Vec d)
    (hm : xMean (ds.map Trace.view) k = .ok m) :
    ∃ r g e, regret (ds.map Trace.view) z k = .ok r ∧ gradientNorm (ds.map Trace.view) k = .ok g ∧ xError (ds.map Trace.view) z k = .ok e ∧
      r ≤ g * e := by
  obtain ⟨h1, h2, h3⟩ := C75_at_mean ds k z m hm
  refine ⟨_, _, _, h1, h2, h3, ?_⟩
  have hne : ds ≠ [] := by
    rintro rfl
    simp [xMean, statesAt, average, bind, Except.bind, pure, Except.pure] at hm
  have := global_lower ds hne 0 h m z
  have hc := abs_real_inner_le_norm (globalGrad ds m) (z - m)
  rw [norm_sub_rev] at hc
  have := neg_abs_le ⟪globalGrad ds m, z - m⟫_ℝ
  linarith

/-- **C75.** For μ-strongly convex L-smooth costs and an optimal reference the three metrics are equivalent up to constants:
μ/2·error² ≤ regret ≤ L/2·error², and 2μ·regret ≤ norm² ≤ 2L·regret. -/
theorem C75_equivalent (ds : List (Trace (Vec d))) (L μ : ℝ) (hμ : 0 < μ) (hL : 0 < L) (hu : ∀ a ∈ ds, Upper a.f a.g L)
    (hl : ∀ a ∈ ds, Lower a.f a.g μ) (k : Int) (z m : Vec d) (hz : ∀ x, globalCost ds z ≤ globalCost ds x)
    (hm : xMean (ds.map Trace.view) k = .ok m) :
    ∃ r g e, regret (ds.map Trace.view) z k = .ok r ∧ gradientNorm (ds.map Trace.view) k = .ok g ∧ xError (ds.map Trace.view) z k = .ok e ∧
      μ / 2 * e ^ 2 ≤ r ∧ r ≤ L / 2 * e ^ 2 ∧ 2 * μ * r ≤ g ^ 2 ∧ g ^ 2 ≤ 2 * L * r := by
  obtain ⟨h1, h2, h3⟩ := C75_at_mean ds k z m hm
  refine ⟨_, _, _, h1, h2, h3, ?_⟩
  have hne : ds ≠ [] := by
    rintro rfl
    simp [xMean, statesAt, average, bind, Except.bind, pure, Except.pure] at hm
  have HU := global_upper ds hne L hu
  have HL := global_lower ds hne μ hl
  set F := globalCost ds
  set G := globalGrad ds
  have hgz : G z = 0 := by
    have a := gd_monotone HU hL z
    have b := hz (z - (1 / L) • G z)
    have c : 1 / (2 * L) * ‖G z‖ ^ 2 ≤ 0 := by linarith
    have d' : 0 < 1 / (2 * L) := by positivity
    have : ‖G z‖ ^ 2 ≤ 0 := by
      by_contra hcon
      have := mul_pos d' (not_le.1 hcon)
      linarith
    have : ‖G z‖ = 0 := by nlinarith [norm_nonneg (G z)]
    exact norm_eq_zero.1 this
  refine ⟨?_, ?_, ?_, ?_⟩
  · have := HL z m
    rw [hgz, inner_zero_left] at this
    linarith
  · have := HU z m
    rw [hgz, inner_zero_left] at this
    linarith
  · have := HL m z
    have hc := abs_real_inner_le_norm (G m) (z - m)
    have hn := neg_abs_le ⟪G m, z - m⟫_ℝ
    have hq := sq_nonneg (‖G m‖ - μ * ‖z - m‖)
    nlinarith
  · have a := gd_monotone HU hL m
    have b := hz (m - (1 / L) • G m)
    have c : 1 / (2 * L) * ‖G m‖ ^ 2 ≤ F m - F z := by linarith
    have : ‖G m‖ ^ 2 = 2 * L * (1 / (2 * L) * ‖G m‖ ^ 2) := by field_simp
    rw [this]
    exact mul_le_mul_of_nonneg_left c (by positivity)

end

/-! ### runtime metrics -/
section
variable {E : Type} [NormedAddCommGroup E] [NormedSpace ℝ E]

/-- the agents of a trial at the end of iteration `k` -/
def Trace.live (d : Trace E) (x : E) : Live E := ⟨d.f, d.g, x⟩

/-- **C75.** If the histories hold the current states, the runtime loss and consensus error are the averages over agents of the `Loss` and
`ConsensusError` metrics. -/
theorem C75_runtime_agrees (ds : List (Trace E)) (k : Int) (hk : 0 ≤ k) (hne : ds ≠ []) (xs : List E)
    (hx : List.Forall₂ (fun d x => Latest d k x) ds xs) :
    (∃ es, consensusError (ds.map Trace.view) k = .ok es ∧
      runtimeConsensusError (List.zipWith Trace.live ds xs) = .ok (es.sum / es.length)) ∧
    (∃ ls, losses (ds.map Trace.view) k = .ok ls ∧ runtimeLoss (List.zipWith Trace.live ds xs) = .ok (ls.sum / ls.length)) := by
  have hlen := hx.length_eq
  have hzl : (List.zipWith Trace.live ds xs).length = xs.length := by simp [hlen]
  have hxs : (List.zipWith Trace.live ds xs).map (·.x) = xs := by
    clear hzl hne
    induction hx with
    | nil => rfl
    | cons _ _ ih => simpa [Trace.live] using ih (by simpa using hlen)
  have hxne : xs ≠ [] := by
    rintro rfl
    cases hx; exact hne rfl
  have hn0 : xs.length ≠ 0 := by simpa using hxne
  refine ⟨⟨_, C75_consensus ds k hk hne xs hx, ?_⟩, ⟨List.zipWith (fun d x => d.f x) ds xs, ?_, ?_⟩⟩
  · have ha : average ((List.zipWith Trace.live ds xs).map (·.x)) = .ok (((xs.length : ℝ)⁻¹) • xs.sum) := by
      rw [average_ok, hxs]; exact ⟨hxne, rfl⟩
    rw [runtimeConsensusError, ha]
    simp only [bind, Except.bind, addUp_eq, divLen, hzl, if_neg hn0, List.length_map]
    congr 2
    have : (List.zipWith Trace.live ds xs).map (fun a => ‖a.x - ((xs.length : ℝ)⁻¹) • xs.sum‖) =
        ((List.zipWith Trace.live ds xs).map (·.x)).map (fun x => ‖((xs.length : ℝ)⁻¹) • xs.sum - x‖) := by
      rw [List.map_map]
      apply List.map_congr_left
      intro a _
      exact norm_sub_rev _ _
    rw [this, hxs]
  · rw [losses, mapM_ok, List.forall₂_map_left_iff]
    clear hzl hne hxne hn0 hxs
    induction hx with
    | nil => exact .nil
    | cons h1 _ ih =>
      refine .cons ?_ (ih (by simpa using hlen))
      rw [(getX_latest _ k hk _).2 h1]; rfl
  · rw [runtimeLoss, divLen, hzl, if_neg hn0, addUp_eq, List.map_zipWith]
    simp [Trace.live, hlen]

/-- average over agents -/
noncomputable def over (agents : List (Live E)) (v : Live E → ℝ) : ℝ := (agents.map v).sum / agents.length

theorem divLen_over (agents : List (Live E)) (hne : agents ≠ []) (v : Live E → ℝ) : divLen (addUp agents v) agents.length = .ok (over agents v) := by
  rw [divLen, if_neg (by simpa using hne), addUp_eq, over]

/-- the runtime regrets of a trial: current average cost minus the optimal cost *computed at the first update* -/
theorem runtimeRegrets_cached (z : E) (o : ℝ) (states : List (List (Live E))) (hne : ∀ s ∈ states, s ≠ []) :
    runtimeRegrets (some z) states (some o) = .ok (states.map (fun s => some (over s (fun a => a.f a.x) - o))) := by
  induction states with
  | nil => rfl
  | cons a t ih =>
    simp only [runtimeRegrets, runtimeRegret, divLen_over a (hne a (by simp)), bind, Except.bind, pure, Except.pure]
    rw [ih (fun s hs => hne s (by simp [hs]))]
    rfl

/-- **C75.** With costs that do not change during the run, every runtime regret is the documented one: the average of `f_i(x_i)` minus the
average of `f_i(x*)`, although the latter is computed only once. -/
theorem C75_runtime_regret (z : E) (states : List (List (Live E))) (hne : ∀ s ∈ states, s ≠ [])
    (hsame : ∀ s ∈ states, ∀ t ∈ states, s.map (·.f) = t.map (·.f)) :
    runtimeRegrets (some z) states none = .ok (states.map (fun s => some (over s (fun a => a.f a.x) - over s (fun a => a.f z)))) := by
  cases states with
  | nil => rfl
  | cons a t =>
    have h1 := runtimeRegrets_cached z (over a (fun b => b.f z)) t (fun s hs => hne s (by simp [hs]))
    simp only [runtimeRegrets, runtimeRegret, divLen_over a (hne a (by simp)), bind, Except.bind, pure, Except.pure]
    rw [h1]
    simp only [List.map_cons, Except.ok.injEq, List.cons.injEq, true_and]
    apply List.map_congr_left
    intro s hs
    have hh := hsame a (by simp) s (by simp [hs])
    have e : ∀ l : List (Live E), l.map (fun b => b.f z) = (l.map (·.f)).map (fun f => f z) := by intro l; simp
    have el : a.length = s.length := by simpa using congrArg List.length hh
    have : over a (fun b => b.f z) = over s (fun b => b.f z) := by rw [over, over, e a, e s, hh, el]
    rw [this]

/-- **C75 (refuted: with mini-batch costs the runtime regret is the suboptimality).** Costs evaluated on a new batch at every update are
compared with the optimum's cost on the first batch: agents sitting at the optimum from the second update on show the difference between
two batches, of either sign. -/
theorem C75_runtime_regret_batches (z : E) (f0 f1 : E → ℝ) (g : E → E) :
    runtimeRegrets (some z) [[⟨f0, g, z⟩], [⟨f1, g, z⟩]] none = .ok [some 0, some (f1 z - f0 z)] := by
  simp [runtimeRegrets, runtimeRegret, divLen, addUp, bind, Except.bind, pure, Except.pure]

/-- **C75 (refuted: runtime regret is non-negative).** Whatever the reference `z`, agents sitting at their own minimisers have runtime regret
at most 0, and below 0 unless `z` minimises every single cost. -/
theorem C75_runtime_regret_negative (agents : List (Live E)) (z : E) (hloc : ∀ a ∈ agents, ∀ x, a.f a.x ≤ a.f x)
    (hz : ∃ a ∈ agents, ∃ x, a.f x < a.f z) :
    ∃ r c, runtimeRegret agents (some z) none = .ok (some r, c) ∧ r < 0 := by
  obtain ⟨b, hb, x, hx⟩ := hz
  have hne : agents ≠ [] := List.ne_nil_of_mem hb
  refine ⟨over agents (fun a => a.f a.x) - over agents (fun a => a.f z), some (over agents (fun a => a.f z)), ?_, ?_⟩
  · simp only [runtimeRegret, divLen_over agents hne, bind, Except.bind, pure, Except.pure]
  · have hp : (0 : ℝ) < agents.length := by exact_mod_cast List.length_pos_iff.2 hne
    rw [over, over, ← sub_div]
    apply div_neg_of_neg_of_pos _ hp
    have : (agents.map (fun a => a.f a.x)).sum < (agents.map (fun a => a.f z)).sum := by
      apply List.sum_lt_sum
      · intro a ha; exact hloc a ha z
      · exact ⟨b, hb, lt_of_le_of_lt (hloc b hb x) hx⟩
    linarith

/-- two agents with costs (x-1)² and (x+1)², each at its own minimiser: runtime regret -1, while 0 is the global optimum -/
example : runtimeRegret [(⟨fun x => (x - 1) ^ 2, fun x => 2 * (x - 1), 1⟩ : Live ℝ), ⟨fun x => (x + 1) ^ 2, fun x => 2 * (x + 1), -1⟩] (some 0) none
    = .ok (some (-1), some 1) := by
  simp [runtimeRegret, divLen, addUp, bind, Except.bind, pure, Except.pure]

/-- **C75.** When all agents agree, the runtime regret is the `Regret` metric and the runtime gradient norm is at least the `GradientNorm`
metric. -/
theorem C75_runtime_at_consensus (ds : List (Trace E)) (k : Int) (hk : 0 ≤ k) (hne : ds ≠ []) (x z : E) (hx : ∀ d ∈ ds, Latest d k x) :
    (∃ r c, runtimeRegret (ds.map (fun d => d.live x)) (some z) none = .ok (some r, c) ∧ regret (ds.map Trace.view) z k = .ok r) ∧
    (∃ g g', gradientNorm (ds.map Trace.view) k = .ok g ∧ runtimeGradientNorm (ds.map (fun d => d.live x)) = .ok g' ∧ g ≤ g') := by
  have hn : (0 : ℝ) < ds.length := by exact_mod_cast List.length_pos_iff.2 hne
  have hm : xMean (ds.map Trace.view) k = .ok x := by
    refine (C75_mean ds k hk x).2 ⟨hne, List.replicate ds.length x, ?_, ?_⟩
    · clear hne hn
      induction ds with
      | nil => exact .nil
      | cons d t ih => exact .cons (hx d (by simp)) (ih (fun d' hd => hx d' (by simp [hd])))
    · rw [List.sum_replicate, ← Nat.cast_smul_eq_nsmul ℝ, smul_smul, inv_mul_cancel₀ hn.ne', one_smul]
  obtain ⟨h1, h2, h3⟩ := C75_at_mean ds k z x hm
  have hne' : ds.map (fun d => d.live x) ≠ [] := by simpa using hne
  constructor
  · refine ⟨globalCost ds x - globalCost ds z, some (globalCost ds z), ?_, h1⟩
    simp only [runtimeRegret, divLen_over _ hne', bind, Except.bind, pure, Except.pure]
    simp only [over, globalCost, List.map_map, List.length_map]
    rfl
  · refine ⟨_, (ds.map (fun d => ‖d.g x‖)).sum / ds.length, h2, ?_, ?_⟩
    · rw [runtimeGradientNorm, divLen_over _ hne']
      simp only [over, List.map_map, List.length_map]; rfl
    · rw [globalGrad, norm_smul, Real.norm_of_nonneg (by positivity), inv_mul_eq_div]
      apply div_le_div_of_nonneg_right _ hn.le
      clear h1 h2 h3 hm hx hne hne' hn
      induction ds with
      | nil => simp
      | cons a t ih =>
        simp only [List.map_cons, List.sum_cons]
        exact (norm_add_le _ _).trans (by linarith)

/-- **C75 (refuted: the runtime gradient norm vanishes at the optimum).** It vanishes exactly where every agent is at a stationary point of
its own cost, so with heterogeneous costs it stays positive at the common optimum. -/
theorem C75_runtime_gradient (agents : List (Live E)) (hne : agents ≠ []) :
    ∃ g, runtimeGradientNorm agents = .ok g ∧ 0 ≤ g ∧ (g = 0 ↔ ∀ a ∈ agents, a.g a.x = 0) := by
  have hn : (0 : ℝ) < agents.length := by exact_mod_cast List.length_pos_iff.2 hne
  refine ⟨_, divLen_over agents hne _, ?_, ?_⟩
  · exact div_nonneg (List.sum_nonneg (by intro v hv; obtain ⟨a, _, rfl⟩ := List.mem_map.1 hv; exact norm_nonneg _)) hn.le
  · rw [over, div_eq_zero_iff, or_iff_left hn.ne']
    clear hne hn
    induction agents with
    | nil => simp
    | cons a t ih =>
      have h1 : 0 ≤ (t.map (fun a => ‖a.g a.x‖)).sum :=
        List.sum_nonneg (by intro v hv; obtain ⟨a, _, rfl⟩ := List.mem_map.1 hv; exact norm_nonneg _)
      have h2 := norm_nonneg (a.g a.x)
      simp only [List.map_cons, List.sum_cons, List.mem_cons, forall_eq_or_imp]
      rw [← ih, ← norm_eq_zero (a := a.g a.x)]
      constructor
      · intro h; constructor <;> linarith
      · rintro ⟨h, h'⟩; rw [h, h']; simp

/-- (x-1)² and (x+1)² at their common optimum 0: the gradient norm is 0, the runtime gradient norm is 2 -/
example : runtimeGradientNorm [(⟨fun x => (x - 1) ^ 2, fun x => 2 * (x - 1), 0⟩ : Live ℝ), ⟨fun x => (x + 1) ^ 2, fun x => 2 * (x + 1), 0⟩]
    = .ok 2 := by
  simp [runtimeGradientNorm, divLen, addUp]

/-! ### C76 -/

/-- **C76.** In a completed run of `N` rounds (`N` is the last round recorded by any client) in which the clients selected in round
`k` are `sel k`, the fraction is the average over rounds of the fraction of selected clients; it lies in [0, 1]. -/
theorem C76_fraction {A : Type} [DecidableEq A] (clients : List A) (hnd : clients.Nodup) (hne : clients ≠ []) (tr : A → Trace E) (N : Nat) (hN : 0 < N)
    (hrec : ∀ c ∈ clients, (∃ j, Recorded (tr c).ws j) ∧ ∀ j, Recorded (tr c).ws j → j ≤ N) (hlast : ∃ c ∈ clients, Recorded (tr c).ws N)
    (sel : Nat → List A) (hsel : ∀ k < N, (sel k).Nodup ∧ ∀ c ∈ sel k, c ∈ clients)
    (hcount : ∀ c ∈ clients, (tr c).nSelected = ((List.range N).filter (fun k => decide (c ∈ sel k))).length) :
    ∃ q, fractionSelected (clients.map (fun c => (tr c).view)) = .ok (some q) ∧
      q = ((List.range N).map (fun k => ((sel k).length : ℝ) / clients.length)).sum / N ∧ 0 ≤ q ∧ q ≤ 1 := by
  have hmax : ∀ l : List A, (∀ c ∈ l, c ∈ clients) → ∃ ms, (l.map (fun c => (tr c).view)).mapM (fun a => a.hist.max) = .ok ms ∧ (∀ m ∈ ms, m ≤ (N : Int)) ∧
      (∀ c ∈ l, Recorded (tr c).ws N → (N : Int) ∈ ms) := by
    intro l
    induction l with
    | nil => intro _; exact ⟨[], rfl, by simp, by simp⟩
    | cons c t ih =>
      intro hsub
      obtain ⟨ms, h1, h2, h3⟩ := ih (fun c' hc' => hsub c' (by simp [hc']))
      obtain ⟨⟨j, hj⟩, hle⟩ := hrec c (hsub c (by simp))
      cases hm : (tr c).view.hist.max with
      | error e =>
        exfalso
        have hk := (C01_keys_sorted (tr c).ws).2.1 j |>.2 hj
        have : (tr c).view.hist.keys ≠ [] := List.ne_nil_of_mem hk
        rw [History.max, List.getLast?_eq_some_getLast this] at hm
        cases hm
      | ok m =>
        have hm' := ((C01_min_max (tr c).ws).1 m).1 hm
        refine ⟨m :: ms, ?_, ?_, ?_⟩
        · rw [List.map_cons, List.mapM_cons, hm, h1]; rfl
        · intro m' hm1
          rcases List.mem_cons.1 hm1 with rfl | h
          · exact hle _ hm'.1
          · exact h2 _ h
        · intro c' hc' hr
          rcases List.mem_cons.1 hc' with rfl | h
          · have h4 := hm'.2 _ hr
            have h5 := hle _ hm'.1
            have : m = (N : Int) := by omega
            simp [this]
          · exact List.mem_cons_of_mem _ (h3 c' h hr)
  have hfold : ∀ (l : List Int) (a : Int), a ≤ N → (∀ m ∈ l, m ≤ (N : Int)) → (N : Int) ∈ a :: l → l.foldl max a = N := by
    intro l
    induction l with
    | nil => intro a _ _ h; rw [List.mem_singleton] at h; exact h.symm
    | cons b t ih =>
      intro a ha hl hmem
      rw [List.foldl_cons]
      have hb := hl b (by simp)
      apply ih (max a b) (max_le ha hb) (fun m hm => hl m (by simp [hm]))
      rcases List.mem_cons.1 hmem with h | h
      · rw [← h, max_eq_left hb]; simp
      · rcases List.mem_cons.1 h with h | h
        · rw [← h, max_eq_right ha]; simp
        · exact List.mem_cons_of_mem _ h
  have hobs : observedRounds (clients.map (fun c => (tr c).view)) = .ok (N : Int) := by
    obtain ⟨ms, h1, h2, h3⟩ := hmax clients (fun c hc => hc)
    obtain ⟨c0, hc0, hr0⟩ := hlast
    have hin := h3 c0 hc0 hr0
    have : observedRounds (clients.map (fun c => (tr c).view)) = .ok (maxOf ms) := by
      cases hc : clients.map (fun c => (tr c).view) with
      | nil => exact absurd (by simpa using hc) hne
      | cons v t =>
        rw [hc] at h1
        simp only [observedRounds, h1, bind, Except.bind, pure, Except.pure]
    rw [this]
    cases ms with
    | nil => cases hin
    | cons m t =>
      rw [maxOf, hfold t m (h2 m (by simp)) (fun m' hm' => h2 m' (by simp [hm'])) hin]
  have hsum : ((clients.map (fun c => (tr c).view)).map (·.nSelected)).sum = ((List.range N).map (fun k => (sel k).length)).sum := by
    have e1 : (clients.map (fun c => (tr c).view)).map (·.nSelected) =
        clients.map (fun c => ((List.range N).map (fun k => if c ∈ sel k then 1 else 0)).sum) := by
      rw [List.map_map]
      apply List.map_congr_left
      intro c hc
      show (tr c).nSelected = _
      rw [hcount c hc]
      generalize List.range N = l
      induction l with
      | nil => rfl
      | cons k t ih => by_cases h : c ∈ sel k <;> simp [h, ih, Nat.add_comm]
    have e2 : ∀ k < N, (clients.map (fun c => if c ∈ sel k then 1 else 0)).sum = (sel k).length := by
      intro k hk
      obtain ⟨h1, h2⟩ := hsel k hk
      have : (clients.map (fun c => if c ∈ sel k then 1 else 0)).sum = (clients.filter (fun c => decide (c ∈ sel k))).length := by
        clear hnd hne hrec hcount hmax hobs e1 h2 hsel hlast
        induction clients with
        | nil => rfl
        | cons c t ih => by_cases h : c ∈ sel k <;> simp [h, ih, Nat.add_comm]
      rw [this]
      apply List.Perm.length_eq
      rw [List.perm_ext_iff_of_nodup (hnd.filter _) h1]
      intro a
      simp only [List.mem_filter, decide_eq_true_eq]
      exact ⟨fun h => h.2, fun h => ⟨h2 a h, h⟩⟩
    rw [e1]
    have swap : ∀ (l : List A) (r : List Nat) (v : A → Nat → Nat), (l.map (fun c => (r.map (v c)).sum)).sum = (r.map (fun k => (l.map (fun c => v c k)).sum)).sum := by
      intro l r v
      induction l with
      | nil => simp
      | cons c t ih => simp only [List.map_cons, List.sum_cons, ih, List.sum_map_add]
    rw [swap]
    congr 1
    apply List.map_congr_left
    intro k hk
    exact e2 k (List.mem_range.1 hk)
  have hc0 : (0 : ℝ) < clients.length := by exact_mod_cast List.length_pos_iff.2 hne
  have hN0 : (0 : ℝ) < N := by exact_mod_cast hN
  have hq : fractionSelected (clients.map (fun c => (tr c).view)) =
      .ok (some (((((List.range N).map (fun k => (sel k).length)).sum : Nat) : ℝ) / ((N : ℝ) * clients.length))) := by
    rw [fractionSelected, hobs]
    have hcond : ¬ ((N : Int) = 0 ∨ clients.map (fun c => (tr c).view) = []) := by
      rintro (h | h)
      · omega
      · exact hne (by simpa using h)
    simp only [bind, Except.bind, pure, Except.pure, if_neg hcond, List.length_map, hsum]
    norm_cast
  have hform : ((((List.range N).map (fun k => (sel k).length)).sum : Nat) : ℝ) / ((N : ℝ) * clients.length) =
      ((List.range N).map (fun k => ((sel k).length : ℝ) / clients.length)).sum / N := by
    have : ∀ l : List Nat, (l.map (fun k => ((sel k).length : ℝ) / clients.length)).sum = (((l.map (fun k => (sel k).length)).sum : Nat) : ℝ) / clients.length := by
      intro l
      induction l with
      | nil => simp
      | cons k t ih => simp only [List.map_cons, List.sum_cons, ih, Nat.cast_add]; rw [add_div]
    rw [this, div_div, mul_comm]
  refine ⟨_, hq, hform, by positivity, ?_⟩
  rw [div_le_one (by positivity)]
  have hle : ∀ k < N, (sel k).length ≤ clients.length := by
    intro k hk
    obtain ⟨h1, h2⟩ := hsel k hk
    exact (h1.subperm h2).length_le
  have : ((List.range N).map (fun k => (sel k).length)).sum ≤ N * clients.length := by
    have : ∀ l : List Nat, (∀ k ∈ l, k < N) → (l.map (fun k => (sel k).length)).sum ≤ l.length * clients.length := by
      intro l
      induction l with
      | nil => simp
      | cons k t ih =>
        intro h
        simp only [List.map_cons, List.sum_cons, List.length_cons]
        have a := hle k (h k (by simp))
        have b := ih (fun k' hk' => h k' (by simp [hk']))
        rw [Nat.succ_mul]; omega
    simpa using this (List.range N) (fun k hk => List.mem_range.1 hk)
  exact_mod_cast this

/-- a run of 2 rounds with clients 0 and 1; client 0 is selected twice, client 1 once -/
example : ∃ q, fractionSelected ([0, 1].map (fun c : Nat => (⟨fun x => x, fun _ => 1, [(0, 0), (2, 1)], if c = 0 then 2 else 1⟩ : Trace ℝ).view)) =
    .ok (some q) ∧ q = 3 / 4 := by
  obtain ⟨q, h, hq, _⟩ := C76_fraction (E := ℝ) [0, 1] (by simp) (by simp)
    (fun c : Nat => ⟨fun x => x, fun _ => 1, [(0, 0), (2, 1)], if c = 0 then 2 else 1⟩) 2 (by norm_num)
    (by
      intro c _
      refine ⟨⟨2, by norm_num, 1, by simp⟩, ?_⟩
      rintro j ⟨_, v, hv⟩
      simp at hv; omega)
    ⟨0, by simp, by norm_num, 1, by simp⟩
    (fun k => if k = 0 then [0, 1] else [0]) (by intro k hk; interval_cases k <;> simp)
    (by intro c hc; simp at hc; rcases hc with rfl | rfl <;> decide)
  refine ⟨q, h, ?_⟩
  rw [hq]
  norm_num [List.range_succ]

/-- **C76.** Without clients, or if no round was recorded, the metric is NaN. -/
theorem C76_nan (ds : List (Trace E)) (h : ∀ d ∈ ds, Recorded d.ws 0 ∧ ∀ j, Recorded d.ws j → j = 0) :
    fractionSelected (ds.map Trace.view) = .ok none := by
  have hobs : observedRounds (ds.map Trace.view) = .ok 0 := by
    cases ds with
    | nil => rfl
    | cons d t =>
      have : ∀ l : List (Trace E), (∀ d ∈ l, Recorded d.ws 0 ∧ ∀ j, Recorded d.ws j → j = 0) →
          (l.map Trace.view).mapM (fun a => a.hist.max) = .ok (List.replicate l.length 0) := by
        intro l hl
        rw [mapM_ok, List.forall₂_map_left_iff]
        induction l with
        | nil => exact .nil
        | cons c t ih =>
          refine .cons ?_ (ih (fun c' hc' => hl c' (by simp [hc'])))
          exact ((C01_min_max c.ws).1 0).2 ⟨(hl c (by simp)).1, fun j hj => ((hl c (by simp)).2 j hj).le⟩
      have h1 := this (d :: t) h
      simp only [observedRounds, List.map_cons] at h1 ⊢
      rw [h1]
      have hfold : ∀ n : Nat, (List.replicate n (0 : Int)).foldl max 0 = 0 := by
        intro n; induction n with
        | zero => rfl
        | succ n ih => simp [List.replicate_succ, ih]
      simp only [bind, Except.bind, pure, Except.pure, List.length_cons, List.replicate_succ, maxOf, hfold]
  rw [fractionSelected, hobs]
  simp [bind, Except.bind, pure, Except.pure]

/-- **C76 (refuted: the fraction is at most 1).** If a trial is stopped by an error (which the benchmark logs, keeping the trial) after `N`
rounds while the last snapshot is from round `M < N`, a client selected in every round yields the fraction `N/M > 1`. -/
theorem C76_failed_trial (d : Trace E) (M N : Nat) (hM : 0 < M) (hlt : M < N)
    (hrec : Recorded d.ws M ∧ ∀ j, Recorded d.ws j → j ≤ M) (hs : d.nSelected = N) :
    ∃ q, fractionSelected [d.view] = .ok (some q) ∧ q = N / M ∧ 1 < q := by
  have hmax : d.view.hist.max = .ok (M : Int) := ((C01_min_max d.ws).1 M).2 hrec
  have hM0 : (0 : ℝ) < M := by exact_mod_cast hM
  refine ⟨N / M, ?_, rfl, ?_⟩
  · have hobs : observedRounds [d.view] = .ok (M : Int) := by
      simp [observedRounds, hmax, bind, Except.bind, pure, Except.pure, maxOf]
    rw [fractionSelected, hobs]
    have hcond : ¬ ((M : Int) = 0 ∨ [d.view] = []) := by
      rintro (h | h)
      · omega
      · cases h
    have hv : d.view.nSelected = N := hs
    simp only [bind, Except.bind, pure, Except.pure, if_neg hcond, List.map_cons, List.map_nil, List.sum_cons, List.sum_nil, hv,
      List.length_cons, List.length_nil]
    simp
  · rw [lt_div_iff₀ hM0, one_mul]; exact_mod_cast hlt

/-- snapshots every 10 rounds, error in round 19: fraction 1.9 -/
example : ∃ q, fractionSelected [(⟨fun x => x, fun _ => 1, [(0, 0), (10, 1)], 19⟩ : Trace ℝ).view] = .ok (some q) ∧ 1 < q := by
  obtain ⟨q, h, _, h1⟩ := C76_failed_trial (⟨fun x => x, fun _ => 1, [(0, 0), (10, 1)], 19⟩ : Trace ℝ) 10 19 (by norm_num) (by norm_num)
    (by
      refine ⟨⟨by norm_num, 1, by simp⟩, ?_⟩
      rintro j ⟨_, v, hv⟩
      simp at hv; omega) rfl
  exact ⟨q, h, h1⟩

end

/-! ### C79 -/

/-- the labels predicted by each agent, all finite -/
theorem perAgent_fine {β : Type} (score : List β → List β → ℝ) (y : List β) (n : Nat) (ps : List (Preds β)) (acc : List (Option ℝ))
    (h : ∀ p ∈ ps, ∀ v ∈ p, v ≠ none) :
    perAgent score y n ps acc = acc ++ ps.map (fun p => some (score y (p.filterMap id))) := by
  induction ps generalizing acc with
  | nil => simp [perAgent]
  | cons p t ih =>
    have hb : broken p = false := by
      rw [broken, List.any_eq_false]
      intro v hv
      have := h p (by simp) v hv
      cases v <;> simp_all
    rw [perAgent, hb, if_neg (by simp), ih _ (fun q hq => h q (by simp [hq]))]
    simp

theorem perAgent_broken {β : Type} (score : List β → List β → ℝ) (y : List β) (n : Nat) (ps : List (Preds β)) (acc : List (Option ℝ))
    (h : ∃ p ∈ ps, none ∈ p) : perAgent score y n ps acc = List.replicate n none := by
  induction ps generalizing acc with
  | nil => obtain ⟨p, hp, _⟩ := h; cases hp
  | cons p t ih =>
    rw [perAgent]
    by_cases hb : broken p = true
    · rw [if_pos hb]
    · rw [if_neg hb]
      apply ih
      obtain ⟨q, hq, hn⟩ := h
      rcases List.mem_cons.1 hq with rfl | hq
      · exact absurd (by rw [broken, List.any_eq_true]; exact ⟨none, hn, rfl⟩) hb
      · exact ⟨q, hq, hn⟩

theorem sum_countP {α : Type} (l : List α) (cs : List Int) (hnd : cs.Nodup) (key : α → Int) (good : α → Bool)
    (hk : ∀ q ∈ l, key q ∈ cs) :
    (cs.map (fun c => l.countP (fun q => key q == c && good q))).sum = l.countP good := by
  induction l with
  | nil => simp
  | cons q t ih =>
    simp only [List.countP_cons, List.sum_map_add, ih (fun q' hq' => hk q' (by simp [hq']))]
    congr 1
    have hq := hk q (by simp)
    clear ih hk
    induction cs with
    | nil => cases hq
    | cons c cs ih =>
      simp only [List.map_cons, List.sum_cons]
      obtain ⟨hc, hnd'⟩ := List.nodup_cons.1 hnd
      rcases List.mem_cons.1 hq with h | h
      · have : (cs.map (fun c => if (key q == c && good q) = true then 1 else 0)).sum = 0 := by
          apply List.sum_eq_zero
          intro v hv
          obtain ⟨c', hc', rfl⟩ := List.mem_map.1 hv
          have : ¬ key q = c' := by rintro rfl; exact hc (h ▸ hc')
          simp [this]
        rw [this, h]; simp
      · have : ¬ key q = c := by rintro rfl; exact hc h
        rw [ih hnd' h]; simp [this]

theorem mem_zip_classes (y p : List Int) (q : Int × Int) (hq : q ∈ List.zip y p) : q.1 ∈ classes y p ∧ q.2 ∈ classes y p := by
  have := List.of_mem_zip (a := q.1) (b := q.2) hq
  simp [classes, this.1, this.2]

/-- **C79.** The three classification metrics are one and the same number: with the micro averaging the library uses, precision and recall of
every prediction equal its accuracy, for any number of classes. -/
theorem C79_micro (y p : List Int) (hlen : y.length = p.length) :
    precisionScore y p = accuracyScore y p ∧ recallScore y p = accuracyScore y p := by
  have hnd : (classes y p).Nodup := List.nodup_dedup _
  have htp : ((classes y p).map (tp y p)).sum = (List.zip y p).countP (fun q => q.1 == q.2) := by
    rw [← sum_countP (List.zip y p) (classes y p) hnd (fun q => q.1) (fun q => q.1 == q.2) (fun q hq => (mem_zip_classes y p q hq).1)]
    congr 1
    apply List.map_congr_left
    intro c _
    apply List.countP_congr
    intro q _
    simp only [Bool.and_eq_true, beq_iff_eq]
    constructor
    · rintro ⟨h1, h2⟩; exact ⟨h1, by rw [h1, h2]⟩
    · rintro ⟨h1, h2⟩; exact ⟨h1, by rw [← h2, h1]⟩
  have hzl : (List.zip y p).length = y.length := by simp [hlen]
  have hall : ∀ key : Int × Int → Int, (∀ q ∈ List.zip y p, key q ∈ classes y p) →
      ((classes y p).map (fun c => (List.zip y p).countP (fun q => key q == c && true))).sum = y.length := by
    intro key hk
    rw [sum_countP (List.zip y p) (classes y p) hnd key (fun _ => true) hk, List.countP_true, hzl]
  have h1 : ((classes y p).map (fun c => tp y p c + fp y p c)).sum = y.length := by
    rw [← hall (fun q => q.2) (fun q hq => (mem_zip_classes y p q hq).2)]
    congr 1
    apply List.map_congr_left
    intro c _
    rw [tp, fp]
    generalize List.zip y p = l
    induction l with
    | nil => rfl
    | cons q t ih =>
      simp only [List.countP_cons]
      by_cases a : q.1 = c <;> by_cases b : q.2 = c <;> simp [a, b] at ih ⊢ <;> omega
  have h2 : ((classes y p).map (fun c => tp y p c + fn y p c)).sum = y.length := by
    rw [← hall (fun q => q.1) (fun q hq => (mem_zip_classes y p q hq).1)]
    congr 1
    apply List.map_congr_left
    intro c _
    rw [tp, fn]
    generalize List.zip y p = l
    induction l with
    | nil => rfl
    | cons q t ih =>
      simp only [List.countP_cons]
      by_cases a : q.1 = c <;> by_cases b : q.2 = c <;> simp [a, b] at ih ⊢ <;> omega
  rw [precisionScore, recallScore, accuracyScore, htp, h1, h2]
  exact ⟨rfl, rfl⟩

theorem filterMap_length {β : Type} (p : Preds β) (h : ∀ v ∈ p, v ≠ none) : (p.filterMap id).length = p.length := by
  induction p with
  | nil => rfl
  | cons v t ih =>
    cases v with
    | none => exact absurd rfl (h none (by simp))
    | some v => simpa using ih (fun v hv => h v (by simp [hv]))

/-- **C79.** So the `Accuracy`, `Precision` and `Recall` metrics of a trial are always identical. -/
theorem C79_same_metric (y : List Int) (ps : List (Preds Int)) (hlen : ∀ p ∈ ps, p.length = y.length) :
    precision y ps = accuracy y ps ∧ recall y ps = accuracy y ps := by
  by_cases h : ∃ p ∈ ps, none ∈ p
  · rw [precision, recall, accuracy, perAgent_broken _ _ _ _ _ h, perAgent_broken _ _ _ _ _ h, perAgent_broken _ _ _ _ _ h]
    exact ⟨rfl, rfl⟩
  · have hf : ∀ p ∈ ps, ∀ v ∈ p, v ≠ none := fun p hp v hv e => h ⟨p, hp, e ▸ hv⟩
    rw [precision, recall, accuracy, perAgent_fine _ _ _ _ _ hf, perAgent_fine _ _ _ _ _ hf, perAgent_fine _ _ _ _ _ hf]
    have hl : ∀ p ∈ ps, y.length = (p.filterMap id).length := by
      intro p hp
      rw [← hlen p hp]
      exact (filterMap_length p (hf p hp)).symm
    constructor
    · congr 1
      apply List.map_congr_left
      intro p hp
      rw [(C79_micro y _ (hl p hp)).1]
    · congr 1
      apply List.map_congr_left
      intro p hp
      rw [(C79_micro y _ (hl p hp)).2]

/-- **C79.** Each agent's accuracy is the fraction of test samples it predicts correctly, hence in [0, 1], and 1 exactly if all are correct. -/
theorem C79_accuracy (y : List Int) (hy : y ≠ []) (ps : List (List Int)) (hlen : ∀ p ∈ ps, p.length = y.length) :
    accuracy y (ps.map (fun p => p.map some)) = ps.map (fun p => some (accuracyScore y p)) ∧
    ∀ p ∈ ps, 0 ≤ accuracyScore y p ∧ accuracyScore y p ≤ 1 ∧ (accuracyScore y p = 1 ↔ p = y) := by
  constructor
  · rw [accuracy, perAgent_fine]
    · simp [List.map_map, Function.comp_def]
    · intro p hp v hv
      obtain ⟨q, _, rfl⟩ := List.mem_map.1 hp
      obtain ⟨w, _, rfl⟩ := List.mem_map.1 hv
      simp
  · intro p hp
    have hpos : (0 : ℝ) < y.length := by exact_mod_cast List.length_pos_iff.2 hy
    have hl := hlen p hp
    have hle : (List.zip y p).countP (fun q => q.1 == q.2) ≤ y.length := by
      refine (List.countP_le_length).trans ?_
      simp [hl]
    refine ⟨by rw [accuracyScore]; positivity, ?_, ?_⟩
    · rw [accuracyScore, div_le_one hpos]; exact_mod_cast hle
    · rw [accuracyScore, div_eq_one_iff_eq hpos.ne']
      have e : (((List.zip y p).countP (fun q => q.1 == q.2) : Nat) : ℝ) = y.length ↔
          (List.zip y p).countP (fun q => q.1 == q.2) = (List.zip y p).length := by
        rw [Nat.cast_inj]; simp [hl]
      rw [e, List.countP_eq_length]
      clear e hle hpos hy hp hlen
      induction y generalizing p with
      | nil => simp only [List.length_nil, List.length_eq_zero_iff] at hl; subst hl; simp
      | cons a t ih =>
        cases p with
        | nil => simp at hl
        | cons b u =>
          have := ih u (by simpa using hl)
          simp only [beq_iff_eq] at this
          simp only [List.zip_cons_cons, List.mem_cons, forall_eq_or_imp, this, beq_iff_eq, List.cons.injEq]
          rw [eq_comm (a := a)]

/-- **C79.** For 0/1 labels the mean squared error of 0/1 predictions is one minus the accuracy. -/
theorem C79_mse_binary (y p : List Int) (hy : y ≠ []) (hlen : p.length = y.length) (h01 : ∀ v ∈ y, v = 0 ∨ v = 1) (hp01 : ∀ v ∈ p, v = 0 ∨ v = 1) :
    mseScore (y.map (fun v : Int => (v : ℝ))) (p.map (fun v : Int => (v : ℝ))) = 1 - accuracyScore y p := by
  have hpos : (0 : ℝ) < y.length := by exact_mod_cast List.length_pos_iff.2 hy
  have key : ((List.zip (y.map (fun v : Int => (v : ℝ))) (p.map (fun v : Int => (v : ℝ)))).map (fun q => (q.1 - q.2) ^ 2)).sum =
      y.length - (((List.zip y p).countP (fun q => q.1 == q.2) : Nat) : ℝ) := by
    clear hpos hy
    induction y generalizing p with
    | nil => simp
    | cons a t ih =>
      cases p with
      | nil => simp at hlen
      | cons b u =>
        have h1 := ih u (by simpa using hlen) (fun v hv => h01 v (by simp [hv])) (fun v hv => hp01 v (by simp [hv]))
        simp only [List.map_cons, List.zip_cons_cons, List.sum_cons, List.length_cons, List.countP_cons, h1]
        rcases h01 a (by simp) with rfl | rfl <;> rcases hp01 b (by simp) with rfl | rfl <;> simp <;> ring
  rw [mseScore, key, accuracyScore, List.length_map, sub_div, div_self hpos.ne']

/-- **C79 (refuted: the values are per agent).** One agent with a NaN or infinite prediction makes the accuracy, precision, recall and MSE of
*every* agent NaN, which the metric frame turns into `+inf` for all of them — also for a score whose best value is 1. -/
theorem C79_one_broken (y : List Int) (yr : List ℝ) (ps : List (Preds Int)) (pr : List (Preds ℝ)) (h : ∃ p ∈ ps, none ∈ p) (hr : ∃ p ∈ pr, none ∈ p) :
    (∀ v ∈ accuracy y ps, v = none) ∧ (∀ v ∈ precision y ps, v = none) ∧ (∀ v ∈ recall y ps, v = none) ∧ (∀ v ∈ mse yr pr, v = none) ∧
    (accuracy y ps).length = ps.length ∧
    ∀ (cast : Metrics.Val → Metrics.Val) (lim : ℝ), cast .nan = .nan → Metrics.sanitise cast lim .nan = .posInf := by
  refine ⟨?_, ?_, ?_, ?_, ?_, ?_⟩
  · rw [accuracy, perAgent_broken _ _ _ _ _ h]; exact fun v hv => List.eq_of_mem_replicate hv
  · rw [precision, perAgent_broken _ _ _ _ _ h]; exact fun v hv => List.eq_of_mem_replicate hv
  · rw [recall, perAgent_broken _ _ _ _ _ h]; exact fun v hv => List.eq_of_mem_replicate hv
  · rw [mse, perAgent_broken _ _ _ _ _ hr]; exact fun v hv => List.eq_of_mem_replicate hv
  · rw [accuracy, perAgent_broken _ _ _ _ _ h, List.length_replicate]
  · intro cast lim hc
    rw [Metrics.sanitise, hc]; rfl

/-- **C79.** A server metric is the score of the predictions at the server's state, and NaN exactly if one of them is not finite. -/
theorem C79_server {β : Type} (score : List β → List β → ℝ) (y : List β) (p : Preds β) :
    (scoreAt score y p = none ↔ none ∈ p) ∧ ∀ q : List β, p = q.map some → scoreAt score y p = some (score y q) := by
  constructor
  · rw [scoreAt]
    by_cases hb : broken p = true
    · rw [if_pos hb]
      rw [broken, List.any_eq_true] at hb
      obtain ⟨v, hv, hn⟩ := hb
      cases v with
      | none => simpa using hv
      | some v => simp at hn
    · rw [if_neg hb]
      simp only [reduceCtorEq, false_iff]
      intro hn
      exact hb (by rw [broken, List.any_eq_true]; exact ⟨none, hn, rfl⟩)
  · rintro q rfl
    have hb : broken (q.map some) = false := by
      rw [broken, List.any_eq_false]
      intro v hv
      obtain ⟨w, _, rfl⟩ := List.mem_map.1 hv
      simp
    rw [scoreAt, hb]
    simp

/-- 3 classes, 4 samples, two correct -/
example : accuracyScore [0, 1, 2, 1] [0, 2, 2, 0] = 1 / 2 ∧ precisionScore [0, 1, 2, 1] [0, 2, 2, 0] = 1 / 2 := by
  refine ⟨?_, ?_⟩
  · norm_num [accuracyScore, List.countP_cons]
  · rw [(C79_micro [0, 1, 2, 1] [0, 2, 2, 0] rfl).1]; norm_num [accuracyScore, List.countP_cons]

end Verif.Props
