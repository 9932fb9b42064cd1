import Verif.Props.Rates
import Verif.Props.FedLossy
import Verif.Lemmas.LossyAny
set_option linter.unusedSectionVars false
/-!
# C125: DGD and ATC on unreliable peer-to-peer networks

Any activation, drop, compression and noise behaviour. The largest distance of an agent from a point `xs` never exceeds a bound
made of the starting distance, `‖xs‖` (an agent that hears nobody is pulled to the origin: the weights of lost messages are not
redistributed) and the distortions; when all agents are active it shrinks geometrically to a floor proportional to the weight of
the lost messages.
-/
namespace Verif.Props
open Verif Verif.P2P NetState Verif.Costs Verif.Consensus
open scoped InnerProductSpace

section
variable {A Ω α : Type} [DecidableEq A] {d : Nat}
variable {n : Net A} {w : World A (Vec d) Ω}

/-- SPEC: after the iteration agent `i` has no message from `j` -/
def Silent (s : Sys A (Vec d) Ω α) (i j : A) : Prop := ∀ v, (s.net.inbox i).get j .dflt ≠ .ok v

open Classical in
/-- SPEC: total weight of the neighbours from which agent `i` got no message -/
noncomputable def lostWeight (n : Net A) (W : A → A → ℝ) (s : Sys A (Vec d) Ω α) (i : A) : ℝ :=
  (((n.nbrs i).filter (fun j => decide (Silent s i j))).map (fun j => W i j)).sum

/-- SPEC: what is asked of the network: costs `L`-smooth and `m`-strongly convex, gradient oracles err by at most `e`, gradients at
`xs` have norm at most `h`, messages are distorted by at most `κ` of their norm plus `ε` -/
structure Rough (w : World A (Vec d) Ω) (n : Net A) (W : A → A → ℝ) (f : A → Vec d → ℝ) (g : A → Vec d → Vec d) (L m : ℝ)
    (G : Grad A (Vec d) Ω) (e h κ ε : ℝ) (xs : Vec d) : Prop where
  query : n.queryAgents = n.nodes
  wf : n.WF
  loopless : Loopless n
  weights : GoodWeights n W
  smooth : Smooth n f g L m
  mL : m ≤ L
  oracle : ∀ i ∈ n.nodes, ∀ x ω, ‖(G i x ω).1 - g i x‖ ≤ e
  hetero : ∀ i ∈ n.nodes, ‖g i xs‖ ≤ h
  msg : ∀ i ∈ n.nodes, Distorts w i κ ε
  kap : 0 ≤ κ
  eps : 0 ≤ ε
  err : 0 ≤ e
  het : 0 ≤ h

/-! ### pieces -/

theorem partial_gd_contract {f : Vec d → ℝ} {g : Vec d → Vec d} {L m η a : ℝ} (hu : Upper f g L) (hl : Lower f g m) (hm : 0 < m)
    (hmL : m ≤ L) (hη : 0 < η) (hs : η * (L + m) ≤ 2 * a) (x y : Vec d) :
    ‖a • (x - y) - η • (g x - g y)‖ ≤ (a - η * m) * ‖x - y‖ := by
  have h1 := strong_cocoercive hu hl hm x y
  have h2 := strong_monotone hl x y
  have hηm : η * m ≤ η * L := mul_le_mul_of_nonneg_left hmL hη.le
  have ha : 0 ≤ a - η * m := by nlinarith
  have e0 : ‖a • (x - y) - η • (g x - g y)‖ ^ 2 =
      a ^ 2 * ‖x - y‖ ^ 2 - 2 * η * (a * ⟪g x - g y, x - y⟫_ℝ) + η ^ 2 * ‖g x - g y‖ ^ 2 := by
    rw [norm_sub_smul_sq, norm_smul, mul_pow, Real.norm_eq_abs, sq_abs, inner_smul_right]
  refine abs_le_of_sq_le_sq' ?_ (mul_nonneg ha (norm_nonneg _)) |>.2
  rw [e0, mul_pow]
  clear e0
  generalize ‖x - y‖ ^ 2 = D at h1 h2 ⊢
  generalize ⟪g x - g y, x - y⟫_ℝ = I at h1 h2 ⊢
  generalize ‖g x - g y‖ ^ 2 = N at h1 ⊢
  have h3 := mul_le_mul_of_nonneg_left h1 (sq_nonneg η)
  have h4 : 0 ≤ η * (2 * a - η * (L + m)) := mul_nonneg hη.le (by linarith)
  have h5 := mul_le_mul_of_nonneg_left h2 h4
  nlinarith

theorem weighted_close (R : List A) (c : A → ℝ) (hc : ∀ j ∈ R, 0 ≤ c j) (M : A → Vec d) (xs : Vec d) (b : ℝ)
    (h : ∀ j ∈ R, ‖M j - xs‖ ≤ b) :
    ‖(R.map (fun j => c j • M j)).sum - (R.map c).sum • xs‖ ≤ (R.map c).sum * b := by
  induction R with
  | nil => simp
  | cons j t ih =>
    have i1 := ih (fun j hj => hc j (by simp [hj])) (fun j hj => h j (by simp [hj]))
    have e1 : ((j :: t).map (fun j => c j • M j)).sum - ((j :: t).map c).sum • xs =
        c j • (M j - xs) + ((t.map (fun j => c j • M j)).sum - (t.map c).sum • xs) := by
      simp only [List.map_cons, List.sum_cons]
      module
    have i2 : ‖c j • (M j - xs)‖ ≤ c j * b := by
      rw [norm_smul, Real.norm_of_nonneg (hc j (by simp))]
      exact mul_le_mul_of_nonneg_left (h j (by simp)) (hc j (by simp))
    rw [e1]
    refine (norm_add_le _ _).trans ?_
    simp only [List.map_cons, List.sum_cons]
    linarith

theorem silent_iff (s : Sys A (Vec d) Ω α) (i j : A) : Silent s i j ↔ j ∉ ((s.net.inbox i).byChannel .dflt).keys := by
  unfold Silent
  rw [PyDict.mem_keys_iff, Inbox.get?_byChannel]
  constructor
  · intro h hs
    obtain ⟨v, hv⟩ := Option.isSome_iff_exists.1 hs
    exact h v (by rw [Inbox.get_eq, hv])
  · intro h v hv
    rw [Inbox.get_eq] at hv
    cases hx : (s.net.inbox i).abs .dflt j with
    | none => rw [hx] at hv; cases hv
    | some v' => exact h (by rw [hx]; rfl)

/-- own weight, heard weights and lost weights sum to one -/
theorem weight_parts {W : A → A → ℝ} (hW : GoodWeights n W) (hw : n.WF) (hl : Loopless n) {act : List A} {m : A → Vec d}
    {s : Sys A (Vec d) Ω α} {R : A → List A} {M : A → A → Vec d} (hh : HeardAll w n act m s.net.inbox R M) {i : A} (hi : i ∈ n.nodes) :
    W i i + ((R i).map (fun j => W i j)).sum + lostWeight n W s i = 1 ∧ 0 ≤ ((R i).map (fun j => W i j)).sum ∧ 0 ≤ lostWeight n W s i := by
  classical
  have hnn : ∀ l : List A, (∀ j ∈ l, j ∈ n.nodes) → 0 ≤ (l.map (fun j => W i j)).sum := by
    intro l hl
    apply List.sum_nonneg
    intro x hx
    obtain ⟨j, hj, rfl⟩ := List.mem_map.1 hx
    exact hW.nonneg i hi j (hl j hj)
  have hrow : W i i + ((n.nbrs i).map (fun j => W i j)).sum = 1 := by
    have e := sum_split n hw hl i hi W hW.supported (fun _ => (1 : ℝ))
    unfold applyW at e
    simp only [smul_eq_mul, mul_one] at e
    rw [← e]; exact hW.row i hi
  have hperm : (R i ++ (n.nbrs i).filter (fun j => decide (Silent s i j))).Perm (n.nbrs i) := by
    rw [List.perm_ext_iff_of_nodup _ (hw.nbrs_nodup i)]
    · intro j
      simp only [List.mem_append, List.mem_filter, decide_eq_true_eq, silent_iff, ← hh.keys]
      constructor
      · rintro (hj | hj)
        · exact (hh.sender i hi j hj).1
        · exact hj.1
      · intro hj
        by_cases hjR : j ∈ R i
        · exact Or.inl hjR
        · exact Or.inr ⟨hj, hjR⟩
    · refine List.Nodup.append (hh.nodup i hi) ((hw.nbrs_nodup i).filter _) ?_
      intro j hj hj'
      simp only [List.mem_filter, decide_eq_true_eq, silent_iff, ← hh.keys] at hj'
      exact hj'.2 hj
  have hsplit : ((n.nbrs i).map (fun j => W i j)).sum = ((R i).map (fun j => W i j)).sum + lostWeight n W s i := by
    rw [← (hperm.map _).sum_eq, List.map_append, List.sum_append]; rfl
  refine ⟨by linarith, hnn _ (fun j hj => hw.nbrs_mem i j (hh.sender i hi j hj).1), hnn _ (fun j hj => hw.nbrs_mem i j (List.mem_filter.1 hj).1)⟩

variable {W : A → A → ℝ} {f : A → Vec d → ℝ} {g : A → Vec d → Vec d} {L m η e h κ ε : ℝ} {G : Grad A (Vec d) Ω} {xs : Vec d}

/-- the mixing part: own vector within `a`, messages sent within `b` of `xs` -/
theorem mixed_close (hN : Rough w n W f g L m G e h κ ε xs) {act : List A} {msg : A → Vec d}
    {s : Sys A (Vec d) Ω α} {R : A → List A} {M : A → A → Vec d} (hh : HeardAll w n act msg s.net.inbox R M) {i : A} (hi : i ∈ n.nodes)
    {b : ℝ} (hb : ∀ j ∈ R i, ‖msg j - xs‖ ≤ b) :
    ‖((R i).map (fun j => W i j • M i j)).sum - ((R i).map (fun j => W i j)).sum • xs‖ ≤
      ((R i).map (fun j => W i j)).sum * ((1 + κ) * b + (κ * ‖xs‖ + ε)) := by
  have hn : ∀ j ∈ R i, j ∈ n.nodes := fun j hj => hN.wf.nbrs_mem i j (hh.sender i hi j hj).1
  apply weighted_close (R i) (fun j => W i j) (fun j hj => hN.weights.nonneg i hi j (hn j hj)) (M i)
  intro j hj
  have h1 := moved hN.kap (hN.msg j (hn j hj) _ _ (hh.arrives i hi j hj)) xs
  have h2 := mul_le_mul_of_nonneg_left (hb j hj) (by linarith [hN.kap] : (0 : ℝ) ≤ 1 + κ)
  linarith

/-! ### DGD -/

/-- One DGD iteration. -/
theorem dgd_round (hN : Rough w n W f g L m G e h κ ε xs) (hη : 0 < η) (room : ∀ i ∈ n.nodes, η * (L + m) ≤ 2 * W i i)
    (k : Int) (s : Sys A (Vec d) Ω (Dgd (Vec d))) {B : ℝ} (hB : ∀ i ∈ n.nodes, ‖(s.loc i).x - xs‖ ≤ B) :
    ∃ (s' : Sys A (Vec d) Ω (Dgd (Vec d))) (act : List A), (dgd G W η).step w n k (adv n k s) = .ok s' ∧ ActiveIn w n k act ∧
      ∀ i ∈ n.nodes, 0 ≤ lostWeight n W s' i ∧ (i ∉ act → (s'.loc i).x = (s.loc i).x) ∧
        (i ∈ act → (s'.loc i).x ∈ Metric.closedBall xs
          ((1 - η * m + κ) * B + (κ * ‖xs‖ + ε + η * (e + h)) + lostWeight n W s' i * (‖xs‖ - B))) := by
  obtain ⟨s', act, R, M, ωs, h1, ha, hh, hx⟩ := dgd_step_any hN.query hN.wf G W η k s
  refine ⟨s', act, h1, ha, fun i hi => ?_⟩
  obtain ⟨p1, p2, p3⟩ := weight_parts hN.weights hN.wf hN.loopless hh hi
  refine ⟨p3, fun hn => by rw [hx i hi, if_neg hn], fun hia => ?_⟩
  rw [mem_closedBall_iff_norm, hx i hi, if_pos hia]
  have hq := mixed_close hN hh hi (b := B) (fun j hj => hB j (hN.wf.nbrs_mem i j (hh.sender i hi j hj).1))
  have hm := hN.smooth.mpos
  have hc := partial_gd_contract (hN.smooth.upper i hi) (hN.smooth.lower i hi) hm hN.mL hη (room i hi) (s.loc i).x xs
  have ho := hN.oracle i hi (s.loc i).x (ωs i)
  have hg := hN.hetero i hi
  generalize ((R i).map (fun j => W i j • M i j)).sum = V at hq ⊢
  generalize ((R i).map (fun j => W i j)).sum = r at hq p1 p2
  generalize lostWeight n W s' i = ℓ at p1 p3 ⊢
  have hrow := room i hi
  have hBi := hB i hi
  generalize (s.loc i).x = x at ho hc hBi ⊢
  generalize (G i x (ωs i)).1 = γ at ho ⊢
  have hη0 := hη.le
  have hWi : 0 < W i i := by
    have : 0 < η * (L + m) := mul_pos hη (by linarith [hN.smooth.Lpos])
    linarith
  have hWm : 0 ≤ W i i - η * m := by
    have : η * m ≤ η * L := mul_le_mul_of_nonneg_left hN.mL hη0
    nlinarith
  have e1 : W i i • x + V - η • γ - xs = (W i i • (x - xs) - η • (g i x - g i xs)) + (V - r • xs) +
      ((-η) • (γ - g i x) + (-η) • g i xs + (-ℓ) • xs) := by
    have : ℓ = 1 - W i i - r := by linarith
    rw [this]
    module
  have b1 : ‖(-η) • (γ - g i x)‖ ≤ η * e := by
    rw [norm_smul, norm_neg, Real.norm_of_nonneg hη0]; exact mul_le_mul_of_nonneg_left ho hη0
  have b2 : ‖(-η) • g i xs‖ ≤ η * h := by
    rw [norm_smul, norm_neg, Real.norm_of_nonneg hη0]; exact mul_le_mul_of_nonneg_left hg hη0
  have b3 : ‖(-ℓ) • xs‖ = ℓ * ‖xs‖ := by rw [norm_smul, norm_neg, Real.norm_of_nonneg p3]
  have b4 := mul_le_mul_of_nonneg_left hBi hWm
  have t1 := norm_add_le (W i i • (x - xs) - η • (g i x - g i xs) + (V - r • xs)) ((-η) • (γ - g i x) + (-η) • g i xs + (-ℓ) • xs)
  have t2 := norm_add_le (W i i • (x - xs) - η • (g i x - g i xs)) (V - r • xs)
  have t3 := norm_add_le ((-η) • (γ - g i x) + (-η) • g i xs) ((-ℓ) • xs)
  have t4 := norm_add_le ((-η) • (γ - g i x)) ((-η) • g i xs)
  have hB0 : 0 ≤ B := (norm_nonneg _).trans hBi
  have hr1 : r ≤ 1 := by linarith
  have hκB : r * (κ * B + (κ * ‖xs‖ + ε)) ≤ 1 * (κ * B + (κ * ‖xs‖ + ε)) :=
    mul_le_mul_of_nonneg_right hr1 (by have := hN.kap; have := hN.eps; positivity)
  have hrr : W i i = 1 - r - ℓ := by linarith
  rw [e1]
  have : (W i i - η * m) * B + r * ((1 + κ) * B + (κ * ‖xs‖ + ε)) =
      (1 - η * m) * B - ℓ * B + r * (κ * B + (κ * ‖xs‖ + ε)) := by rw [hrr]; ring
  linarith

/-- DGD stays bounded whatever is lost, whoever is inactive: if compression is weaker than the curvature (`κ < η m`), every
agent stays within `max(start, ‖xs‖, (κ ‖xs‖ + ε + η (e + h)) / (η m - κ))` of `xs`. -/
theorem C125_dgd_bounded (hN : Rough w n W f g L m G e h κ ε xs) (hη : 0 < η) (room : ∀ i ∈ n.nodes, η * (L + m) ≤ 2 * W i i)
    (hκ : κ < η * m) (x0 : A → Vec d) (s0 : Sys A (Vec d) Ω (Dgd (Vec d))) {B : ℝ} (hB : ∀ i ∈ n.nodes, ‖x0 i - xs‖ ≤ B)
    (hBx : ‖xs‖ ≤ B) (hBf : (κ * ‖xs‖ + ε + η * (e + h)) / (η * m - κ) ≤ B) (N : Nat) :
    ∃ s, (dgd G W η).after w n x0 s0 N = .ok s ∧ ∀ i ∈ n.nodes, ‖(s.loc i).x - xs‖ ≤ B := by
  refine after_induction (dgd G W η) w n x0 s0 (fun _ s => ∀ i ∈ n.nodes, ‖(s.loc i).x - xs‖ ≤ B) ?_ ?_ N
  · obtain ⟨ωs, hi⟩ := init_spec (dgd G W η) n hN.wf x0 s0
    intro i hin
    rw [hi i hin]
    exact hB i hin
  · intro k s hs
    obtain ⟨s', act, h1, ha, hr⟩ := dgd_round hN hη room (k : Int) s hs
    refine ⟨s', h1, fun i hi => ?_⟩
    obtain ⟨r1, r2, r3⟩ := hr i hi
    by_cases hia : i ∈ act
    · have := mem_closedBall_iff_norm.1 (r3 hia)
      have h3 : κ * ‖xs‖ + ε + η * (e + h) ≤ B * (η * m - κ) := (div_le_iff₀ (by linarith)).1 hBf
      have h4 : lostWeight n W s' i * (‖xs‖ - B) ≤ 0 := mul_nonpos_of_nonneg_of_nonpos r1 (by linarith)
      nlinarith
    · rw [r2 hia]; exact hs i hi

/-- With all agents active and lost weights at most `lam`, DGD converges geometrically to a neighbourhood of `xs`. -/
theorem C125_dgd_rate (hN : Rough w n W f g L m G e h κ ε xs) (hη : 0 < η) (room : ∀ i ∈ n.nodes, η * (L + m) ≤ 2 * W i i)
    (hκ : κ < η * m) (hact : ∀ i ∈ n.nodes, ∀ it ω, (w.isActive i it ω).1 = true) {lam : ℝ} (hlam : 0 ≤ lam)
    (x0 : A → Vec d) (s0 : Sys A (Vec d) Ω (Dgd (Vec d)))
    (hlost : ∀ k s, (dgd G W η).after w n x0 s0 (k + 1) = .ok s → ∀ i ∈ n.nodes, lostWeight n W s i ≤ lam)
    {B : ℝ} (hB : ∀ i ∈ n.nodes, ‖x0 i - xs‖ ≤ B) (hB0 : 0 ≤ B) (hne : η * m ≤ 1 + κ) (N : Nat) :
    ∃ s, (dgd G W η).after w n x0 s0 N = .ok s ∧ ∀ i ∈ n.nodes, ‖(s.loc i).x - xs‖ ≤
      (1 - η * m + κ) ^ N * B + (κ * ‖xs‖ + ε + η * (e + h) + lam * ‖xs‖) / (η * m - κ) := by
  obtain ⟨q, hq⟩ : ∃ q, q = 1 - η * m + κ := ⟨_, rfl⟩
  have hq0 : 0 ≤ q := by linarith
  have hq1 : 0 < 1 - q := by linarith
  obtain ⟨T, hT⟩ : ∃ T, T = κ * ‖xs‖ + ε + η * (e + h) := ⟨_, rfl⟩
  have hT0 : 0 ≤ T := by rw [hT]; have := hN.kap; have := hN.eps; have := hN.err; have := hN.het; positivity
  obtain ⟨F, hF⟩ : ∃ F, F = (T + lam * ‖xs‖) / (η * m - κ) := ⟨_, rfl⟩
  have hd : η * m - κ = 1 - q := by linarith
  have hF0 : 0 ≤ F := by rw [hF, hd]; positivity
  have hFfix : q * F + (T + lam * ‖xs‖) = F := by rw [hF, hd]; field_simp; ring
  rw [← hT, ← hF, ← hq]
  induction N with
  | zero =>
    obtain ⟨ωs, hi⟩ := init_spec (dgd G W η) n hN.wf x0 s0
    refine ⟨_, after_zero _ _ _ _ _, fun i hin => ?_⟩
    rw [hi i hin, pow_zero, one_mul]
    exact (hB i hin).trans (by linarith)
  | succ N ih =>
    obtain ⟨s1, e1, b1⟩ := ih
    obtain ⟨s2, act, h1, ha, hr⟩ := dgd_round hN hη room (N : Int) s1 b1
    have e2 : (dgd G W η).after w n x0 s0 (N + 1) = .ok s2 := by rw [after_succ, e1]; exact h1
    refine ⟨s2, e2, fun i hi => ?_⟩
    obtain ⟨r1, _, r3⟩ := hr i hi
    have h3 := mem_closedBall_iff_norm.1 (r3 (ha.always i hi (hact i hi N)))
    rw [← hq, ← hT] at h3
    have h4 := hlost N s2 e2 i hi
    have hb0 : 0 ≤ q ^ N * B + F := by positivity
    have h5 : lostWeight n W s2 i * ‖xs‖ ≤ lam * ‖xs‖ := mul_le_mul_of_nonneg_right h4 (norm_nonneg _)
    have h6 := mul_nonneg r1 hb0
    have : q ^ (N + 1) * B + F = q * (q ^ N * B + F) + (T + lam * ‖xs‖) := by
      rw [pow_succ]; linear_combination -hFfix
    rw [this]
    linarith

/-- when all agents are active and nothing is dropped no weight is lost -/
theorem C125_no_loss (hN : Rough w n W f g L m G e h κ ε xs) (hact : ∀ i ∈ n.nodes, ∀ it ω, (w.isActive i it ω).1 = true)
    (hdrop : ∀ i ∈ n.nodes, ∀ ω, (w.shouldDrop i ω).1 = false) (x0 : A → Vec d) (s0 : Sys A (Vec d) Ω (Dgd (Vec d)))
    (k : Nat) (s : Sys A (Vec d) Ω (Dgd (Vec d))) (hs : (dgd G W η).after w n x0 s0 (k + 1) = .ok s) :
    ∀ i ∈ n.nodes, lostWeight n W s i = 0 := by
  classical
  intro i hi
  rw [after_succ] at hs
  cases e1 : (dgd G W η).after w n x0 s0 k with
  | error x => rw [e1] at hs; cases hs
  | ok s1 =>
    rw [e1] at hs
    obtain ⟨s', act, R, M, ωs, h1, ha, hh, _⟩ := dgd_step_any hN.query hN.wf G W η (k : Int) s1
    have e2 : (dgd G W η).step w n (k : Int) (adv n k s1) = .ok s := hs
    rw [h1] at e2
    cases e2
    unfold lostWeight
    have : (n.nbrs i).filter (fun j => decide (Silent s i j)) = [] := by
      rw [List.filter_eq_nil_iff]
      intro j hj
      have hjn := hN.wf.nbrs_mem i j hj
      simp only [decide_eq_true_eq, silent_iff, ← hh.keys, not_not]
      exact hh.complete i hi j hj (ha.always j hjn (hact j hjn k)) (ha.always i hi (hact i hi k)) (hdrop j hjn)
    rw [this]; simp

theorem C125_atc_no_loss (hN : Rough w n W f g L m G e h κ ε xs) (hact : ∀ i ∈ n.nodes, ∀ it ω, (w.isActive i it ω).1 = true)
    (hdrop : ∀ i ∈ n.nodes, ∀ ω, (w.shouldDrop i ω).1 = false) (x0 : A → Vec d) (s0 : Sys A (Vec d) Ω (Atc (Vec d)))
    (k : Nat) (s : Sys A (Vec d) Ω (Atc (Vec d))) (hs : (atc G W η).after w n x0 s0 (k + 1) = .ok s) :
    ∀ i ∈ n.nodes, lostWeight n W s i = 0 := by
  classical
  intro i hi
  rw [after_succ] at hs
  cases e1 : (atc G W η).after w n x0 s0 k with
  | error x => rw [e1] at hs; cases hs
  | ok s1 =>
    rw [e1] at hs
    obtain ⟨s', act, R, M, ωs, h1, ha, hh, _⟩ := atc_step_any hN.query hN.wf G W η (k : Int) s1
    have e2 : (atc G W η).step w n (k : Int) (adv n k s1) = .ok s := hs
    rw [h1] at e2
    cases e2
    unfold lostWeight
    have : (n.nbrs i).filter (fun j => decide (Silent s i j)) = [] := by
      rw [List.filter_eq_nil_iff]
      intro j hj
      have hjn := hN.wf.nbrs_mem i j hj
      simp only [decide_eq_true_eq, silent_iff, ← hh.keys, not_not]
      exact hh.complete i hi j hj (ha.always j hjn (hact j hjn k)) (ha.always i hi (hact i hi k)) (hdrop j hjn)
    rw [this]; simp

/-- the weight of one neighbour is not the agent's own -/
theorem C125_neighbour_weight (hW : GoodWeights n W) (hw : n.WF) (hl : Loopless n) {i j : A} (hi : i ∈ n.nodes) (hj : j ∈ n.nbrs i) :
    W i i ≤ 1 - W i j := by
  have hrow : W i i + ((n.nbrs i).map (fun j => W i j)).sum = 1 := by
    have e := sum_split n hw hl i hi W hW.supported (fun _ => (1 : ℝ))
    unfold applyW at e
    simp only [smul_eq_mul, mul_one] at e
    rw [← e]; exact hW.row i hi
  have h1 : W i j ≤ ((n.nbrs i).map (fun j => W i j)).sum := by
    apply List.single_le_sum _ _ (List.mem_map.2 ⟨j, hj, rfl⟩)
    intro x hx
    obtain ⟨j', hj', rfl⟩ := List.mem_map.1 hx
    exact hW.nonneg i hi j' (hw.nbrs_mem i j' hj')
  linarith

/-- default weights leave every agent at least `1 / (1 + degree)` for itself -/
theorem C125_own_weight (hw : n.WF) (hl : Loopless n) {i : A} (hi : i ∈ n.nodes) :
    1 / (1 + ((n.nbrs i).length : ℝ)) ≤ weights n i i := by
  have hrow : weights n i i + ((n.nbrs i).map (fun j => weights n i j)).sum = 1 := by
    have e := sum_split n hw hl i hi (weights n) (metropolis_good n hw hl).supported (fun _ => (1 : ℝ))
    unfold applyW at e
    simp only [smul_eq_mul, mul_one] at e
    rw [← e]; exact (metropolis_good n hw hl).row i hi
  have hle : ∀ l : List A, (∀ j ∈ l, j ∈ n.nbrs i) → (l.map (fun j => weights n i j)).sum ≤ l.length * (1 / (1 + ((n.nbrs i).length : ℝ))) := by
    intro l
    induction l with
    | nil => intro _; simp
    | cons j t ih =>
      intro h
      have i1 := ih (fun j hj => h j (by simp [hj]))
      have hj := h j (by simp)
      have hij : i ≠ j := fun e => hl i (e ▸ hj)
      have i2 : weights n i j ≤ 1 / (1 + ((n.nbrs i).length : ℝ)) := by
        rw [((C12_support n hw i j hi hij).2 hj).1]
        apply one_div_le_one_div_of_le (by positivity)
        have : ((n.nbrs i).length : ℝ) ≤ max (degree n i : ℝ) (degree n j : ℝ) := by
          refine le_trans (le_of_eq ?_) (le_max_left _ _)
          unfold degree
          simp [hl i]
        linarith
      simp only [List.map_cons, List.sum_cons, List.length_cons]
      push_cast
      linarith
  have h1 := hle (n.nbrs i) (fun _ h => h)
  have h2 : 1 / (1 + ((n.nbrs i).length : ℝ)) = 1 - ((n.nbrs i).length : ℝ) * (1 / (1 + ((n.nbrs i).length : ℝ))) := by
    have : (1 + ((n.nbrs i).length : ℝ)) ≠ 0 := by positivity
    field_simp
    ring
  linarith

/-- DGD with all messages lost: each agent converges to the point where its gradient balances a pull to the origin, not to its own
minimiser: the weights of lost messages are not given to the agent itself. -/
theorem C125_dgd_isolated (hq : n.queryAgents = n.nodes) (hw : n.WF) (hsm : Smooth n f g L m) (hmL : m ≤ L) (hη : 0 < η)
    (room : ∀ i ∈ n.nodes, η * (L + m) ≤ 2 * W i i)
    (hG : ∀ i x ω, (G i x ω).1 = g i x) (hact : ∀ i ∈ n.nodes, ∀ it ω, (w.isActive i it ω).1 = true)
    (hdrop : ∀ i ω, (w.shouldDrop i ω).1 = true) (z : A → Vec d) (hz : ∀ i ∈ n.nodes, (1 - W i i) • z i + η • g i (z i) = 0)
    (x0 : A → Vec d) (s0 : Sys A (Vec d) Ω (Dgd (Vec d))) (N : Nat) :
    ∃ s, (dgd G W η).after w n x0 s0 N = .ok s ∧ ∀ i ∈ n.nodes, ‖(s.loc i).x - z i‖ ≤ (W i i - η * m) ^ N * ‖x0 i - z i‖ := by
  refine after_induction (dgd G W η) w n x0 s0 (fun N s => ∀ i ∈ n.nodes, ‖(s.loc i).x - z i‖ ≤ (W i i - η * m) ^ N * ‖x0 i - z i‖) ?_ ?_ N
  · obtain ⟨ωs, hi⟩ := init_spec (dgd G W η) n hw x0 s0
    intro i hin
    rw [hi i hin, pow_zero, one_mul]
    exact le_rfl
  · intro k s hs
    obtain ⟨s', act, R, M, ωs, h1, ha, hh, hx⟩ := dgd_step_any hq hw G W η (k : Int) s
    refine ⟨s', h1, fun i hi => ?_⟩
    have hR : R i = [] := by
      rw [List.eq_nil_iff_forall_not_mem]
      intro j hj
      obtain ⟨_, _, _, ω, hω⟩ := hh.sender i hi j hj
      rw [hdrop] at hω; cases hω
    rw [hx i hi, if_pos (ha.always i hi (hact i hi k)), hR, hG]
    have hc := partial_gd_contract (hsm.upper i hi) (hsm.lower i hi) hsm.mpos hmL hη (room i hi) (s.loc i).x (z i)
    have e1 : W i i • (s.loc i).x + ((([] : List A)).map (fun j => W i j • M i j)).sum - η • g i (s.loc i).x - z i =
        W i i • ((s.loc i).x - z i) - η • (g i (s.loc i).x - g i (z i)) := by
      have e2 : W i i • (s.loc i).x + ((([] : List A)).map (fun j => W i j • M i j)).sum - η • g i (s.loc i).x - z i =
        W i i • ((s.loc i).x - z i) - η • (g i (s.loc i).x - g i (z i)) - ((1 - W i i) • z i + η • g i (z i)) := by
        simp only [List.map_nil, List.sum_nil]
        module
      rw [e2, hz i hi, sub_zero]
    have hWm : 0 ≤ W i i - η * m := by
      have : η * m ≤ η * L := mul_le_mul_of_nonneg_left hmL hη.le
      have := room i hi
      nlinarith
    rw [e1, pow_succ]
    refine hc.trans (le_trans (mul_le_mul_of_nonneg_left (hs i hi) hWm) (le_of_eq ?_))
    ring

/-! ### ATC -/

/-- One ATC iteration. -/
theorem atc_round (hN : Rough w n W f g L m G e h κ ε xs) (hη : 0 < η) (hs1 : η * (L + m) ≤ 2)
    (k : Int) (s : Sys A (Vec d) Ω (Atc (Vec d))) {B : ℝ} (hB : ∀ i ∈ n.nodes, ‖(s.loc i).x - xs‖ ≤ B) :
    ∃ (s' : Sys A (Vec d) Ω (Atc (Vec d))) (act : List A), (atc G W η).step w n k (adv n k s) = .ok s' ∧ ActiveIn w n k act ∧
      ∀ i ∈ n.nodes, 0 ≤ lostWeight n W s' i ∧ 0 ≤ 1 - W i i - lostWeight n W s' i ∧ (i ∉ act → (s'.loc i).x = (s.loc i).x) ∧
        (i ∈ act → (s'.loc i).x ∈ Metric.closedBall xs (W i i * B + (1 - W i i - lostWeight n W s' i) *
          ((1 + κ) * ((1 - η * m) * B + η * (e + h)) + (κ * ‖xs‖ + ε)) + lostWeight n W s' i * ‖xs‖)) := by
  obtain ⟨s', act, R, M, ωs, h1, ha, hh, hx⟩ := atc_step_any hN.query hN.wf G W η k s
  refine ⟨s', act, h1, ha, fun i hi => ?_⟩
  obtain ⟨p1, p2, p3⟩ := weight_parts hN.weights hN.wf hN.loopless hh hi
  refine ⟨p3, by linarith, fun hn => by rw [hx i hi, if_neg hn], fun hia => ?_⟩
  rw [mem_closedBall_iff_norm, hx i hi, if_pos hia]
  have hm := hN.smooth.mpos
  have hη0 := hη.le
  have hηm : 0 ≤ 1 - η * m := by
    have : η * m ≤ η * L := mul_le_mul_of_nonneg_left hN.mL hη0
    nlinarith
  have hq := mixed_close hN hh hi (b := (1 - η * m) * B + η * (e + h)) (fun j hj => by
    obtain ⟨j1, j2, _⟩ := hh.sender i hi j hj
    have hjn := hN.wf.nbrs_mem i j j1
    simp only [if_pos j2]
    have hc := partial_gd_contract (hN.smooth.upper j hjn) (hN.smooth.lower j hjn) hm hN.mL hη (a := 1) (by linarith) (s.loc j).x xs
    have ho := hN.oracle j hjn (s.loc j).x (ωs j)
    have hg := hN.hetero j hjn
    have hBj := mul_le_mul_of_nonneg_left (hB j hjn) hηm
    generalize (s.loc j).x = x at hc ho hBj ⊢
    generalize (G j x (ωs j)).1 = γ at ho ⊢
    have e1 : x - η • γ - xs = ((1 : ℝ) • (x - xs) - η • (g j x - g j xs)) + ((-η) • (γ - g j x) + (-η) • g j xs) := by module
    have b1 : ‖(-η) • (γ - g j x)‖ ≤ η * e := by
      rw [norm_smul, norm_neg, Real.norm_of_nonneg hη0]; exact mul_le_mul_of_nonneg_left ho hη0
    have b2 : ‖(-η) • g j xs‖ ≤ η * h := by
      rw [norm_smul, norm_neg, Real.norm_of_nonneg hη0]; exact mul_le_mul_of_nonneg_left hg hη0
    have t1 := norm_add_le ((1 : ℝ) • (x - xs) - η • (g j x - g j xs)) ((-η) • (γ - g j x) + (-η) • g j xs)
    have t2 := norm_add_le ((-η) • (γ - g j x)) ((-η) • g j xs)
    rw [e1]
    linarith)
  generalize ((R i).map (fun j => W i j • M i j)).sum = V at hq ⊢
  have hr : ((R i).map (fun j => W i j)).sum = 1 - W i i - lostWeight n W s' i := by linarith
  rw [hr] at hq
  generalize lostWeight n W s' i = ℓ at hq p3 ⊢
  have hBi := hB i hi
  generalize (s.loc i).x = x at hBi ⊢
  have hWi : 0 ≤ W i i := hN.weights.nonneg i hi i hi
  have e1 : W i i • x + V - xs = W i i • (x - xs) + (V - (1 - W i i - ℓ) • xs) + (-ℓ) • xs := by module
  have b1 : ‖W i i • (x - xs)‖ ≤ W i i * B := by
    rw [norm_smul, Real.norm_of_nonneg hWi]; exact mul_le_mul_of_nonneg_left hBi hWi
  have b3 : ‖(-ℓ) • xs‖ = ℓ * ‖xs‖ := by rw [norm_smul, norm_neg, Real.norm_of_nonneg p3]
  have t1 := norm_add_le (W i i • (x - xs) + (V - (1 - W i i - ℓ) • xs)) ((-ℓ) • xs)
  have t2 := norm_add_le (W i i • (x - xs)) (V - (1 - W i i - ℓ) • xs)
  rw [e1]
  linarith

/-- SPEC: ATC's contraction: a gradient step, then compression -/
noncomputable def atcRate (η m κ : ℝ) : ℝ := (1 + κ) * (1 - η * m)

/-- ATC stays bounded whatever is lost, whoever is inactive. -/
theorem C125_atc_bounded (hN : Rough w n W f g L m G e h κ ε xs) (hη : 0 < η) (hs1 : η * (L + m) ≤ 2)
    (hκ : atcRate η m κ < 1) (x0 : A → Vec d) (s0 : Sys A (Vec d) Ω (Atc (Vec d))) {B : ℝ} (hB : ∀ i ∈ n.nodes, ‖x0 i - xs‖ ≤ B)
    (hBx : ‖xs‖ ≤ B) (hBf : (κ * ‖xs‖ + ε + (1 + κ) * (η * (e + h))) / (1 - atcRate η m κ) ≤ B) (N : Nat) :
    ∃ s, (atc G W η).after w n x0 s0 N = .ok s ∧ ∀ i ∈ n.nodes, ‖(s.loc i).x - xs‖ ≤ B := by
  refine after_induction (atc G W η) w n x0 s0 (fun _ s => ∀ i ∈ n.nodes, ‖(s.loc i).x - xs‖ ≤ B) ?_ ?_ N
  · obtain ⟨ωs, hi⟩ := init_spec (atc G W η) n hN.wf x0 s0
    intro i hin
    rw [hi i hin]
    exact hB i hin
  · intro k s hs
    obtain ⟨s', act, h1, ha, hr⟩ := atc_round hN hη hs1 (k : Int) s hs
    refine ⟨s', h1, fun i hi => ?_⟩
    obtain ⟨r1, r2, r3, r4⟩ := hr i hi
    by_cases hia : i ∈ act
    · have h5 := mem_closedBall_iff_norm.1 (r4 hia)
      have h3 := (div_le_iff₀ (by linarith)).1 hBf
      have h4 : (1 + κ) * ((1 - η * m) * B + η * (e + h)) + (κ * ‖xs‖ + ε) ≤ B := by
        unfold atcRate at h3
        linarith
      have h6 := mul_le_mul_of_nonneg_left h4 r2
      have h7 := mul_le_mul_of_nonneg_left hBx r1
      refine h5.trans (le_trans (add_le_add (add_le_add le_rfl h6) h7) (le_of_eq ?_))
      ring
    · rw [r3 hia]; exact hs i hi

/-- With all agents active, own weights at most `1 - δ` and lost weights at most `lam`, ATC converges geometrically to a
neighbourhood of `xs`. -/
theorem C125_atc_rate (hN : Rough w n W f g L m G e h κ ε xs) (hη : 0 < η) (hs1 : η * (L + m) ≤ 2)
    (hκ : atcRate η m κ < 1) {δ : ℝ} (hδ : 0 < δ) (hδ1 : δ ≤ 1) (hW : ∀ i ∈ n.nodes, W i i ≤ 1 - δ)
    (hact : ∀ i ∈ n.nodes, ∀ it ω, (w.isActive i it ω).1 = true) {lam : ℝ} (hlam : 0 ≤ lam)
    (x0 : A → Vec d) (s0 : Sys A (Vec d) Ω (Atc (Vec d)))
    (hlost : ∀ k s, (atc G W η).after w n x0 s0 (k + 1) = .ok s → ∀ i ∈ n.nodes, lostWeight n W s i ≤ lam)
    {B : ℝ} (hB : ∀ i ∈ n.nodes, ‖x0 i - xs‖ ≤ B) (hB0 : 0 ≤ B) (N : Nat) :
    ∃ s, (atc G W η).after w n x0 s0 N = .ok s ∧ ∀ i ∈ n.nodes, ‖(s.loc i).x - xs‖ ≤
      (1 - δ * (1 - atcRate η m κ)) ^ N * B +
        (κ * ‖xs‖ + ε + (1 + κ) * (η * (e + h)) + lam * ‖xs‖) / (δ * (1 - atcRate η m κ)) := by
  have hηm : 0 ≤ 1 - η * m := by
    have : η * m ≤ η * L := mul_le_mul_of_nonneg_left hN.mL hη.le
    nlinarith
  obtain ⟨c, hc⟩ : ∃ c, c = atcRate η m κ := ⟨_, rfl⟩
  have hc0 : 0 ≤ c := by rw [hc, atcRate]; have := hN.kap; positivity
  rw [← hc] at hκ
  obtain ⟨T, hT⟩ : ∃ T, T = κ * ‖xs‖ + ε + (1 + κ) * (η * (e + h)) := ⟨_, rfl⟩
  have hT0 : 0 ≤ T := by rw [hT]; have := hN.kap; have := hN.eps; have := hN.err; have := hN.het; positivity
  obtain ⟨q, hq⟩ : ∃ q, q = 1 - δ * (1 - c) := ⟨_, rfl⟩
  have hp : 0 < δ * (1 - c) := mul_pos hδ (by linarith)
  have hq0 : 0 ≤ q := by
    have : δ * (1 - c) ≤ 1 * 1 := mul_le_mul hδ1 (by linarith) (by linarith) (by norm_num)
    linarith
  obtain ⟨F, hF⟩ : ∃ F, F = (T + lam * ‖xs‖) / (δ * (1 - c)) := ⟨_, rfl⟩
  have hF0 : 0 ≤ F := by rw [hF]; positivity
  have hFfix : q * F + (T + lam * ‖xs‖) = F := by
    have : δ * (1 - c) * F = T + lam * ‖xs‖ := by rw [hF]; exact mul_div_cancel₀ _ hp.ne'
    rw [hq]; linarith
  rw [← hc, ← hT, ← hF, ← hq]
  induction N with
  | zero =>
    obtain ⟨ωs, hi⟩ := init_spec (atc G W η) n hN.wf x0 s0
    refine ⟨_, after_zero _ _ _ _ _, fun i hin => ?_⟩
    rw [hi i hin, pow_zero, one_mul]
    exact (hB i hin).trans (by linarith)
  | succ N ih =>
    obtain ⟨s1, e1, b1⟩ := ih
    obtain ⟨s2, act, h1, ha, hr⟩ := atc_round hN hη hs1 (N : Int) s1 b1
    have e2 : (atc G W η).after w n x0 s0 (N + 1) = .ok s2 := by rw [after_succ, e1]; exact h1
    refine ⟨s2, e2, fun i hi => ?_⟩
    obtain ⟨r1, r2, _, r4⟩ := hr i hi
    have h3 := mem_closedBall_iff_norm.1 (r4 (ha.always i hi (hact i hi N)))
    have h4 := hlost N s2 e2 i hi
    have hWi : 0 ≤ W i i := hN.weights.nonneg i hi i hi
    have hWδ := hW i hi
    have e3 : q ^ (N + 1) * B + F = q * (q ^ N * B + F) + (T + lam * ‖xs‖) := by
      rw [pow_succ]; linear_combination -hFfix
    rw [e3]
    have hb0 : 0 ≤ q ^ N * B + F := by positivity
    generalize q ^ N * B + F = b at h3 hb0 ⊢
    generalize lostWeight n W s2 i = ℓ at h3 h4 r1 r2
    have e4 : (1 + κ) * ((1 - η * m) * b + η * (e + h)) + (κ * ‖xs‖ + ε) = c * b + T := by
      rw [hc, atcRate, hT]; ring
    rw [e4] at h3
    have h5 : ℓ * ‖xs‖ ≤ lam * ‖xs‖ := mul_le_mul_of_nonneg_right h4 (norm_nonneg _)
    have h6 : (1 - W i i - ℓ) * T ≤ 1 * T := mul_le_mul_of_nonneg_right (by linarith) hT0
    have h7 : 0 ≤ (1 - δ - W i i) * ((1 - c) * b) := mul_nonneg (by linarith) (mul_nonneg (by linarith) hb0)
    have h8 : 0 ≤ ℓ * (c * b) := mul_nonneg r1 (mul_nonneg hc0 hb0)
    have e5 : q * b = W i i * b + (1 - W i i) * (c * b) + (1 - δ - W i i) * ((1 - c) * b) := by rw [hq]; ring
    rw [e5]
    linarith

end

/-! ### concrete cases -/

/-- messages rounded to multiples of `step`; agent 0's are lost; agent 2 is active in even iterations only -/
noncomputable def roughWorld (d : Nat) (step : ℝ) : World Nat (Vec d) Unit :=
  { calmWorld d with
    isActive := fun a it _ => (decide (a ≠ 2 ∨ it % 2 = 0), ())
    shouldDrop := fun a _ => (decide (a = 0), ())
    compress := fun _ v _ => (WithLp.toLp 2 (Compression.quantize step v.ofLp), ()) }

/-- messages rounded, nothing lost, everybody active -/
noncomputable def roundedWorld (d : Nat) (step : ℝ) : World Nat (Vec d) Unit :=
  { calmWorld d with compress := fun _ v _ => (WithLp.toLp 2 (Compression.quantize step v.ofLp), ()) }

/-- all messages lost -/
noncomputable def muteWorld (d : Nat) : World Nat (Vec d) Unit := { calmWorld d with shouldDrop := fun _ _ => (true, ()) }

theorem path3_own {i : Nat} (hi : i ∈ path3.nodes) : (1 / 3 : ℝ) ≤ weights path3 i i := by
  refine le_trans ?_ (C125_own_weight path3_wf path3_loopless hi)
  have : i = 0 ∨ i = 1 ∨ i = 2 := by simpa [path3] using hi
  rcases this with rfl | rfl | rfl <;> norm_num [path3]

theorem path3_room {η : ℝ} (hη : η ≤ 1 / 3) : ∀ i ∈ path3.nodes, η * (1 + 1) ≤ 2 * weights path3 i i := by
  intro i hi
  have := path3_own hi
  linarith

theorem path3_shares : ∀ i ∈ path3.nodes, weights path3 i i ≤ 1 - 1 / 3 := by
  intro i hi
  have hg := metropolis_good path3 path3_wf path3_loopless
  have : i = 0 ∨ i = 1 ∨ i = 2 := by simpa [path3] using hi
  have hs : ∀ j, j ∈ path3.nbrs i → i ≠ j → max (degree path3 i : ℝ) (degree path3 j : ℝ) = 2 → weights path3 i i ≤ 1 - 1 / 3 := by
    intro j hj hij hd
    have h1 := C125_neighbour_weight hg path3_wf path3_loopless hi hj
    rw [((C12_support path3 path3_wf i j hi hij).2 hj).1, hd] at h1
    linarith
  rcases this with rfl | rfl | rfl
  · exact hs 1 (by decide) (by decide) (by norm_num [degree, path3])
  · exact hs 0 (by decide) (by decide) (by norm_num [degree, path3])
  · exact hs 1 (by decide) (by decide) (by norm_num [degree, path3])

theorem springs_rough {d : Nat} (w : World Nat (Vec d) Unit) (step : ℝ) (hs : 0 < step) (b : Nat → Vec d) (xs : Vec d) (h : ℝ)
    (hc : ∀ a v ω, (w.compress a v ω).1 = WithLp.toLp 2 (Compression.quantize step v.ofLp))
    (hn : ∀ a k v ω, (w.makeNoise a k v ω).1 = none) (hh : ∀ i ∈ path3.nodes, ‖xs - b i‖ ≤ h) (h0 : 0 ≤ h) :
    Rough w path3 (weights path3) (springs b) (fun i x => x - b i) 1 1 (springGrad b) 0 h 0 (Real.sqrt d * (step / 2)) xs where
  query := rfl
  wf := path3_wf
  loopless := path3_loopless
  weights := metropolis_good path3 path3_wf path3_loopless
  smooth := springs_smooth b
  mL := le_rfl
  oracle i hi x ω := by simp [springGrad]
  hetero := hh
  msg i hi := C124_quantization (step := step) (step' := step) (by simp [Compression.quantCtor, hs.not_ge, hs]) (hc i) (hn i)
  kap := le_rfl
  eps := by positivity
  err := le_rfl
  het := h0

/-- three agents with quantized, partly lost messages and a sleepy agent: DGD with step 1/4 never leaves the ball -/
example {d : Nat} (b : Nat → Vec d) (xs : Vec d) (h : ℝ) (hh : ∀ i ∈ path3.nodes, ‖xs - b i‖ ≤ h) (h0 : 0 ≤ h) (x0 : Nat → Vec d) (s0) {B : ℝ} :=
  C125_dgd_bounded (η := 1 / 4) (B := B) (springs_rough (roughWorld d (1 / 10)) (1 / 10) (by norm_num) b xs h (fun _ _ _ => rfl) (fun _ _ _ _ => rfl) hh h0)
    (by norm_num) (path3_room (by norm_num)) (by norm_num) x0 s0

/-- the same for ATC with step 1/2 -/
example {d : Nat} (b : Nat → Vec d) (xs : Vec d) (h : ℝ) (hh : ∀ i ∈ path3.nodes, ‖xs - b i‖ ≤ h) (h0 : 0 ≤ h) (x0 : Nat → Vec d) (s0) {B : ℝ} :=
  C125_atc_bounded (η := 1 / 2) (B := B) (springs_rough (roughWorld d (1 / 10)) (1 / 10) (by norm_num) b xs h (fun _ _ _ => rfl) (fun _ _ _ _ => rfl) hh h0)
    (by norm_num) (by norm_num) (by norm_num [atcRate]) x0 s0

/-- quantized DGD with a common minimiser `c`: geometric convergence with factor 3/4 to a ball of radius `4 √d / 20` around it -/
example {d : Nat} (c : Vec d) (x0 : Nat → Vec d) (s0) {B : ℝ} (hB : ∀ i ∈ path3.nodes, ‖x0 i - c‖ ≤ B) (hB0 : 0 ≤ B) (N : Nat) :=
  have hN := springs_rough (roundedWorld d (1 / 10)) (1 / 10) (by norm_num) (fun _ => c) c 0 (fun _ _ _ => rfl) (fun _ _ _ _ => rfl) (fun _ _ => by simp) le_rfl
  C125_dgd_rate (η := 1 / 4) (lam := 0) (B := B) hN (by norm_num) (path3_room (by norm_num)) (by norm_num) (fun _ _ _ _ => rfl) le_rfl x0 s0
    (fun k s hs i hi => (C125_no_loss hN (fun _ _ _ _ => rfl) (fun _ _ _ => rfl) x0 s0 k s hs i hi).le) hB hB0 (by norm_num) N

example {d : Nat} (c : Vec d) (x0 : Nat → Vec d) (s0) {B : ℝ} (hB : ∀ i ∈ path3.nodes, ‖x0 i - c‖ ≤ B) (hB0 : 0 ≤ B) (N : Nat) :=
  have hN := springs_rough (roundedWorld d (1 / 10)) (1 / 10) (by norm_num) (fun _ => c) c 0 (fun _ _ _ => rfl) (fun _ _ _ _ => rfl) (fun _ _ => by simp) le_rfl
  C125_atc_rate (η := 1 / 2) (lam := 0) (δ := 1 / 3) (B := B) hN (by norm_num) (by norm_num) (by norm_num [atcRate]) (by norm_num) (by norm_num) path3_shares
    (fun _ _ _ _ => rfl) le_rfl x0 s0
    (fun k s hs i hi => (C125_atc_no_loss hN (fun _ _ _ _ => rfl) (fun _ _ _ => rfl) x0 s0 k s hs i hi).le) hB hB0 N

/-- everything lost: agent `i` ends at a point between its own `b i` and the origin -/
example {d : Nat} (b : Nat → Vec d) (x0 : Nat → Vec d) (s0) (N : Nat) :=
  C125_dgd_isolated (w := muteWorld d) (n := path3) (W := weights path3) (η := 1 / 4) (G := springGrad b) rfl path3_wf (springs_smooth b) le_rfl (by norm_num)
    (path3_room (by norm_num)) (fun _ _ _ => rfl) (fun _ _ _ _ => rfl) (fun _ _ => rfl)
    (fun i => ((1 / 4) / (1 - weights path3 i i + 1 / 4)) • b i) (fun i hi => by
      have h1 := path3_shares i hi
      have h2 : (1 - weights path3 i i + 1 / 4) ≠ 0 := by linarith
      have e : (1 - weights path3 i i) * ((1 / 4) / (1 - weights path3 i i + 1 / 4)) + 1 / 4 * ((1 / 4) / (1 - weights path3 i i + 1 / 4) - 1) = 0 := by
        generalize hy : 1 - weights path3 i i + 1 / 4 = y at h2 ⊢
        have : 1 - weights path3 i i = y - 1 / 4 := by linarith
        rw [this]; field_simp; ring
      have : (1 - weights path3 i i) • ((1 / 4) / (1 - weights path3 i i + 1 / 4)) • b i +
          (1 / 4 : ℝ) • (((1 / 4) / (1 - weights path3 i i + 1 / 4)) • b i - b i) =
        ((1 - weights path3 i i) * ((1 / 4) / (1 - weights path3 i i + 1 / 4)) + 1 / 4 * ((1 / 4) / (1 - weights path3 i i + 1 / 4) - 1)) • b i := by
        module
      rw [this, e, zero_smul]) x0 s0 N

end Verif.Props
