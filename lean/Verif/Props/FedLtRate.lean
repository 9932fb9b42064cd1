import Verif.Props.FedRest
import Verif.Props.FedSample
import Verif.Lemmas.FedLtRate
import Verif.Lemmas.RandomArcs
import Mathlib.Analysis.Convex.Function
import Mathlib.Analysis.SpecificLimits.Basic
set_option linter.unusedSectionVars false
/-!
# C122: Fed-LT converges linearly, to the minimiser, also when clients are sampled
-/
namespace Verif.Props
open Verif Verif.Fed NetState Verif.Costs Verif.Consensus Verif.Selection
open scoped InnerProductSpace

section round
variable {A Ω E : Type} [DecidableEq A] [AddCommGroup E] [Module ℝ E]
variable {n : Net A} {server : A} {clients : List A}

/-- models and auxiliary variables of the clients -/
structure LtPoint (A E : Type) where
  x : A → E
  z : A → E

/-- SPEC: the documented server model `prox_{ρ h / N}` of the mean of the `z_i` -/
noncomputable def ltCentre (clients : List A) (prox : E → ℝ → E) (ρ : ℝ) (P : LtPoint A E) : E :=
  prox ((1 / (clients.length : ℝ)) • (clients.map P.z).sum) (ρ / clients.length)

/-- SPEC: one documented round in which exactly the clients `R` take part -/
noncomputable def fedLtDoc (clients : List A) (solve : A → E → E → E) (prox : E → ℝ → E) (ρ : ℝ) (R : List A) (P : LtPoint A E) : LtPoint A E :=
  let y := ltCentre clients prox ρ P
  let new c := solve c (P.x c) ((2 : ℝ) • y - P.z c)
  ⟨fun c => if c ∈ R then new c else P.x c, fun c => if c ∈ R then P.z c + (2 : ℝ) • (new c - y) else P.z c⟩

/-- SPEC: the variables of the clients, and the server's copies of their `z`, are those of `P` -/
def LtAt (clients : List A) (P : LtPoint A E) (s : FSys A E Ω (LtCli E) (LtSrv A E)) : Prop :=
  ∀ c ∈ clients, (s.cli c).x = P.x c ∧ (s.cli c).z = P.z c ∧ s.srv.zBy c = P.z c

theorem ltCentre_congr {prox : E → ℝ → E} {ρ : ℝ} {P P' : LtPoint A E} (h : ∀ c ∈ clients, P.z c = P'.z c) : ltCentre clients prox ρ P = ltCentre clients prox ρ P' := by
  unfold ltCentre
  rw [List.map_congr_left h]

/-- C122: one Fed-LT iteration, when nothing is lost or distorted, is the documented round of the selected clients (whoever they are, possibly nobody). -/
theorem C122_round (solve : A → E → E → E) (prox : E → ℝ → E) (ρ : ℝ) (z0 : A → E) (w : World A E Ω) (hf : IsFed n server clients) (hup : ServerUp w server)
    (hex : ∀ a ∈ server :: clients, Fed.Exact w a) (hl : ∀ a ∈ server :: clients, Fed.Lossless w a) (sel : Select A Ω) (hsel : SelOK sel) (k : Int)
    (s : FSys A E Ω (LtCli E) (LtSrv A E)) (P : LtPoint A E) (hP : LtAt clients P s) :
    ∃ s', iter (fedLT (fun c x v ω => (solve c x v, ω)) (fun v r ω => (prox v r, ω)) ρ clients z0) sel server w n k s = .ok s' ∧
      s'.srv.x = ltCentre clients prox ρ P ∧
      ∀ R : List A, (∀ c ∈ R, c ∈ clients) → SelectedWere clients R s s' → LtAt clients (fedLtDoc clients solve prox ρ R P) s' := by
  obtain ⟨s', selected, T, bc, ωs, h1, hr, hx, hz⟩ := lt_round (fun c x v ω => (solve c x v, ω)) (fun v r ω => (prox v r, ω)) ρ z0 w hf hup sel hsel k s
  have hx' : s'.srv.x = ltCentre clients prox ρ P := by
    rw [hx]
    unfold ltCentre
    rw [List.map_congr_left (fun c hc => (hP c hc).2.2)]
  refine ⟨s', h1, hx', fun R hsub hch c hc => ?_⟩
  have hTR : c ∈ T ↔ c ∈ R := by
    have e1 := hr.count c
    have e2 := hch c hc
    rw [e1] at e2
    dsimp only at e2
    have hs : c ∈ selected ↔ c ∈ R := by
      by_cases ha : c ∈ selected <;> by_cases hb : c ∈ R
      · exact ⟨fun _ => hb, fun _ => ha⟩
      · rw [if_pos ha, if_neg hb] at e2; omega
      · rw [if_neg ha, if_pos hb] at e2; omega
      · exact ⟨fun h => absurd h ha, fun h => absurd h hb⟩
    constructor
    · intro h; exact hs.1 (hr.sub c h)
    · intro h
      by_contra hcT
      obtain ⟨ω, hω⟩ := hr.missed c (hs.2 h) hcT
      rw [hl server (by simp) ω] at hω; cases hω
  obtain ⟨p1, p2, p3⟩ := hP c hc
  have hcli := hr.cli c
  unfold fedLtDoc
  by_cases hcR : c ∈ R
  · have hcT := hTR.2 hcR
    have hbc : bc c = ltCentre clients prox ρ P := by
      rw [← hx', hx]
      exact (hr.heard c hcT).exact (hex server (by simp))
    rw [if_pos hcT] at hcli
    have e1 : (s'.cli c).x = solve c (P.x c) ((2 : ℝ) • ltCentre clients prox ρ P - P.z c) := by
      rw [hcli]; simp only [fedLT, hbc, p1, p2]
    have e2 : (s'.cli c).z = P.z c + (2 : ℝ) • (solve c (P.x c) ((2 : ℝ) • ltCentre clients prox ρ P - P.z c) - ltCentre clients prox ρ P) := by
      rw [hcli]; simp only [fedLT, hbc, p1, p2]
    dsimp only
    rw [if_pos hcR, if_pos hcR]
    refine ⟨e1, e2, ?_⟩
    obtain ⟨v, ha, hv⟩ := (hr.uploads c hcT (.dflt, _) (by simp [fedLT]; rfl)).lossless (hl c (by simp [hc]))
    simp only at hv
    rw [hz, hv, Option.getD_some, ha.exact (hex c (by simp [hc])), ← e2, hcli]
    rfl
  · have hcT : c ∉ T := fun h => hcR (hTR.1 h)
    rw [if_neg hcT] at hcli
    dsimp only
    rw [if_neg hcR, if_neg hcR]
    refine ⟨by rw [hcli]; exact p1, by rw [hcli]; exact p2, ?_⟩
    rw [hz]
    cases h : (s'.net.inbox server).abs .dflt c with
    | none => exact p3
    | some v => exact absurd (hr.only .dflt c (by simp [h])).1 hcT

/-- C122: the whole run follows the documented rounds of the clients drawn. -/
theorem C122_run {Θ : Type} (solve : A → E → E → E) (prox : E → ℝ → E) (ρ : ℝ) (z0 : A → E) (w : World A E Ω) (hf : IsFed n server clients) (hup : ServerUp w server)
    (hex : ∀ a ∈ server :: clients, Fed.Exact w a) (hl : ∀ a ∈ server :: clients, Fed.Lossless w a) (sel : Select A Ω) (hsel : SelOK sel)
    (chosen : Θ → List A) (hsub : ∀ θ, ∀ c ∈ chosen θ, c ∈ clients) (x0 : A → E) (s : FSys A E Ω (LtCli E) (LtSrv A E)) (l : List Θ)
    (hd : Drew clients chosen ((fedLT (fun c x v ω => (solve c x v, ω)) (fun v r ω => (prox v r, ω)) ρ clients z0).after sel server w n x0 s) l) :
    ∃ s', (fedLT (fun c x v ω => (solve c x v, ω)) (fun v r ω => (prox v r, ω)) ρ clients z0).after sel server w n x0 s l.length = .ok s' ∧
      LtAt clients (l.foldl (fun P θ => fedLtDoc clients solve prox ρ (chosen θ) P) ⟨x0, z0⟩) s' ∧
      ∀ (l' : List Θ) (θ : Θ), l = l' ++ [θ] → s'.srv.x = ltCentre clients prox ρ (l'.foldl (fun P θ => fedLtDoc clients solve prox ρ (chosen θ) P) ⟨x0, z0⟩) := by
  have key : ∀ k : Nat, k ≤ l.length → ∃ s', (fedLT (fun c x v ω => (solve c x v, ω)) (fun v r ω => (prox v r, ω)) ρ clients z0).after sel server w n x0 s k = .ok s' ∧
      LtAt clients ((l.take k).foldl (fun P θ => fedLtDoc clients solve prox ρ (chosen θ) P) ⟨x0, z0⟩) s' ∧
      (k ≠ 0 → s'.srv.x = ltCentre clients prox ρ ((l.take (k - 1)).foldl (fun P θ => fedLtDoc clients solve prox ρ (chosen θ) P) ⟨x0, z0⟩)) := by
    intro k
    induction k with
    | zero => intro _; exact ⟨_, Fed.after_zero _ _ _ _ _, fun c _ => ⟨rfl, rfl, rfl⟩, fun h => absurd rfl h⟩
    | succ k ih =>
      intro hk
      obtain ⟨s1, h1, h2, _⟩ := ih (by omega)
      obtain ⟨s2, h3, hsx, h4⟩ := C122_round solve prox ρ z0 w hf hup hex hl sel hsel k s1 _ h2
      have h5 : (fedLT (fun c x v ω => (solve c x v, ω)) (fun v r ω => (prox v r, ω)) ρ clients z0).after sel server w n x0 s (k + 1) = .ok s2 := by
        rw [Fed.after_succ, h1]; exact h3
      refine ⟨s2, h5, ?_, fun _ => hsx⟩
      rw [List.take_succ_eq_append_getElem hk, List.foldl_append]
      exact h4 _ (hsub _) (hd k hk s1 s2 h1 h5)
  obtain ⟨s', h1, h2, h3⟩ := key l.length le_rfl
  rw [List.take_length] at h2
  refine ⟨s', h1, h2, fun l' θ e => ?_⟩
  have := h3 (by rw [e]; simp)
  rw [this]
  congr 2
  rw [e]; simp

end round

section rate
variable {A Ω : Type} [DecidableEq A] {d : Nat}
variable {n : Net A} {server : A} {clients : List A}

/-- a proximal is firmly nonexpansive -/
theorem proxOf_firm {r : Vec d → ℝ} {prox : Vec d → ℝ → Vec d} (h : ProxOf r prox) {t : ℝ} (ht : 0 < t) (v v' : Vec d) :
    ‖prox v t - prox v' t‖ ^ 2 ≤ ⟪prox v t - prox v' t, v - v'⟫_ℝ := by
  have h1 := h v t ht (prox v' t)
  have h2 := h v' t ht (prox v t)
  obtain ⟨p, hp⟩ : ∃ p, p = prox v t := ⟨_, rfl⟩
  obtain ⟨p', hp'⟩ : ∃ p', p' = prox v' t := ⟨_, rfl⟩
  rw [← hp, ← hp'] at h1 h2 ⊢
  rw [inner_smul_left, RCLike.conj_to_real] at h1 h2
  have h3 : 1 / t * (⟪v - p, p' - p⟫_ℝ + ⟪v' - p', p - p'⟫_ℝ) ≤ 0 := by linarith
  have h4 : ⟪v - p, p' - p⟫_ℝ + ⟪v' - p', p - p'⟫_ℝ ≤ 0 := by
    by_contra hc
    push Not at hc
    have := mul_pos (one_div_pos.2 ht) hc
    linarith
  have e1 : ⟪v - p, p' - p⟫_ℝ = -⟪p - p', v - p⟫_ℝ := by rw [real_inner_comm, ← inner_neg_left, neg_sub]
  have e2 : ⟪v' - p', p - p'⟫_ℝ = ⟪p - p', v' - p'⟫_ℝ := real_inner_comm _ _
  have e3 : ⟪p - p', v - v'⟫_ℝ = ⟪p - p', v - p⟫_ℝ - ⟪p - p', v' - p'⟫_ℝ + ‖p - p'‖ ^ 2 := by
    rw [← inner_sub_right, ← real_inner_self_eq_norm_sq, ← inner_add_right]; congr 1; abel
  rw [e1, e2] at h4
  rw [e3]; linarith

/-- at a minimiser of server cost plus client costs, minus the summed gradients is a subgradient of the server cost -/
theorem best_subgradient {f : A → Vec d → ℝ} {g : A → Vec d → Vec d} {L m : ℝ} (hsm : ClientsSmooth clients f g L m) {r : Vec d → ℝ} (hr : ConvexOn ℝ Set.univ r)
    {xs : Vec d} (hb : BestWithServer clients r f xs) (y : Vec d) : r xs ≤ r y + ⟪(clients.map (fun c => g c xs)).sum, y - xs⟫_ℝ := by
  obtain ⟨D, hD⟩ : ∃ D, D = ⟪(clients.map (fun c => g c xs)).sum, y - xs⟫_ℝ := ⟨_, rfl⟩
  obtain ⟨B, hB⟩ : ∃ B, B = (clients.length : ℝ) * (L / 2 * ‖y - xs‖ ^ 2) := ⟨_, rfl⟩
  have hL := hsm.Lpos
  have hB0 : 0 ≤ B := by rw [hB]; positivity
  have up : ∀ t : ℝ, (clients.map (fun i => f i (xs + t • (y - xs)))).sum ≤ (clients.map (fun i => f i xs)).sum + t * D + t ^ 2 * B := by
    intro t
    have key : ∀ l : List A, (∀ c ∈ l, c ∈ clients) → (l.map (fun i => f i (xs + t • (y - xs)))).sum ≤
        (l.map (fun i => f i xs)).sum + t * ⟪(l.map (fun c => g c xs)).sum, y - xs⟫_ℝ + t ^ 2 * ((l.length : ℝ) * (L / 2 * ‖y - xs‖ ^ 2)) := by
      intro l
      induction l with
      | nil => intro _; simp
      | cons a l ih =>
        intro hl
        have h1 := ih fun c hc => hl c (List.mem_cons_of_mem _ hc)
        have h2 := hsm.upper a (hl a (by simp)) xs (xs + t • (y - xs))
        rw [add_sub_cancel_left, inner_smul_right, norm_smul, mul_pow, Real.norm_eq_abs, sq_abs] at h2
        simp only [List.map_cons, List.sum_cons, List.length_cons, inner_add_left]
        push_cast
        nlinarith
    have := key clients fun _ h => h
    rwa [← hD, ← hB] at this
  have cv : ∀ t : ℝ, 0 < t → t ≤ 1 → 0 ≤ t * (r y - r xs + D) + t ^ 2 * B := by
    intro t h0 h1
    have c1 := hr.2 (Set.mem_univ xs) (Set.mem_univ y) (show 0 ≤ 1 - t by linarith) h0.le (by ring)
    have e : (1 - t) • xs + t • y = xs + t • (y - xs) := by module
    rw [e, smul_eq_mul, smul_eq_mul] at c1
    have c2 := hb (xs + t • (y - xs))
    have c3 := up t
    nlinarith
  rw [← hD]
  by_contra hc
  push Not at hc
  obtain ⟨a, ha⟩ : ∃ a, a = -(r y - r xs + D) := ⟨_, rfl⟩
  have ha0 : 0 < a := by rw [ha]; linarith
  obtain ⟨t, ht0, ht1, htB⟩ : ∃ t : ℝ, 0 < t ∧ t ≤ 1 ∧ t * B < a := by
    refine ⟨min 1 (a / (2 * (B + 1))), lt_min one_pos (by positivity), min_le_left _ _, ?_⟩
    have h1 : min 1 (a / (2 * (B + 1))) * B ≤ a / (2 * (B + 1)) * B := mul_le_mul_of_nonneg_right (min_le_right _ _) hB0
    have h2 : a / (2 * (B + 1)) * B = a * (B / (2 * (B + 1))) := by ring
    have h3 : B / (2 * (B + 1)) < 1 := by rw [div_lt_one (by positivity)]; linarith
    have := mul_lt_mul_of_pos_left h3 ha0
    linarith
  have h := cv t ht0 ht1
  have e : t * (r y - r xs + D) + t ^ 2 * B = t * (t * B - a) := by rw [ha]; ring
  rw [e] at h
  have := mul_neg_of_pos_of_neg ht0 (show t * B - a < 0 by linarith)
  linarith

/-- where Fed-LT rests: models at `xs`, `z_i = xs - ρ ∇f_i(xs)` -/
noncomputable def ltRest (g : A → Vec d → Vec d) (ρ : ℝ) (xs : Vec d) : LtPoint A (Vec d) := ⟨fun _ => xs, fun c => xs - ρ • g c xs⟩

theorem ltRest_centre {f : A → Vec d → ℝ} {g : A → Vec d → Vec d} {L m : ℝ} (hsm : ClientsSmooth clients f g L m) {r : Vec d → ℝ} (hr : ConvexOn ℝ Set.univ r)
    {prox : Vec d → ℝ → Vec d} (hprox : ProxOf r prox) {ρ : ℝ} (hρ : 0 < ρ) (hcl : clients ≠ []) {xs : Vec d} (hb : BestWithServer clients r f xs) :
    ltCentre clients prox ρ (ltRest g ρ xs) = xs := by
  have hN : (0 : ℝ) < clients.length := by exact_mod_cast List.length_pos_iff.2 hcl
  obtain ⟨N, hNe⟩ : ∃ N : ℝ, N = clients.length := ⟨_, rfl⟩
  obtain ⟨S, hS⟩ : ∃ S, S = (clients.map (fun c => g c xs)).sum := ⟨_, rfl⟩
  obtain ⟨v, hv⟩ : ∃ v, v = (1 / N) • (clients.map (ltRest g ρ xs).z).sum := ⟨_, rfl⟩
  obtain ⟨t, ht⟩ : ∃ t, t = ρ / N := ⟨_, rfl⟩
  have hN0 : 0 < N := by rw [hNe]; exact hN
  have ht0 : 0 < t := by rw [ht]; positivity
  have hv' : v = xs - t • S := by
    rw [hv, hS]
    unfold ltRest
    dsimp only
    rw [map_sum_sub, map_const_sum, map_sum_smul, ← hNe, smul_sub, smul_smul, one_div_mul_cancel hN0.ne', one_smul, smul_smul, ht]
    congr 2; ring
  unfold ltCentre
  rw [← hNe, ← hv, ← ht]
  obtain ⟨p, hp⟩ : ∃ p, p = prox v t := ⟨_, rfl⟩
  have h1 := hprox v t ht0 xs
  have h2 := best_subgradient hsm hr hb (prox v t)
  rw [← hp] at h1 h2 ⊢
  rw [← hS] at h2
  have e1 : (1 / t) • (v - p) = (1 / t) • (xs - p) - S := by
    rw [hv', show xs - t • S - p = (xs - p) - t • S by abel, smul_sub, smul_smul, one_div_mul_cancel ht0.ne', one_smul]
  rw [e1, inner_sub_left, inner_smul_left, RCLike.conj_to_real, real_inner_self_eq_norm_sq] at h1
  have e2 : ⟪S, p - xs⟫_ℝ = -⟪S, xs - p⟫_ℝ := by rw [← inner_neg_right, neg_sub]
  rw [e2] at h2
  have h3 : 1 / t * ‖xs - p‖ ^ 2 ≤ 0 := by linarith
  have h4 : ‖xs - p‖ ^ 2 ≤ 0 := by
    by_contra hc
    push Not at hc
    have := mul_pos (one_div_pos.2 ht0) hc
    linarith
  have h5 : ‖xs - p‖ = 0 := by
    have := sq_nonneg ‖xs - p‖
    exact pow_eq_zero_iff (two_ne_zero) |>.1 (le_antisymm h4 this)
  exact (sub_eq_zero.1 (norm_eq_zero.1 h5)).symm

/-- SPEC: squared distances to the optimum: of the `z` of a client from `xs - ρ ∇f(xs)`, and (weighted by `b`) of its model from `xs` -/
noncomputable def ltGap (g : A → Vec d → Vec d) (ρ b : ℝ) (xs : Vec d) (P : LtPoint A (Vec d)) (c : A) : ℝ :=
  ‖P.z c - (xs - ρ • g c xs)‖ ^ 2 + b * ‖P.x c - xs‖ ^ 2

theorem ltGdSteps_accurate {f : Vec d → ℝ} {g : Vec d → Vec d} {L ρ η : ℝ} (hu : Upper f g L) (hl : Lower f g 0) (hL : 0 < L) (hη : 0 < η) (hρ : 0 < ρ)
    (hs : η * (L + 1 / ρ) ≤ 1) {p v : Vec d} (hp : p + ρ • g p = v) (K : Nat) (x : Vec d) : ‖ltGdSteps g η ρ K x v - p‖ ≤ (1 - η / ρ) ^ K * ‖x - p‖ := by
  have h0 : 0 ≤ 1 - η / ρ := by
    have e : η * (L + 1 / ρ) = η * L + η / ρ := by ring
    have : 0 < η * L := by positivity
    linarith
  have hstep : ∀ y, ‖y - η • (g y + (1 / ρ) • (y - v)) - p‖ ≤ (1 - η / ρ) * ‖y - p‖ := by
    intro y
    have h := aug_contract hu hl hL hη hs 0 v y p
    have e : g p + 0 + (1 / ρ) • (p - v) = 0 := by
      rw [← hp, show p - (p + ρ • g p) = -(ρ • g p) by abel, smul_neg, smul_smul, one_div_mul_cancel hρ.ne', one_smul]; abel
    rw [e, smul_zero, sub_zero, add_zero] at h
    rw [← mul_pow] at h
    exact (abs_le_of_sq_le_sq' h (by positivity)).2
  unfold ltGdSteps
  induction K generalizing x with
  | zero => simp [gdSteps]
  | succ K ih =>
    rw [gdSteps, pow_succ]
    refine (ih _).trans ?_
    rw [mul_assoc]
    exact mul_le_mul_of_nonneg_left (hstep x) (by positivity)

/-- SPEC: enough local gradient steps: the accuracy of the local solve against the contraction of the exact method -/
def EnoughSteps (L m η ρ : ℝ) (K : Nat) : Prop :=
  (1 - η / ρ) ^ K * (5 - Real.sqrt (max 0 (1 - 4 * ρ * m / (1 + ρ * L) ^ 2))) < 1 - Real.sqrt (max 0 (1 - 4 * ρ * m / (1 + ρ * L) ^ 2))

theorem reflect_factor {L m ρ : ℝ} (hL : 0 < L) (hm : 0 < m) (hρ : 0 < ρ) : Real.sqrt (max 0 (1 - 4 * ρ * m / (1 + ρ * L) ^ 2)) < 1 := by
  rw [Real.sqrt_lt' one_pos, one_pow]
  refine max_lt one_pos ?_
  have : 0 < 4 * ρ * m / (1 + ρ * L) ^ 2 := by positivity
  linarith

/-- C122: for every strongly convex smooth problem, penalty and admissible step size there is such a number of steps, and every larger one will do -/
theorem C122_enough_steps {L m η ρ : ℝ} (hL : 0 < L) (hm : 0 < m) (hη : 0 < η) (hρ : 0 < ρ) (hs : η * (L + 1 / ρ) ≤ 1) :
    ∃ K0 : Nat, ∀ K ≥ K0, EnoughSteps L m η ρ K := by
  obtain ⟨c, hc⟩ : ∃ c, c = Real.sqrt (max 0 (1 - 4 * ρ * m / (1 + ρ * L) ^ 2)) := ⟨_, rfl⟩
  have hc1 : c < 1 := by rw [hc]; exact reflect_factor hL hm hρ
  have hc0 : 0 ≤ c := by rw [hc]; exact Real.sqrt_nonneg _
  have h0 : 0 ≤ 1 - η / ρ := by
    have e : η * (L + 1 / ρ) = η * L + η / ρ := by ring
    have : 0 < η * L := by positivity
    linarith
  have h1 : 1 - η / ρ < 1 := by have : 0 < η / ρ := by positivity
                                linarith
  obtain ⟨K0, hK0⟩ := exists_pow_lt_of_lt_one (show 0 < (1 - c) / (5 - c) from div_pos (by linarith) (by linarith)) h1
  refine ⟨K0, fun K hK => ?_⟩
  unfold EnoughSteps
  rw [← hc]
  have := lt_of_le_of_lt (pow_le_pow_of_le_one h0 h1.le hK) hK0
  rwa [lt_div_iff₀ (by linarith)] at this

/-- if all clients take part the summed squared distances shrink -/
theorem lt_shrinks {f : A → Vec d → ℝ} {g : A → Vec d → Vec d} {L m : ℝ} (hsm : ClientsSmooth clients f g L m) (hm : 0 < m) {r0 : Vec d → ℝ} (hr : ConvexOn ℝ Set.univ r0)
    {prox : Vec d → ℝ → Vec d} (hprox : ProxOf r0 prox) {η ρ : ℝ} (hη : 0 < η) (hρ : 0 < ρ) (hs : η * (L + 1 / ρ) ≤ 1) (hcl : clients ≠ []) {xs : Vec d}
    (hb : BestWithServer clients r0 f xs) (K : Nat) (hK : EnoughSteps L m η ρ K) :
    ∃ b r : ℝ, 0 < b ∧ 0 ≤ r ∧ r < 1 ∧ ∀ P : LtPoint A (Vec d),
      (clients.map (ltGap g ρ b xs (fedLtDoc clients (fun c x v => ltGdSteps (g c) η ρ K x v) prox ρ clients P))).sum ≤ r * (clients.map (ltGap g ρ b xs P)).sum := by
  have hL := hsm.Lpos
  obtain ⟨q, hq⟩ : ∃ q, q = Real.sqrt (max 0 (1 - 4 * ρ * m / (1 + ρ * L) ^ 2)) := ⟨_, rfl⟩
  obtain ⟨s, hse⟩ : ∃ s, s = (1 - η / ρ) ^ K := ⟨_, rfl⟩
  have hs0 : 0 ≤ s := by
    have e : η * (L + 1 / ρ) = η * L + η / ρ := by ring
    have : 0 < η * L := by positivity
    have : 0 ≤ 1 - η / ρ := by linarith
    rw [hse]; positivity
  obtain ⟨b, r, hb0, hr0, hr1, hgain⟩ := coupled_gain q s (by rw [hq]; exact Real.sqrt_nonneg _) (by rw [hq]; exact reflect_factor hL hm hρ) hs0
    (by rw [hq, hse]; exact hK)
  refine ⟨b, r, hb0, hr0, hr1, fun P => ?_⟩
  have hN : (0 : ℝ) < clients.length := by exact_mod_cast List.length_pos_iff.2 hcl
  obtain ⟨y, hy⟩ : ∃ y, y = ltCentre clients prox ρ P := ⟨_, rfl⟩
  obtain ⟨dz, hdz⟩ : ∃ dz : A → Vec d, dz = fun c => P.z c - (xs - ρ • g c xs) := ⟨_, rfl⟩
  -- one client
  have one : ∀ c ∈ clients, ltGap g ρ b xs (fedLtDoc clients (fun c x v => ltGdSteps (g c) η ρ K x v) prox ρ clients P) c ≤
      r * (‖(2 : ℝ) • (y - xs) - dz c‖ ^ 2 + b * ‖P.x c - xs‖ ^ 2) := by
    intro c hc
    have hu : Upper (f c) (g c) L := hsm.upper c hc
    have hl : Lower (f c) (g c) m := hsm.lower c hc
    obtain ⟨v, hv⟩ : ∃ v, v = (2 : ℝ) • y - P.z c := ⟨_, rfl⟩
    obtain ⟨p, hp⟩ := exists_local hu hl hL hm.le hρ v
    obtain ⟨t, ht⟩ : ∃ t, t = ltGdSteps (g c) η ρ K (P.x c) v := ⟨_, rfl⟩
    have hacc := ltGdSteps_accurate hu (hl.mono hm.le) hL hη hρ hs hp K (P.x c)
    rw [← ht, ← hse] at hacc
    obtain ⟨l1, l2⟩ := local_reflect hu hl hL hm hρ hp (rfl : xs + ρ • g c xs = xs + ρ • g c xs)
    rw [← hq] at l2
    have hvv : v - (xs + ρ • g c xs) = (2 : ℝ) • (y - xs) - dz c := by rw [hv, hdz]; module
    rw [hvv] at l1 l2
    have hxp : ‖P.x c - p‖ ≤ ‖P.x c - xs‖ + ‖(2 : ℝ) • (y - xs) - dz c‖ := by
      have e : P.x c - p = (P.x c - xs) - (p - xs) := by abel
      rw [e]
      exact (norm_sub_le _ _).trans (add_le_add le_rfl l1)
    have herr : ‖t - p‖ ≤ s * (‖P.x c - xs‖ + ‖(2 : ℝ) • (y - xs) - dz c‖) := hacc.trans (mul_le_mul_of_nonneg_left hxp hs0)
    have g1 : (fedLtDoc clients (fun c x v => ltGdSteps (g c) η ρ K x v) prox ρ clients P).x c = t := by
      unfold fedLtDoc; dsimp only; rw [if_pos hc, ← hy, ← hv, ht]
    have g2 : (fedLtDoc clients (fun c x v => ltGdSteps (g c) η ρ K x v) prox ρ clients P).z c = P.z c + (2 : ℝ) • (t - y) := by
      unfold fedLtDoc; dsimp only; rw [if_pos hc, ← hy, ← hv, ht]
    unfold ltGap
    rw [g1, g2]
    refine hgain ‖(2 : ℝ) • (y - xs) - dz c‖ ‖P.x c - xs‖ _ _ (norm_nonneg _) (norm_nonneg _) ?_ ?_
    · have e : P.z c + (2 : ℝ) • (t - y) - (xs - ρ • g c xs) = (((2 : ℝ) • p - v) - ((2 : ℝ) • xs - (xs + ρ • g c xs))) + (2 : ℝ) • (t - p) := by rw [hv]; module
      rw [e]
      refine (norm_add_le _ _).trans ?_
      rw [norm_smul, Real.norm_eq_abs, abs_of_pos (by norm_num : (0 : ℝ) < 2)]
      linarith
    · have e : t - xs = (p - xs) + (t - p) := by abel
      rw [e]
      refine (norm_add_le _ _).trans ?_
      linarith
  have hsum : ∀ (l : List A) (F F' : A → ℝ), (∀ c ∈ l, F c ≤ F' c) → (l.map F).sum ≤ (l.map F').sum := by
    intro l F F' h
    induction l with
    | nil => simp
    | cons a t ih =>
      simp only [List.map_cons, List.sum_cons]
      exact add_le_add (h a (by simp)) (ih fun c hc => h c (List.mem_cons_of_mem _ hc))
  have hfirm : ‖y - xs‖ ^ 2 ≤ ⟪y - xs, (1 / (clients.length : ℝ)) • (clients.map dz).sum⟫_ℝ := by
    have h := proxOf_firm hprox (show 0 < ρ / (clients.length : ℝ) by positivity) ((1 / (clients.length : ℝ)) • (clients.map P.z).sum)
      ((1 / (clients.length : ℝ)) • (clients.map (ltRest g ρ xs).z).sum)
    have e1 : prox ((1 / (clients.length : ℝ)) • (clients.map (ltRest g ρ xs).z).sum) (ρ / (clients.length : ℝ)) = xs :=
      ltRest_centre hsm hr hprox hρ hcl hb
    rw [e1, ← smul_sub, ← map_sum_sub] at h
    rw [hy, hdz]
    exact h
  have hrefl := mean_reflect clients _ hN rfl dz (y - xs) hfirm
  refine (hsum clients _ _ one).trans ?_
  have split : ∀ (l : List A) (F F' : A → ℝ), (l.map (fun c => r * (F c + b * F' c))).sum = r * ((l.map F).sum + b * (l.map F').sum) := by
    intro l F F'
    induction l with
    | nil => simp
    | cons a t ih => simp only [List.map_cons, List.sum_cons, ih]; ring
  have split' : ∀ (l : List A) (F F' : A → ℝ), (l.map (fun c => F c + b * F' c)).sum = (l.map F).sum + b * (l.map F').sum := by
    intro l F F'
    induction l with
    | nil => simp
    | cons a t ih => simp only [List.map_cons, List.sum_cons, ih]; ring
  rw [split clients (fun c => ‖(2 : ℝ) • (y - xs) - dz c‖ ^ 2) (fun c => ‖P.x c - xs‖ ^ 2)]
  have e2 : (clients.map (ltGap g ρ b xs P)).sum = (clients.map (fun c => ‖dz c‖ ^ 2)).sum + b * (clients.map (fun c => ‖P.x c - xs‖ ^ 2)).sum := by
    rw [← split', hdz]; rfl
  rw [e2]
  exact mul_le_mul_of_nonneg_left (by linarith) hr0

/-- the server model is no further from `xs` than the `z` from their limits -/
theorem lt_centre_gap {f : A → Vec d → ℝ} {g : A → Vec d → Vec d} {L m : ℝ} (hsm : ClientsSmooth clients f g L m) {r0 : Vec d → ℝ} (hr : ConvexOn ℝ Set.univ r0)
    {prox : Vec d → ℝ → Vec d} (hprox : ProxOf r0 prox) {ρ : ℝ} (hρ : 0 < ρ) (hcl : clients ≠ []) {xs : Vec d}
    (hb : BestWithServer clients r0 f xs) (P : LtPoint A (Vec d)) :
    ‖ltCentre clients prox ρ P - xs‖ ^ 2 ≤ 1 / (clients.length : ℝ) * (clients.map (fun c => ‖P.z c - (xs - ρ • g c xs)‖ ^ 2)).sum := by
  have hN : (0 : ℝ) < clients.length := by exact_mod_cast List.length_pos_iff.2 hcl
  have h := proxOf_firm hprox (show 0 < ρ / (clients.length : ℝ) by positivity) ((1 / (clients.length : ℝ)) • (clients.map P.z).sum)
    ((1 / (clients.length : ℝ)) • (clients.map (ltRest g ρ xs).z).sum)
  have e1 : prox ((1 / (clients.length : ℝ)) • (clients.map (ltRest g ρ xs).z).sum) (ρ / (clients.length : ℝ)) = xs :=
    ltRest_centre hsm hr hprox hρ hcl hb
  rw [e1, ← smul_sub, ← map_sum_sub] at h
  obtain ⟨D, hD⟩ : ∃ D, D = (1 / (clients.length : ℝ)) • (clients.map (fun c => P.z c - (ltRest g ρ xs).z c)).sum := ⟨_, rfl⟩
  have h2 := mean_sq_le clients _ hN rfl (fun c => P.z c - (ltRest g ρ xs).z c)
  rw [← hD] at h h2
  refine le_trans ?_ h2
  obtain ⟨Y, hY⟩ : ∃ Y, Y = ltCentre clients prox ρ P - xs := ⟨_, rfl⟩
  have h3 : ‖Y‖ ^ 2 ≤ ⟪Y, D⟫_ℝ := by rw [hY]; exact h
  rw [← hY]
  have h4 := norm_sub_sq_real Y D
  have h5 := sq_nonneg ‖Y - D‖
  linarith

section sampled
variable {Θ : Type} [Fintype Θ] {q : Θ → ℝ}

theorem chance_le_one (hq : Distribution q) (e : Θ → Bool) : chance q e ≤ 1 := by
  rw [← hq.total]
  exact Finset.sum_le_sum fun θ _ => by split; exacts [le_rfl, hq.nonneg θ]

theorem exists_least (l : List A) (p : A → ℝ) (hp : ∀ c ∈ l, 0 < p c) : ∃ δ : ℝ, 0 < δ ∧ δ ≤ 1 ∧ ∀ c ∈ l, δ ≤ p c := by
  induction l with
  | nil => exact ⟨1, one_pos, le_rfl, fun c h => by cases h⟩
  | cons a t ih =>
    obtain ⟨δ, h1, h2, h3⟩ := ih fun c hc => hp c (List.mem_cons_of_mem _ hc)
    refine ⟨min δ (p a), lt_min h1 (hp a (by simp)), (min_le_left _ _).trans h2, fun c hc => ?_⟩
    rcases List.mem_cons.1 hc with rfl | hc
    · exact min_le_right _ _
    · exact (min_le_left _ _).trans (h3 c hc)

theorem map_sum_le (l : List A) (F F' : A → ℝ) (h : ∀ c ∈ l, F c ≤ F' c) : (l.map F).sum ≤ (l.map F').sum := by
  induction l with
  | nil => simp
  | cons a t ih =>
    simp only [List.map_cons, List.sum_cons]
    exact add_le_add (h a (by simp)) (ih fun c hc => h c (List.mem_cons_of_mem _ hc))

theorem le_map_sum (l : List A) (F : A → ℝ) (h : ∀ c ∈ l, 0 ≤ F c) {c : A} (hc : c ∈ l) : F c ≤ (l.map F).sum :=
  List.single_le_sum (fun x hx => by obtain ⟨a, ha, rfl⟩ := List.mem_map.1 hx; exact h a ha) _ (List.mem_map.2 ⟨c, hc, rfl⟩)

/-- C122, clients sampled at random. Let the clients' costs be `m`-strongly convex and `L`-smooth, the server's cost convex, the local solver gradient descent with an
admissible step size and enough steps, and let the set of participating clients be drawn anew in every round from any distribution in which every client has a
positive probability (any size, possibly nobody; correlated clients are allowed). If no message is lost or distorted, the server's model and every client's model
converge to the minimiser in mean square, linearly, from all starting points. -/
theorem C122_sampled {f : A → Vec d → ℝ} {g : A → Vec d → Vec d} {L m : ℝ} (hsm : ClientsSmooth clients f g L m) (hm : 0 < m) {r0 : Vec d → ℝ} (hr : ConvexOn ℝ Set.univ r0)
    {prox : Vec d → ℝ → Vec d} (hprox : ProxOf r0 prox) (G : Grad A Ω (Vec d)) (hg : ∀ c x ω, G c x ω = (g c x, ω)) {η ρ : ℝ} (hη : 0 < η) (hρ : 0 < ρ)
    (hs : η * (L + 1 / ρ) ≤ 1) (K : Nat) (hK : EnoughSteps L m η ρ K) (w : World A (Vec d) Ω) (hf : IsFed n server clients) (hcl : clients ≠ []) (hup : ServerUp w server)
    (hex : ∀ a ∈ server :: clients, Fed.Exact w a) (hl : ∀ a ∈ server :: clients, Fed.Lossless w a)
    {xs : Vec d} (hb : BestWithServer clients r0 f xs)
    (hq : Distribution q) (chosen : Θ → List A) (hsub : ∀ θ, ∀ c ∈ chosen θ, c ∈ clients) (hpos : ∀ c ∈ clients, 0 < chance q (fun θ => decide (c ∈ chosen θ))) :
    ∃ r C : ℝ, 0 ≤ r ∧ r < 1 ∧ 0 ≤ C ∧
      ∀ (x0 z0 : A → Vec d) (s0 : List Θ → FSys A (Vec d) Ω (LtCli (Vec d)) (LtSrv A (Vec d))) (sel : List Θ → Select A Ω) (N : Nat), (∀ l, SelOK (sel l)) →
        (∀ l, l.length = N + 1 → Drew clients chosen ((fedLT (ltGd G η ρ K) (fun v r ω => (prox v r, ω)) ρ clients z0).after (sel l) server w n x0 (s0 l)) l) →
        ∃ S : List Θ → FSys A (Vec d) Ω (LtCli (Vec d)) (LtSrv A (Vec d)),
          (∀ l, l.length = N + 1 → (fedLT (ltGd G η ρ K) (fun v r ω => (prox v r, ω)) ρ clients z0).after (sel l) server w n x0 (s0 l) (N + 1) = .ok (S l)) ∧
          tapeMean q (N + 1) (fun l => ‖(S l).srv.x - xs‖ ^ 2) ≤
            r ^ N * (C * (clients.map (fun c => ‖x0 c - xs‖ ^ 2 + ‖z0 c - (xs - ρ • g c xs)‖ ^ 2)).sum) ∧
          ∀ c ∈ clients, tapeMean q (N + 1) (fun l => ‖((S l).cli c).x - xs‖ ^ 2) ≤
            r ^ N * (C * (clients.map (fun c => ‖x0 c - xs‖ ^ 2 + ‖z0 c - (xs - ρ • g c xs)‖ ^ 2)).sum) := by
  obtain ⟨b, r, hb0, hr0, hr1, hshrink⟩ := lt_shrinks hsm hm hr hprox hη hρ hs hcl hb K hK
  obtain ⟨p, hp⟩ : ∃ p : A → ℝ, p = fun c => chance q (fun θ => decide (c ∈ chosen θ)) := ⟨_, rfl⟩
  have hp0 : ∀ c ∈ clients, 0 < p c := by rw [hp]; exact hpos
  have hp1 : ∀ c, p c ≤ 1 := by rw [hp]; exact fun c => chance_le_one hq _
  obtain ⟨δ, hδ0, hδ1, hδ⟩ := exists_least clients p hp0
  obtain ⟨next, hnext⟩ : ∃ next : Θ → LtPoint A (Vec d) → LtPoint A (Vec d),
      next = fun θ P => fedLtDoc clients (fun c x v => ltGdSteps (g c) η ρ K x v) prox ρ (chosen θ) P := ⟨_, rfl⟩
  obtain ⟨full, hfull⟩ : ∃ full : LtPoint A (Vec d) → LtPoint A (Vec d),
      full = fun P => fedLtDoc clients (fun c x v => ltGdSteps (g c) η ρ K x v) prox ρ clients P := ⟨_, rfl⟩
  obtain ⟨Φ, hΦ⟩ : ∃ Φ : LtPoint A (Vec d) → ℝ, Φ = fun P => (clients.map (fun c => ltGap g ρ b xs P c / p c)).sum := ⟨_, rfl⟩
  have hgap0 : ∀ P c, 0 ≤ ltGap g ρ b xs P c := fun P c => by unfold ltGap; positivity
  have hmove : ∀ θ P, ∀ c ∈ clients, ltGap g ρ b xs (next θ P) c = if c ∈ chosen θ then ltGap g ρ b xs (full P) c else ltGap g ρ b xs P c := by
    intro θ P c hc
    rw [hnext, hfull]
    unfold ltGap fedLtDoc
    dsimp only
    by_cases h : c ∈ chosen θ
    · simp only [if_pos h, if_pos hc]
    · simp only [if_neg h]
  have hmean : ∀ P, ∑ θ, q θ * Φ (next θ P) = (clients.map (fun c => ltGap g ρ b xs (full P) c + ltGap g ρ b xs P c / p c - ltGap g ρ b xs P c)).sum := by
    intro P
    have key : ∀ l : List A, (∀ c ∈ l, c ∈ clients) → ∑ θ, q θ * (l.map (fun c => ltGap g ρ b xs (next θ P) c / p c)).sum =
        (l.map (fun c => ltGap g ρ b xs (full P) c + ltGap g ρ b xs P c / p c - ltGap g ρ b xs P c)).sum := by
      intro l
      induction l with
      | nil => intro _; simp
      | cons a t ih =>
        intro hlc
        have ha := hlc a (by simp)
        have e1 : ∀ θ, q θ * (((a :: t).map (fun c => ltGap g ρ b xs (next θ P) c / p c)).sum) =
            q θ * (if a ∈ chosen θ then ltGap g ρ b xs (full P) a / p a else ltGap g ρ b xs P a / p a) + q θ * (t.map (fun c => ltGap g ρ b xs (next θ P) c / p c)).sum := by
          intro θ
          rw [List.map_cons, List.sum_cons, mul_add, hmove θ P a ha]
          split <;> rfl
        rw [Finset.sum_congr rfl (fun θ _ => e1 θ), Finset.sum_add_distrib, ih fun c hc => hlc c (List.mem_cons_of_mem _ hc), Arcs.mean_ite q hq.total, List.map_cons, List.sum_cons]
        have e2 : (∑ θ, if a ∈ chosen θ then q θ else 0) = p a := by
          rw [hp]; unfold chance; simp
        rw [e2]
        have h0 := (hp0 a ha).ne'
        congr 1
        field_simp
        ring
    rw [hΦ]
    exact key clients fun _ h => h
  have hsplit : ∀ (l : List A) (F F' F'' : A → ℝ), (l.map (fun c => F c + F' c - F'' c)).sum = (l.map F).sum + (l.map F').sum - (l.map F'').sum := by
    intro l F F' F''
    induction l with
    | nil => simp
    | cons a t ih => simp only [List.map_cons, List.sum_cons, ih]; ring
  have hsmul : ∀ (l : List A) (c : ℝ) (F : A → ℝ), (l.map (fun a => c * F a)).sum = c * (l.map F).sum := by
    intro l c F
    induction l with
    | nil => simp
    | cons a t ih => simp only [List.map_cons, List.sum_cons, ih]; ring
  obtain ⟨R, hR⟩ : ∃ R, R = 1 - (1 - r) * δ := ⟨_, rfl⟩
  have hR0 : 0 ≤ R := by
    have : (1 - r) * δ ≤ 1 * 1 := mul_le_mul (by linarith) hδ1 hδ0.le (by norm_num)
    rw [hR]; linarith
  have hR1 : R < 1 := by
    have : 0 < (1 - r) * δ := mul_pos (by linarith) hδ0
    rw [hR]; linarith
  have hΦstep : ∀ P, ∑ θ, q θ * Φ (next θ P) ≤ R * Φ P := by
    intro P
    rw [hmean P, hsplit]
    have h1 := hshrink P
    have h2 : δ * Φ P ≤ (clients.map (ltGap g ρ b xs P)).sum := by
      rw [hΦ]
      dsimp only
      rw [← hsmul]
      refine map_sum_le clients _ _ fun c hc => ?_
      have e : δ * (ltGap g ρ b xs P c / p c) = δ / p c * ltGap g ρ b xs P c := by ring
      rw [e]
      refine (mul_le_mul_of_nonneg_right ((div_le_one (hp0 c hc)).2 (hδ c hc)) (hgap0 P c)).trans (le_of_eq (one_mul _))
    have h3 : (clients.map (ltGap g ρ b xs (full P))).sum ≤ r * (clients.map (ltGap g ρ b xs P)).sum := by rw [hfull]; exact h1
    have h4 := mul_le_mul_of_nonneg_left h2 (by linarith : 0 ≤ 1 - r)
    have h5 : (clients.map (fun c => ltGap g ρ b xs P c / p c)).sum = Φ P := by rw [hΦ]
    rw [h5, hR]
    linarith
  have hgapΦ : ∀ P, (clients.map (ltGap g ρ b xs P)).sum ≤ Φ P := by
    intro P
    rw [hΦ]
    refine map_sum_le clients _ _ fun c hc => ?_
    rw [le_div_iff₀ (hp0 c hc)]
    exact (mul_le_mul_of_nonneg_left (hp1 c) (hgap0 P c)).trans (le_of_eq (mul_one _))
  obtain ⟨D, hD⟩ : ∃ D : (A → Vec d) → (A → Vec d) → ℝ, D = fun x0 z0 => (clients.map (fun c => ‖x0 c - xs‖ ^ 2 + ‖z0 c - (xs - ρ • g c xs)‖ ^ 2)).sum := ⟨_, rfl⟩
  have hstart : ∀ x0 z0, Φ ⟨x0, z0⟩ ≤ (1 + b) / δ * D x0 z0 := by
    intro x0 z0
    rw [hΦ, hD]
    dsimp only
    rw [← hsmul]
    refine map_sum_le clients _ _ fun c hc => ?_
    unfold ltGap
    dsimp only
    rw [div_mul_eq_mul_div]
    have h1 : 0 ≤ ‖x0 c - xs‖ ^ 2 := by positivity
    have h2 : 0 ≤ ‖z0 c - (xs - ρ • g c xs)‖ ^ 2 := by positivity
    refine div_le_div₀ (by positivity) ?_ hδ0 (hδ c hc)
    nlinarith
  have hbi : 0 < 1 / b := by positivity
  refine ⟨R, (1 + 1 / b) * ((1 + b) / δ), hR0, hR1, by positivity, fun x0 z0 s0 sel N hsel hd => ?_⟩
  rw [ltGd_det G g hg] at hd ⊢
  have hrun := fun l (hlen : l.length = N + 1) => C122_run (fun c x v => ltGdSteps (g c) η ρ K x v) prox ρ z0 w hf hup hex hl (sel l) (hsel l) chosen hsub x0 (s0 l) l (hd l hlen)
  have hex' : ∀ l : List Θ, ∃ s', l.length = N + 1 →
      (fedLT (fun c x v ω => (ltGdSteps (g c) η ρ K x v, ω)) (fun v r ω => (prox v r, ω)) ρ clients z0).after (sel l) server w n x0 (s0 l) (N + 1) = .ok s' ∧
      LtAt clients (l.foldl (fun P θ => next θ P) ⟨x0, z0⟩) s' ∧
      ∀ (l' : List Θ) (θ : Θ), l = l' ++ [θ] → s'.srv.x = ltCentre clients prox ρ (l'.foldl (fun P θ => next θ P) ⟨x0, z0⟩) := by
    intro l
    by_cases hlen : l.length = N + 1
    · obtain ⟨s', h1, h2, h3⟩ := hrun l hlen
      rw [hlen] at h1
      rw [hnext]
      exact ⟨s', fun _ => ⟨h1, h2, h3⟩⟩
    · exact ⟨s0 l, fun h => absurd h hlen⟩
  choose S hS using hex'
  refine ⟨S, fun l hlen => (hS l hlen).1, ?_, fun c hc => ?_⟩
  · have hdec := tape_decay hq.nonneg next Φ R hR0 hΦstep ⟨x0, z0⟩ N
    have h1 : tapeMean q (N + 1) (fun l => ‖(S l).srv.x - xs‖ ^ 2) ≤ tapeMean q (N + 1) (fun l => Φ (l.dropLast.foldl (fun P θ => next θ P) ⟨x0, z0⟩)) := by
      refine tapeMean_mono hq.nonneg _ _ _ fun l hlen => ?_
      have hne : l ≠ [] := fun h => by rw [h] at hlen; simp at hlen
      have he := List.dropLast_append_getLast hne
      rw [(hS l hlen).2.2 l.dropLast (l.getLast hne) he.symm]
      obtain ⟨P, hP⟩ : ∃ P, P = l.dropLast.foldl (fun P θ => next θ P) ⟨x0, z0⟩ := ⟨_, rfl⟩
      rw [← hP]
      refine (lt_centre_gap hsm hr hprox hρ hcl hb P).trans (le_trans ?_ (hgapΦ P))
      have hN1 : (1 : ℝ) ≤ clients.length := by exact_mod_cast List.length_pos_iff.2 hcl
      have h2 : (clients.map (fun c => ‖P.z c - (xs - ρ • g c xs)‖ ^ 2)).sum ≤ (clients.map (ltGap g ρ b xs P)).sum :=
        map_sum_le clients _ _ fun c _ => by
          unfold ltGap
          have : 0 ≤ b * ‖P.x c - xs‖ ^ 2 := by positivity
          linarith
      have h3 : 0 ≤ (clients.map (fun c => ‖P.z c - (xs - ρ • g c xs)‖ ^ 2)).sum :=
        List.sum_nonneg fun y hy => by obtain ⟨c, _, rfl⟩ := List.mem_map.1 hy; positivity
      have h4 : 1 / (clients.length : ℝ) ≤ 1 := by rw [div_le_one (by linarith)]; exact hN1
      have := mul_le_mul_of_nonneg_right h4 h3
      linarith
    have hsn := tapeMean_snoc q N (fun l : List Θ => Φ (l.dropLast.foldl (fun P θ => next θ P) ⟨x0, z0⟩))
    rw [hsn] at h1
    have e : (fun l : List Θ => ∑ θ, q θ * Φ ((l ++ [θ]).dropLast.foldl (fun P θ => next θ P) ⟨x0, z0⟩)) = fun l => Φ (l.foldl (fun P θ => next θ P) ⟨x0, z0⟩) := by
      funext l
      simp only [List.dropLast_concat]
      rw [← Finset.sum_mul, hq.total, one_mul]
    rw [e] at h1
    refine h1.trans (hdec.trans (mul_le_mul_of_nonneg_left ((hstart x0 z0).trans ?_) (pow_nonneg hR0 N)))
    have hD0 : 0 ≤ D x0 z0 := by
      rw [hD]; exact List.sum_nonneg fun y hy => by obtain ⟨c, _, rfl⟩ := List.mem_map.1 hy; positivity
    have hDe : D x0 z0 = (clients.map (fun c => ‖x0 c - xs‖ ^ 2 + ‖z0 c - (xs - ρ • g c xs)‖ ^ 2)).sum := by rw [hD]
    rw [← hDe, mul_assoc]
    have : 0 ≤ (1 + b) / δ * D x0 z0 := by positivity
    nlinarith
  · have hdec := tape_decay hq.nonneg next Φ R hR0 hΦstep ⟨x0, z0⟩ (N + 1)
    have h1 : tapeMean q (N + 1) (fun l => ‖((S l).cli c).x - xs‖ ^ 2) ≤ tapeMean q (N + 1) (fun l => 1 / b * Φ (l.foldl (fun P θ => next θ P) ⟨x0, z0⟩)) := by
      refine tapeMean_mono hq.nonneg _ _ _ fun l hlen => ?_
      rw [((hS l hlen).2.1 c hc).1]
      obtain ⟨P, hP⟩ : ∃ P, P = l.foldl (fun P θ => next θ P) ⟨x0, z0⟩ := ⟨_, rfl⟩
      rw [← hP]
      have h2 := (le_map_sum clients (ltGap g ρ b xs P) (fun c _ => hgap0 P c) hc).trans (hgapΦ P)
      have h3 : b * ‖P.x c - xs‖ ^ 2 ≤ Φ P := by
        refine le_trans ?_ h2
        unfold ltGap
        have : 0 ≤ ‖P.z c - (xs - ρ • g c xs)‖ ^ 2 := by positivity
        linarith
      rw [one_div, ← div_eq_inv_mul, le_div_iff₀ hb0]
      linarith
    rw [tapeMean_smul] at h1
    refine h1.trans ((mul_le_mul_of_nonneg_left hdec hbi.le).trans ?_)
    have hD0 : 0 ≤ D x0 z0 := by
      rw [hD]; exact List.sum_nonneg fun y hy => by obtain ⟨c, _, rfl⟩ := List.mem_map.1 hy; positivity
    have hDe : D x0 z0 = (clients.map (fun c => ‖x0 c - xs‖ ^ 2 + ‖z0 c - (xs - ρ • g c xs)‖ ^ 2)).sum := by rw [hD]
    have hΦ0 : 0 ≤ Φ ⟨x0, z0⟩ := le_trans (List.sum_nonneg fun y hy => by obtain ⟨c, _, rfl⟩ := List.mem_map.1 hy; exact hgap0 _ c) (hgapΦ ⟨x0, z0⟩)
    have hRN : 0 ≤ R ^ N := pow_nonneg hR0 N
    have h4 : R ^ (N + 1) * Φ ⟨x0, z0⟩ ≤ R ^ N * Φ ⟨x0, z0⟩ := mul_le_mul_of_nonneg_right (pow_le_pow_of_le_one hR0 hR1.le (Nat.le_succ N)) hΦ0
    have h5 : R ^ N * Φ ⟨x0, z0⟩ ≤ R ^ N * ((1 + b) / δ * D x0 z0) := mul_le_mul_of_nonneg_left (hstart x0 z0) hRN
    have h6 := mul_le_mul_of_nonneg_left (h4.trans h5) hbi.le
    refine h6.trans ?_
    rw [← hDe]
    have h7 : 0 ≤ R ^ N * ((1 + b) / δ * D x0 z0) := by positivity
    have e : R ^ N * ((1 + 1 / b) * ((1 + b) / δ) * D x0 z0) = (1 + 1 / b) * (R ^ N * ((1 + b) / δ * D x0 z0)) := by ring
    rw [e, add_mul, one_mul]
    linarith

end sampled

/-- C122, UniformSelection: every client has the same positive chance, so the conclusion holds for every requested number or fraction of clients. -/
theorem C122_uniform_selection {f : A → Vec d → ℝ} {g : A → Vec d → Vec d} {L m : ℝ} (hsm : ClientsSmooth clients f g L m) (hm : 0 < m) {r0 : Vec d → ℝ}
    (hr : ConvexOn ℝ Set.univ r0) {prox : Vec d → ℝ → Vec d} (hprox : ProxOf r0 prox) (G : Grad A Ω (Vec d)) (hg : ∀ c x ω, G c x ω = (g c x, ω)) {η ρ : ℝ} (hη : 0 < η)
    (hρ : 0 < ρ) (hs : η * (L + 1 / ρ) ≤ 1) (K : Nat) (hK : EnoughSteps L m η ρ K) (w : World A (Vec d) Ω) (hf : IsFed n server clients) (hcl : clients ≠ [])
    (hi : FedIdeal w server clients) {xs : Vec d} (hb : BestWithServer clients r0 f xs)
    {Θ : Type} [Fintype Θ] (q : Θ → ℝ) (sz : Size) (k : Nat) (pick : Θ → Nat → Nat → List Nat) (hsz : validate sz = .ok ()) (hk : Requested sz clients.length k)
    (hp : ∀ θ, SampleOK (pick θ)) (hu : UniformSample q clients.length k (fun θ => pick θ clients.length k)) :
    ∃ r C : ℝ, 0 ≤ r ∧ r < 1 ∧ 0 ≤ C ∧
      ∀ (x0 z0 : A → Vec d) (s0 : FSys A (Vec d) Ω (LtCli (Vec d)) (LtSrv A (Vec d))) (N : Nat),
        ∃ S : List Θ → FSys A (Vec d) Ω (LtCli (Vec d)) (LtSrv A (Vec d)),
          (∀ l, l.length = N + 1 →
            (fedLT (ltGd G η ρ K) (fun v r ω => (prox v r, ω)) ρ clients z0).after (uniformRun sz pick l) server w n x0 s0 (N + 1) = .ok (S l)) ∧
          tapeMean q (N + 1) (fun l => ‖(S l).srv.x - xs‖ ^ 2) ≤
            r ^ N * (C * (clients.map (fun c => ‖x0 c - xs‖ ^ 2 + ‖z0 c - (xs - ρ • g c xs)‖ ^ 2)).sum) ∧
          ∀ c ∈ clients, tapeMean q (N + 1) (fun l => ‖((S l).cli c).x - xs‖ ^ 2) ≤
            r ^ N * (C * (clients.map (fun c => ‖x0 c - xs‖ ^ 2 + ‖z0 c - (xs - ρ • g c xs)‖ ^ 2)).sum) := by
  obtain ⟨hk0, hfair⟩ := C112_uniform_fair sz hsz hf.clients_nodup hcl q pick k hk hu
  have hpos : ∀ c ∈ clients, 0 < chance q (fun θ => decide (c ∈ uniform sz (pick θ) clients)) := by
    intro c hc
    obtain ⟨i, hi', rfl⟩ := List.mem_iff_getElem.1 hc
    have h1 := (hfair.fair hf.clients_nodup).incl ⟨i, hi'⟩
    have h2 : Sampling.prob q (fun θ => (⟨i, hi'⟩ : Fin clients.length) ∈ places clients (uniform sz (pick θ) clients)) =
        chance q (fun θ => decide (clients[i] ∈ uniform sz (pick θ) clients)) := by
      unfold Sampling.prob chance
      refine Finset.sum_congr rfl fun θ _ => ?_
      by_cases hi : clients[i] ∈ uniform sz (pick θ) clients <;> simp [places, hi]
    rw [h2] at h1
    have hk' : (0 : ℝ) < k := by exact_mod_cast hk0
    by_contra hc'
    push Not at hc'
    have : (Fintype.card (Fin clients.length) : ℝ) * chance q (fun θ => decide (clients[i] ∈ uniform sz (pick θ) clients)) ≤ 0 :=
      mul_nonpos_of_nonneg_of_nonpos (by positivity) hc'
    linarith
  obtain ⟨r, C, h1, h2, h3, h4⟩ := C122_sampled hsm hm hr hprox G hg hη hρ hs K hK w hf hcl hi.up hi.exact_ hi.lossless hb hfair.dist
    (fun θ => uniform sz (pick θ) clients) hfair.sub hpos
  exact ⟨r, C, h1, h2, h3, fun x0 z0 s0 N => h4 x0 z0 (fun _ => s0) (fun l => uniformRun sz pick l) N (fun l => uniformRun_ok sz hsz pick hp l)
    (fun l _ => uniformRun_drew _ w hf hi.active hcl sz hsz pick hp x0 s0 l)⟩

theorem tapeMean_unit (k : Nat) : ∀ F : List Unit → ℝ, tapeMean (fun _ : Unit => (1 : ℝ)) k F = F (List.replicate k ()) := by
  induction k with
  | zero => intro F; rfl
  | succ k ih => intro F; rw [tapeMean]; simp [ih, List.replicate_succ]

/-- C122, all clients in every round: server and clients converge linearly to the minimiser. -/
theorem C122_converges {f : A → Vec d → ℝ} {g : A → Vec d → Vec d} {L m : ℝ} (hsm : ClientsSmooth clients f g L m) (hm : 0 < m) {r0 : Vec d → ℝ}
    (hr : ConvexOn ℝ Set.univ r0) {prox : Vec d → ℝ → Vec d} (hprox : ProxOf r0 prox) (G : Grad A Ω (Vec d)) (hg : ∀ c x ω, G c x ω = (g c x, ω)) {η ρ : ℝ} (hη : 0 < η)
    (hρ : 0 < ρ) (hs : η * (L + 1 / ρ) ≤ 1) (K : Nat) (hK : EnoughSteps L m η ρ K) (w : World A (Vec d) Ω) (hf : IsFed n server clients) (hcl : clients ≠ [])
    (hi : FedIdeal w server clients) {xs : Vec d} (hb : BestWithServer clients r0 f xs) :
    ∃ r C : ℝ, 0 ≤ r ∧ r < 1 ∧ 0 ≤ C ∧
      ∀ (x0 z0 : A → Vec d) (s0 : FSys A (Vec d) Ω (LtCli (Vec d)) (LtSrv A (Vec d))) (N : Nat), ∃ s',
        (fedLT (ltGd G η ρ K) (fun v r ω => (prox v r, ω)) ρ clients z0).after none server w n x0 s0 (N + 1) = .ok s' ∧
          ‖s'.srv.x - xs‖ ^ 2 ≤ r ^ N * (C * (clients.map (fun c => ‖x0 c - xs‖ ^ 2 + ‖z0 c - (xs - ρ • g c xs)‖ ^ 2)).sum) ∧
          ∀ c ∈ clients, ‖(s'.cli c).x - xs‖ ^ 2 ≤ r ^ N * (C * (clients.map (fun c => ‖x0 c - xs‖ ^ 2 + ‖z0 c - (xs - ρ • g c xs)‖ ^ 2)).sum) := by
  have hone : Distribution (fun _ : Unit => (1 : ℝ)) := ⟨fun _ => zero_le_one, by simp⟩
  obtain ⟨r, C, h1, h2, h3, h4⟩ := C122_sampled hsm hm hr hprox G hg hη hρ hs K hK w hf hcl hi.up hi.exact_ hi.lossless hb hone
    (fun _ => clients) (fun _ _ h => h) (fun c hc => by simp [chance, hc])
  refine ⟨r, C, h1, h2, h3, fun x0 z0 s0 N => ?_⟩
  obtain ⟨S, hS, hsrv, hcli⟩ := h4 x0 z0 (fun _ => s0) (fun _ => none) N (fun _ => by intro _ h; cases h) (by
    intro l _ j hj s s' h h' c hc
    have hit : iter (fedLT (ltGd G η ρ K) (fun v r ω => (prox v r, ω)) ρ clients z0) none server w n j s = .ok s' := by
      rw [Fed.after_succ, h] at h'; exact h'
    obtain ⟨s2, selected, T, bc, ωs, e1, hround, _, _⟩ := lt_round (ltGd G η ρ K) (fun v r ω => (prox v r, ω)) ρ z0 w hf hi.up none (by intro _ h; cases h) j s
    rw [hit] at e1
    cases e1
    rw [hround.count c, hround.all_active rfl hi.active])
  simp only [tapeMean_unit] at hsrv hcli
  exact ⟨_, hS _ (by simp), hsrv, hcli⟩

/-- the proximal of the zero cost is the identity -/
theorem zero_proxOf : ProxOf (fun _ : Vec d => (0 : ℝ)) (fun v _ => v) := by
  intro v ρ _ y; simp

/-- C122, the default server (zero cost) and all clients: the limit is the minimiser of the sum of the clients' costs, which exists and is unique. -/
theorem C122_default_server {f : A → Vec d → ℝ} {g : A → Vec d → Vec d} {L m : ℝ} (hsm : ClientsSmooth clients f g L m) (hm : 0 < m)
    (G : Grad A Ω (Vec d)) (hg : ∀ c x ω, G c x ω = (g c x, ω)) {η ρ : ℝ} (hη : 0 < η)
    (hρ : 0 < ρ) (hs : η * (L + 1 / ρ) ≤ 1) (K : Nat) (hK : EnoughSteps L m η ρ K) (w : World A (Vec d) Ω) (hf : IsFed n server clients) (hcl : clients ≠ [])
    (hi : FedIdeal w server clients) :
    ∃ xs : Vec d, BestForClients clients f xs ∧ (∀ y, BestForClients clients f y → y = xs) ∧ ∃ r C : ℝ, 0 ≤ r ∧ r < 1 ∧ 0 ≤ C ∧
      ∀ (x0 z0 : A → Vec d) (s0 : FSys A (Vec d) Ω (LtCli (Vec d)) (LtSrv A (Vec d))) (N : Nat), ∃ s',
        (fedLT (ltGd G η ρ K) (fun v _ ω => (v, ω)) ρ clients z0).after none server w n x0 s0 (N + 1) = .ok s' ∧
          ‖s'.srv.x - xs‖ ^ 2 ≤ r ^ N * (C * (clients.map (fun c => ‖x0 c - xs‖ ^ 2 + ‖z0 c - (xs - ρ • g c xs)‖ ^ 2)).sum) ∧
          ∀ c ∈ clients, ‖(s'.cli c).x - xs‖ ^ 2 ≤ r ^ N * (C * (clients.map (fun c => ‖x0 c - xs‖ ^ 2 + ‖z0 c - (xs - ρ • g c xs)‖ ^ 2)).sum) := by
  obtain ⟨xs, h1, _, h3⟩ := C80_optimum (hsm.smooth hm) hcl
  exact ⟨xs, h1, h3, C122_converges hsm hm (convexOn_const 0 convex_univ) zero_proxOf G hg hη hρ hs K hK w hf hcl hi (fun y => by
    have := h1 y
    simpa using this)⟩

end rate

/-! ### concrete systems -/

/-- C122, the step size: with a larger one, at which the local solver still converges (each local step halves the distance to the local solution), one
local step does not suffice. Two clients with the same cost `½‖x‖²`; the server stays at the minimiser 0, the clients' models double in every round. -/
theorem C122_diverges {d : Nat} (v : Vec d) (s : FSys Nat (Vec d) Unit (LtCli (Vec d)) (LtSrv Nat (Vec d))) (N : Nat) :
    (∀ x u : Vec d, ltGdSteps (fun y => y) (3 / 8) (1 / 3) 1 x u - (3 / 4 : ℝ) • u = (-1 / 2 : ℝ) • (x - (3 / 4 : ℝ) • u)) ∧
    ∃ s', (fedLT (ltGd (pullTo fun _ => (0 : Vec d)) (3 / 8) (1 / 3) 1) (fun v _ ω => (v, ω)) (1 / 3) [1, 2] (fun c => if c = 1 then (4 : ℝ) • v else (-4 : ℝ) • v)).after
        none 0 (ideal (Vec d)) fedNet2 (fun c => if c = 0 then 0 else if c = 1 then (3 : ℝ) • v else (-3 : ℝ) • v) s N = .ok s' ∧
      s'.srv.x = 0 ∧ (s'.cli 1).x = ((-2 : ℝ) ^ N * 3) • v ∧ (s'.cli 2).x = ((-2 : ℝ) ^ N * -3) • v := by
  refine ⟨fun x u => ?_, ?_⟩
  · simp only [ltGdSteps, gdSteps]
    norm_num
    module
  · have hg : ∀ (c : Nat) (x : Vec d) (ω : Unit), pullTo (fun _ => (0 : Vec d)) c x ω = ((fun (_ : Nat) (y : Vec d) => y) c x, ω) := by intro c x ω; simp [pullTo]
    rw [ltGd_det (pullTo fun _ => (0 : Vec d)) (fun _ y => y) hg]
    suffices h : ∃ s', (fedLT (fun c x v ω => (ltGdSteps (fun y : Vec d => y) (3 / 8) (1 / 3) 1 x v, ω)) (fun v _ ω => (v, ω)) (1 / 3) [1, 2]
        (fun c => if c = 1 then (4 : ℝ) • v else (-4 : ℝ) • v)).after
        none 0 (ideal (Vec d)) fedNet2 (fun c => if c = 0 then 0 else if c = 1 then (3 : ℝ) • v else (-3 : ℝ) • v) s N = .ok s' ∧
        s'.srv.x = 0 ∧ (s'.cli 1).x = ((-2 : ℝ) ^ N * 3) • v ∧ (s'.cli 2).x = ((-2 : ℝ) ^ N * -3) • v ∧
        (s'.cli 1).z = ((-2 : ℝ) ^ N * 4) • v ∧ (s'.cli 2).z = ((-2 : ℝ) ^ N * -4) • v ∧ s'.srv.zBy 1 = (s'.cli 1).z ∧ s'.srv.zBy 2 = (s'.cli 2).z by
      obtain ⟨s', h1, h2, h3, h4, _⟩ := h
      exact ⟨s', h1, h2, h3, h4⟩
    induction N with
    | zero => exact ⟨_, Fed.after_zero _ _ _ _ _, by simp [FedAlg.initialize_, fedLT], by simp [FedAlg.initialize_, fedLT], by simp [FedAlg.initialize_, fedLT], by simp [FedAlg.initialize_, fedLT],
        by simp [FedAlg.initialize_, fedLT], by simp [FedAlg.initialize_, fedLT], by simp [FedAlg.initialize_, fedLT]⟩
    | succ N ih =>
      obtain ⟨s1, h1, _, h3, h4, h5, h6, h7, h8⟩ := ih
      obtain ⟨s2, e1, e2, e3⟩ := lt_ideal_round (fun _ x v => ltGdSteps (fun y : Vec d => y) (3 / 8) (1 / 3) 1 x v) (fun v _ => v) (1 / 3)
        (fun c => if c = 1 then (4 : ℝ) • v else (-4 : ℝ) • v) (ideal (Vec d)) fedNet2_isFed (star_fedIdeal (Vec d) _) N s1
      have hx : s2.srv.x = 0 := by
        rw [e2]
        simp only [List.map_cons, List.map_nil, List.sum_cons, List.sum_nil, h7, h8, h5, h6]
        module
      obtain ⟨a1, a2, a3⟩ := e3 1 (by simp)
      obtain ⟨b1, b2, b3⟩ := e3 2 (by simp)
      rw [hx] at a1 a2 b1 b2
      simp only [ltGdSteps, gdSteps, h3, h4, h5, h6] at a1 b1
      have a1' : (s2.cli 1).x = ((-2 : ℝ) ^ (N + 1) * 3) • v := by rw [a1, pow_succ]; norm_num; module
      have b1' : (s2.cli 2).x = ((-2 : ℝ) ^ (N + 1) * -3) • v := by rw [b1, pow_succ]; norm_num; module
      refine ⟨s2, by rw [Fed.after_succ, h1]; exact e1, hx, a1', b1', ?_, ?_, a3, b3⟩
      · rw [a2, a1', h5, pow_succ]; module
      · rw [b2, b1', h6, pow_succ]; module

/-- the number of steps for the springs, `ρ = 1`, `η = 1/2`: since `4ρm/(1+ρL)² = 1` three steps are enough -/
theorem springs_enough : EnoughSteps 1 1 (1 / 2) 1 3 := by
  unfold EnoughSteps
  have : max 0 (1 - 4 * (1 : ℝ) * 1 / (1 + 1 * 1) ^ 2) = 0 := by norm_num
  rw [this, Real.sqrt_zero]
  norm_num

/-- two clients with different data, all taking part -/
example {d : Nat} (b : Nat → Vec d) :=
  C122_default_server (n := fedNet2) (server := 0) (clients := [1, 2]) (springs_clients b _) one_pos (pullTo b) (fun _ _ _ => rfl) (by norm_num : (0 : ℝ) < 1 / 2)
    one_pos (by norm_num) 3 springs_enough (ideal (Vec d)) fedNet2_isFed (by simp) (star_fedIdeal (Vec d) _)

/-- one of them drawn at random in every round: both models and the server's converge to the mean -/
example {d : Nat} (b : Nat → Vec d) :=
  C122_uniform_selection (n := fedNet2) (server := 0) (clients := [1, 2]) (springs_clients b _) one_pos (convexOn_const 0 convex_univ) zero_proxOf (pullTo b)
    (fun _ _ _ => rfl) (by norm_num : (0 : ℝ) < 1 / 2) one_pos (by norm_num) 3 springs_enough (ideal (Vec d)) fedNet2_isFed (by simp) (star_fedIdeal (Vec d) _)
    (xs := (1 / 2 : ℝ) • (b 1 + b 2)) (fun y => by have := springs_best b y; simpa using this)
    (fun _ : Bool => 1 / 2) ⟨some 1, none⟩ 1 flip2 rfl (Or.inl ⟨1, rfl, by norm_num⟩) flip2_ok flip2_uniform

end Verif.Props
