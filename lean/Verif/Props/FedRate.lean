import Verif.Props.FedPdRate
import Mathlib.Analysis.Convex.SpecificFunctions.Deriv
import Mathlib.Topology.MetricSpace.Contracting
set_option linter.unusedSectionVars false
/-!
# C90: what FedAvg and FedProx converge to

Deterministic gradients, ideal network, no selection scheme, all clients active.
-/
namespace Verif.Props
open Verif Verif.Fed NetState Verif.Costs Verif.Consensus
open scoped InnerProductSpace

section
variable {A Ω E : Type} [DecidableEq A] [AddCommGroup E] [Module ℝ E]
variable {n : Net A} {server : A} {clients : List A}

/-- all messages arrive unchanged and all clients are always active -/
structure FedIdeal {V : Type} (w : World A V Ω) (server : A) (clients : List A) : Prop where
  up : ServerUp w server
  active : ∀ c ∈ clients, ∀ it ω, (w.isActive c it ω).1 = true
  exact_ : ∀ a ∈ server :: clients, Fed.Exact w a
  lossless : ∀ a ∈ server :: clients, Fed.Lossless w a

/-- SPEC: `K` gradient steps of size `η` on `f + μ/2 ‖· - ref‖²` -/
noncomputable def proxSteps (g : E → E) (η μ : ℝ) (ref : E) : Nat → E → E
  | 0, x => x
  | K + 1, x => proxSteps g η μ ref K (x - η • (g x + μ • (x - ref)))

/-- SPEC: the mean over the clients of `K` proximal gradient steps from `x` -/
noncomputable def meanProx (clients : List A) (g : A → E → E) (η μ : ℝ) (K : Nat) (x : E) : E :=
  (1 / (clients.length : ℝ)) • (clients.map (fun c => proxSteps (g c) η μ x K x)).sum

theorem localProx_det (G : Grad A Ω E) (g : A → E → E) (hg : ∀ c x ω, (G c x ω).1 = g c x) (η μ : ℝ) (K : Nat) (c : A) (ref : E)
    (ω : Ω) : (localProx G η μ K c ref ω).1 = proxSteps (g c) η μ ref K ref := by
  unfold localProx
  suffices h : ∀ (x : E) (ω : Ω), (iterW (fun x ω => let g := G c x ω; (x - η • (g.1 + μ • (x - ref)), g.2)) K x ω).1 =
      proxSteps (g c) η μ ref K x from h ref ω
  induction K with
  | zero => intro x ω; rfl
  | succ K ih =>
    intro x ω
    simp only [iterW, proxSteps]
    rw [← hg c x ω]
    exact ih _ _

/-- The FedProx run over an ideal network is the documented recursion. -/
theorem C90_fedprox_ideal_run (G : Grad A Ω E) (g : A → E → E) (hg : ∀ c x ω, (G c x ω).1 = g c x) (η μ : ℝ) (K : Nat)
    (w : World A E Ω) (hf : IsFed n server clients) (hcl : clients ≠ []) (hi : FedIdeal w server clients) (x0 : A → E) (s : FSys A E Ω E E) (k : Nat) :
    ∃ s', (fedProx G η μ K).after none server w n x0 s k = .ok s' ∧ s'.srv = (meanProx clients g η μ K)^[k] (x0 server) := by
  apply Fed.after_induction (n := n) (server := server) (fedProx G η μ K) none w x0 s (fun k s' =>
    s'.srv = (meanProx clients g η μ K)^[k] (x0 server))
  · rfl
  · intro k s1 ih
    obtain ⟨s', R, up, selected, P, bc, ωs, h1, h2, h3, hr, h4, h5⟩ := mean_round (fedProx G η μ K) (fun _ _ => rfl) rfl
      (fun _ _ _ _ => by simp [fedProx]) w hf hi.up none (fun f e => by cases e) k s1
    have hselall : selected = clients := hr.all_active rfl hi.active
    have hPall : ∀ c ∈ clients, c ∈ P := by
      intro c hc
      by_contra hcP
      obtain ⟨ω, hω⟩ := hr.missed c (by rw [hselall]; exact hc) hcP
      rw [hi.lossless server (by simp) ω] at hω; cases hω
    have hin : ∀ c ∈ clients, (s'.net.inbox server).get c .dflt = .ok (proxSteps (g c) η μ s1.srv K s1.srv) := by
      intro c hc
      rw [get_ok_iff]
      obtain ⟨v', ha, hn⟩ := (hr.uploads c (hPall c hc) (.dflt, (localProx G η μ K c (bc c) (ωs c)).1)
        (by simp [fedProx])).lossless (hi.lossless c (by simp [hc]))
      simp only at hn
      rw [hn, ha.exact (hi.exact_ c (by simp [hc])), localProx_det G g hg,
        (hr.heard c (hPall c hc)).exact (hi.exact_ server (by simp))]
      rfl
    have hmem : ∀ c, c ∈ R ↔ c ∈ clients := by
      intro c
      constructor
      · intro hc; exact hr.sel_client c (hr.sub c (h3 c hc))
      · intro hc; exact ((h2.iff_ c _).1 (hin c hc)).1
    have hperm : R.Perm clients := (List.perm_ext_iff_of_nodup h2.nodup (IsFed.clients_nodup hf)).2 hmem
    refine ⟨s', h1, ?_⟩
    have hRne : R ≠ [] := by
      intro e
      rw [e] at hperm
      exact hcl (List.nil_perm.1 hperm)
    rw [Function.iterate_succ_apply', ← ih, h5 hRne, hperm.length_eq, (hperm.map up).sum_eq]
    unfold meanProx
    congr 2
    apply List.map_congr_left
    intro c hc
    exact ((h2.iff_ c _).1 (hin c hc)).2.symm

end

section
variable {A Ω : Type} [DecidableEq A] {d : Nat}
variable {n : Net A} {server : A} {clients : List A}

/-- `η · m` small enough that a gradient step contracts -/
theorem gd_step_contract {f : Vec d → ℝ} {g : Vec d → Vec d} {L m t : ℝ} (hu : Upper f g L) (hl : Lower f g m) (hm : 0 < m) (hL : 0 < L)
    (ht : 0 < t) (hs : t * L ≤ 1) (x y : Vec d) : ‖(x - y) - t • (g x - g y)‖ ≤ Real.sqrt (max 0 (1 - t * m)) * ‖x - y‖ := by
  have h1 := cocoercive hL hu (hl.mono hm.le) x y
  have h2 := strong_monotone hl x y
  have h0 : 0 ≤ ⟪g x - g y, x - y⟫_ℝ := le_trans (by positivity) h1
  have h3 : ‖g x - g y‖ ^ 2 ≤ L * ⟪g x - g y, x - y⟫_ℝ := by
    have := mul_le_mul_of_nonneg_left h1 hL.le
    rwa [← mul_assoc, mul_one_div_cancel hL.ne', one_mul] at this
  have h4 : ‖(x - y) - t • (g x - g y)‖ ^ 2 ≤ max 0 (1 - t * m) * ‖x - y‖ ^ 2 := by
    rw [norm_sub_smul_sq]
    have a1 := mul_le_mul_of_nonneg_left h3 (sq_nonneg t)
    have a2 := mul_le_mul_of_nonneg_right hs (mul_nonneg ht.le h0)
    have a3 := mul_le_mul_of_nonneg_left h2 ht.le
    have a4 := mul_le_mul_of_nonneg_right (le_max_right 0 (1 - t * m)) (sq_nonneg ‖x - y‖)
    nlinarith
  rw [← Real.sqrt_sq (norm_nonneg (x - y)), ← Real.sqrt_mul (le_max_left _ _)]
  exact Real.le_sqrt_of_sq_le h4

/-- the local map of FedProx is a contraction, with the factor `(1 - ημ) q + ημ`, `q² = 1 - ηm` -/
theorem proxSteps_contract {f : Vec d → ℝ} {g : Vec d → Vec d} {L m η μ : ℝ} (hu : Upper f g L) (hl : Lower f g m) (hm : 0 < m) (hL : 0 < L)
    (hη : 0 < η) (hμ : 0 ≤ μ) (hs : η * (L + μ) ≤ 1) (K : Nat) (hK : 0 < K) (x y : Vec d) :
    ‖proxSteps g η μ x K x - proxSteps g η μ y K y‖ ≤ ((1 - η * μ) * Real.sqrt (max 0 (1 - η * m)) + η * μ) * ‖x - y‖ := by
  have hηL : 0 < η * L := by positivity
  have hemu : 0 ≤ η * μ := by positivity
  have hexp : η * (L + μ) = η * L + η * μ := by ring
  have ha : 0 < 1 - η * μ := by linarith
  set q := Real.sqrt (max 0 (1 - η * m)) with hq
  have hq0 : 0 ≤ q := Real.sqrt_nonneg _
  have hq1 : q ≤ 1 := by
    rw [hq, Real.sqrt_le_left zero_le_one, one_pow]
    exact max_le zero_le_one (by have : 0 < η * m := by positivity
                                 linarith)
  set t := η / (1 - η * μ) with ht
  have ht0 : 0 < t := by positivity
  have htL : t * L ≤ 1 := by rw [ht, div_mul_eq_mul_div, div_le_one ha]; linarith
  have htm : η * m ≤ t * m := by
    apply mul_le_mul_of_nonneg_right _ hm.le
    rw [ht, le_div_iff₀ ha]
    nlinarith
  have hone : ∀ u v : Vec d, ‖(u - η • (g u + μ • (u - x))) - (v - η • (g v + μ • (v - y)))‖ ≤ (1 - η * μ) * q * ‖u - v‖ + η * μ * ‖x - y‖ := by
    intro u v
    have e : (u - η • (g u + μ • (u - x))) - (v - η • (g v + μ • (v - y))) =
        (1 - η * μ) • ((u - v) - t • (g u - g v)) + (η * μ) • (x - y) := by
      have : (1 - η * μ) • (t • (g u - g v)) = η • (g u - g v) := by
        rw [smul_smul, ht, mul_div_cancel₀ _ ha.ne']
      have e0 : (1 - η * μ) • ((u - v) - t • (g u - g v)) = (1 - η * μ) • (u - v) - η • (g u - g v) := by rw [smul_sub (1 - η * μ) (u - v), this]
      rw [e0]; module
    have h1 := gd_step_contract hu hl hm hL ht0 htL u v
    have h2 : Real.sqrt (max 0 (1 - t * m)) ≤ q := Real.sqrt_le_sqrt (max_le_max le_rfl (by linarith))
    have h3 : ‖(u - v) - t • (g u - g v)‖ ≤ q * ‖u - v‖ := h1.trans (mul_le_mul_of_nonneg_right h2 (norm_nonneg _))
    rw [e]
    refine (norm_add_le _ _).trans ?_
    rw [norm_smul, norm_smul, Real.norm_of_nonneg ha.le, Real.norm_of_nonneg hemu]
    have := mul_le_mul_of_nonneg_left h3 ha.le
    linarith
  set Q := (1 - η * μ) * q + η * μ with hQ
  have hQ1 : Q ≤ 1 := by
    have := mul_le_mul_of_nonneg_left hq1 ha.le
    rw [hQ]; linarith
  have hQ0 : 0 ≤ Q := by positivity
  have hgen : ∀ K : Nat, ∀ u v : Vec d, ‖u - v‖ ≤ ‖x - y‖ → ‖proxSteps g η μ x (K + 1) u - proxSteps g η μ y (K + 1) v‖ ≤ Q * ‖x - y‖ := by
    intro K
    induction K with
    | zero =>
      intro u v huv
      have h1 := hone u v
      have h2 := mul_le_mul_of_nonneg_left huv (mul_nonneg ha.le hq0)
      simp only [proxSteps]
      rw [hQ, add_mul]; linarith
    | succ K ih =>
      intro u v huv
      rw [proxSteps, proxSteps]
      apply ih
      have h1 := hone u v
      have h2 := mul_le_mul_of_nonneg_left huv (mul_nonneg ha.le hq0)
      have h3 := mul_le_mul_of_nonneg_right hQ1 (norm_nonneg (x - y))
      rw [hQ, add_mul] at h3
      linarith
  obtain ⟨K', rfl⟩ := Nat.exists_eq_succ_of_ne_zero hK.ne'
  exact hgen K' x y le_rfl

theorem meanMap_sub (l : List A) (u v : A → Vec d) (r : ℝ) : r • (l.map u).sum - r • (l.map v).sum = r • (l.map (fun c => u c - v c)).sum := by
  rw [← smul_sub]
  congr 1
  induction l with
  | nil => simp
  | cons a t ih => simp only [List.map_cons, List.sum_cons, ← ih]; abel

/-- FedProx (and, with `μ = 0`, FedAvg) with any number of local steps converges linearly, from every start, to the unique model that
one round leaves unchanged. -/
theorem C90_fedprox_converges {f : A → Vec d → ℝ} {g : A → Vec d → Vec d} {L m : ℝ} (hsm : ClientsSmooth clients f g L m) (hm : 0 < m)
    (G : Grad A Ω (Vec d)) (hg : ∀ c x ω, (G c x ω).1 = g c x) (η μ : ℝ) (hη : 0 < η) (hμ : 0 ≤ μ) (hs : η * (L + μ) ≤ 1) (K : Nat) (hK : 0 < K)
    (w : World A (Vec d) Ω) (hf : IsFed n server clients) (hcl : clients ≠ []) (hi : FedIdeal w server clients) :
    ∃ xs : Vec d, (∀ y, meanProx clients g η μ K y = y ↔ y = xs) ∧ ∃ r : ℝ, 0 ≤ r ∧ r < 1 ∧
      ∀ (x0 : A → Vec d) (s : FSys A (Vec d) Ω (Vec d) (Vec d)) (k : Nat), ∃ s',
        (fedProx G η μ K).after none server w n x0 s k = .ok s' ∧ ‖s'.srv - xs‖ ≤ r ^ k * ‖x0 server - xs‖ := by
  have hηL : 0 < η * L := mul_pos hη hsm.Lpos
  have hemu : 0 ≤ η * μ := by positivity
  have hexp : η * (L + μ) = η * L + η * μ := by ring
  have ha : 0 < 1 - η * μ := by linarith
  set q := Real.sqrt (max 0 (1 - η * m)) with hq
  have hq0 : 0 ≤ q := Real.sqrt_nonneg _
  have hq1 : q < 1 := by
    rw [hq, Real.sqrt_lt' one_pos, one_pow]
    exact max_lt zero_lt_one (by have : 0 < η * m := by positivity
                                 linarith)
  set Q := (1 - η * μ) * q + η * μ with hQ
  have hQ0 : 0 ≤ Q := by positivity
  have hQ1 : Q < 1 := by
    have := mul_lt_mul_of_pos_left hq1 ha
    rw [hQ]; linarith
  have hN : (clients.length : ℝ) ≠ 0 := by
    have := List.length_pos_iff.2 hcl
    positivity
  have hM : ∀ x y, ‖meanProx clients g η μ K x - meanProx clients g η μ K y‖ ≤ Q * ‖x - y‖ := by
    intro x y
    unfold meanProx
    rw [meanMap_sub, norm_smul, Real.norm_of_nonneg (by positivity)]
    have h1 := norm_sum_le_of clients (fun c => proxSteps (g c) η μ x K x - proxSteps (g c) η μ y K y) (Q * ‖x - y‖)
      (fun c hc => proxSteps_contract (hsm.upper c hc) (hsm.lower c hc) hm hsm.Lpos hη hμ hs K hK x y)
    have := mul_le_mul_of_nonneg_left h1 (show 0 ≤ 1 / (clients.length : ℝ) by positivity)
    rwa [← mul_assoc, one_div_mul_cancel hN, one_mul] at this
  have hc : ContractingWith (Real.toNNReal Q) (meanProx clients g η μ K) := by
    refine ⟨?_, LipschitzWith.of_dist_le_mul fun x y => ?_⟩
    · rw [← NNReal.coe_lt_coe, Real.coe_toNNReal _ hQ0, NNReal.coe_one]; exact hQ1
    · rw [dist_eq_norm, dist_eq_norm, Real.coe_toNNReal _ hQ0]; exact hM x y
  have hfix := hc.fixedPoint_isFixedPt
  set xs := ContractingWith.fixedPoint (meanProx clients g η μ K) hc
  have hfix' : meanProx clients g η μ K xs = xs := hfix
  refine ⟨xs, fun y => ⟨fun hy => hc.fixedPoint_unique hy, fun hy => hy ▸ hfix'⟩, Q, hQ0, hQ1, fun x0 s k => ?_⟩
  obtain ⟨s', h1, h2⟩ := C90_fedprox_ideal_run G g hg η μ K w hf hcl hi x0 s k
  refine ⟨s', h1, ?_⟩
  rw [h2]
  clear h2 h1
  induction k with
  | zero => simp
  | succ k ih =>
    rw [Function.iterate_succ_apply']
    have h3 := hM ((meanProx clients g η μ K)^[k] (x0 server)) xs
    rw [hfix'] at h3
    refine h3.trans ?_
    rw [pow_succ' Q k, mul_assoc]
    exact mul_le_mul_of_nonneg_left ih hQ0

/-- the round map with one local step is a gradient step on the mean cost, whatever `μ` is -/
theorem meanProx_one (hcl : clients ≠ []) (g : A → Vec d → Vec d) (η μ : ℝ) (x : Vec d) :
    meanProx clients g η μ 1 x = x - η • ((1 / (clients.length : ℝ)) • (clients.map (fun c => g c x)).sum) := by
  have hN : (clients.length : ℝ) ≠ 0 := by
    have := List.length_pos_iff.2 hcl
    positivity
  unfold meanProx
  have e : ∀ l : List A, (l.map (fun c => proxSteps (g c) η μ x 1 x)).sum = (l.length : ℝ) • x - η • (l.map (fun c => g c x)).sum := by
    intro l
    have h1 : (fun c => proxSteps (g c) η μ x 1 x) = fun c => x - η • g c x := by funext c; simp [proxSteps]
    rw [h1]
    induction l with
    | nil => simp
    | cons a t ih =>
      simp only [List.map_cons, List.sum_cons, ih, List.length_cons]
      push_cast; module
  rw [e, smul_sub, smul_smul, one_div_mul_cancel hN, one_smul, smul_comm]

/-- With one local step the limit is the minimiser of the summed costs, for FedAvg and FedProx alike. -/
theorem C90_one_step_exact {f : A → Vec d → ℝ} {g : A → Vec d → Vec d} {L m : ℝ} (hsm : ClientsSmooth clients f g L m) (hm : 0 < m)
    (hcl : clients ≠ []) (η μ : ℝ) (hη : 0 < η) (xs : Vec d) : meanProx clients g η μ 1 xs = xs ↔ BestForClients clients f xs := by
  have hN : (clients.length : ℝ) ≠ 0 := by
    have := List.length_pos_iff.2 hcl
    positivity
  rw [meanProx_one hcl, best_iff hsm hm, sub_eq_self, smul_smul, smul_eq_zero]
  constructor
  · intro h
    exact h.resolve_left (mul_ne_zero hη.ne' (one_div_ne_zero hN))
  · exact Or.inr

/-- If one model minimises every client's cost, it is the limit for every number of local steps. -/
theorem C90_shared_minimiser {f : A → Vec d → ℝ} {g : A → Vec d → Vec d} {L m : ℝ} (hsm : ClientsSmooth clients f g L m) (hm : 0 < m)
    (hcl : clients ≠ []) (η μ : ℝ) (K : Nat) (xs : Vec d) (hxs : ∀ c ∈ clients, ∀ y, f c xs ≤ f c y) : meanProx clients g η μ K xs = xs := by
  have hN : (clients.length : ℝ) ≠ 0 := by
    have := List.length_pos_iff.2 hcl
    positivity
  have hz : ∀ c ∈ clients, g c xs = 0 := by
    intro c hc
    have hsub : ClientsSmooth [c] f g L m := ⟨hsm.Lpos, fun i hi => hsm.upper i (by simp at hi; exact hi ▸ hc), fun i hi => hsm.lower i (by simp at hi; exact hi ▸ hc)⟩
    have := (best_iff hsub hm xs).1 (fun y => by simpa using hxs c hc y)
    simpa using this
  have hstay : ∀ c ∈ clients, proxSteps (g c) η μ xs K xs = xs := by
    intro c hc
    induction K with
    | zero => rfl
    | succ K ih => rw [proxSteps, hz c hc, sub_self, smul_zero, add_zero, smul_zero, sub_zero, ih]
  unfold meanProx
  rw [List.map_congr_left hstay, map_const_sum, smul_smul, one_div_mul_cancel hN, one_smul]

/-- FedAvg is FedProx with `μ = 0` (C30), so with any number of local steps it converges to the model that one round leaves unchanged. -/
theorem C90_fedavg_converges {f : A → Vec d → ℝ} {g : A → Vec d → Vec d} {L m : ℝ} (hsm : ClientsSmooth clients f g L m) (hm : 0 < m)
    (G : Grad A Ω (Vec d)) (hg : ∀ c x ω, (G c x ω).1 = g c x) (η : ℝ) (hη : 0 < η) (hs : η * L ≤ 1) (K : Nat) (hK : 0 < K)
    (w : World A (Vec d) Ω) (hf : IsFed n server clients) (hcl : clients ≠ []) (hi : FedIdeal w server clients) :
    ∃ xs : Vec d, (∀ y, meanProx clients g η 0 K y = y ↔ y = xs) ∧ ∃ r : ℝ, 0 ≤ r ∧ r < 1 ∧
      ∀ (x0 : A → Vec d) (s : FSys A (Vec d) Ω (Vec d) (Vec d)) (k : Nat), ∃ s',
        (fedAvg G η K).after none server w n x0 s k = .ok s' ∧ ‖s'.srv - xs‖ ≤ r ^ k * ‖x0 server - xs‖ := by
  obtain ⟨xs, h1, r, h2, h3, h4⟩ := C90_fedprox_converges hsm hm G hg η 0 hη le_rfl (by rwa [add_zero]) K hK w hf hcl hi
  refine ⟨xs, h1, r, h2, h3, fun x0 s k => ?_⟩
  rw [← C30_fedprox_zero_is_fedavg]
  exact h4 x0 s k

end

/-! ### more than one local step on different data: the limit is wrong -/

/-- costs of two clients: `‖x‖²/2` and `‖x - v‖²` -/
noncomputable def unequal {d : Nat} (v : Vec d) (c : Nat) (x : Vec d) : ℝ := if c = 1 then 1 / 2 * ‖x‖ ^ 2 else ‖x - v‖ ^ 2

/-- their gradients -/
noncomputable def unequalGrad {d : Nat} (v : Vec d) (c : Nat) (x : Vec d) : Vec d := if c = 1 then x else (2 : ℝ) • (x - v)

theorem unequal_smooth {d : Nat} (v : Vec d) : ClientsSmooth [1, 2] (unequal v) (unequalGrad v) 2 1 := by
  have e1 : ∀ x y : Vec d, 1 / 2 * ‖y‖ ^ 2 = 1 / 2 * ‖x‖ ^ 2 + ⟪x, y - x⟫_ℝ + 1 / 2 * ‖y - x‖ ^ 2 := by
    intro x y
    have : y = x + (y - x) := by abel
    nth_rewrite 1 [this]
    rw [norm_add_sq_real]; ring
  have e2 : ∀ x y : Vec d, ‖y - v‖ ^ 2 = ‖x - v‖ ^ 2 + ⟪(2 : ℝ) • (x - v), y - x⟫_ℝ + ‖y - x‖ ^ 2 := by
    intro x y
    have : y - v = (x - v) + (y - x) := by abel
    rw [this, norm_add_sq_real, inner_smul_left, RCLike.conj_to_real]
  refine ⟨two_pos, fun i _ x y => ?_, fun i _ x y => ?_⟩
  · by_cases h : i = 1
    · simp only [unequal, unequalGrad, if_pos h]
      have := e1 x y
      nlinarith [sq_nonneg ‖y - x‖]
    · simp only [unequal, unequalGrad, if_neg h]
      have := e2 x y
      nlinarith [sq_nonneg ‖y - x‖]
  · by_cases h : i = 1
    · simp only [unequal, unequalGrad, if_pos h]
      have := e1 x y
      linarith
    · simp only [unequal, unequalGrad, if_neg h]
      have := e2 x y
      nlinarith [sq_nonneg ‖y - x‖]

theorem unequal_steps {d : Nat} (v : Vec d) (η : ℝ) (K : Nat) (ref x : Vec d) :
    proxSteps (unequalGrad v 1) η 0 ref K x = (1 - η) ^ K • x ∧ proxSteps (unequalGrad v 2) η 0 ref K x = v + (1 - 2 * η) ^ K • (x - v) := by
  induction K generalizing x with
  | zero => simp [proxSteps]
  | succ K ih =>
    constructor
    · rw [proxSteps, (ih _).1]
      simp only [unequalGrad, if_true, zero_smul, add_zero]
      rw [pow_succ]; module
    · rw [proxSteps, (ih _).2]
      simp only [unequalGrad, show (2 : Nat) ≠ 1 by decide, if_false, zero_smul, add_zero]
      rw [pow_succ]; module

/-- FedAvg with two or more local steps misses the optimum: on this problem, for every `K ≥ 2` and every step size up to `1/2`, the
minimiser of the summed costs is not left unchanged by a round, so (C90_fedavg_converges) it is not the limit. -/
theorem C90_more_steps_biased {d : Nat} (v : Vec d) (hv : v ≠ 0) (η : ℝ) (hη : 0 < η) (hs : η ≤ 1 / 2) (K : Nat) (hK : 2 ≤ K) (xs : Vec d)
    (hxs : BestForClients [1, 2] (unequal v) xs) : meanProx [1, 2] (unequalGrad v) η 0 K xs ≠ xs := by
  rw [best_iff (unequal_smooth v) one_pos] at hxs
  have hx : xs = (2 / 3 : ℝ) • v := by
    have h1 : xs + ((2 : ℝ) • (xs - v) + 0) = 0 := by simpa [unequalGrad] using hxs
    have h2 : (3 : ℝ) • xs = (2 : ℝ) • v := by
      rw [← sub_eq_zero, ← h1]; module
    have h3 := congrArg (fun u => (1 / 3 : ℝ) • u) h2
    simp only [smul_smul] at h3
    norm_num at h3
    exact h3
  intro hfix
  unfold meanProx at hfix
  simp only [List.map_cons, List.map_nil, List.sum_cons, List.sum_nil, add_zero, List.length_cons, List.length_nil] at hfix
  rw [(unequal_steps v η K xs xs).1, (unequal_steps v η K xs xs).2, hx] at hfix
  have h4 : ((2 * (1 - η) ^ K - 1 - (1 - 2 * η) ^ K) / 6) • v = 0 := by
    rw [← sub_eq_zero] at hfix
    rw [← hfix]
    push_cast
    module
  have h5 := (smul_eq_zero.1 h4).resolve_right hv
  have hconv := (strictConvexOn_pow hK).2 (show (1 : ℝ) ∈ Set.Ici 0 from Set.mem_Ici.2 zero_le_one)
    (show (1 - 2 * η) ∈ Set.Ici (0 : ℝ) from Set.mem_Ici.2 (by linarith)) (by intro h; linarith : (1 : ℝ) ≠ 1 - 2 * η)
    (show (0 : ℝ) < 1 / 2 by norm_num) (show (0 : ℝ) < 1 / 2 by norm_num) (by norm_num)
  simp only [smul_eq_mul, one_pow] at hconv
  have h6 : (1 / 2 : ℝ) * 1 + 1 / 2 * (1 - 2 * η) = 1 - η := by ring
  rw [h6] at hconv
  linarith

/-! ### concrete systems -/

theorem star_fedIdeal (V : Type) (l : List Nat) : FedIdeal (ideal V) 0 l :=
  ⟨fun _ _ => rfl, fun _ _ _ _ => rfl, fun a _ => ideal_exact V a, fun a _ => ideal_lossless V a⟩

/-- FedAvg with three local steps on the two clients with unequal costs converges to a point that is not the optimum -/
example {d : Nat} (v : Vec d) (hv : v ≠ 0) (best : Vec d) (hb : BestForClients [1, 2] (unequal v) best) :
    ∃ xs : Vec d, xs ≠ best ∧ ∃ r : ℝ, 0 ≤ r ∧ r < 1 ∧ ∀ (x0 : Nat → Vec d) (s : FSys Nat (Vec d) Unit (Vec d) (Vec d)) (k : Nat), ∃ s',
      (fedAvg (fun c x ω => (unequalGrad v c x, ω)) (1 / 4) 3).after none 0 (ideal (Vec d)) fedNet2 x0 s k = .ok s' ∧
        ‖s'.srv - xs‖ ≤ r ^ k * ‖x0 0 - xs‖ := by
  obtain ⟨xs, h1, h2⟩ := C90_fedavg_converges (n := fedNet2) (server := 0) (clients := [1, 2]) (unequal_smooth v) one_pos
    (fun c x ω => (unequalGrad v c x, ω)) (fun _ _ _ => rfl) (1 / 4) (by norm_num) (by norm_num) 3 (by norm_num) (ideal (Vec d)) fedNet2_isFed
    (by simp) (star_fedIdeal (Vec d) _)
  refine ⟨xs, fun e => ?_, h2⟩
  exact C90_more_steps_biased v hv (1 / 4) (by norm_num) (by norm_num) 3 (by norm_num) best hb ((h1 best).2 e.symm)

end Verif.Props
