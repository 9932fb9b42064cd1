import Verif.Lemmas.FedPdRate
import Verif.Props.FedPd
import Verif.Props.Rates
set_option linter.unusedSectionVars false
/-!
# C89: where FedPD stops, and how fast it gets there

Deterministic gradients, ideal network, full participation, every round communicates.
-/
namespace Verif.Props
open Verif Verif.Fed NetState Verif.Costs Verif.Consensus
open scoped InnerProductSpace

section
variable {A Ω : Type} [DecidableEq A] {d : Nat}
variable {n : Net A} {server : A} {clients : List A}

/-- SPEC: the clients' costs are differentiable with the given gradients, `L`-smooth and `m`-strongly convex (convex if `m = 0`) -/
structure ClientsSmooth (clients : List A) (f : A → Vec d → ℝ) (g : A → Vec d → Vec d) (L m : ℝ) : Prop where
  Lpos : 0 < L
  upper : ∀ i ∈ clients, ∀ x y, f i y ≤ f i x + ⟪g i x, y - x⟫_ℝ + L / 2 * ‖y - x‖ ^ 2
  lower : ∀ i ∈ clients, ∀ x y, f i x + ⟪g i x, y - x⟫_ℝ + m / 2 * ‖y - x‖ ^ 2 ≤ f i y

/-- SPEC: `xs` minimises the sum (equivalently the mean) of the clients' costs -/
def BestForClients (clients : List A) (f : A → Vec d → ℝ) (xs : Vec d) : Prop :=
  ∀ y, (clients.map (fun i => f i xs)).sum ≤ (clients.map (fun i => f i y)).sum

theorem ClientsSmooth.smooth {f : A → Vec d → ℝ} {g : A → Vec d → Vec d} {L m : ℝ} (h : ClientsSmooth clients f g L m) (hm : 0 < m) :
    Smooth (⟨clients, fun _ => [], []⟩ : Net A) f g L m := ⟨hm, h.Lpos, h.upper, h.lower⟩

theorem best_iff {f : A → Vec d → ℝ} {g : A → Vec d → Vec d} {L m : ℝ} (h : ClientsSmooth clients f g L m) (hm : 0 < m) (xs : Vec d) :
    BestForClients clients f xs ↔ (clients.map (fun i => g i xs)).sum = 0 := solves_iff (h.smooth hm) xs

/-- for convex costs, a zero of the summed gradients is a minimiser -/
theorem best_of_grad {f : A → Vec d → ℝ} {g : A → Vec d → Vec d} {L : ℝ} (h : ClientsSmooth clients f g L 0) (xs : Vec d)
    (hz : (clients.map (fun i => g i xs)).sum = 0) : BestForClients clients f xs := by
  intro y
  have key : ∀ l : List A, (∀ i ∈ l, i ∈ clients) →
      (l.map (fun i => f i xs)).sum + ⟪(l.map (fun i => g i xs)).sum, y - xs⟫_ℝ ≤ (l.map (fun i => f i y)).sum := by
    intro l
    induction l with
    | nil => intro _; simp
    | cons a t ih =>
      intro hl
      have h1 := ih (fun i hi => hl i (List.mem_cons_of_mem _ hi))
      have h2 := h.lower a (hl a List.mem_cons_self) xs y
      simp only [List.map_cons, List.sum_cons, inner_add_left]
      linarith
  have := key clients (fun _ h => h)
  rw [hz, inner_zero_left] at this
  linarith

theorem augSteps_iterate {E : Type} [AddCommGroup E] [Module ℝ E] (g : E → E) (γ η : ℝ) (lam c : E) (K : Nat) (x : E) :
    augSteps g γ η lam c K x = (fun x => x - γ • (g x + lam + (1 / η) • (x - c)))^[K] x := by
  induction K generalizing x with
  | zero => rfl
  | succ K ih => rw [augSteps, ih, Function.iterate_succ_apply]

/-- a point to which `K ≥ 1` gradient steps return is stationary -/
theorem augSteps_fixed {f : Vec d → ℝ} {g : Vec d → Vec d} {L γ η : ℝ} (hu : Upper f g L) (hl : Lower f g 0) (hL : 0 < L)
    (hγ : 0 < γ) (hη : 0 < η) (hs : γ * (L + 1 / η) ≤ 1) (lam c x : Vec d) (K : Nat) (hK : 0 < K) (hx : augSteps g γ η lam c K x = x) :
    g x + lam + (1 / η) • (x - c) = 0 := by
  rw [augSteps_iterate] at hx
  set T : Vec d → Vec d := fun x => x - γ • (g x + lam + (1 / η) • (x - c)) with hT
  have hge : γ / η < 1 := by
    have : γ * (L + 1 / η) = γ * L + γ / η := by ring
    have : 0 < γ * L := by positivity
    linarith
  have ha0 : 0 < 1 - γ / η := by linarith
  have ha1 : 1 - γ / η < 1 := by have : 0 < γ / η := by positivity
                                 linarith
  have hc : ∀ y z, ‖T y - T z‖ ^ 2 ≤ (1 - γ / η) ^ 2 * ‖y - z‖ ^ 2 := fun y z => aug_contract hu hl hL hγ hs lam c y z
  have hk : ∀ k : Nat, ‖T^[k] (T x) - T^[k] x‖ ^ 2 ≤ ((1 - γ / η) ^ 2) ^ k * ‖T x - x‖ ^ 2 := by
    intro k
    induction k with
    | zero => simp
    | succ k ih =>
      rw [Function.iterate_succ_apply', Function.iterate_succ_apply', pow_succ' ((1 - γ / η) ^ 2) k, mul_assoc]
      exact (hc _ _).trans (mul_le_mul_of_nonneg_left ih (sq_nonneg _))
  have hcomm : T^[K] (T x) = T x := by
    rw [← Function.iterate_succ_apply, Function.iterate_succ_apply', hx]
  have h1 := hk K
  rw [hcomm, hx] at h1
  have hlt : ((1 - γ / η) ^ 2) ^ K < 1 := by
    apply pow_lt_one₀ (sq_nonneg _) _ hK.ne'
    nlinarith
  have h2 : ‖T x - x‖ ^ 2 ≤ 0 := by
    by_contra hcon
    have := mul_lt_mul_of_pos_right hlt (not_le.1 hcon)
    linarith
  have h3 : ‖T x - x‖ = 0 := pow_eq_zero_iff two_ne_zero |>.1 (le_antisymm h2 (sq_nonneg _))
  have h4 : T x - x = -(γ • (g x + lam + (1 / η) • (x - c))) := by simp only [hT]; abel
  have h5 := norm_eq_zero.1 h3
  rw [h4, neg_eq_zero] at h5
  exact (smul_eq_zero.1 h5).resolve_left hγ.ne'

/-- If a round leaves all clients' variables unchanged, the system has solved the problem: all client models, all centres and the
server's model are the same minimiser of the summed costs, and every dual is minus the local gradient there. Any numbers of local
steps. -/
theorem C89_rest_is_optimal {f : A → Vec d → ℝ} {g : A → Vec d → Vec d} {L : ℝ} (hsm : ClientsSmooth clients f g L 0)
    (G : Grad A Ω (Vec d)) (hg : ∀ c x ω, (G c x ω).1 = g c x) (γ η : ℝ) (hγ : 0 < γ) (hη : 0 < η) (hs : γ * (L + 1 / η) ≤ 1)
    (K : A → Nat) (hK : ∀ c ∈ clients, 0 < K c) (coin : Ω → Bool × Ω) (w : World A (Vec d) Ω) (hf : IsFed n server clients)
    (hcl : clients ≠ []) (hi : PdIdeal w coin server clients) (k : Int) (s s' : FSys A (Vec d) Ω (PdCli (Vec d)) (Vec d))
    (hrun : pdIter G γ η K coin server w n k s = .ok s') (hrest : ∀ c ∈ clients, s'.cli c = s.cli c) :
    BestForClients clients f s'.srv ∧
      ∀ c ∈ clients, (s.cli c).x = s'.srv ∧ (s.cli c).center = s'.srv ∧ (s.cli c).lam = -(g c s'.srv) := by
  obtain ⟨s2, h1, h2, h3⟩ := pd_ideal_round G g hg γ η K coin w hf hcl hi k s
  rw [hrun] at h1
  cases h1
  have hN : (clients.length : ℝ) ≠ 0 := by
    have := List.length_pos_iff.2 hcl
    positivity
  have hcen : ∀ c ∈ clients, (s.cli c).center = s'.srv := fun c hc => by rw [← hrest c hc]; exact (h2 c hc).2.2
  have hx : ∀ c ∈ clients, (s.cli c).x = s'.srv := by
    intro c hc
    have := (h2 c hc).2.1
    rw [hrest c hc, hcen c hc] at this
    have h0 : (1 / η) • ((s.cli c).x - s'.srv) = 0 := by
      have h4 := sub_eq_zero.2 this
      rw [← neg_eq_zero, ← h4]; module
    exact sub_eq_zero.1 ((smul_eq_zero.1 h0).resolve_left (by positivity))
  have hlam : ∀ c ∈ clients, (s.cli c).lam = -(g c s'.srv) := by
    intro c hc
    have h4 := (h2 c hc).1
    rw [hrest c hc] at h4
    have h5 := augSteps_fixed (hsm.upper c hc) (hsm.lower c hc) hsm.Lpos hγ hη hs _ _ _ (K c) (hK c hc) h4.symm
    rw [hx c hc, hcen c hc, sub_self, smul_zero, add_zero] at h5
    exact eq_neg_of_add_eq_zero_right h5
  refine ⟨best_of_grad hsm _ ?_, fun c hc => ⟨hx c hc, hcen c hc, hlam c hc⟩⟩
  rw [List.map_congr_left (fun c hc => by rw [hrest c hc, hx c hc, hlam c hc] : ∀ c ∈ clients, (s'.cli c).x + η • (s'.cli c).lam =
    s'.srv + η • (-(g c s'.srv)))] at h3
  rw [map_add_smul_sum, map_const_sum, smul_add, smul_smul, one_div_mul_cancel hN, one_smul, smul_smul] at h3
  have h4 : (1 / (clients.length : ℝ) * η) • (clients.map (fun c => -(g c s'.srv))).sum = 0 := by
    have := sub_eq_zero.2 h3
    rw [← neg_eq_zero, ← this]; abel
  have h5 := (smul_eq_zero.1 h4).resolve_left (mul_ne_zero (one_div_ne_zero hN) hη.ne')
  have h6 : ∀ l : List A, (l.map (fun c => -(g c s'.srv))).sum = -(l.map (fun c => g c s'.srv)).sum := by
    intro l
    induction l with
    | nil => simp
    | cons a t ih => simp only [List.map_cons, List.sum_cons, ih]; abel
  rw [h6, neg_eq_zero] at h5
  exact h5

/-- Conversely the solved state stays: if all client models and centres are a point where the gradients sum to zero and the duals are
minus the local gradients, a round changes no client variable and puts the server's model at that point. -/
theorem C89_optimal_rests {g : A → Vec d → Vec d}
    (G : Grad A Ω (Vec d)) (hg : ∀ c x ω, (G c x ω).1 = g c x) (γ η : ℝ)
    (K : A → Nat) (coin : Ω → Bool × Ω) (w : World A (Vec d) Ω) (hf : IsFed n server clients)
    (hcl : clients ≠ []) (hi : PdIdeal w coin server clients) (k : Int) (s : FSys A (Vec d) Ω (PdCli (Vec d)) (Vec d)) (xs : Vec d)
    (hxs : (clients.map (fun i => g i xs)).sum = 0) (hs : ∀ c ∈ clients, s.cli c = ⟨xs, -(g c xs), xs⟩) :
    ∃ s', pdIter G γ η K coin server w n k s = .ok s' ∧ s'.srv = xs ∧ ∀ c ∈ clients, s'.cli c = s.cli c := by
  obtain ⟨s', h1, h2, h3⟩ := pd_ideal_round G g hg γ η K coin w hf hcl hi k s
  have hN : (clients.length : ℝ) ≠ 0 := by
    have := List.length_pos_iff.2 hcl
    positivity
  have hx : ∀ c ∈ clients, (s'.cli c).x = xs := by
    intro c hc
    rw [(h2 c hc).1, hs c hc]
    simp only
    generalize K c = m
    induction m with
    | zero => rfl
    | succ m ih =>
      rw [augSteps, sub_self, smul_zero, add_zero, add_neg_cancel, smul_zero, sub_zero, ih]
  have hlam : ∀ c ∈ clients, (s'.cli c).lam = -(g c xs) := by
    intro c hc
    rw [(h2 c hc).2.1, hx c hc, hs c hc]
    simp
  have hsrv : s'.srv = xs := by
    rw [h3, List.map_congr_left (fun c hc => by rw [hx c hc, hlam c hc, smul_neg, ← neg_smul] : ∀ c ∈ clients,
      (s'.cli c).x + η • (s'.cli c).lam = xs + (-η) • (g c xs))]
    rw [map_add_smul_sum, map_const_sum, hxs, smul_zero, add_zero, smul_smul, one_div_mul_cancel hN, one_smul]
  refine ⟨s', h1, hsrv, fun c hc => ?_⟩
  have e3 : (s'.cli c).center = xs := by rw [(h2 c hc).2.2, hsrv]
  have e4 : s'.cli c = ⟨(s'.cli c).x, (s'.cli c).lam, (s'.cli c).center⟩ := rfl
  rw [hs c hc, e4, hx c hc, hlam c hc, e3]

/-! ### the rate -/

theorem norm_sum_le_of (l : List A) (v : A → Vec d) (B : ℝ) (h : ∀ i ∈ l, ‖v i‖ ≤ B) : ‖(l.map v).sum‖ ≤ l.length * B := by
  induction l with
  | nil => simp
  | cons a t ih =>
    rw [List.map_cons, List.sum_cons, List.length_cons]
    have h1 := ih (fun i hi => h i (List.mem_cons_of_mem _ hi))
    have h2 := h a List.mem_cons_self
    have := norm_add_le (v a) (t.map v).sum
    push_cast
    linarith

/-- distance of the documented state to the optimum -/
noncomputable def pdErr (clients : List A) (g : A → Vec d → Vec d) (γ η : ℝ) (xs : Vec d) (p : PdState A (Vec d)) : ℝ :=
  (clients.map (fun i => 1 / γ * ‖p.x i - xs‖ ^ 2 + η * ‖p.lam i + g i xs‖ ^ 2)).sum

theorem pdErr_mem {g : A → Vec d → Vec d} {γ η : ℝ} (hγ : 0 < γ) (hη : 0 < η) (xs : Vec d) (p : PdState A (Vec d)) (i : A) (hi : i ∈ clients) :
    1 / γ * ‖p.x i - xs‖ ^ 2 + η * ‖p.lam i + g i xs‖ ^ 2 ≤ pdErr clients g γ η xs p := by
  unfold pdErr
  apply List.single_le_sum
  · intro v hv
    obtain ⟨j, _, rfl⟩ := List.mem_map.1 hv
    positivity
  · exact List.mem_map.2 ⟨i, hi, rfl⟩

theorem pd_contract {f : A → Vec d → ℝ} {g : A → Vec d → Vec d} {L m : ℝ} (hsm : ClientsSmooth clients f g L m) (hm : 0 < m)
    (hcl : clients ≠ []) (γ η : ℝ) (hγ : 0 < γ) (hη : 0 < η) (hs : 0 < 1 / γ - 1 / η - L) (xs : Vec d)
    (hxs : (clients.map (fun i => g i xs)).sum = 0) (p : PdState A (Vec d))
    (hp : (clients.map (fun i => p.lam i)).sum = (1 / η) • ((clients.length : ℝ) • p.c - (clients.map p.x).sum)) :
    (1 + min m (1 / γ - 1 / η - L) / (2 / γ + 2 * η * (L ^ 2 + (1 / γ - 1 / η) ^ 2))) *
      pdErr clients g γ η xs (pdDoc clients g γ η (fun _ => 1) p) ≤ pdErr clients g γ η xs p := by
  set ρ := 1 + min m (1 / γ - 1 / η - L) / (2 / γ + 2 * η * (L ^ 2 + (1 / γ - 1 / η) ^ 2)) with hρ
  have key : ∀ l : List A, (∀ i ∈ l, i ∈ clients) → ρ * pdErr l g γ η xs (pdDoc clients g γ η (fun _ => 1) p) ≤ pdErr l g γ η xs p -
      2 * ⟪(l.map (fun i => p.lam i + (1 / η) • (p.x i - p.c) + g i xs)).sum, p.c - xs⟫_ℝ := by
    intro l
    induction l with
    | nil => intro _; simp [pdErr]
    | cons a t ih =>
      intro hl
      have h1 := ih (fun i hi => hl i (List.mem_cons_of_mem _ hi))
      have ha := hl a List.mem_cons_self
      have h2 := pd_client (hsm.upper a ha) (hsm.lower a ha) hm hsm.Lpos hγ hη hs (p.x a) (p.lam a) p.c xs
      rw [← hρ] at h2
      unfold pdErr at h1 ⊢
      simp only [List.map_cons, List.sum_cons, inner_add_left, mul_add] at h1 ⊢
      simp only [inner_add_left, mul_add] at h2
      have h2' := h2
      simp only [pdDoc, augSteps] at h1 ⊢
      linarith
  have h0 := key clients (fun _ h => h)
  have hz : (clients.map (fun i => p.lam i + (1 / η) • (p.x i - p.c) + g i xs)).sum = 0 := by
    have e1 : ∀ l : List A, (l.map (fun i => p.lam i + (1 / η) • (p.x i - p.c) + g i xs)).sum =
        (l.map (fun i => p.lam i)).sum + (1 / η) • ((l.map p.x).sum - (l.length : ℝ) • p.c) + (l.map (fun i => g i xs)).sum := by
      intro l
      induction l with
      | nil => simp
      | cons a t ih => simp only [List.map_cons, List.sum_cons, ih, List.length_cons]; push_cast; module
    rw [e1, hp, hxs]; module
  rw [hz, inner_zero_left] at h0
  linarith

/-- FedPD with one local step per round, `step_size · (L + 1/penalty) < 1`, strongly convex smooth costs: every client's model and the
server's model converge linearly to the minimiser of the summed costs, and every dual to minus the local gradient there, from every
start. -/
theorem C89_linear {f : A → Vec d → ℝ} {g : A → Vec d → Vec d} {L m : ℝ} (hsm : ClientsSmooth clients f g L m) (hm : 0 < m)
    (G : Grad A Ω (Vec d)) (hg : ∀ c x ω, (G c x ω).1 = g c x) (γ η : ℝ) (hγ : 0 < γ) (hη : 0 < η) (hs : γ * (L + 1 / η) < 1)
    (coin : Ω → Bool × Ω) (w : World A (Vec d) Ω) (hf : IsFed n server clients)
    (hcl : clients ≠ []) (hi : PdIdeal w coin server clients) (xs : Vec d) (hxs : BestForClients clients f xs) :
    ∃ r : ℝ, 0 ≤ r ∧ r < 1 ∧ ∀ x0 : A → Vec d, ∃ C : ℝ, ∀ (s : FSys A (Vec d) Ω (PdCli (Vec d)) (Vec d)) (k : Nat), ∃ s',
      pdAfter G γ η (fun _ => 1) coin server w n x0 s k = .ok s' ∧ ‖s'.srv - xs‖ ^ 2 ≤ C * r ^ k ∧
      ∀ c ∈ clients, ‖(s'.cli c).x - xs‖ ^ 2 ≤ C * r ^ k ∧ ‖(s'.cli c).lam - (-(g c xs))‖ ^ 2 ≤ C * r ^ k := by
  have hs' : 0 < 1 / γ - 1 / η - L := by
    have h1 := mul_lt_mul_of_pos_left hs (show 0 < 1 / γ by positivity)
    rw [← mul_assoc, one_div_mul_cancel hγ.ne', one_mul, mul_one] at h1
    linarith
  have hgz := (best_iff hsm hm xs).1 hxs
  set κ := min m (1 / γ - 1 / η - L) / (2 / γ + 2 * η * (L ^ 2 + (1 / γ - 1 / η) ^ 2)) with hκ
  have hκ0 : 0 < κ := by
    have : 0 < min m (1 / γ - 1 / η - L) := lt_min hm hs'
    positivity
  set r := 1 / (1 + κ) with hr
  have hr0 : 0 < r := by positivity
  have hr1 : r < 1 := by rw [hr, div_lt_one (by positivity)]; linarith
  have hN : (clients.length : ℝ) ≠ 0 := by
    have := List.length_pos_iff.2 hcl
    positivity
  refine ⟨r, hr0.le, hr1, fun x0 => ?_⟩
  set p : Nat → PdState A (Vec d) := fun k => (pdDoc clients g γ η (fun _ => 1))^[k] ⟨x0, fun _ => 0, x0 server⟩ with hp
  have hps : ∀ k : Nat, p (k + 1) = pdDoc clients g γ η (fun _ => 1) (p k) := fun k => Function.iterate_succ_apply' _ _ _
  set e : Nat → ℝ := fun k => pdErr clients g γ η xs (p k) with he
  have he0 : ∀ k, 0 ≤ e k := by
    intro k
    simp only [he, pdErr]
    apply List.sum_nonneg
    intro v hv
    obtain ⟨j, _, rfl⟩ := List.mem_map.1 hv
    positivity
  have hrate : ∀ k : Nat, e (k + 1) ≤ e 1 * r ^ k := by
    intro k
    induction k with
    | zero => simp
    | succ k ih =>
      have h1 := pd_contract hsm hm hcl γ η hγ hη hs' xs hgz (p (k + 1)) (by rw [hps k]; exact (pdDoc_centre clients hcl g γ η hη.ne' _ (p k)).1)
      rw [← hps (k + 1), ← hκ] at h1
      have h2 : e (k + 1 + 1) ≤ r * e (k + 1) := by
        have := mul_le_mul_of_nonneg_left h1 hr0.le
        rw [← mul_assoc, hr, one_div_mul_cancel (by positivity), one_mul] at this
        exact this
      calc e (k + 1 + 1) ≤ r * e (k + 1) := h2
        _ ≤ r * (e 1 * r ^ k) := mul_le_mul_of_nonneg_left ih hr0.le
        _ = e 1 * r ^ (k + 1) := by ring
  have hall : ∀ k : Nat, e k ≤ (e 0 + e 1 / r) * r ^ k := by
    intro k
    cases k with
    | zero =>
      have : 0 ≤ e 1 / r := div_nonneg (he0 1) hr0.le
      simp; exact this
    | succ k =>
      have h1 := hrate k
      have h2 : e 1 * r ^ k = e 1 / r * r ^ (k + 1) := by rw [pow_succ]; field_simp
      have h3 : 0 ≤ e 0 * r ^ (k + 1) := mul_nonneg (he0 0) (by positivity)
      rw [add_mul]; linarith
  -- every quantity of interest is at most a multiple of the error
  have hx : ∀ k, ∀ c ∈ clients, ‖(p k).x c - xs‖ ^ 2 ≤ γ * e k := by
    intro k c hc
    have h1 := pdErr_mem (g := g) hγ hη xs (p k) c hc
    have h2 : 0 ≤ η * ‖(p k).lam c + g c xs‖ ^ 2 := by positivity
    have h3 : 1 / γ * ‖(p k).x c - xs‖ ^ 2 ≤ e k := by simp only [he]; linarith
    have := mul_le_mul_of_nonneg_left h3 hγ.le
    rwa [← mul_assoc, mul_one_div_cancel hγ.ne', one_mul] at this
  have hl : ∀ k, ∀ c ∈ clients, ‖(p k).lam c + g c xs‖ ^ 2 ≤ 1 / η * e k := by
    intro k c hc
    have h1 := pdErr_mem (g := g) hγ hη xs (p k) c hc
    have h2 : 0 ≤ 1 / γ * ‖(p k).x c - xs‖ ^ 2 := by positivity
    have h3 : η * ‖(p k).lam c + g c xs‖ ^ 2 ≤ e k := by simp only [he]; linarith
    have := mul_le_mul_of_nonneg_left h3 (show 0 ≤ 1 / η by positivity)
    rwa [← mul_assoc, one_div_mul_cancel hη.ne', one_mul] at this
  have hsrv : ∀ k : Nat, ‖(p (k + 1)).c - xs‖ ^ 2 ≤ 2 * (γ + η) * e (k + 1) := by
    intro k
    have hc : (p (k + 1)).c - xs = (1 / (clients.length : ℝ)) • (clients.map (fun i => ((p (k + 1)).x i - xs) + η • ((p (k + 1)).lam i + g i xs))).sum := by
      have e1 : (p (k + 1)).c = (1 / (clients.length : ℝ)) • (clients.map (fun i => (p (k + 1)).x i + η • (p (k + 1)).lam i)).sum := by
        rw [hps k]; rfl
      have e2 : ∀ l : List A, (l.map (fun i => ((p (k + 1)).x i - xs) + η • ((p (k + 1)).lam i + g i xs))).sum =
          (l.map (fun i => (p (k + 1)).x i + η • (p (k + 1)).lam i)).sum + η • (l.map (fun i => g i xs)).sum - (l.length : ℝ) • xs := by
        intro l
        induction l with
        | nil => simp
        | cons a t ih => simp only [List.map_cons, List.sum_cons, ih, List.length_cons]; push_cast; module
      rw [e1, e2, hgz, smul_zero, add_zero, smul_sub, smul_smul, one_div_mul_cancel hN, one_smul]
    set B := Real.sqrt (2 * (γ + η) * e (k + 1)) with hB
    have hB0 : 0 ≤ 2 * (γ + η) * e (k + 1) := mul_nonneg (by positivity) (he0 _)
    have hterm : ∀ i ∈ clients, ‖((p (k + 1)).x i - xs) + η • ((p (k + 1)).lam i + g i xs)‖ ≤ B := by
      intro i hi'
      apply Real.le_sqrt_of_sq_le
      have h1 := parallelogram_law_with_norm ℝ ((p (k + 1)).x i - xs) (η • ((p (k + 1)).lam i + g i xs))
      have h2 : ‖η • ((p (k + 1)).lam i + g i xs)‖ ^ 2 = η ^ 2 * ‖(p (k + 1)).lam i + g i xs‖ ^ 2 := by
        rw [norm_smul, mul_pow, Real.norm_eq_abs, sq_abs]
      have h3 := hx (k + 1) i hi'
      have h4 := mul_le_mul_of_nonneg_left (hl (k + 1) i hi') (sq_nonneg η)
      have h5 : η ^ 2 * (1 / η * e (k + 1)) = η * e (k + 1) := by field_simp
      nlinarith [sq_nonneg ‖(p (k + 1)).x i - xs - η • ((p (k + 1)).lam i + g i xs)‖]
    have h1 := norm_sum_le_of clients _ B hterm
    have h2 : ‖(p (k + 1)).c - xs‖ ≤ B := by
      rw [hc, norm_smul, Real.norm_of_nonneg (by positivity)]
      have := mul_le_mul_of_nonneg_left h1 (show 0 ≤ 1 / (clients.length : ℝ) by positivity)
      rwa [← mul_assoc, one_div_mul_cancel hN, one_mul] at this
    calc ‖(p (k + 1)).c - xs‖ ^ 2 ≤ B ^ 2 := pow_le_pow_left₀ (norm_nonneg _) h2 2
      _ = 2 * (γ + η) * e (k + 1) := Real.sq_sqrt hB0
  set M := e 0 + e 1 / r with hM
  have hM0 : 0 ≤ M := add_nonneg (he0 0) (div_nonneg (he0 1) hr0.le)
  set C := ‖x0 server - xs‖ ^ 2 + (2 * (γ + η) + 1 / η) * M with hC
  have hle : ∀ a : ℝ, 0 ≤ a → a ≤ 2 * (γ + η) + 1 / η → ∀ k, a * e k ≤ C * r ^ k := by
    intro a ha hab k
    calc a * e k ≤ a * (M * r ^ k) := mul_le_mul_of_nonneg_left (hall k) ha
      _ ≤ (2 * (γ + η) + 1 / η) * (M * r ^ k) := mul_le_mul_of_nonneg_right hab (mul_nonneg hM0 (by positivity))
      _ = (2 * (γ + η) + 1 / η) * M * r ^ k := by ring
      _ ≤ C * r ^ k := by
        apply mul_le_mul_of_nonneg_right _ (by positivity)
        rw [hC]; linarith [sq_nonneg ‖x0 server - xs‖]
  have hinv : 0 < 1 / η := by positivity
  refine ⟨C, fun s k => ?_⟩
  obtain ⟨s', h1, h2, h3⟩ := C88_ideal_run G g hg γ η (fun _ => 1) coin w hf hcl hi x0 s k
  refine ⟨s', h1, ?_, fun c hc => ⟨?_, ?_⟩⟩
  · rw [h2]
    change ‖(p k).c - xs‖ ^ 2 ≤ _
    cases k with
    | zero =>
      have : (p 0).c = x0 server := rfl
      rw [this, pow_zero, mul_one, hC]
      have : 0 ≤ (2 * (γ + η) + 1 / η) * M := mul_nonneg (by positivity) hM0
      linarith
    | succ k => exact (hsrv k).trans (hle _ (by positivity) (by linarith) _)
  · rw [h3 c hc]
    exact (hx k c hc).trans (hle _ hγ.le (by linarith) _)
  · rw [h3 c hc, sub_neg_eq_add]
    exact (hl k c hc).trans (hle _ hinv.le (by linarith) _)

end

/-! ### a concrete system -/

/-- the oracle of the costs `‖x - b_c‖²/2` -/
noncomputable def pullTo {d : Nat} (b : Nat → Vec d) : Grad Nat Unit (Vec d) := fun c x ω => (x - b c, ω)

theorem springs_clients {d : Nat} (b : Nat → Vec d) (l : List Nat) : ClientsSmooth l (springs b) (fun i x => x - b i) 1 1 := by
  have e : ∀ (i : Nat) (x y : Vec d), springs b i y = springs b i x + ⟪x - b i, y - x⟫_ℝ + 1 / 2 * ‖y - x‖ ^ 2 := by
    intro i x y
    have : y - b i = (x - b i) + (y - x) := by abel
    unfold springs
    rw [this, norm_add_sq_real]; ring
  exact ⟨one_pos, fun i _ x y => (e i x y).le, fun i _ x y => (e i x y).ge⟩

theorem springs_best {d : Nat} (b : Nat → Vec d) : BestForClients [1, 2] (springs b) ((1 / 2 : ℝ) • (b 1 + b 2)) := by
  rw [best_iff (springs_clients b _) one_pos]
  show (1 / 2 : ℝ) • (b 1 + b 2) - b 1 + ((1 / 2 : ℝ) • (b 1 + b 2) - b 2 + 0) = 0
  module

/-- two clients with different data: FedPD finds the mean -/
example {d : Nat} (b : Nat → Vec d) :=
  C89_linear (n := fedNet2) (server := 0) (clients := [1, 2]) (springs_clients b _) one_pos (pullTo b) (fun _ _ _ => rfl) (1 / 3) 1 (by norm_num)
    one_pos (by norm_num) alwaysTalk (ideal (Vec d)) fedNet2_isFed (by simp) (star_pdIdeal (Vec d) _) _ (springs_best b)

/-- the resting state of that system -/
example {d : Nat} (b : Nat → Vec d) (s : FSys Nat (Vec d) Unit (PdCli (Vec d)) (Vec d))
    (hs : ∀ c ∈ ([1, 2] : List Nat), s.cli c = ⟨(1 / 2 : ℝ) • (b 1 + b 2), -((1 / 2 : ℝ) • (b 1 + b 2) - b c), (1 / 2 : ℝ) • (b 1 + b 2)⟩) :=
  C89_optimal_rests (n := fedNet2) (server := 0) (clients := [1, 2]) (pullTo b) (fun _ _ _ => rfl) (1 / 3) 1 (fun _ => 5) alwaysTalk
    (ideal (Vec d)) fedNet2_isFed (by simp) (star_pdIdeal (Vec d) _) 0 s _ ((best_iff (springs_clients b _) one_pos _).1 (springs_best b)) hs

end Verif.Props
