import Verif.Props.FedRate
import Verif.Props.FedMore
import Verif.Lemmas.FedRest
set_option linter.unusedSectionVars false
/-!
# C91-C93: where SCAFFOLD, FedDyn and Fed-LT stop, and what a lost message does to it

Deterministic gradients, ideal rounds, no selection scheme, all clients active. A round is `iter`, a run from any state is
a fold of `iter` over iteration numbers.
-/
namespace Verif.Props
open Verif Verif.Fed NetState Verif.Costs Verif.Consensus
open scoped InnerProductSpace

section
variable {A Ω E : Type} [DecidableEq A] [AddCommGroup E] [Module ℝ E]
variable {n : Net A} {server : A} {clients : List A}

theorem gdSteps_iterate (g : E → E) (η : ℝ) (K : Nat) (x : E) : gdSteps g η K x = (fun y => y - η • g y)^[K] x := by
  induction K generalizing x with
  | zero => rfl
  | succ K ih => rw [gdSteps, ih, Function.iterate_succ_apply]

theorem iterW_det (f : E → E) (F : E → Ω → E × Ω) (h : ∀ x ω, (F x ω).1 = f x) (K : Nat) (x : E) (ω : Ω) : (iterW F K x ω).1 = f^[K] x := by
  induction K generalizing x ω with
  | zero => rfl
  | succ K ih =>
    rw [iterW, Function.iterate_succ_apply, ← h x ω]
    exact ih _ _

theorem map_sum_sub (l : List A) (u v : A → E) : (l.map (fun c => u c - v c)).sum = (l.map u).sum - (l.map v).sum := by
  induction l with
  | nil => simp
  | cons a t ih => simp only [List.map_cons, List.sum_cons, ih]; abel

theorem map_sum_smul (l : List A) (u : A → E) (r : ℝ) : (l.map (fun c => r • u c)).sum = r • (l.map u).sum := by
  induction l with
  | nil => simp
  | cons a t ih => simp only [List.map_cons, List.sum_cons, ih, smul_add]

/-- SPEC: the local result of SCAFFOLD: `K` steps along `∇f - c_i + c` -/
noncomputable def scafLocal (g : E → E) (η : ℝ) (K : Nat) (ci c x : E) : E := gdSteps (fun y => g y - ci + c) η K x

/-- one ideal SCAFFOLD round -/
theorem scaf_ideal_round (G : Grad A Ω E) (g : A → E → E) (hg : ∀ c x ω, (G c x ω).1 = g c x) (η ηg : ℝ) (K : Nat) (c0 : A → E)
    (w : World A (Arr E) Ω) (hf : IsFed n server clients) (hi : FedIdeal w server clients) (k : Int) (s : FSys A (Arr E) Ω (ScafCli E) (ScafSrv E)) :
    ∃ s', iter (scaffold G η ηg K c0 server) none server w n k s = .ok s' ∧
      (∀ c ∈ clients, (s'.cli c).x = scafLocal (g c) η K (s.cli c).c_i s.srv.c s.srv.x ∧
        (s'.cli c).c_i = (s.cli c).c_i - s.srv.c + (1 / ((K : ℝ) * η)) • (s.srv.x - (s'.cli c).x)) ∧
      s'.srv.x = s.srv.x + ηg • (1 / (clients.length : ℝ)) • (clients.map (fun c => (s'.cli c).x - s.srv.x)).sum ∧
      s'.srv.c = s.srv.c + (1 / (clients.length : ℝ)) • (clients.map (fun c => (s'.cli c).c_i - (s.cli c).c_i)).sum := by
  obtain ⟨s', R, selected, P, bc, ωs, h1, hr, hnd, hRP, hiff, hc, hx⟩ := scaf_round G η ηg K c0 w hf hi.up
    (fun c h => hi.exact_ c (by simp [h])) none (fun f e => by cases e) k s
  have hsel : selected = clients := hr.all_active rfl hi.active
  have hP : ∀ c ∈ clients, c ∈ P := by
    intro c hc
    by_contra hcP
    obtain ⟨ω, hω⟩ := hr.missed c (by rw [hsel]; exact hc) hcP
    rw [hi.lossless server (by simp) ω] at hω; cases hω
  have hbc : ∀ c ∈ clients, bc c = Arr.stack s.srv.x s.srv.c := fun c hc => (hr.heard c (hP c hc)).exact (hi.exact_ server (by simp))
  have hR : ∀ c, c ∈ R ↔ c ∈ clients := by
    intro c
    constructor
    · intro h; exact hr.sel_client c (hr.sub c (hRP c h))
    · intro h
      rw [hiff, uploaded_iff, uploaded_iff]
      have hl := hi.lossless c (by simp [h])
      constructor
      · obtain ⟨v, _, hv⟩ := (hr.uploads c (hP c h) (.modelDelta, _) (by simp [scaffold]; rfl)).lossless hl
        simp only at hv; rw [hv]; rfl
      · obtain ⟨v, _, hv⟩ := (hr.uploads c (hP c h) (.controlDelta, _) (by simp [scaffold]; rfl)).lossless hl
        simp only at hv; rw [hv]; rfl
  have hperm : R.Perm clients := (List.perm_ext_iff_of_nodup hnd hf.clients_nodup).2 hR
  refine ⟨s', h1, fun c hcc => ?_, ?_, ?_⟩
  · have hx1 : (s'.cli c).x = scafLocal (g c) η K (s.cli c).c_i s.srv.c s.srv.x := by
      rw [hr.cli c, if_pos (hP c hcc)]
      simp only [scaffold, hbc c hcc, Arr.stack, localScaffold, scafLocal]
      rw [gdSteps_iterate]
      exact iterW_det _ _ (fun x ω => by simp only [hg]) K _ _
    refine ⟨hx1, ?_⟩
    rw [hr.cli c, if_pos (hP c hcc)]
    simp only [scaffold, hbc c hcc, Arr.stack]
  · rw [hx, hperm.length_eq, (hperm.map _).sum_eq]
    congr 4
    exact List.map_congr_left fun c hcc => by rw [hbc c hcc]; rfl
  · rw [hc, (hperm.map _).sum_eq]

/-- one ideal FedDyn round -/
theorem dyn_ideal_round (G : Grad A Ω E) (g : A → E → E) (hg : ∀ c x ω, (G c x ω).1 = g c x) (η α : ℝ) (K : Nat)
    (w : World A E Ω) (hf : IsFed n server clients) (hcl : clients ≠ []) (hi : FedIdeal w server clients) (k : Int) (s : FSys A E Ω (DynCli E) (DynSrv E)) :
    ∃ s', iter (fedDyn G η α K) none server w n k s = .ok s' ∧
      (∀ c ∈ clients, (s'.cli c).x = gdSteps (fun y => g c y - (s.cli c).g + α • (y - s.srv.x)) η K s.srv.x ∧
        (s'.cli c).g = (s.cli c).g - α • ((s'.cli c).x - s.srv.x)) ∧
      s'.srv.h = s.srv.h + (1 / (clients.length : ℝ)) • (clients.map (fun c => (s'.cli c).g - (s.cli c).g)).sum ∧
      s'.srv.x = (1 / (clients.length : ℝ)) • (clients.map (fun c => (s'.cli c).x)).sum - (1 / α) • s'.srv.h := by
  obtain ⟨s', R, selected, P, bc, ωs, h1, hr, hnd, hRP, hiff, hc, hgP, hx, _⟩ := dyn_round G η α K w hf hi.up hi.exact_ none
    (fun f e => by cases e) k s
  have hsel : selected = clients := hr.all_active rfl hi.active
  have hP : ∀ c ∈ clients, c ∈ P := by
    intro c hc
    by_contra hcP
    obtain ⟨ω, hω⟩ := hr.missed c (by rw [hsel]; exact hc) hcP
    rw [hi.lossless server (by simp) ω] at hω; cases hω
  have hbc : ∀ c ∈ clients, bc c = s.srv.x := fun c hc => (hr.heard c (hP c hc)).exact (hi.exact_ server (by simp))
  have hR : ∀ c, c ∈ R ↔ c ∈ clients := by
    intro c
    constructor
    · intro h; exact hr.sel_client c (hr.sub c (hRP c h))
    · intro h
      rw [hiff, uploaded_iff]
      obtain ⟨v, _, hv⟩ := (hr.uploads c (hP c h) (.dflt, _) (by simp [fedDyn]; rfl)).lossless (hi.lossless c (by simp [h]))
      simp only at hv; rw [hv]; rfl
  have hperm : R.Perm clients := (List.perm_ext_iff_of_nodup hnd hf.clients_nodup).2 hR
  have hRne : R ≠ [] := by
    intro e
    rw [e] at hperm
    exact hcl (List.nil_perm.1 hperm)
  refine ⟨s', h1, fun c hcc => ⟨?_, hgP c (hP c hcc)⟩, ?_, ?_⟩
  · rw [hr.cli c, if_pos (hP c hcc)]
    simp only [fedDyn, hbc c hcc, localDyn]
    rw [gdSteps_iterate]
    exact iterW_det _ _ (fun x ω => by simp only [hg]) K _ _
  · rw [hc, (hperm.map _).sum_eq]
  · rw [hx hRne, hperm.length_eq, (hperm.map _).sum_eq]

/-- one ideal Fed-LT round (the server stores what the clients hold) -/
theorem lt_ideal_round (solve : A → E → E → E) (prox : E → ℝ → E) (ρ : ℝ) (z0 : A → E)
    (w : World A E Ω) (hf : IsFed n server clients) (hi : FedIdeal w server clients) (k : Int) (s : FSys A E Ω (LtCli E) (LtSrv A E)) :
    ∃ s', iter (fedLT (fun c x v ω => (solve c x v, ω)) (fun v r ω => (prox v r, ω)) ρ clients z0) none server w n k s = .ok s' ∧
      s'.srv.x = prox ((1 / (clients.length : ℝ)) • (clients.map s.srv.zBy).sum) (ρ / clients.length) ∧
      ∀ c ∈ clients, (s'.cli c).x = solve c (s.cli c).x ((2 : ℝ) • s'.srv.x - (s.cli c).z) ∧
        (s'.cli c).z = (s.cli c).z + (2 : ℝ) • ((s'.cli c).x - s'.srv.x) ∧ s'.srv.zBy c = (s'.cli c).z := by
  obtain ⟨s', selected, P, bc, ωs, h1, hr, hx, hz⟩ := lt_round (fun c x v ω => (solve c x v, ω)) (fun v r ω => (prox v r, ω)) ρ z0 w hf hi.up none
    (fun f e => by cases e) k s
  have hsel : selected = clients := hr.all_active rfl hi.active
  have hP : ∀ c ∈ clients, c ∈ P := by
    intro c hc
    by_contra hcP
    obtain ⟨ω, hω⟩ := hr.missed c (by rw [hsel]; exact hc) hcP
    rw [hi.lossless server (by simp) ω] at hω; cases hω
  refine ⟨s', h1, hx, fun c hcc => ?_⟩
  have hbc : bc c = s'.srv.x := by
    rw [hx]
    exact (hr.heard c (hP c hcc)).exact (hi.exact_ server (by simp))
  have hcli := hr.cli c
  rw [if_pos (hP c hcc)] at hcli
  refine ⟨by rw [hcli]; simp only [fedLT, hbc], by rw [hcli]; simp only [fedLT, hbc], ?_⟩
  obtain ⟨v, ha, hv⟩ := (hr.uploads c (hP c hcc) (.dflt, _) (by simp [fedLT]; rfl)).lossless (hi.lossless c (by simp [hcc]))
  simp only at hv
  rw [hz, hv, Option.getD_some, ha.exact (hi.exact_ c (by simp [hcc])), hcli]
  rfl

end

section
variable {A Ω : Type} [DecidableEq A] {d : Nat}
variable {n : Net A} {server : A} {clients : List A}

/-- SPEC: mean of the clients' gradients -/
noncomputable def meanGrad (clients : List A) (g : A → Vec d → Vec d) (x : Vec d) : Vec d :=
  (1 / (clients.length : ℝ)) • (clients.map (fun c => g c x)).sum

theorem meanGrad_tilt {f : A → Vec d → ℝ} {g : A → Vec d → Vec d} {L m : ℝ} (hsm : ClientsSmooth clients f g L m) (hm : 0 < m) (hcl : clients ≠ [])
    (δ : Vec d) : ∃ F : Vec d → ℝ, Upper F (fun x => meanGrad clients g x + δ) L ∧ Lower F (fun x => meanGrad clients g x + δ) m := by
  have hN : (0 : ℝ) < clients.length := by exact_mod_cast List.length_pos_iff.2 hcl
  have hb := netSum_bounds (hsm.smooth hm)
  refine ⟨fun x => (1 / (clients.length : ℝ)) * (clients.map (fun i => f i x)).sum + ⟪δ, x⟫_ℝ, fun x y => ?_, fun x y => ?_⟩
  · have h := mul_le_mul_of_nonneg_left (hb.1 x y) (one_div_pos.2 hN).le
    simp only [meanGrad, inner_add_left, inner_smul_left, RCLike.conj_to_real, inner_sub_right]
    simp only [inner_sub_right] at h
    have e : (1 / (clients.length : ℝ)) * ((clients.length * L) / 2 * ‖y - x‖ ^ 2) = L / 2 * ‖y - x‖ ^ 2 := by field_simp
    rw [mul_add, mul_add, e] at h
    linarith
  · have h := mul_le_mul_of_nonneg_left (hb.2 x y) (one_div_pos.2 hN).le
    simp only [meanGrad, inner_add_left, inner_smul_left, RCLike.conj_to_real, inner_sub_right]
    simp only [inner_sub_right] at h
    have e : (1 / (clients.length : ℝ)) * ((clients.length * m) / 2 * ‖y - x‖ ^ 2) = m / 2 * ‖y - x‖ ^ 2 := by field_simp
    rw [mul_add, mul_add, e] at h
    linarith

theorem meanGrad_zero_iff (hcl : clients ≠ []) (g : A → Vec d → Vec d) (x : Vec d) :
    meanGrad clients g x = 0 ↔ (clients.map (fun c => g c x)).sum = 0 := by
  have hN : (clients.length : ℝ) ≠ 0 := by
    have := List.length_pos_iff.2 hcl
    positivity
  unfold meanGrad
  rw [smul_eq_zero, or_iff_right (one_div_ne_zero hN)]

/-! ## C91: SCAFFOLD -/

/-- If an ideal SCAFFOLD round leaves the server's model and the clients' control variates unchanged, then the server's control variate is
zero, the control variates are the local gradients, and the mean gradient is minus the discrepancy between the server's control variate and
the mean of the clients' (zero unless an upload was lost, C32). Any number of local steps; smooth, possibly non-convex costs. -/
theorem C91_scaffold_rest (f : A → Vec d → ℝ) (g : A → Vec d → Vec d) (L : ℝ) (hu : ∀ c ∈ clients, Upper (f c) (g c) L)
    (G : Grad A Ω (Vec d)) (hg : ∀ c x ω, (G c x ω).1 = g c x) (η ηg : ℝ) (hη : 0 < η) (hs : η * L < 2) (hηg : 0 < ηg) (K : Nat) (hK : 0 < K)
    (c0 : A → Vec d) (w : World A (Arr (Vec d)) Ω) (hf : IsFed n server clients) (hcl : clients ≠ []) (hi : FedIdeal w server clients) (k : Int)
    (s s' : FSys A (Arr (Vec d)) Ω (ScafCli (Vec d)) (ScafSrv (Vec d)))
    (hrun : iter (scaffold G η ηg K c0 server) none server w n k s = .ok s') (hx : s'.srv.x = s.srv.x)
    (hc : ∀ c ∈ clients, (s'.cli c).c_i = (s.cli c).c_i) :
    s.srv.c = 0 ∧ (∀ c ∈ clients, g c s.srv.x = (s.cli c).c_i ∧ (s'.cli c).x = s.srv.x) ∧ meanGrad clients g s.srv.x = -scafDrift clients s := by
  obtain ⟨s'', h1, h2, h3, _⟩ := scaf_ideal_round G g hg η ηg K c0 w hf hi k s
  rw [hrun] at h1
  cases h1
  have hN : (clients.length : ℝ) ≠ 0 := by
    have := List.length_pos_iff.2 hcl
    positivity
  have hKη : (K : ℝ) * η ≠ 0 := by positivity
  have hy : ∀ c ∈ clients, (s'.cli c).x - s.srv.x = -(((K : ℝ) * η) • s.srv.c) := by
    intro c hcc
    have h4 := (h2 c hcc).2
    rw [hc c hcc] at h4
    have h5 : (1 / ((K : ℝ) * η)) • (s.srv.x - (s'.cli c).x) = s.srv.c := by
      have : (s.cli c).c_i + ((1 / ((K : ℝ) * η)) • (s.srv.x - (s'.cli c).x) - s.srv.c) = (s.cli c).c_i := by
        rw [eq_comm]; rw [eq_comm] at h4
        nth_rewrite 1 [← h4]; abel
      have := add_eq_left.1 this
      exact sub_eq_zero.1 this
    rw [← h5, smul_smul, mul_one_div_cancel hKη, one_smul, neg_sub]
  have hc0 : s.srv.c = 0 := by
    rw [hx, List.map_congr_left hy, map_const_sum, smul_smul (1 / (clients.length : ℝ)), one_div_mul_cancel hN, one_smul] at h3
    have h4 := left_eq_add.1 h3
    have h5 := (smul_eq_zero.1 h4).resolve_left hηg.ne'
    exact (smul_eq_zero.1 (neg_eq_zero.1 h5)).resolve_left hKη
  have hyx : ∀ c ∈ clients, (s'.cli c).x = s.srv.x := by
    intro c hcc
    have := hy c hcc
    rwa [hc0, smul_zero, neg_zero, sub_eq_zero] at this
  have hgr : ∀ c ∈ clients, g c s.srv.x = (s.cli c).c_i := by
    intro c hcc
    have h4 := (h2 c hcc).1
    rw [hyx c hcc, scafLocal, gdSteps_iterate] at h4
    have h5 := gd_return (tilt_upper (hu c hcc) (-(s.cli c).c_i + s.srv.c) 0 0) hη (by rwa [add_zero]) K hK s.srv.x (by
      simp only [zero_smul, add_zero, ← add_assoc, ← sub_eq_add_neg]
      exact h4.symm)
    rw [hc0] at h5
    simp only [add_zero, zero_smul] at h5
    exact add_neg_eq_zero.1 h5
  refine ⟨hc0, fun c hcc => ⟨hgr c hcc, hyx c hcc⟩, ?_⟩
  rw [meanGrad, scafDrift, hc0, List.map_congr_left hgr, zero_sub, neg_neg]

/-- In runs that lose no upload, started from consistent control variates (as by default), SCAFFOLD stops only at a minimiser of the
summed costs, whatever happened to broadcasts and whoever took part before. -/
theorem C91_scaffold_stops_at_optimum (f : A → Vec d → ℝ) (g : A → Vec d → Vec d) (L : ℝ) (hsm : ClientsSmooth clients f g L 0)
    (G : Grad A Ω (Vec d)) (hg : ∀ c x ω, (G c x ω).1 = g c x) (η ηg : ℝ) (hη : 0 < η) (hs : η * L < 2) (hηg : 0 < ηg) (K : Nat) (hK : 0 < K)
    (c0 : A → Vec d) (hc0 : c0 server = (1 / (clients.length : ℝ)) • (clients.map c0).sum) (w0 w : World A (Arr (Vec d)) Ω)
    (hf : IsFed n server clients) (hcl : clients ≠ []) (hup : ServerUp w0 server) (hex : ∀ c ∈ clients, Fed.Exact w0 c ∧ Fed.Lossless w0 c)
    (sel : Select A Ω) (hsel : SelOK sel) (hi : FedIdeal w server clients) (x0 : A → Arr (Vec d))
    (s s1 s2 : FSys A (Arr (Vec d)) Ω (ScafCli (Vec d)) (ScafSrv (Vec d))) (k : Nat) (it : Int)
    (h1 : (scaffold G η ηg K c0 server).after sel server w0 n x0 s k = .ok s1)
    (h2 : iter (scaffold G η ηg K c0 server) none server w n it s1 = .ok s2) (hx : s2.srv.x = s1.srv.x)
    (hc : ∀ c ∈ clients, (s2.cli c).c_i = (s1.cli c).c_i) : BestForClients clients f s1.srv.x := by
  obtain ⟨s1', e1, e2⟩ := C32_consistent G η ηg K c0 hc0 w0 hf hup hex sel hsel x0 s k
  rw [h1] at e1
  cases e1
  obtain ⟨_, _, h3⟩ := C91_scaffold_rest f g L hsm.upper G hg η ηg hη hs hηg K hK c0 w hf hcl hi it s1 s2 h2 hx hc
  rw [scafDrift, e2, sub_self, neg_zero, meanGrad_zero_iff hcl] at h3
  exact best_of_grad hsm _ h3

/-- Conversely a state with zero server control variate, control variates equal to the local gradients at the server's model and summed
gradient zero is left unchanged. -/
theorem C91_scaffold_optimum_rests (g : A → Vec d → Vec d)
    (G : Grad A Ω (Vec d)) (hg : ∀ c x ω, (G c x ω).1 = g c x) (η ηg : ℝ) (K : Nat)
    (c0 : A → Vec d) (w : World A (Arr (Vec d)) Ω) (hf : IsFed n server clients) (hi : FedIdeal w server clients) (k : Int)
    (s : FSys A (Arr (Vec d)) Ω (ScafCli (Vec d)) (ScafSrv (Vec d))) (hc : s.srv.c = 0) (hci : ∀ c ∈ clients, (s.cli c).c_i = g c s.srv.x) :
    ∃ s', iter (scaffold G η ηg K c0 server) none server w n k s = .ok s' ∧ s'.srv = s.srv ∧
      ∀ c ∈ clients, (s'.cli c).x = s.srv.x ∧ (s'.cli c).c_i = (s.cli c).c_i := by
  obtain ⟨s', h1, h2, h3, h4⟩ := scaf_ideal_round G g hg η ηg K c0 w hf hi k s
  have hx : ∀ c ∈ clients, (s'.cli c).x = s.srv.x := by
    intro c hcc
    rw [(h2 c hcc).1, scafLocal, gdSteps_iterate]
    exact Function.iterate_fixed (by simp [hci c hcc, hc]) K
  have hcc' : ∀ c ∈ clients, (s'.cli c).c_i = (s.cli c).c_i := by
    intro c hcc
    rw [(h2 c hcc).2, hx c hcc, hc]; simp
  have hz : ∀ u : A → Vec d, (∀ c ∈ clients, u c = 0) → (clients.map u).sum = 0 := by
    intro u hu
    apply List.sum_eq_zero
    intro x hx
    obtain ⟨c, hcm, rfl⟩ := List.mem_map.1 hx
    exact hu c hcm
  refine ⟨s', h1, ?_, fun c hcc => ⟨hx c hcc, hcc' c hcc⟩⟩
  have e1 : s'.srv.x = s.srv.x := by rw [h3, hz _ (fun c hcc => by rw [hx c hcc, sub_self])]; simp
  have e2 : s'.srv.c = s.srv.c := by rw [h4, hz _ (fun c hcc => by rw [hcc' c hcc, sub_self])]; simp
  cases h : s'.srv; cases h' : s.srv; simp_all

/-- With one local step an ideal SCAFFOLD round is a gradient step of size `step_size * server_step_size` on the mean cost, tilted by the
discrepancy `c - mean c_i`; the new control variates are the gradients. -/
theorem C91_scaffold_one_step (g : A → Vec d → Vec d)
    (G : Grad A Ω (Vec d)) (hg : ∀ c x ω, (G c x ω).1 = g c x) (η ηg : ℝ) (hη : η ≠ 0)
    (c0 : A → Vec d) (w : World A (Arr (Vec d)) Ω) (hf : IsFed n server clients) (hcl : clients ≠ []) (hi : FedIdeal w server clients) (k : Int)
    (s : FSys A (Arr (Vec d)) Ω (ScafCli (Vec d)) (ScafSrv (Vec d))) :
    ∃ s', iter (scaffold G η ηg 1 c0 server) none server w n k s = .ok s' ∧
      s'.srv.x = s.srv.x - (ηg * η) • (meanGrad clients g s.srv.x + scafDrift clients s) ∧
      (∀ c ∈ clients, (s'.cli c).c_i = g c s.srv.x) ∧ scafDrift clients s' = scafDrift clients s := by
  obtain ⟨s', h1, h2, h3, h4⟩ := scaf_ideal_round G g hg η ηg 1 c0 w hf hi k s
  have hN : (clients.length : ℝ) ≠ 0 := by
    have := List.length_pos_iff.2 hcl
    positivity
  have hx : ∀ c ∈ clients, (s'.cli c).x - s.srv.x = -(η • (g c s.srv.x - (s.cli c).c_i + s.srv.c)) := by
    intro c hcc
    rw [(h2 c hcc).1]
    simp only [scafLocal, gdSteps]
    abel
  have hci : ∀ c ∈ clients, (s'.cli c).c_i = g c s.srv.x := by
    intro c hcc
    have e : s.srv.x - (s'.cli c).x = η • (g c s.srv.x - (s.cli c).c_i + s.srv.c) := by rw [← neg_sub, hx c hcc, neg_neg]
    rw [(h2 c hcc).2, e, smul_smul, Nat.cast_one, one_mul, one_div_mul_cancel hη, one_smul]
    abel
  refine ⟨s', h1, ?_, hci, ?_⟩
  · have e : (clients.map (fun c => (s'.cli c).x - s.srv.x)).sum =
        -(η • ((clients.map (fun c => g c s.srv.x)).sum - (clients.map (fun c => (s.cli c).c_i)).sum + (clients.length : ℝ) • s.srv.c)) := by
      rw [List.map_congr_left hx]
      have : ∀ l : List A, (l.map (fun c => -(η • (g c s.srv.x - (s.cli c).c_i + s.srv.c)))).sum =
          -(η • ((l.map (fun c => g c s.srv.x)).sum - (l.map (fun c => (s.cli c).c_i)).sum + (l.length : ℝ) • s.srv.c)) := by
        intro l
        induction l with
        | nil => simp
        | cons a t ih => simp only [List.map_cons, List.sum_cons, ih, List.length_cons]; push_cast; module
      exact this clients
    have e1 : (1 / (clients.length : ℝ)) • (clients.length : ℝ) • s.srv.c = s.srv.c := by rw [smul_smul, one_div_mul_cancel hN, one_smul]
    have e2 : meanGrad clients g s.srv.x + scafDrift clients s = (1 / (clients.length : ℝ)) •
        ((clients.map (fun c => g c s.srv.x)).sum - (clients.map (fun c => (s.cli c).c_i)).sum + (clients.length : ℝ) • s.srv.c) := by
      rw [smul_add, e1, smul_sub, meanGrad, scafDrift]; abel
    rw [h3, e, e2]; module
  · unfold scafDrift
    rw [h4, map_sum_sub, smul_sub]; abel

/-- ... so with strongly convex costs the server's model converges linearly, from every state, to the point where the mean gradient is minus
the discrepancy present in that state. -/
theorem C91_scaffold_converges {f : A → Vec d → ℝ} {g : A → Vec d → Vec d} {L m : ℝ} (hsm : ClientsSmooth clients f g L m) (hm : 0 < m)
    (G : Grad A Ω (Vec d)) (hg : ∀ c x ω, (G c x ω).1 = g c x) (η ηg : ℝ) (hη : 0 < η) (hηg : 0 < ηg) (hs : ηg * η * L ≤ 1)
    (c0 : A → Vec d) (w : World A (Arr (Vec d)) Ω) (hf : IsFed n server clients) (hcl : clients ≠ []) (hi : FedIdeal w server clients)
    (s : FSys A (Arr (Vec d)) Ω (ScafCli (Vec d)) (ScafSrv (Vec d))) :
    ∃ xs : Vec d, (∀ y, meanGrad clients g y = -scafDrift clients s ↔ y = xs) ∧ ∃ r : ℝ, 0 ≤ r ∧ r < 1 ∧
      ∀ ks : List Int, ∃ s', ks.foldlM (fun s k => iter (scaffold G η ηg 1 c0 server) none server w n k s) s = .ok s' ∧
        ‖s'.srv.x - xs‖ ≤ r ^ ks.length * ‖s.srv.x - xs‖ := by
  obtain ⟨F, hu, hl⟩ := meanGrad_tilt hsm hm hcl (scafDrift clients s)
  obtain ⟨xs, h1, r, h2, h3, h4⟩ := gd_banach hu hl hm hsm.Lpos (mul_pos hηg hη) hs
  refine ⟨xs, fun y => by rw [← h1 y, eq_neg_iff_add_eq_zero], r, h2, h3, fun ks => ?_⟩
  have key : ∀ (ks : List Int) (t : FSys A (Arr (Vec d)) Ω (ScafCli (Vec d)) (ScafSrv (Vec d))), scafDrift clients t = scafDrift clients s →
      ∃ s', ks.foldlM (fun s k => iter (scaffold G η ηg 1 c0 server) none server w n k s) t = .ok s' ∧
        s'.srv.x = (fun y => y - (ηg * η) • (meanGrad clients g y + scafDrift clients s))^[ks.length] t.srv.x := by
    intro ks
    induction ks with
    | nil => intro t _; exact ⟨t, rfl, rfl⟩
    | cons k t ih =>
      intro u hu
      obtain ⟨u1, e1, e2, _, e4⟩ := C91_scaffold_one_step g G hg η ηg hη.ne' c0 w hf hcl hi k u
      obtain ⟨u2, e5, e6⟩ := ih u1 (e4.trans hu)
      refine ⟨u2, ?_, ?_⟩
      · rw [List.foldlM_cons, e1]; exact e5
      · rw [e6, List.length_cons, Function.iterate_succ_apply, e2, hu]
  obtain ⟨s', e1, e2⟩ := key ks s rfl
  exact ⟨s', e1, by rw [e2]; exact h4 _ _⟩

/-- One lost upload is enough to make SCAFFOLD converge to a wrong model: all clients take part with one local step, in the first round the
uploads of `bad` are lost, and every later round is ideal. Then the server's model converges to the point where the mean gradient equals
`∇f_bad(x₀) / N`; unless `x₀` minimises `f_bad` this is not the minimiser of the summed costs. -/
theorem C91_lost_upload_biases {f : A → Vec d → ℝ} {g : A → Vec d → Vec d} {L m : ℝ} (hsm : ClientsSmooth clients f g L m) (hm : 0 < m)
    (G : Grad A Ω (Vec d)) (hg : ∀ c x ω, (G c x ω).1 = g c x) (η ηg : ℝ) (hη : 0 < η) (hηg : 0 < ηg) (hs : ηg * η * L ≤ 1)
    (w1 w : World A (Arr (Vec d)) Ω) (hf : IsFed n server clients) (hi : FedIdeal w server clients) (hup : ServerUp w1 server)
    (hsv : Fed.Exact w1 server ∧ Fed.Lossless w1 server) (hact : ∀ c ∈ clients, ∀ it ω, (w1.isActive c it ω).1 = true)
    (bad : A) (hbad : bad ∈ clients) (hex : ∀ c ∈ clients, Fed.Exact w1 c ∧ (c ≠ bad → Fed.Lossless w1 c)) (hdrop : AlwaysDropped w1 bad)
    (x0 : A → Arr (Vec d)) (hx0 : g bad (x0 server).row0 ≠ 0) (s : FSys A (Arr (Vec d)) Ω (ScafCli (Vec d)) (ScafSrv (Vec d))) :
    ∃ s1, (scaffold G η ηg 1 (fun _ => 0) server).after none server w1 n x0 s 1 = .ok s1 ∧
      ∃ xs : Vec d, meanGrad clients g xs = (1 / (clients.length : ℝ)) • g bad (x0 server).row0 ∧ ¬ BestForClients clients f xs ∧
      ∃ r : ℝ, 0 ≤ r ∧ r < 1 ∧ ∀ ks : List Int, ∃ s',
        ks.foldlM (fun s k => iter (scaffold G η ηg 1 (fun _ => 0) server) none server w n k s) s1 = .ok s' ∧
        ‖s'.srv.x - xs‖ ≤ r ^ ks.length * ‖s1.srv.x - xs‖ := by
  have hcl : clients ≠ [] := List.ne_nil_of_mem hbad
  have hN : (clients.length : ℝ) ≠ 0 := by
    have := List.length_pos_iff.2 hcl
    positivity
  obtain ⟨s1, h1, h2⟩ := C32_lost_upload_breaks G g hg η ηg hη.ne' w1 hf hup hsv hact bad hbad hex hdrop x0 s
  obtain ⟨xs, h3, r, h4, h5, h6⟩ := C91_scaffold_converges hsm hm G hg η ηg hη hηg hs (fun _ => 0) w hf hcl hi s1
  have h7 : meanGrad clients g xs = (1 / (clients.length : ℝ)) • g bad (x0 server).row0 := by
    rw [(h3 xs).2 rfl, scafDrift, h2, neg_neg]
  refine ⟨s1, h1, xs, h7, fun hb => ?_, r, h4, h5, h6⟩
  rw [best_iff hsm hm, ← meanGrad_zero_iff hcl, h7] at hb
  exact (smul_eq_zero.1 hb).elim (one_div_ne_zero hN) hx0

/-! ## C92: FedDyn -/

/-- If an ideal FedDyn round leaves the server's model and the clients' dynamic states unchanged, the server's state `h` is zero, the
dynamic states are the local gradients, the client models equal the server's, and the mean gradient is minus the discrepancy between `h` and
the mean dynamic state. Any number of local steps; smooth, possibly non-convex costs. -/
theorem C92_feddyn_rest (f : A → Vec d → ℝ) (g : A → Vec d → Vec d) (L : ℝ) (hu : ∀ c ∈ clients, Upper (f c) (g c) L)
    (G : Grad A Ω (Vec d)) (hg : ∀ c x ω, (G c x ω).1 = g c x) (η α : ℝ) (hη : 0 < η) (hα : 0 < α) (hs : η * (L + α) < 2) (K : Nat) (hK : 0 < K)
    (w : World A (Vec d) Ω) (hf : IsFed n server clients) (hcl : clients ≠ []) (hi : FedIdeal w server clients) (k : Int)
    (s s' : FSys A (Vec d) Ω (DynCli (Vec d)) (DynSrv (Vec d)))
    (hrun : iter (fedDyn G η α K) none server w n k s = .ok s') (hx : s'.srv.x = s.srv.x)
    (hc : ∀ c ∈ clients, (s'.cli c).g = (s.cli c).g) :
    s.srv.h = 0 ∧ (∀ c ∈ clients, g c s.srv.x = (s.cli c).g ∧ (s'.cli c).x = s.srv.x) ∧ meanGrad clients g s.srv.x = -dynDrift clients s := by
  obtain ⟨s'', h1, h2, h3, h4⟩ := dyn_ideal_round G g hg η α K w hf hcl hi k s
  rw [hrun] at h1
  cases h1
  have hN : (clients.length : ℝ) ≠ 0 := by
    have := List.length_pos_iff.2 hcl
    positivity
  have hyx : ∀ c ∈ clients, (s'.cli c).x = s.srv.x := by
    intro c hcc
    have h5 := (h2 c hcc).2
    rw [hc c hcc] at h5
    have h6 := (smul_eq_zero.1 (sub_eq_self.1 h5.symm)).resolve_left hα.ne'
    exact sub_eq_zero.1 h6
  have hh : s'.srv.h = s.srv.h := by
    rw [h3, List.map_congr_left (fun c hcc => by rw [hc c hcc, sub_self] : ∀ c ∈ clients, (s'.cli c).g - (s.cli c).g = 0), map_const_sum]
    simp
  have hh0 : s.srv.h = 0 := by
    rw [hx, hh, List.map_congr_left hyx, map_const_sum, smul_smul, one_div_mul_cancel hN, one_smul] at h4
    exact (smul_eq_zero.1 (sub_eq_self.1 h4.symm)).resolve_left (one_div_ne_zero hα.ne')
  have hgr : ∀ c ∈ clients, g c s.srv.x = (s.cli c).g := by
    intro c hcc
    have h5 := (h2 c hcc).1
    rw [hyx c hcc, gdSteps_iterate] at h5
    have h6 := gd_return (tilt_upper (hu c hcc) (-(s.cli c).g) s.srv.x α) hη hs K hK s.srv.x (by
      simp only [← sub_eq_add_neg]
      exact h5.symm)
    simp only [sub_self, smul_zero, add_zero] at h6
    exact add_neg_eq_zero.1 h6
  refine ⟨hh0, fun c hcc => ⟨hgr c hcc, hyx c hcc⟩, ?_⟩
  rw [meanGrad, dynDrift, hh0, List.map_congr_left hgr, zero_sub, neg_neg]

/-- In runs that lose no upload FedDyn stops only at a minimiser of the summed costs. -/
theorem C92_feddyn_stops_at_optimum (f : A → Vec d → ℝ) (g : A → Vec d → Vec d) (L : ℝ) (hsm : ClientsSmooth clients f g L 0)
    (G : Grad A Ω (Vec d)) (hg : ∀ c x ω, (G c x ω).1 = g c x) (η α : ℝ) (hη : 0 < η) (hα : 0 < α) (hs : η * (L + α) < 2) (K : Nat) (hK : 0 < K)
    (w0 w : World A (Vec d) Ω) (hf : IsFed n server clients) (hcl : clients ≠ []) (hup : ServerUp w0 server)
    (hex : ∀ a ∈ server :: clients, Fed.Exact w0 a) (hl : ∀ c ∈ clients, Fed.Lossless w0 c)
    (sel : Select A Ω) (hsel : SelOK sel) (hi : FedIdeal w server clients) (x0 : A → Vec d)
    (s s1 s2 : FSys A (Vec d) Ω (DynCli (Vec d)) (DynSrv (Vec d))) (k : Nat) (it : Int)
    (h1 : (fedDyn G η α K).after sel server w0 n x0 s k = .ok s1)
    (h2 : iter (fedDyn G η α K) none server w n it s1 = .ok s2) (hx : s2.srv.x = s1.srv.x)
    (hc : ∀ c ∈ clients, (s2.cli c).g = (s1.cli c).g) : BestForClients clients f s1.srv.x := by
  obtain ⟨s1', e1, e2⟩ := C33_consistent G η α K w0 hf hup hex hl sel hsel x0 s k
  rw [h1] at e1
  cases e1
  obtain ⟨_, _, h3⟩ := C92_feddyn_rest f g L hsm.upper G hg η α hη hα hs K hK w hf hcl hi it s1 s2 h2 hx hc
  rw [dynDrift, e2, sub_self, neg_zero, meanGrad_zero_iff hcl] at h3
  exact best_of_grad hsm _ h3

/-- Conversely such a state is left unchanged. -/
theorem C92_feddyn_optimum_rests (g : A → Vec d → Vec d)
    (G : Grad A Ω (Vec d)) (hg : ∀ c x ω, (G c x ω).1 = g c x) (η α : ℝ) (K : Nat)
    (w : World A (Vec d) Ω) (hf : IsFed n server clients) (hcl : clients ≠ []) (hi : FedIdeal w server clients) (k : Int)
    (s : FSys A (Vec d) Ω (DynCli (Vec d)) (DynSrv (Vec d))) (hh : s.srv.h = 0) (hci : ∀ c ∈ clients, (s.cli c).g = g c s.srv.x) :
    ∃ s', iter (fedDyn G η α K) none server w n k s = .ok s' ∧ s'.srv = s.srv ∧
      ∀ c ∈ clients, (s'.cli c).x = s.srv.x ∧ (s'.cli c).g = (s.cli c).g := by
  obtain ⟨s', h1, h2, h3, h4⟩ := dyn_ideal_round G g hg η α K w hf hcl hi k s
  have hN : (clients.length : ℝ) ≠ 0 := by
    have := List.length_pos_iff.2 hcl
    positivity
  have hx : ∀ c ∈ clients, (s'.cli c).x = s.srv.x := by
    intro c hcc
    rw [(h2 c hcc).1, gdSteps_iterate]
    exact Function.iterate_fixed (by simp [hci c hcc]) K
  have hgg : ∀ c ∈ clients, (s'.cli c).g = (s.cli c).g := by
    intro c hcc
    rw [(h2 c hcc).2, hx c hcc]; simp
  refine ⟨s', h1, ?_, fun c hcc => ⟨hx c hcc, hgg c hcc⟩⟩
  have e2 : s'.srv.h = s.srv.h := by
    rw [h3, List.map_congr_left (fun c hcc => by rw [hgg c hcc, sub_self] : ∀ c ∈ clients, (s'.cli c).g - (s.cli c).g = 0), map_const_sum]
    simp
  have e1 : s'.srv.x = s.srv.x := by
    rw [h4, e2, hh, List.map_congr_left hx, map_const_sum, smul_smul, one_div_mul_cancel hN, one_smul]; simp
  cases h : s'.srv; cases h' : s.srv; simp_all

/-- One local step: the server's model and state follow a linear recursion driven by the mean gradient tilted by the discrepancy. -/
theorem C92_feddyn_one_step (g : A → Vec d → Vec d)
    (G : Grad A Ω (Vec d)) (hg : ∀ c x ω, (G c x ω).1 = g c x) (η α : ℝ) (hα : α ≠ 0)
    (w : World A (Vec d) Ω) (hf : IsFed n server clients) (hcl : clients ≠ []) (hi : FedIdeal w server clients) (k : Int)
    (s : FSys A (Vec d) Ω (DynCli (Vec d)) (DynSrv (Vec d))) :
    ∃ s', iter (fedDyn G η α 1) none server w n k s = .ok s' ∧
      s'.srv.h = (1 - α * η) • s.srv.h + (α * η) • (meanGrad clients g s.srv.x + dynDrift clients s) ∧
      s'.srv.x = s.srv.x - (2 * η) • (meanGrad clients g s.srv.x + dynDrift clients s) + (2 * η - 1 / α) • s.srv.h ∧
      dynDrift clients s' = dynDrift clients s := by
  obtain ⟨s', h1, h2, h3, h4⟩ := dyn_ideal_round G g hg η α 1 w hf hcl hi k s
  have hN : (clients.length : ℝ) ≠ 0 := by
    have := List.length_pos_iff.2 hcl
    positivity
  have hx : ∀ c ∈ clients, (s'.cli c).x = s.srv.x - η • (g c s.srv.x - (s.cli c).g) := by
    intro c hcc
    rw [(h2 c hcc).1]
    simp [gdSteps]
  have hgg : ∀ c ∈ clients, (s'.cli c).g - (s.cli c).g = (α * η) • (g c s.srv.x - (s.cli c).g) := by
    intro c hcc
    rw [(h2 c hcc).2, hx c hcc]; module
  have e0 : meanGrad clients g s.srv.x + dynDrift clients s - s.srv.h =
      (1 / (clients.length : ℝ)) • (clients.map (fun c => g c s.srv.x - (s.cli c).g)).sum := by
    rw [map_sum_sub, smul_sub, meanGrad, dynDrift]; abel
  have eh : s'.srv.h = (1 - α * η) • s.srv.h + (α * η) • (meanGrad clients g s.srv.x + dynDrift clients s) := by
    rw [h3, List.map_congr_left hgg, map_sum_smul, smul_comm (1 / (clients.length : ℝ)), ← e0]; module
  refine ⟨s', h1, eh, ?_, ?_⟩
  · have e1 : (1 / (clients.length : ℝ)) • (clients.map (fun c => (s'.cli c).x)).sum = s.srv.x - η • (meanGrad clients g s.srv.x + dynDrift clients s - s.srv.h) := by
      rw [e0, List.map_congr_left hx, map_sum_sub, map_const_sum, map_sum_smul, smul_sub, smul_smul, one_div_mul_cancel hN, one_smul, smul_comm η]
    have e3 : (1 / α) • ((1 - α * η) • s.srv.h + (α * η) • (meanGrad clients g s.srv.x + dynDrift clients s)) =
        (1 / α - η) • s.srv.h + η • (meanGrad clients g s.srv.x + dynDrift clients s) := by
      rw [smul_add, smul_smul, smul_smul]
      congr 2 <;> field_simp
    rw [h4, e1, eh, e3]; module
  · unfold dynDrift
    rw [h3, map_sum_sub, smul_sub]; abel

/-- With one local step and `alpha = 1 / (2 step_size)` FedDyn is gradient descent with step `2 step_size` on the (tilted) mean cost, and
converges linearly to the point where the mean gradient is minus the discrepancy. -/
theorem C92_feddyn_converges {f : A → Vec d → ℝ} {g : A → Vec d → Vec d} {L m : ℝ} (hsm : ClientsSmooth clients f g L m) (hm : 0 < m)
    (G : Grad A Ω (Vec d)) (hg : ∀ c x ω, (G c x ω).1 = g c x) (η : ℝ) (hη : 0 < η) (hs : 2 * η * L ≤ 1)
    (w : World A (Vec d) Ω) (hf : IsFed n server clients) (hcl : clients ≠ []) (hi : FedIdeal w server clients)
    (s : FSys A (Vec d) Ω (DynCli (Vec d)) (DynSrv (Vec d))) :
    ∃ xs : Vec d, (∀ y, meanGrad clients g y = -dynDrift clients s ↔ y = xs) ∧ ∃ r : ℝ, 0 ≤ r ∧ r < 1 ∧
      ∀ ks : List Int, ∃ s', ks.foldlM (fun s k => iter (fedDyn G η (1 / (2 * η)) 1) none server w n k s) s = .ok s' ∧
        ‖s'.srv.x - xs‖ ≤ r ^ ks.length * ‖s.srv.x - xs‖ := by
  obtain ⟨F, hu, hl⟩ := meanGrad_tilt hsm hm hcl (dynDrift clients s)
  obtain ⟨xs, h1, r, h2, h3, h4⟩ := gd_banach hu hl hm hsm.Lpos (show 0 < 2 * η by positivity) hs
  refine ⟨xs, fun y => by rw [← h1 y, eq_neg_iff_add_eq_zero], r, h2, h3, fun ks => ?_⟩
  have key : ∀ (ks : List Int) (t : FSys A (Vec d) Ω (DynCli (Vec d)) (DynSrv (Vec d))), dynDrift clients t = dynDrift clients s →
      ∃ s', ks.foldlM (fun s k => iter (fedDyn G η (1 / (2 * η)) 1) none server w n k s) t = .ok s' ∧
        s'.srv.x = (fun y => y - (2 * η) • (meanGrad clients g y + dynDrift clients s))^[ks.length] t.srv.x := by
    intro ks
    induction ks with
    | nil => intro t _; exact ⟨t, rfl, rfl⟩
    | cons k t ih =>
      intro u hu
      obtain ⟨u1, e1, _, e2, e4⟩ := C92_feddyn_one_step g G hg η (1 / (2 * η)) (by positivity) w hf hcl hi k u
      obtain ⟨u2, e5, e6⟩ := ih u1 (e4.trans hu)
      refine ⟨u2, ?_, ?_⟩
      · rw [List.foldlM_cons, e1]; exact e5
      · rw [e6, List.length_cons, Function.iterate_succ_apply, e2, hu, one_div_one_div, sub_self, zero_smul, add_zero]
  obtain ⟨s', e1, e2⟩ := key ks s rfl
  exact ⟨s', e1, by rw [e2]; exact h4 _ _⟩

/-- One lost upload makes FedDyn converge to a wrong model (same scenario as C91_lost_upload_biases, `alpha = 1 / (2 step_size)`). -/
theorem C92_lost_upload_biases {f : A → Vec d → ℝ} {g : A → Vec d → Vec d} {L m : ℝ} (hsm : ClientsSmooth clients f g L m) (hm : 0 < m)
    (G : Grad A Ω (Vec d)) (hg : ∀ c x ω, (G c x ω).1 = g c x) (η : ℝ) (hη : 0 < η) (hs : 2 * η * L ≤ 1)
    (w1 w : World A (Vec d) Ω) (hf : IsFed n server clients) (hi : FedIdeal w server clients) (hup : ServerUp w1 server)
    (hex : ∀ a ∈ server :: clients, Fed.Exact w1 a) (hsv : Fed.Lossless w1 server) (hact : ∀ c ∈ clients, ∀ it ω, (w1.isActive c it ω).1 = true)
    (bad : A) (hbad : bad ∈ clients) (hl : ∀ c ∈ clients, c ≠ bad → Fed.Lossless w1 c) (hdrop : AlwaysDropped w1 bad)
    (x0 : A → Vec d) (hx0 : g bad (x0 server) ≠ 0) (s : FSys A (Vec d) Ω (DynCli (Vec d)) (DynSrv (Vec d))) :
    ∃ s1, (fedDyn G η (1 / (2 * η)) 1).after none server w1 n x0 s 1 = .ok s1 ∧
      ∃ xs : Vec d, meanGrad clients g xs = (1 / (clients.length : ℝ)) • (1 / 2 : ℝ) • g bad (x0 server) ∧ ¬ BestForClients clients f xs ∧
      ∃ r : ℝ, 0 ≤ r ∧ r < 1 ∧ ∀ ks : List Int, ∃ s',
        ks.foldlM (fun s k => iter (fedDyn G η (1 / (2 * η)) 1) none server w n k s) s1 = .ok s' ∧
        ‖s'.srv.x - xs‖ ≤ r ^ ks.length * ‖s1.srv.x - xs‖ := by
  have hcl : clients ≠ [] := List.ne_nil_of_mem hbad
  have hN : (clients.length : ℝ) ≠ 0 := by
    have := List.length_pos_iff.2 hcl
    positivity
  obtain ⟨s1, h1, h2⟩ := C33_lost_upload_breaks G g hg η (1 / (2 * η)) w1 hf hup hex hsv hact bad hbad hl hdrop x0 s
  obtain ⟨xs, h3, r, h4, h5, h6⟩ := C92_feddyn_converges hsm hm G hg η hη hs w hf hcl hi s1
  have h7 : meanGrad clients g xs = (1 / (clients.length : ℝ)) • (1 / 2 : ℝ) • g bad (x0 server) := by
    have e : 1 / (2 * η) * η = 1 / 2 := by field_simp
    rw [(h3 xs).2 rfl, dynDrift, h2, neg_neg, e]
  refine ⟨s1, h1, xs, h7, fun hb => ?_, r, h4, h5, h6⟩
  rw [best_iff hsm hm, ← meanGrad_zero_iff hcl, h7] at hb
  exact (smul_eq_zero.1 hb).elim (one_div_ne_zero hN) (fun h => (smul_eq_zero.1 h).elim (by norm_num) hx0)

/-! ## C93: Fed-LT -/

/-- SPEC: `xs` minimises the server's cost plus the clients' costs -/
def BestWithServer (clients : List A) (r : Vec d → ℝ) (f : A → Vec d → ℝ) (xs : Vec d) : Prop :=
  ∀ y, r xs + (clients.map (fun i => f i xs)).sum ≤ r y + (clients.map (fun i => f i y)).sum

/-- SPEC: `prox` is the proximal of a convex `r`, in the form of its optimality condition: `(v - p) / ρ` is a subgradient of `r` at
`p = prox v ρ` -/
def ProxOf (r : Vec d → ℝ) (prox : Vec d → ℝ → Vec d) : Prop :=
  ∀ v ρ, 0 < ρ → ∀ y, r (prox v ρ) + ⟪(1 / ρ) • (v - prox v ρ), y - prox v ρ⟫_ℝ ≤ r y

/-- SPEC: `K` gradient steps on `f + ‖· - v‖² / (2ρ)` -/
noncomputable def ltGdSteps (g : Vec d → Vec d) (η ρ : ℝ) (K : Nat) (x v : Vec d) : Vec d := gdSteps (fun y => g y + (1 / ρ) • (y - v)) η K x

theorem ltGd_det (G : Grad A Ω (Vec d)) (g : A → Vec d → Vec d) (hg : ∀ c x ω, G c x ω = (g c x, ω)) (η ρ : ℝ) (K : Nat) :
    ltGd G η ρ K = fun c x v ω => (ltGdSteps (g c) η ρ K x v, ω) := by
  funext c x v ω
  unfold ltGd ltGdSteps
  induction K generalizing x with
  | zero => rfl
  | succ K ih =>
    rw [iterW, gdSteps]
    simp only [hg] at ih ⊢
    exact ih _

/-- Fed-LT with the gradient-descent local solver (any number of local steps): if an ideal round leaves the clients' variables unchanged,
then all client models equal the server's model and it minimises the server's cost plus the sum of the clients' costs. -/
theorem C93_fedlt_stops_at_optimum (f : A → Vec d → ℝ) (g : A → Vec d → Vec d) (L : ℝ) (hsm : ClientsSmooth clients f g L 0)
    (r : Vec d → ℝ) (prox : Vec d → ℝ → Vec d) (hprox : ProxOf r prox)
    (G : Grad A Ω (Vec d)) (hg : ∀ c x ω, G c x ω = (g c x, ω)) (η ρ : ℝ) (hη : 0 < η) (hρ : 0 < ρ) (hs : η * (L + 1 / ρ) < 2) (K : Nat) (hK : 0 < K)
    (z0 : A → Vec d) (w : World A (Vec d) Ω) (hf : IsFed n server clients) (hcl : clients ≠ []) (hi : FedIdeal w server clients) (k : Int)
    (s s' : FSys A (Vec d) Ω (LtCli (Vec d)) (LtSrv A (Vec d))) (hst : ∀ c ∈ clients, s.srv.zBy c = (s.cli c).z)
    (hrun : iter (fedLT (ltGd G η ρ K) (fun v r ω => (prox v r, ω)) ρ clients z0) none server w n k s = .ok s')
    (hx : ∀ c ∈ clients, (s'.cli c).x = (s.cli c).x) (hz : ∀ c ∈ clients, (s'.cli c).z = (s.cli c).z) :
    (∀ c ∈ clients, (s.cli c).x = s'.srv.x) ∧ BestWithServer clients r f s'.srv.x := by
  rw [ltGd_det G g hg] at hrun
  obtain ⟨s'', h1, h2, h3⟩ := lt_ideal_round (fun c x v => ltGdSteps (g c) η ρ K x v) prox ρ z0 w hf hi k s
  rw [hrun] at h1
  cases h1
  have hN : (0 : ℝ) < clients.length := by exact_mod_cast List.length_pos_iff.2 hcl
  have hxy : ∀ c ∈ clients, (s'.cli c).x = s'.srv.x := by
    intro c hc
    have h4 := (h3 c hc).2.1
    rw [hz c hc] at h4
    have := (smul_eq_zero.1 (left_eq_add.1 h4)).resolve_left two_ne_zero
    exact sub_eq_zero.1 this
  have hgr : ∀ c ∈ clients, g c s'.srv.x = (1 / ρ) • (s'.srv.x - (s.cli c).z) := by
    intro c hc
    have h4 := (h3 c hc).1
    rw [← hx c hc, hxy c hc, ltGdSteps, gdSteps_iterate] at h4
    have h5 := gd_return (tilt_upper (hsm.upper c hc) 0 ((2 : ℝ) • s'.srv.x - (s.cli c).z) (1 / ρ)) hη hs K hK s'.srv.x (by
      simp only [add_zero]
      exact h4.symm)
    rw [add_zero] at h5
    rw [eq_neg_of_add_eq_zero_left h5]; module
  refine ⟨fun c hc => by rw [← hx c hc, hxy c hc], fun y => ?_⟩
  have hp := hprox ((1 / (clients.length : ℝ)) • (clients.map s.srv.zBy).sum) (ρ / clients.length) (by positivity) y
  rw [← h2] at hp
  have e1 : (1 / (ρ / (clients.length : ℝ))) • ((1 / (clients.length : ℝ)) • (clients.map s.srv.zBy).sum - s'.srv.x) =
      -(clients.map (fun c => g c s'.srv.x)).sum := by
    rw [List.map_congr_left hgr, map_sum_smul, map_sum_sub, map_const_sum, List.map_congr_left hst]
    rw [one_div_div, smul_sub, smul_smul]
    have : (clients.length : ℝ) / ρ * (1 / clients.length) = 1 / ρ := by field_simp
    rw [this, smul_sub, smul_smul]
    have : (1 / ρ) * (clients.length : ℝ) = clients.length / ρ := by ring
    rw [this]; abel
  rw [e1, inner_neg_left] at hp
  have key : ∀ l : List A, (∀ i ∈ l, i ∈ clients) →
      (l.map (fun i => f i s'.srv.x)).sum + ⟪(l.map (fun i => g i s'.srv.x)).sum, y - s'.srv.x⟫_ℝ ≤ (l.map (fun i => f i y)).sum := by
    intro l
    induction l with
    | nil => intro _; simp
    | cons a t ih =>
      intro hl
      have h1 := ih (fun i hi => hl i (List.mem_cons_of_mem _ hi))
      have h2 := hsm.lower a (hl a (by simp)) s'.srv.x y
      simp only [List.map_cons, List.sum_cons, inner_add_left]
      linarith
  have := key clients (fun _ h => h)
  linarith

/-- Conversely, if the server has no cost of its own and `xs` is a zero of the summed gradients, the state with all models at `xs` and
`z_i = xs - ρ ∇f_i(xs)` is left unchanged. -/
theorem C93_fedlt_optimum_rests (g : A → Vec d → Vec d)
    (G : Grad A Ω (Vec d)) (hg : ∀ c x ω, G c x ω = (g c x, ω)) (η ρ : ℝ) (hρ : 0 < ρ) (K : Nat)
    (z0 : A → Vec d) (w : World A (Vec d) Ω) (hf : IsFed n server clients) (hcl : clients ≠ []) (hi : FedIdeal w server clients) (k : Int)
    (xs : Vec d) (hxs : (clients.map (fun c => g c xs)).sum = 0) (s : FSys A (Vec d) Ω (LtCli (Vec d)) (LtSrv A (Vec d)))
    (hst : ∀ c ∈ clients, s.srv.zBy c = (s.cli c).z) (hx : ∀ c ∈ clients, (s.cli c).x = xs) (hz : ∀ c ∈ clients, (s.cli c).z = xs - ρ • g c xs) :
    ∃ s', iter (fedLT (ltGd G η ρ K) (fun v _ ω => (v, ω)) ρ clients z0) none server w n k s = .ok s' ∧ s'.srv.x = xs ∧
      ∀ c ∈ clients, s'.cli c = s.cli c ∧ s'.srv.zBy c = s.srv.zBy c := by
  rw [ltGd_det G g hg]
  obtain ⟨s', h1, h2, h3⟩ := lt_ideal_round (fun c x v => ltGdSteps (g c) η ρ K x v) (fun v _ => v) ρ z0 w hf hi k s
  have hN : (clients.length : ℝ) ≠ 0 := by
    have := List.length_pos_iff.2 hcl
    positivity
  have hy : s'.srv.x = xs := by
    rw [h2, List.map_congr_left (fun c hc => (hst c hc).trans (hz c hc)), map_sum_sub, map_const_sum, map_sum_smul, hxs, smul_zero, sub_zero,
      smul_smul, one_div_mul_cancel hN, one_smul]
  refine ⟨s', h1, hy, fun c hc => ?_⟩
  obtain ⟨h4, h5, h6⟩ := h3 c hc
  have e : (s'.cli c).x = (s.cli c).x := by
    rw [h4, hy, hx c hc, ltGdSteps, gdSteps_iterate]
    apply Function.iterate_fixed
    have : (2 : ℝ) • xs - (s.cli c).z = xs + ρ • g c xs := by rw [hz c hc]; module
    rw [this]
    have : (1 / ρ) • (xs - (xs + ρ • g c xs)) = -g c xs := by
      rw [sub_add_cancel_left, smul_neg, smul_smul, one_div_mul_cancel hρ.ne', one_smul]
    rw [this]; simp
  have e2 : (s'.cli c).z = (s.cli c).z := by
    rw [h5, e, hy, hx c hc]; simp
  refine ⟨?_, by rw [h6, e2, hst c hc]⟩
  cases h : s'.cli c; cases h' : s.cli c; simp_all

end

/-! ### concrete systems -/

/-- a server without a cost: the proximal is the identity -/
theorem zero_prox {d : Nat} : ProxOf (fun _ : Vec d => 0) (fun v _ => v) := by
  intro v ρ _ y; simp

/-- SCAFFOLD on two springs, client 1's upload lost in the first round only: the run converges, but not to the midpoint -/
example {d : Nat} (b : Nat → Vec d) (x0 : Nat → Arr (Vec d)) (hx0 : (x0 0).row0 ≠ b 1) (s : FSys Nat (Arr (Vec d)) Unit (ScafCli (Vec d)) (ScafSrv (Vec d))) :=
  C91_lost_upload_biases (n := fedNet2) (server := 0) (clients := [1, 2]) (springs_clients b [1, 2]) one_pos (pullTo b) (fun _ _ _ => rfl) (1 / 2) 1
    (by norm_num) one_pos (by norm_num) (lossy1 _) (ideal _) fedNet2_isFed (star_fedIdeal _ _) (fun _ _ => rfl)
    ⟨lossy1_exact _ 0, lossy1_lossless _ 0 (by decide)⟩ (fun _ _ _ _ => rfl) 1 (by simp)
    (fun c _ => ⟨lossy1_exact _ c, lossy1_lossless _ c⟩) (lossy1_dropped _) x0 (sub_ne_zero.2 hx0) s

/-- without losses it converges to the midpoint -/
example {d : Nat} (b : Nat → Vec d) (s : FSys Nat (Arr (Vec d)) Unit (ScafCli (Vec d)) (ScafSrv (Vec d))) :=
  C91_scaffold_converges (n := fedNet2) (server := 0) (clients := [1, 2]) (springs_clients b [1, 2]) one_pos (pullTo b) (fun _ _ _ => rfl) (1 / 2) 1
    (by norm_num) one_pos (by norm_num) (fun _ => 0) (ideal _) fedNet2_isFed (by simp) (star_fedIdeal _ _) s

/-- a resting state of SCAFFOLD and of FedDyn exists: the midpoint with the gradients as control variates -/
example {d : Nat} (b : Nat → Vec d) (net : NetState Nat FChan (Arr (Vec d)) Unit) (m : Vec d) :=
  C91_scaffold_optimum_rests (n := fedNet2) (server := 0) (clients := [1, 2]) (fun i x => x - b i) (pullTo b) (fun _ _ _ => rfl) (1 / 2) 1 3
    (fun _ => 0) (ideal _) fedNet2_isFed (star_fedIdeal _ _) 0 ⟨net, ⟨m, 0⟩, fun c => ⟨m, m - b c, 0⟩, fun _ => 0⟩ rfl (fun _ _ => rfl)

example {d : Nat} (b : Nat → Vec d) (s : FSys Nat (Vec d) Unit (DynCli (Vec d)) (DynSrv (Vec d))) :=
  C92_feddyn_converges (n := fedNet2) (server := 0) (clients := [1, 2]) (springs_clients b [1, 2]) one_pos (pullTo b) (fun _ _ _ => rfl) (1 / 2)
    (by norm_num) (by norm_num) (ideal _) fedNet2_isFed (by simp) (star_fedIdeal _ _) s

example {d : Nat} (b : Nat → Vec d) (x0 : Nat → Vec d) (hx0 : x0 0 ≠ b 1) (s : FSys Nat (Vec d) Unit (DynCli (Vec d)) (DynSrv (Vec d))) :=
  C92_lost_upload_biases (n := fedNet2) (server := 0) (clients := [1, 2]) (springs_clients b [1, 2]) one_pos (pullTo b) (fun _ _ _ => rfl) (1 / 2)
    (by norm_num) (by norm_num) (lossy1 _) (ideal _) fedNet2_isFed (star_fedIdeal _ _) (fun _ _ => rfl) (fun a _ => lossy1_exact _ a)
    (lossy1_lossless _ 0 (by decide)) (fun _ _ _ _ => rfl) 1 (by simp) (fun c _ => lossy1_lossless _ c) (lossy1_dropped _) x0 (sub_ne_zero.2 hx0) s

example {d : Nat} (b : Nat → Vec d) (net : NetState Nat FChan (Vec d) Unit) (m : Vec d) :=
  C92_feddyn_optimum_rests (n := fedNet2) (server := 0) (clients := [1, 2]) (fun i x => x - b i) (pullTo b) (fun _ _ _ => rfl) (1 / 2) 1 3
    (ideal _) fedNet2_isFed (by simp) (star_fedIdeal _ _) 0 ⟨net, ⟨m, 0⟩, fun c => ⟨m, m - b c⟩, fun _ => 0⟩ rfl (fun _ _ => rfl)

/-- a resting state of Fed-LT exists -/
example {d : Nat} (b : Nat → Vec d) (net : NetState Nat FChan (Vec d) Unit) :=
  C93_fedlt_optimum_rests (n := fedNet2) (server := 0) (clients := [1, 2]) (fun i x => x - b i) (pullTo b) (fun _ _ _ => rfl) (1 / 2) 1 one_pos 3
    (fun _ => 0) (ideal _) fedNet2_isFed (by simp) (star_fedIdeal _ _) 0 ((1 / 2 : ℝ) • (b 1 + b 2)) (by simp; module)
    ⟨net, ⟨0, fun c => (1 / 2 : ℝ) • (b 1 + b 2) - (1 : ℝ) • ((1 / 2 : ℝ) • (b 1 + b 2) - b c)⟩,
      fun c => ⟨(1 / 2 : ℝ) • (b 1 + b 2), (1 / 2 : ℝ) • (b 1 + b 2) - (1 : ℝ) • ((1 / 2 : ℝ) • (b 1 + b 2) - b c)⟩, fun _ => 0⟩
    (fun _ _ => rfl) (fun _ _ => rfl) (fun _ _ => rfl)

end Verif.Props
