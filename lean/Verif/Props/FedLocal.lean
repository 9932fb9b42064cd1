import Verif.Props.FedMore
import Mathlib.Tactic.FieldSimp
/-!
# What the clients of the federated algorithms compute in a round  (C29, C30, C32, C33, C34, C35)

Specification of a local training loop: the points `x 0, x 1, …, x K`, the mini-batch gradients `g j` queried at them, and
the documented step from `x j` to `x (j + 1)`.
-/
set_option linter.unusedSectionVars false
namespace Verif.Props
open Verif Verif.Fed Verif.NetState

variable {A V Ω α σ : Type} [DecidableEq A] {n : Net A} {server : A} {clients : List A}
variable {E : Type} [AddCommGroup E] [Module ℝ E]

/-- `g j` is client `c`'s answer to the `j`-th gradient query, made at `x j`; the queries follow one another -/
def Queried (G : Grad A Ω E) (c : A) (K : Nat) (x g : Nat → E) : Prop :=
  ∃ ωs : Nat → Ω, ∀ j : Nat, j < K → G c (x j) (ωs j) = (g j, ωs (j + 1))

theorem iterW_snoc {S : Type} (f : S → Ω → S × Ω) (K : Nat) (s : S) (ω : Ω) :
    iterW f (K + 1) s ω = f (iterW f K s ω).1 (iterW f K s ω).2 := by
  induction K generalizing s ω with
  | zero => rfl
  | succ K ih => rw [iterW, ih]; rfl

/-- a loop is a trajectory -/
theorem iterW_trajectory {S : Type} (f : S → Ω → S × Ω) (K : Nat) (s : S) (ω : Ω) :
    ∃ ss : Nat → S, ∃ ωs : Nat → Ω, ss 0 = s ∧ (∀ j : Nat, j < K → f (ss j) (ωs j) = (ss (j + 1), ωs (j + 1))) ∧
      (iterW f K s ω).1 = ss K := by
  refine ⟨fun j => (iterW f j s ω).1, fun j => (iterW f j s ω).2, rfl, fun j _ => ?_, rfl⟩
  exact (iterW_snoc f j s ω).symm

/-- a loop whose body makes one gradient query and then a step computed from it -/
theorem local_trajectory (G : Grad A Ω E) (c : A) (next : E → E → E) (K : Nat) (x0 : E) (ω : Ω) :
    ∃ x g : Nat → E, Queried G c K x g ∧ x 0 = x0 ∧ (∀ j : Nat, j < K → x (j + 1) = next (x j) (g j)) ∧
      (iterW (fun x ω => let g := G c x ω; (next x g.1, g.2)) K x0 ω).1 = x K := by
  obtain ⟨ss, ωs, h0, hstep, hend⟩ := iterW_trajectory (fun x ω => let g := G c x ω; (next x g.1, g.2)) K x0 ω
  refine ⟨ss, fun j => (G c (ss j) (ωs j)).1, ⟨ωs, fun j hj => ?_⟩, h0, fun j hj => ?_, hend⟩
  · have := congrArg Prod.snd (hstep j hj)
    exact Prod.ext rfl this
  · exact (congrArg Prod.fst (hstep j hj)).symm

/-- per-client part of a round of any federated algorithm: clients that did not hear the broadcast keep their variables, the
others train from what they heard; uploads over an exact uplink arrive unchanged -/
theorem clients_round (alg : FedAlg A V Ω α σ)
    {sel : Select A Ω} {w : World A V Ω} {s : FSys A V Ω α σ} {srv1 srv' : σ}
    {net' : NetState A FChan V Ω} {cli' : A → α} {nSel' : A → Nat} {selected P : List A} {bc : A → V} {ωs : A → Ω}
    (hr : Round alg sel w server clients s srv1 net' cli' nSel' selected P bc ωs) (c : A) (hc : c ∈ clients) :
    ((∀ v, ¬ GotBroadcast (⟨net', srv', cli', nSel'⟩ : FSys A V Ω α σ) server c v) → cli' c = s.cli c) ∧
    (∀ v, GotBroadcast (⟨net', srv', cli', nSel'⟩ : FSys A V Ω α σ) server c v →
      cli' c = (alg.train c v (s.cli c) (ωs c)).1.1 ∧
      (Exact w c → ∀ u ∈ (alg.train c v (s.cli c) (ωs c)).1.2, ∀ z, (net'.inbox server).get c u.1 = .ok z → z = u.2) ∧
      (Exact w server → v = alg.payload srv1)) := by
  have hin := hr.inboxes c hc
  constructor
  · intro h
    rw [hr.cli c, if_neg]
    intro hcP
    exact h (bc c) (by unfold GotBroadcast; rw [get_ok_iff, hin, if_pos hcP])
  · intro v hv
    unfold GotBroadcast at hv
    rw [get_ok_iff, hin] at hv
    by_cases hcP : c ∈ P
    · rw [if_pos hcP] at hv
      cases hv
      refine ⟨by rw [hr.cli c, if_pos hcP], ?_, fun he => (hr.heard c hcP).exact he⟩
      intro he u hu z hz
      rw [get_ok_iff] at hz
      rcases hr.uploads c hcP u hu with ⟨v', ha, hn, _⟩ | ⟨hn, _⟩
      · rw [hz] at hn
        cases hn
        exact ha.exact he
      · rw [hz] at hn; cases hn
    · rw [if_neg hcP] at hv; cases hv

/-- **C29.** FedAvg clients: a client that heard the model `v` makes `K` SGD steps from it and ends at the last point. -/
theorem C29_local_steps (G : Grad A Ω E) (η : ℝ) (K : Nat) (w : World A E Ω) (hf : IsFed n server clients)
    (hup : ServerUp w server) (sel : Select A Ω) (hsel : SelOK sel) (k : Int) (s : FSys A E Ω E E) :
    ∃ s', iter (fedAvg G η K) sel server w n k s = .ok s' ∧ ∀ c ∈ clients, ∀ v, GotBroadcast s' server c v →
      ∃ x g : Nat → E, Queried G c K x g ∧ x 0 = v ∧ (∀ j : Nat, j < K → x (j + 1) = x j - η • g j) ∧ s'.cli c = x K := by
  obtain ⟨s', R, up, selected, P, bc, ωs, h1, h2, h3, hr, h4, h5⟩ := mean_round (fedAvg G η K) (fun _ _ => rfl) rfl
    (fun _ _ _ _ => by simp [fedAvg]) w hf hup sel hsel k s
  refine ⟨s', h1, fun c hc v hv => ?_⟩
  obtain ⟨_, hh⟩ := clients_round (srv' := s'.srv) (fedAvg G η K) hr c hc
  obtain ⟨e, _, _⟩ := hh v hv
  obtain ⟨x, g, q, x0, hs, he⟩ := local_trajectory G c (fun x g => x - η • g) K v (ωs c)
  exact ⟨x, g, q, x0, hs, by rw [e]; exact he⟩

/-- **C30.** FedProx clients: a client that heard the model `v` makes `K` steps of size `η` along the mini-batch gradient of
`f_c(x) + (μ/2)‖x - v‖²`, starting from `v`; its upload over an exact uplink is the point it ends at; clients that heard
nothing are unchanged. -/
theorem C30_local_steps (G : Grad A Ω E) (η μ : ℝ) (K : Nat) (w : World A E Ω) (hf : IsFed n server clients)
    (hup : ServerUp w server) (sel : Select A Ω) (hsel : SelOK sel) (k : Int) (s : FSys A E Ω E E) :
    ∃ s', iter (fedProx G η μ K) sel server w n k s = .ok s' ∧ ∀ c ∈ clients,
      ((∀ v, ¬ GotBroadcast s' server c v) → s'.cli c = s.cli c) ∧
      ∀ v, GotBroadcast s' server c v →
        (∃ x g : Nat → E, Queried G c K x g ∧ x 0 = v ∧
          (∀ j : Nat, j < K → x (j + 1) = x j - η • (g j + μ • (x j - v))) ∧ s'.cli c = x K) ∧
        (Exact w c → ∀ z, (s'.net.inbox server).get c .dflt = .ok z → z = s'.cli c) ∧ (Exact w server → v = s.srv) := by
  obtain ⟨s', R, up, selected, P, bc, ωs, h1, h2, h3, hr, h4, h5⟩ := mean_round (fedProx G η μ K) (fun _ _ => rfl) rfl
    (fun _ _ _ _ => by simp [fedProx]) w hf hup sel hsel k s
  refine ⟨s', h1, fun c hc => ?_⟩
  obtain ⟨hn, hh⟩ := clients_round (srv' := s'.srv) (fedProx G η μ K) hr c hc
  refine ⟨hn, fun v hv => ?_⟩
  obtain ⟨e, e2, e3⟩ := hh v hv
  obtain ⟨x, g, q, x0, hs, he⟩ := local_trajectory G c (fun x g => x - η • (g + μ • (x - v))) K v (ωs c)
  refine ⟨⟨x, g, q, x0, hs, by rw [e]; exact he⟩, fun hex z hz => ?_, e3⟩
  rw [e]
  exact e2 hex (.dflt, (localProx G η μ K c v (ωs c)).1) (by simp [fedProx]) z hz

/-- **C33.** FedDyn clients: `K` steps along the mini-batch gradient of `f_c(x) - ⟨g_c, x⟩ + (α/2)‖x - v‖²` from the received
model `v`, then `g_c ← g_c - α (x - v)`. -/
theorem C33_local_steps (G : Grad A Ω E) (η α : ℝ) (K : Nat) (w : World A E Ω) (hf : IsFed n server clients)
    (hup : ServerUp w server) (hex : ∀ a ∈ server :: clients, Exact w a) (sel : Select A Ω) (hsel : SelOK sel) (k : Int)
    (s : FSys A E Ω (DynCli E) (DynSrv E)) :
    ∃ s', iter (fedDyn G η α K) sel server w n k s = .ok s' ∧ ∀ c ∈ clients,
      ((∀ v, ¬ GotBroadcast s' server c v) → s'.cli c = s.cli c) ∧
      ∀ v, GotBroadcast s' server c v → v = s.srv.x ∧
        (∃ x g : Nat → E, Queried G c K x g ∧ x 0 = v ∧
          (∀ j : Nat, j < K → x (j + 1) = x j - η • (g j - (s.cli c).g + α • (x j - v))) ∧ (s'.cli c).x = x K) ∧
        (s'.cli c).g = (s.cli c).g - α • ((s'.cli c).x - v) ∧
        (∀ z, (s'.net.inbox server).get c .dflt = .ok z → z = (s'.cli c).x) := by
  obtain ⟨s', R, selected, P, bc, ωs, h1, hr, _⟩ := dyn_round G η α K w hf hup hex sel hsel k s
  refine ⟨s', h1, fun c hc => ?_⟩
  obtain ⟨hn, hh⟩ := clients_round (srv' := s'.srv) (fedDyn G η α K) hr c hc
  refine ⟨hn, fun v hv => ?_⟩
  obtain ⟨e, e2, e3⟩ := hh v hv
  obtain ⟨x, g, q, x0, hs, he⟩ := local_trajectory G c (fun x g => x - η • (g - (s.cli c).g + α • (x - v))) K v (ωs c)
  refine ⟨e3 (hex server (by simp)), ⟨x, g, q, x0, hs, by rw [e]; exact he⟩, by rw [e]; rfl, fun z hz => ?_⟩
  rw [e]
  exact e2 (hex c (by simp [hc])) (.dflt, (localDyn G η α K c (s.cli c).g v (ωs c)).1) (by simp [fedDyn]) z hz

/-- **C33.** If the local loop ends at a stationary point of its objective, the client's dynamic state becomes the gradient
of its own cost there (the first-order condition FedDyn is built on). -/
theorem C33_state_is_gradient (G : Grad A Ω E) (grad : A → E → E) (η α : ℝ) (K : Nat) (w : World A E Ω)
    (hf : IsFed n server clients) (hup : ServerUp w server) (hex : ∀ a ∈ server :: clients, Exact w a) (sel : Select A Ω)
    (hsel : SelOK sel) (k : Int) (s : FSys A E Ω (DynCli E) (DynSrv E)) :
    ∃ s', iter (fedDyn G η α K) sel server w n k s = .ok s' ∧ ∀ c ∈ clients, ∀ v, GotBroadcast s' server c v →
      grad c (s'.cli c).x - (s.cli c).g + α • ((s'.cli c).x - v) = 0 → (s'.cli c).g = grad c (s'.cli c).x := by
  obtain ⟨s', h1, h⟩ := C33_local_steps G η α K w hf hup hex sel hsel k s
  refine ⟨s', h1, fun c hc v hv hz => ?_⟩
  obtain ⟨_, _, hg, _⟩ := (h c hc).2 v hv
  rw [hg]
  have : grad c (s'.cli c).x - ((s.cli c).g - α • ((s'.cli c).x - v)) = 0 := by rw [← hz]; abel
  exact (sub_eq_zero.1 this).symm

/-- **C32.** SCAFFOLD clients: with `(v, c)` the received model and server control variate, `K` steps
`x ← x - η (g - c_i + c)` from `v`; afterwards the client's control variate is the mean of the `K` mini-batch gradients it
computed; the uploads are the model change and the control variate change. -/
theorem C32_local_steps (G : Grad A Ω E) (η ηg : ℝ) (hη : η ≠ 0) (K : Nat) (hK : 0 < K) (c0 : A → E)
    (w : World A (Arr E) Ω) (hf : IsFed n server clients) (hup : ServerUp w server) (hex : ∀ c ∈ clients, Exact w c)
    (sel : Select A Ω) (hsel : SelOK sel) (k : Int) (s : FSys A (Arr E) Ω (ScafCli E) (ScafSrv E)) :
    ∃ s', iter (scaffold G η ηg K c0 server) sel server w n k s = .ok s' ∧ ∀ c ∈ clients,
      ((∀ m, ¬ GotBroadcast s' server c m) → s'.cli c = s.cli c) ∧
      ∀ m, GotBroadcast s' server c m →
        (Exact w server → m = Arr.stack s.srv.x s.srv.c) ∧
        (∃ x g : Nat → E, Queried G c K x g ∧ x 0 = m.row0 ∧
          (∀ j : Nat, j < K → x (j + 1) = x j - η • (g j - (s.cli c).c_i + m.row1)) ∧ (s'.cli c).x = x K ∧
          (s'.cli c).c_i = (1 / (K : ℝ)) • ((List.range K).map g).sum) ∧
        (∀ z, (s'.net.inbox server).get c .modelDelta = .ok z → z = Arr.single ((s'.cli c).x - m.row0)) ∧
        (∀ z, (s'.net.inbox server).get c .controlDelta = .ok z → z = Arr.single ((s'.cli c).c_i - (s.cli c).c_i)) := by
  obtain ⟨s', R, selected, P, bc, ωs, h1, hr, _⟩ := scaf_round G η ηg K c0 w hf hup hex sel hsel k s
  refine ⟨s', h1, fun c hc => ?_⟩
  obtain ⟨hn, hh⟩ := clients_round (srv' := s'.srv) (scaffold G η ηg K c0 server) hr c hc
  refine ⟨hn, fun m hv => ?_⟩
  obtain ⟨e, e2, e3⟩ := hh m hv
  obtain ⟨x, g, q, x0, hs, he⟩ := local_trajectory G c (fun x g => x - η • (g - (s.cli c).c_i + m.row1)) K m.row0 (ωs c)
  -- displacement of the trajectory
  have hdisp : ∀ J : Nat, J ≤ K → x 0 - x J = η • (((List.range J).map g).sum - (J : ℝ) • ((s.cli c).c_i - m.row1)) := by
    intro J
    induction J with
    | zero => intro _; simp
    | succ J ih =>
      intro hJ
      have h1 := ih (by omega)
      have h2 : x 0 - x (J + 1) = (x 0 - x J) + η • (g J - (s.cli c).c_i + m.row1) := by
        rw [hs J (by omega)]; abel
      rw [h2, h1, List.range_succ, List.map_append, List.sum_append, List.map_singleton, List.sum_singleton, ← smul_add]
      congr 1
      push_cast
      rw [add_smul, one_smul]
      abel
  have hKr : (K : ℝ) ≠ 0 := by exact_mod_cast hK.ne'
  have hloc : (localScaffold G η K c (s.cli c).c_i m.row1 m.row0 (ωs c)).1 = x K := he
  have hx : (s'.cli c).x = x K := by rw [e]; exact he
  have hci : (s'.cli c).c_i = (s.cli c).c_i - m.row1 + (1 / ((K : ℝ) * η)) • (m.row0 - x K) := by
    rw [e]; simp only [scaffold]; rw [hloc]
  refine ⟨e3, ⟨x, g, q, x0, hs, hx, ?_⟩, ?_, ?_⟩
  · rw [hci, ← x0, hdisp K (le_refl _), smul_smul, smul_sub, smul_smul]
    have a1 : 1 / ((K : ℝ) * η) * η = 1 / (K : ℝ) := by field_simp
    have a2 : 1 / (K : ℝ) * (K : ℝ) = 1 := by field_simp
    rw [a1, a2, one_smul]
    abel
  · intro z hz
    rw [e]
    exact e2 (hex c hc) (.modelDelta, _) (by simp only [scaffold, List.mem_cons]; exact .inl rfl) z hz
  · intro z hz
    rw [e]
    exact e2 (hex c hc) (.controlDelta, _) (by simp only [scaffold, List.mem_cons]; exact .inr (.inl rfl)) z hz

section opt
variable {ι : Type}

/-- **C34.** FedOpt clients (FedAdagrad, FedAdam, FedYogi): `K` SGD steps from the received model `v`; the upload over an
exact uplink is the client's new model minus `v` — so over exact channels the server's `d` in `C34_update_documented` is
the mean of the local models minus the server model. -/
theorem C34_deltas (G : Grad A Ω (ι → ℝ)) (η ηs β1 ε : ℝ) (K : Nat) (second : ℝ → ℝ → ℝ)
    (w : World A (ι → ℝ) Ω) (hf : IsFed n server clients) (hup : ServerUp w server)
    (sel : Select A Ω) (hsel : SelOK sel) (k : Int) (s : FSys A (ι → ℝ) Ω (ι → ℝ) (OptSrv ι)) :
    ∃ s', iter (fedOpt G η ηs β1 ε K second) sel server w n k s = .ok s' ∧ ∀ c ∈ clients,
      ((∀ v, ¬ GotBroadcast s' server c v) → s'.cli c = s.cli c ∧ ∀ z, (s'.net.inbox server).get c .dflt ≠ .ok z) ∧
      ∀ v, GotBroadcast s' server c v →
        (∃ x g : Nat → ι → ℝ, Queried G c K x g ∧ x 0 = v ∧ (∀ j : Nat, j < K → x (j + 1) = x j - η • g j) ∧
          s'.cli c = x K) ∧
        (Exact w c → ∀ z, (s'.net.inbox server).get c .dflt = .ok z → z = s'.cli c - v) ∧
        (Exact w server → v = s.srv.x) := by
  obtain ⟨srv1, net', cli', nSel', selected, P, bc, ωs, hr, hi⟩ := iter_spec (fedOpt G η ηs β1 ε K second)
    (fun _ _ _ _ => by simp [fedOpt]) (fun b srv => by simp [fedOpt, receivedFrom]) w hf hup sel hsel k s
  have hsrv : srv1 = s.srv := hr.prep
  subst hsrv
  have hok : ∃ srv', iter (fedOpt G η ηs β1 ε K second) sel server w n k s = .ok ⟨net', srv', cli', nSel'⟩ := by
    rw [hi]
    simp only [fedOpt]
    split
    · exact ⟨_, rfl⟩
    · exact ⟨_, rfl⟩
  obtain ⟨srv', h1⟩ := hok
  refine ⟨_, h1, fun c hc => ?_⟩
  obtain ⟨hn, hh⟩ := clients_round (srv' := srv') (fedOpt G η ηs β1 ε K second) hr c hc
  refine ⟨fun hno => ⟨hn hno, fun z hz => ?_⟩, fun v hv => ?_⟩
  · rw [get_ok_iff] at hz
    have hcP := (hr.only .dflt c (by simp only at hz; simp [hz])).1
    refine hno (bc c) ?_
    unfold GotBroadcast
    rw [get_ok_iff]
    exact (hr.inboxes c hc).trans (if_pos hcP)
  · obtain ⟨e, e2, e3⟩ := hh v hv
    obtain ⟨x, g, q, x0, hs, he⟩ := local_trajectory G c (fun x g => x - η • g) K v (ωs c)
    refine ⟨⟨x, g, q, x0, hs, e.trans he⟩, fun hex z hz => ?_, e3⟩
    have := e2 hex (.dflt, (localSgd G η K c v (ωs c)).1 - v) (by simp [fedOpt]) z hz
    rw [this]
    simp only
    rw [e]
    rfl

end opt

/-- **C35.** Fed-LT's "gd" solver: `K` gradient steps on `f_c(x) + (1/2ρ)‖x - v‖²` from the client's own state. -/
theorem C35_gd_solver (G : Grad A Ω E) (η ρ : ℝ) (K : Nat) (c : A) (x0 v : E) (ω : Ω) :
    ∃ x g : Nat → E, Queried G c K x g ∧ x 0 = x0 ∧
      (∀ j : Nat, j < K → x (j + 1) = x j - η • (g j + (1 / ρ) • (x j - v))) ∧ (ltGd G η ρ K c x0 v ω).1 = x K :=
  local_trajectory G c (fun x g => x - η • (g + (1 / ρ) • (x - v))) K x0 ω

/-- **C35.** Fed-LT's "nesterov" solver: gradient steps `u` on the same objective at the extrapolated points, extrapolated
with momentum `m`; the client's new state is the last extrapolated point. -/
theorem C35_nesterov_solver (G : Grad A Ω E) (η ρ m : ℝ) (K : Nat) (c : A) (x0 v : E) (ω : Ω) :
    ∃ x u g : Nat → E, Queried G c K x g ∧ x 0 = x0 ∧ u 0 = x0 ∧
      (∀ j : Nat, j < K → u (j + 1) = x j - η • (g j + (1 / ρ) • (x j - v)) ∧ x (j + 1) = u (j + 1) + m • (u (j + 1) - u j)) ∧
      (ltNesterov G η ρ m K c x0 v ω).1 = x K := by
  obtain ⟨ss, ωs, h0, hstep, hend⟩ := iterW_trajectory (fun (p : E × E) ω =>
    let g := G c p.1 ω
    let u := p.1 - η • (g.1 + (1 / ρ) • (p.1 - v))
    ((u + m • (u - p.2), u), g.2)) K (x0, x0) ω
  refine ⟨fun j => (ss j).1, fun j => (ss j).2, fun j => (G c (ss j).1 (ωs j)).1, ⟨ωs, fun j hj => ?_⟩, by simp [h0], by simp [h0],
    fun j hj => ?_, ?_⟩
  · have := congrArg Prod.snd (hstep j hj)
    exact Prod.ext rfl this
  · have h2 := congrArg (fun p => p.1.2) (hstep j hj)
    have h1 := congrArg (fun p => p.1.1) (hstep j hj)
    simp only at h1 h2
    refine ⟨h2.symm, ?_⟩
    show (ss (j + 1)).1 = (ss (j + 1)).2 + m • ((ss (j + 1)).2 - (ss j).2)
    rw [← h1, ← h2]
  · unfold ltNesterov
    simp only
    exact congrArg Prod.fst hend

-- a client with two steps on `f(x) = x²/2` pulled to the reference 1: 1 → 1 - ½(1 + 0) = ½ → ½ - ½(½ + (½ - 1)) = ½
example : (localProx (fun _ x ω => (x, ω)) (1 / 2) 1 2 (0 : Nat) (1 : ℝ) ()).1 = 1 / 2 := by
  simp [localProx, iterW]; norm_num

end Verif.Props
