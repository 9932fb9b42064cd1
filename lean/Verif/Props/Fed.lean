import Verif.Lemmas.Fed
import Mathlib.Algebra.BigOperators.Group.List.Basic
import Mathlib.Algebra.Module.BigOperators
import Mathlib.Algebra.Module.LinearMap.Basic
import Mathlib.Tactic.Module
import Mathlib.Tactic.Abel
import Mathlib.Tactic.Linarith
import Mathlib.Tactic.FieldSimp
import Mathlib.Tactic.Positivity
set_option linter.unusedSectionVars false
/-!
# C29 - C35, C66: federated algorithms

`iter alg sel server w n k s` is one iteration of `Algorithm.run`: `network._step(k)` followed by the algorithm's `step`.
-/
namespace Verif.Props
open Verif Verif.Fed NetState

section
variable {A V Ω α σ E : Type} [DecidableEq A] [AddCommGroup E] [Module ℝ E]
variable {n : Net A} {server : A} {clients : List A}

/-- `R` lists, each once, the agents whose message is in the server's inbox (channel `ch`); `up c` is that message. -/
structure Heard (s : FSys A V Ω α σ) (server : A) (ch : FChan) (R : List A) (up : A → V) : Prop where
  nodup : R.Nodup
  iff_ : ∀ c v, (s.net.inbox server).get c ch = .ok v ↔ c ∈ R ∧ v = up c

/-- client `c` received the server's broadcast in this round -/
def GotBroadcast (s : FSys A V Ω α σ) (server c : A) (v : V) : Prop := (s.net.inbox c).get server .dflt = .ok v

/-! ### helpers -/

theorem foldl_zip_ones (l : List E) (acc : E) :
    (List.zip l (List.replicate l.length (1 : ℝ))).foldl (fun acc p => acc + p.2 • p.1) acc = acc + l.sum := by
  induction l generalizing acc with
  | nil => simp
  | cons a t ih => simp [List.replicate_succ, ih, add_assoc]

theorem uniformAverage_eq (l : List E) : uniformAverage l = (1 / (l.length : ℝ)) • l.sum := by
  unfold uniformAverage weightedAverage
  rw [foldl_zip_ones, zero_add]

theorem foldl_add_eq {S : Type} (f : S → E) (l : List S) (acc : E) :
    l.foldl (fun acc m => acc + f m) acc = acc + (l.map f).sum := by
  induction l generalizing acc with
  | nil => simp
  | cons a t ih => simp [ih, add_assoc]

theorem get_ok_iff (b : Inbox FChan A V) (c : A) (ch : FChan) (v : V) : b.get c ch = .ok v ↔ b.abs ch c = some v := by
  rw [Inbox.get_eq]
  cases b.abs ch c with
  | none => simp
  | some m => simp

/-- messages of the participants on a channel, as the aggregation reads them -/
theorem receivedFrom_eq (b : Inbox FChan A V) (ch : FChan) (P : List A) (up : A → V)
    (hup : ∀ c ∈ P, ∀ v, b.abs ch c = some v → up c = v) :
    receivedFrom b ch P = (P.filter (fun c => (b.abs ch c).isSome)).map (fun c => (c, up c)) := by
  unfold receivedFrom
  induction P with
  | nil => rfl
  | cons c t ih =>
    have iht := ih (fun c' hc' => hup c' (by simp [hc']))
    rw [List.filterMap_cons, List.filter_cons, Inbox.get?_byChannel]
    cases h : b.abs ch c with
    | none => simp [iht]
    | some v => simp [iht, hup c (by simp) v h]

/-- the participants' messages are exactly what the inbox holds, so the inbox determines the aggregation -/
theorem heard_of_round {alg : FedAlg A V Ω α σ} {sel : Select A Ω} {w : World A V Ω} {s : FSys A V Ω α σ} {srv1 : σ}
    {net' : NetState A FChan V Ω} {cli' : A → α} {nSel' : A → Nat} {selected P : List A} {bc : A → V} {ωs : A → Ω}
    (hr : Round alg sel w server clients s srv1 net' cli' nSel' selected P bc ωs) (srv' : σ) (ch : FChan) (d : V) :
    Heard (⟨net', srv', cli', nSel'⟩ : FSys A V Ω α σ) server ch
      (P.filter (fun c => ((net'.inbox server).abs ch c).isSome)) (fun c => ((net'.inbox server).abs ch c).getD d) := by
  refine ⟨hr.nodup.filter _, fun c v => ?_⟩
  rw [get_ok_iff]
  constructor
  · intro h
    refine ⟨List.mem_filter.2 ⟨(hr.only ch c (by simp [h])).1, by simp [h]⟩, by simp [h]⟩
  · rintro ⟨hm, rfl⟩
    obtain ⟨x, hx⟩ := Option.isSome_iff_exists.1 (List.mem_filter.1 hm).2
    simp [hx]

theorem getD_val (o : Option V) (d v : V) (h : o = some v) : o.getD d = v := by simp [h]

/-! ## C29 -/

/-- rounds of any algorithm that aggregates with the default rule -/
theorem mean_round (alg : FedAlg A E Ω α E) (hp : ∀ s ω, alg.prepare s ω = (s, ω)) (hagg : alg.aggregate = aggregateMean)
    (hch : ∀ c m v ω, (((alg.train c m v ω).1.2).map Prod.fst).Nodup)
    (w : World A E Ω) (hf : IsFed n server clients) (hup : ServerUp w server) (sel : Select A Ω) (hsel : SelOK sel)
    (k : Int) (s : FSys A E Ω α E) :
    ∃ s', ∃ R : List A, ∃ up : A → E, ∃ selected P bc, ∃ ωs : A → Ω,
      iter alg sel server w n k s = .ok s' ∧ Heard s' server .dflt R up ∧ (∀ c ∈ R, c ∈ P) ∧
      Round alg sel w server clients { s with net := s.net.step n k } s.srv s'.net s'.cli s'.nSelected selected P bc ωs ∧
      (R = [] → s'.srv = s.srv) ∧ (R ≠ [] → s'.srv = (1 / (R.length : ℝ)) • (R.map up).sum) := by
  obtain ⟨srv1, net', cli', nSel', selected, P, bc, ωs, hr, hi⟩ := iter_spec alg hch
    (fun b srv => by rw [hagg]; simp [aggregateMean, receivedFrom]) w hf hup sel hsel k s
  have hsrv : srv1 = s.srv := by have := hr.prep; rw [hp] at this; exact this
  subst hsrv
  set R := P.filter (fun c => ((net'.inbox server).abs .dflt c).isSome) with hR
  have hrec : receivedFrom (net'.inbox server) .dflt P =
      R.map (fun c => (c, ((net'.inbox server).abs .dflt c).getD 0)) :=
    receivedFrom_eq _ _ _ _ (fun c _ v hv => getD_val _ _ _ hv)
  have hok : iter alg sel server w n k s = .ok ⟨net', if R = [] then s.srv else
      (1 / (R.length : ℝ)) • (R.map (fun c => ((net'.inbox server).abs .dflt c).getD 0)).sum, cli', nSel'⟩ := by
    rw [hi, hagg]
    unfold aggregateMean
    simp only [hrec, List.map_eq_nil_iff]
    by_cases he : R = []
    · simp [he, Except.bind]
    · simp only [he, if_false, Except.bind, uniformAverage_eq]
      simp [List.map_map, Function.comp_def]
  refine ⟨_, R, _, selected, P, bc, ωs, hok, heard_of_round hr _ .dflt 0, fun c hc => (List.mem_filter.1 hc).1, hr, ?_, ?_⟩
  · intro h; simp [h]
  · intro h; simp [h]

/-- After every FedAvg iteration, for every network behaviour, the server model is the mean of the uploads in its inbox, or
unchanged if none arrived; the round never raises. -/
theorem C29_fedavg_mean_of_uploads (G : Grad A Ω E) (η : ℝ) (K : Nat) (w : World A E Ω) (hf : IsFed n server clients)
    (hup : ServerUp w server) (sel : Select A Ω) (hsel : SelOK sel) (k : Int) (s : FSys A E Ω E E) :
    ∃ s', iter (fedAvg G η K) sel server w n k s = .ok s' ∧ ∃ R up, Heard s' server .dflt R up ∧ (∀ c ∈ R, c ∈ clients) ∧
      (R = [] → s'.srv = s.srv) ∧ (R ≠ [] → s'.srv = (1 / (R.length : ℝ)) • (R.map up).sum) := by
  obtain ⟨s', R, up, selected, P, bc, ωs, h1, h2, h3, hr, h4, h5⟩ := mean_round (fedAvg G η K) (fun _ _ => rfl) rfl
    (fun _ _ _ _ => by simp [fedAvg]) w hf hup sel hsel k s
  exact ⟨s', h1, R, up, h2, fun c hc => hr.sel_client c (hr.sub c (h3 c hc)), h4, h5⟩

theorem C29_fedprox_mean_of_uploads (G : Grad A Ω E) (η μ : ℝ) (K : Nat) (w : World A E Ω) (hf : IsFed n server clients)
    (hup : ServerUp w server) (sel : Select A Ω) (hsel : SelOK sel) (k : Int) (s : FSys A E Ω E E) :
    ∃ s', iter (fedProx G η μ K) sel server w n k s = .ok s' ∧ ∃ R up, Heard s' server .dflt R up ∧ (∀ c ∈ R, c ∈ clients) ∧
      (R = [] → s'.srv = s.srv) ∧ (R ≠ [] → s'.srv = (1 / (R.length : ℝ)) • (R.map up).sum) := by
  obtain ⟨s', R, up, selected, P, bc, ωs, h1, h2, h3, hr, h4, h5⟩ := mean_round (fedProx G η μ K) (fun _ _ => rfl) rfl
    (fun _ _ _ _ => by simp [fedProx]) w hf hup sel hsel k s
  exact ⟨s', h1, R, up, h2, fun c hc => hr.sel_client c (hr.sub c (h3 c hc)), h4, h5⟩

/-- A mean lies between the extremes in every coordinate (and every linear observable `φ`). -/
theorem C29_mean_between (R : List A) (up : A → E) (hR : R ≠ []) (φ : E →ₗ[ℝ] ℝ) (lo hi : ℝ)
    (h : ∀ c ∈ R, lo ≤ φ (up c) ∧ φ (up c) ≤ hi) :
    lo ≤ φ ((1 / (R.length : ℝ)) • (R.map up).sum) ∧ φ ((1 / (R.length : ℝ)) • (R.map up).sum) ≤ hi := by
  have hlen : (0 : ℝ) < R.length := by
    have : 0 < R.length := List.length_pos_iff.2 hR
    exact_mod_cast this
  have hs : φ ((R.map up).sum) = (R.map (fun c => φ (up c))).sum := by
    rw [map_list_sum, List.map_map]; rfl
  rw [map_smul, hs, smul_eq_mul]
  have b1 : ∀ l : List A, (∀ c ∈ l, lo ≤ φ (up c) ∧ φ (up c) ≤ hi) →
      lo * l.length ≤ (l.map (fun c => φ (up c))).sum ∧ (l.map (fun c => φ (up c))).sum ≤ hi * l.length := by
    intro l
    induction l with
    | nil => simp
    | cons a t ih =>
      intro hl
      obtain ⟨i1, i2⟩ := ih (fun c hc => hl c (by simp [hc]))
      obtain ⟨j1, j2⟩ := hl a (by simp)
      simp only [List.map_cons, List.sum_cons, List.length_cons]
      push_cast
      constructor <;> nlinarith
  obtain ⟨i1, i2⟩ := b1 R h
  rw [div_mul_eq_mul_div, one_mul, le_div_iff₀ hlen, div_le_iff₀ hlen]
  exact ⟨i1, i2⟩

/-- Uploads are the clients' new models: with an undistorted uplink every received upload is the sender's current state; a
client that did not get the broadcast keeps its state, one that did runs local SGD from the received model. -/
theorem C29_fedavg_clients (G : Grad A Ω E) (η : ℝ) (K : Nat) (w : World A E Ω) (hf : IsFed n server clients)
    (hup : ServerUp w server) (sel : Select A Ω) (hsel : SelOK sel) (k : Int) (s : FSys A E Ω E E) :
    ∃ s', iter (fedAvg G η K) sel server w n k s = .ok s' ∧
      (∀ c ∈ clients, Exact w c → ∀ v, (s'.net.inbox server).get c .dflt = .ok v → v = s'.cli c) ∧
      (∀ c ∈ clients, (∀ v, ¬ GotBroadcast s' server c v) → s'.cli c = s.cli c) ∧
      (∀ c ∈ clients, ∀ v, GotBroadcast s' server c v → ∃ ω, s'.cli c = (localSgd G η K c v ω).1) ∧
      (∀ c ∈ clients, Exact w server → ∀ v, GotBroadcast s' server c v → v = s.srv) := by
  obtain ⟨s', R, up, selected, P, bc, ωs, h1, h2, h3, hr, h4, h5⟩ := mean_round (fedAvg G η K) (fun _ _ => rfl) rfl
    (fun _ _ _ _ => by simp [fedAvg]) w hf hup sel hsel k s
  refine ⟨s', h1, ?_, ?_, ?_, ?_⟩
  · intro c hc he v hv
    rw [get_ok_iff] at hv
    have hcP := (hr.only .dflt c (by simp [hv])).1
    rcases hr.uploads c hcP (.dflt, (localSgd G η K c (bc c) (ωs c)).1) (by simp [fedAvg]) with ⟨v', ha, hn, _⟩ | ⟨hn, _⟩
    · simp only at hn
      rw [hv] at hn
      cases hn
      rw [ha.exact he, hr.cli c, if_pos hcP]
      rfl
    · simp only at hn; rw [hv] at hn; cases hn
  · intro c hc h
    rw [hr.cli c, if_neg]
    intro hcP
    exact h (bc c) (by unfold GotBroadcast; rw [get_ok_iff, hr.inboxes c hc, if_pos hcP])
  · intro c hc v hv
    unfold GotBroadcast at hv
    rw [get_ok_iff, hr.inboxes c hc] at hv
    by_cases hcP : c ∈ P
    · rw [if_pos hcP] at hv
      cases hv
      exact ⟨ωs c, by rw [hr.cli c, if_pos hcP]; rfl⟩
    · rw [if_neg hcP] at hv; cases hv
  · intro c hc he v hv
    unfold GotBroadcast at hv
    rw [get_ok_iff, hr.inboxes c hc] at hv
    by_cases hcP : c ∈ P
    · rw [if_pos hcP] at hv
      cases hv
      exact (hr.heard c hcP).exact he
    · rw [if_neg hcP] at hv; cases hv

/-- `K` gradient steps of size `η` from `x` -/
noncomputable def gdSteps (g : E → E) (η : ℝ) : Nat → E → E
  | 0, x => x
  | K + 1, x => gdSteps g η K (x - η • g x)

theorem localSgd_det (G : Grad A Ω E) (g : A → E → E) (hg : ∀ c x ω, (G c x ω).1 = g c x) (η : ℝ) (K : Nat) (c : A) (x : E)
    (ω : Ω) : (localSgd G η K c x ω).1 = gdSteps (g c) η K x := by
  unfold localSgd
  induction K generalizing x ω with
  | zero => rfl
  | succ K ih =>
    have := ih (x - η • (G c x ω).1) (G c x ω).2
    simp only [iterW, gdSteps]
    rw [← hg c x ω]
    exact this

/-- The whole FedAvg run over ideal channels with all clients selected and deterministic gradients is the documented
recursion `x_{k+1} = mean_i (K gradient steps of client i from x_k)`, for every number of rounds. -/
theorem C29_fedavg_ideal_run (G : Grad A Ω E) (g : A → E → E) (hg : ∀ c x ω, (G c x ω).1 = g c x) (η : ℝ) (K : Nat)
    (w : World A E Ω) (hf : IsFed n server clients) (hup : ServerUp w server) (hcl : clients ≠ [])
    (hact : ∀ c ∈ clients, ∀ it ω, (w.isActive c it ω).1 = true)
    (hideal : ∀ a ∈ server :: clients, Exact w a ∧ Lossless w a) (x0 : A → E) (s : FSys A E Ω E E) (k : Nat) :
    ∃ s', (fedAvg G η K).after none server w n x0 s k = .ok s' ∧
      s'.srv = (fun x => (1 / (clients.length : ℝ)) • (clients.map (fun c => gdSteps (g c) η K x)).sum)^[k] (x0 server) := by
  apply after_induction (n := n) (server := server) (fedAvg G η K) none w x0 s (fun k s' =>
    s'.srv = (fun x => (1 / (clients.length : ℝ)) • (clients.map (fun c => gdSteps (g c) η K x)).sum)^[k] (x0 server))
  · rfl
  · intro k s1 ih
    obtain ⟨s', R, up, selected, P, bc, ωs, h1, h2, h3, hr, h4, h5⟩ := mean_round (fedAvg G η K) (fun _ _ => rfl) rfl
      (fun _ _ _ _ => by simp [fedAvg]) w hf hup none (fun f e => by cases e) k s1
    have hselall : selected = clients := hr.all_active rfl hact
    have hPall : ∀ c ∈ clients, c ∈ P := by
      intro c hc
      by_contra hcP
      obtain ⟨ω, hω⟩ := hr.missed c (by rw [hselall]; exact hc) hcP
      rw [(hideal server (by simp)).2 ω] at hω; cases hω
    have hin : ∀ c ∈ clients, (s'.net.inbox server).get c .dflt = .ok (gdSteps (g c) η K s1.srv) := by
      intro c hc
      rw [get_ok_iff]
      obtain ⟨v', ha, hn⟩ := (hr.uploads c (hPall c hc) (.dflt, (localSgd G η K c (bc c) (ωs c)).1)
        (by simp [fedAvg])).lossless (hideal c (by simp [hc])).2
      simp only at hn
      rw [hn, ha.exact (hideal c (by simp [hc])).1, localSgd_det G g hg,
        (hr.heard c (hPall c hc)).exact (hideal server (by simp)).1]
      rfl
    have hmem : ∀ c, c ∈ R ↔ c ∈ clients := by
      intro c
      constructor
      · intro hc; exact hr.sel_client c (hr.sub c (h3 c hc))
      · intro hc; exact ((h2.iff_ c _).1 (hin c hc)).1
    have hclnd : clients.Nodup := by
      have := hf.wf.nodup
      rw [hf.nodes, List.nodup_cons] at this
      exact this.2
    have hperm : R.Perm clients := (List.perm_ext_iff_of_nodup h2.nodup hclnd).2 hmem
    refine ⟨s', h1, ?_⟩
    have hRne : R ≠ [] := by
      intro e
      rw [e] at hperm
      exact hcl (List.nil_perm.1 hperm)
    rw [Function.iterate_succ_apply', ← ih, h5 hRne, hperm.length_eq, (hperm.map up).sum_eq]
    congr 2
    apply List.map_congr_left
    intro c hc
    exact ((h2.iff_ c _).1 (hin c hc)).2.symm

/-! ## C30 -/

/-- FedProx with penalty 0 *is* FedAvg: same result (including the random state, all client states and any exception) of
every run, on every network. -/
theorem C30_fedprox_zero_is_fedavg (G : Grad A Ω E) (η : ℝ) (K : Nat) (sel : Select A Ω) (w : World A E Ω) (n : Net A)
    (server : A) (x0 : A → E) (s : FSys A E Ω E E) (k : Nat) :
    (fedProx G η 0 K).after sel server w n x0 s k = (fedAvg G η K).after sel server w n x0 s k := by
  have hl : ∀ c x ω, localProx G η 0 K c x ω = localSgd G η K c x ω := by
    intro c x ω
    unfold localProx localSgd
    congr 1
    funext y ω
    simp
  have : fedProx G η 0 K = fedAvg G η K := by
    unfold fedProx fedAvg
    simp only [hl]
  rw [this]

/-! ## C31 -/

/-- The uploaded cumulative update is the received model minus the final local model, whatever the gradients, momentum,
proximal term and number of steps. -/
theorem C31_cumulative_is_displacement (p : NovaParams) (G : Grad A Ω E) (τ : A → Nat) (c : A) (ref : E) (ω : Ω) :
    (novaLocal p G τ c ref ω).1.cum = ref - (novaLocal p G τ c ref ω).1.x := by
  unfold novaLocal
  have : ∀ K (v : NovaLoop E) ω, v.cum = ref - v.x →
      (iterW (novaBody p G c ref) K v ω).1.cum = ref - (iterW (novaBody p G c ref) K v ω).1.x := by
    intro K
    induction K with
    | zero => intro v ω h; exact h
    | succ K ih =>
      intro v ω h
      apply ih
      simp only [novaBody, h]
      abel
  exact this _ _ _ (by simp)

/-- documented recurrence of the coefficient after `k` local steps: `(s_k, a_k)` -/
noncomputable def novaCoeff (p : NovaParams) : Nat → ℝ × ℝ
  | 0 => (0, 0)
  | k + 1 =>
    let s := if p.useMomentum then p.β * (novaCoeff p k).1 + 1 else 1
    (s, if p.useProx then (1 - p.η * p.μ) * (novaCoeff p k).2 + s else (novaCoeff p k).2 + s)

/-- The uploaded coefficient follows the documented recurrence. -/
theorem C31_coefficient_documented (p : NovaParams) (G : Grad A Ω E) (τ : A → Nat) (c : A) (ref : E) (ω : Ω) :
    (novaLocal p G τ c ref ω).1.a = (novaCoeff p (τ c)).2 := by
  have : ∀ K j (v : NovaLoop E) ω, v.s = (novaCoeff p j).1 → v.a = (novaCoeff p j).2 →
      (iterW (novaBody p G c ref) K v ω).1.a = (novaCoeff p (j + K)).2 := by
    intro K
    induction K with
    | zero => intro j v ω _ h; exact h
    | succ K ih =>
      intro j v ω h1 h2
      have := ih (j + 1) (novaBody p G c ref v ω).1 (novaBody p G c ref v ω).2
        (by simp only [novaBody, novaCoeff, h1]) (by simp only [novaBody, novaCoeff, h1, h2])
      rw [show j + (K + 1) = j + 1 + K by omega]
      exact this
  have := this (τ c) 0 ⟨ref, 0, 0, 0, 0⟩ ω rfl rfl
  rw [Nat.zero_add] at this
  exact this

/-- Without momentum and proximal term the coefficient is the number of local steps. -/
theorem C31_coefficient_plain (p : NovaParams) (hm : p.useMomentum = false) (hp : p.useProx = false) (G : Grad A Ω E)
    (τ : A → Nat) (c : A) (ref : E) (ω : Ω) : (novaLocal p G τ c ref ω).1.a = (τ c : ℝ) := by
  rw [C31_coefficient_documented]
  have : ∀ k, (novaCoeff p k).2 = (k : ℝ) := by
    intro k
    induction k with
    | zero => simp [novaCoeff]
    | succ k ih => simp only [novaCoeff, hm, hp, ih]; push_cast; simp
  exact this _

/-- Coefficients are at least 1 whenever the hyper-parameters are accepted and `step_size * penalty ≤ 1`. -/
theorem C31_coefficient_positive (p : NovaParams) (h : p.Accepted) (hp : p.useProx = true → p.η * p.μ ≤ 1) (k : Nat)
    (hk : 0 < k) : 1 ≤ (novaCoeff p k).2 := by
  obtain ⟨hη, ⟨hβ0, hβ1⟩, hμ, _⟩ := h
  have key : ∀ k, 0 ≤ (novaCoeff p k).1 ∧ 0 ≤ (novaCoeff p k).2 ∧ (0 < k → 1 ≤ (novaCoeff p k).1 ∧ 1 ≤ (novaCoeff p k).2) := by
    intro k
    induction k with
    | zero => simp [novaCoeff]
    | succ k ih =>
      obtain ⟨i1, i2, _⟩ := ih
      have hs : 1 ≤ (novaCoeff p (k + 1)).1 := by
        simp only [novaCoeff]
        split
        · nlinarith [mul_nonneg hβ0 i1]
        · exact le_rfl
      have ha : 1 ≤ (novaCoeff p (k + 1)).2 := by
        have e : (novaCoeff p (k + 1)).2 = if p.useProx then (1 - p.η * p.μ) * (novaCoeff p k).2 + (novaCoeff p (k + 1)).1
          else (novaCoeff p k).2 + (novaCoeff p (k + 1)).1 := rfl
        rw [e]
        split
        · rename_i hpp
          have := mul_nonneg (sub_nonneg.2 (hp hpp)) i2
          linarith
        · linarith
      exact ⟨by linarith, by linarith, fun _ => ⟨hs, ha⟩⟩
  exact ((key k).2.2 hk).2

/-- ... but accepted hyper-parameters can make it negative. -/
theorem C31_coefficient_refuted (p : NovaParams) (hm : p.useMomentum = false) (hp : p.useProx = true)
    (h : p.η * p.μ = 5 / 2) : (novaCoeff p 2).2 = -1 / 2 := by
  simp [novaCoeff, hm, hp, h]; norm_num

/-- received triples `(n_i, a_i, c_i)` in a round -/
theorem nova_received (counts : A → Nat) (b : Inbox FChan A (Arr E)) (P : List A) :
    P.filterMap (novaTriple counts b) =
    (P.filter (fun c => (b.abs .normalizer c).isSome && (b.abs .cumGrad c).isSome)).map
      (fun c => ((counts c : ℝ), ((b.abs .normalizer c).getD ⟨0, 0, 0⟩).scalar, ((b.abs .cumGrad c).getD ⟨0, 0, 0⟩).row0)) := by
  induction P with
  | nil => rfl
  | cons c t ih =>
    rw [List.filterMap_cons, List.filter_cons, novaTriple, Inbox.get?_byChannel, Inbox.get?_byChannel, ih]
    cases h1 : b.abs .normalizer c <;> cases h2 : b.abs .cumGrad c <;> simp [h1, h2]

/-- With undistorted channels and positive coefficients a FedNova round succeeds; `R` are the clients whose two uploads both
arrived. Without server momentum the server model becomes `x - Σ p_i (τ_eff / a_i) (x - y_i)` as documented, where `y_i` is
the client's final local model. -/
theorem C31_round_documented (p : NovaParams) (hsm : p.useServerMomentum = false) (G : Grad A Ω E) (τ : A → Nat) (counts : A → Nat)
    (hpos : ∀ c ∈ clients, 0 < (novaCoeff p (τ c)).2)
    (w : World A (Arr E) Ω) (hf : IsFed n server clients) (hup : ServerUp w server) (hex : ∀ a ∈ server :: clients, Exact w a)
    (sel : Select A Ω) (hsel : SelOK sel) (k : Int) (s : FSys A (Arr E) Ω E (NovaSrv E)) :
    ∃ s', iter (fedNova p G τ counts) sel server w n k s = .ok s' ∧ ∃ R : List A, R.Nodup ∧ (∀ c ∈ R, c ∈ clients) ∧
      (∀ c, c ∈ R ↔ (∃ u, (s'.net.inbox server).get c .normalizer = .ok u) ∧ (∃ u, (s'.net.inbox server).get c .cumGrad = .ok u)) ∧
      (∀ c ∈ R, ∃ ω, s'.cli c = (novaLocal p G τ c s.srv.x ω).1.x) ∧
      (R = [] → s'.srv.x = s.srv.x) ∧
      (R ≠ [] → s'.srv.x = s.srv.x -
        (R.map (fun c => ((counts c : ℝ) / (R.map (fun c => (counts c : ℝ))).sum *
          ((R.map (fun c => (counts c : ℝ) / (R.map (fun c => (counts c : ℝ))).sum * (novaCoeff p (τ c)).2)).sum /
            (novaCoeff p (τ c)).2)) • (s.srv.x - s'.cli c))).sum) := by
  obtain ⟨srv1, net', cli', nSel', selected, P, bc, ωs, hr, hi⟩ := iter_spec (fedNova p G τ counts)
    (fun _ _ _ _ => by simp [fedNova]) (fun b srv => by simp [fedNova]) w hf hup sel hsel k s
  have hsrv : srv1 = s.srv := hr.prep
  subst hsrv
  set R := P.filter (fun c => ((net'.inbox server).abs .normalizer c).isSome && ((net'.inbox server).abs .cumGrad c).isSome)
    with hR
  have hRP : ∀ c ∈ R, c ∈ P := fun c hc => (List.mem_filter.1 hc).1
  have hPc : ∀ c ∈ P, c ∈ clients := fun c hc => hr.sel_client c (hr.sub c hc)
  have hbc : ∀ c ∈ P, (bc c).row0 = s.srv.x := by
    intro c hc
    rw [(hr.heard c hc).exact (hex server (by simp))]; rfl
  have hcli : ∀ c ∈ P, cli' c = (novaLocal p G τ c s.srv.x (ωs c)).1.x := by
    intro c hc
    rw [hr.cli c, if_pos hc]
    simp only [fedNova, hbc c hc]
  have hexact : ∀ c ∈ P, ∀ u ∈ ((fedNova p G τ counts).train c (bc c) (s.cli c) (ωs c)).1.2,
      ((net'.inbox server).abs u.1 c).isSome → (net'.inbox server).abs u.1 c = some u.2 := by
    intro c hc u hu hsome
    rcases hr.uploads c hc u hu with ⟨v', ha, hn, _⟩ | ⟨hn, _⟩
    · rw [hn, ha.exact (hex c (by simp [hPc c hc]))]
    · rw [hn] at hsome; cases hsome
  have ha : ∀ c ∈ R, (((net'.inbox server).abs .normalizer c).getD ⟨0, 0, 0⟩).scalar = (novaCoeff p (τ c)).2 := by
    intro c hc
    have h2 := (List.mem_filter.1 hc).2
    simp only [Bool.and_eq_true] at h2
    have := hexact c (hRP c hc) (.normalizer, Arr.number (novaLocal p G τ c (bc c).row0 (ωs c)).1.a) (by simp [fedNova]) h2.1
    simp only at this
    rw [this]
    simp only [Option.getD_some, Arr.number]
    rw [C31_coefficient_documented]
  have hcg : ∀ c ∈ R, (((net'.inbox server).abs .cumGrad c).getD ⟨0, 0, 0⟩).row0 = s.srv.x - cli' c := by
    intro c hc
    have h2 := (List.mem_filter.1 hc).2
    simp only [Bool.and_eq_true] at h2
    have := hexact c (hRP c hc) (.cumGrad, Arr.single (novaLocal p G τ c (bc c).row0 (ωs c)).1.cum) (by simp [fedNova]) h2.2
    simp only at this
    rw [this]
    simp only [Option.getD_some, Arr.single]
    rw [C31_cumulative_is_displacement, hbc c (hRP c hc), hcli c (hRP c hc)]
  have hrec := nova_received counts (net'.inbox server) P
  rw [← hR] at hrec
  have hrec' : R.map (fun c => ((counts c : ℝ), (((net'.inbox server).abs .normalizer c).getD ⟨0, 0, 0⟩).scalar,
      (((net'.inbox server).abs .cumGrad c).getD ⟨0, 0, 0⟩).row0)) =
      R.map (fun c => ((counts c : ℝ), (novaCoeff p (τ c)).2, s.srv.x - cli' c)) :=
    List.map_congr_left (fun c hc => by rw [ha c hc, hcg c hc])
  rw [hrec'] at hrec
  have hnopos : ¬ ∃ t ∈ R.map (fun c => ((counts c : ℝ), (novaCoeff p (τ c)).2, s.srv.x - cli' c)), t.2.1 ≤ 0 := by
    rintro ⟨t, ht, hle⟩
    obtain ⟨c, hc, rfl⟩ := List.mem_map.1 ht
    exact absurd hle (not_le.2 (hpos c (hPc c (hRP c hc))))
  have hok : iter (fedNova p G τ counts) sel server w n k s = .ok ⟨net', if R = [] then s.srv else
      ⟨s.srv.x - novaUpdate (R.map (fun c => ((counts c : ℝ), (novaCoeff p (τ c)).2, s.srv.x - cli' c))), s.srv.m⟩,
      cli', nSel'⟩ := by
    rw [hi]
    have : (fedNova p G τ counts).aggregate clients (net'.inbox server) P s.srv = .ok (if R = [] then s.srv else
      ⟨s.srv.x - novaUpdate (R.map (fun c => ((counts c : ℝ), (novaCoeff p (τ c)).2, s.srv.x - cli' c))), s.srv.m⟩) := by
      simp only [fedNova]
      rw [hrec]
      rw [if_neg hnopos]
      simp only [List.map_eq_nil_iff, hsm, Bool.false_eq_true, if_false]
      split <;> rfl
    rw [this]; rfl
  refine ⟨_, hok, R, hr.nodup.filter _, fun c hc => hPc c (hRP c hc), ?_, ?_, ?_, ?_⟩
  · intro c
    simp only [get_ok_iff]
    constructor
    · intro hc
      have h2 := (List.mem_filter.1 hc).2
      simp only [Bool.and_eq_true] at h2
      exact ⟨Option.isSome_iff_exists.1 h2.1, Option.isSome_iff_exists.1 h2.2⟩
    · rintro ⟨⟨u, hu⟩, ⟨v, hv⟩⟩
      exact List.mem_filter.2 ⟨(hr.only .normalizer c (by simp [hu])).1, by simp [hu, hv]⟩
  · intro c hc
    exact ⟨ωs c, hcli c (hRP c hc)⟩
  · intro h; simp [h]
  · intro h
    simp only [h, if_false, novaUpdate]
    rw [foldl_add_eq (fun v => v), zero_add]
    simp only [List.map_map, List.map_id']
    congr 1

/-- Plain FedNova with equal local steps and undistorted channels is data-weighted federated averaging of the clients' local
models; with equal data sizes it is exactly a FedAvg round. -/
theorem C31_equal_steps_is_averaging (p : NovaParams) (hsm : p.useServerMomentum = false) (hm : p.useMomentum = false)
    (hp : p.useProx = false) (G : Grad A Ω E) (K : Nat) (hK : 0 < K) (counts : A → Nat) (hcounts : ∀ c ∈ clients, 0 < counts c)
    (w : World A (Arr E) Ω) (hf : IsFed n server clients) (hup : ServerUp w server) (hex : ∀ a ∈ server :: clients, Exact w a)
    (sel : Select A Ω) (hsel : SelOK sel) (k : Int) (s : FSys A (Arr E) Ω E (NovaSrv E)) :
    ∃ s', iter (fedNova p G (fun _ => K) counts) sel server w n k s = .ok s' ∧ ∃ R : List A, R.Nodup ∧ (∀ c ∈ R, c ∈ clients) ∧
      (∀ c, c ∈ R ↔ (∃ u, (s'.net.inbox server).get c .normalizer = .ok u) ∧ (∃ u, (s'.net.inbox server).get c .cumGrad = .ok u)) ∧
      (∀ c ∈ R, ∃ ω, s'.cli c = (localSgd G p.η K c s.srv.x ω).1) ∧
      (R = [] → s'.srv.x = s.srv.x) ∧
      (R ≠ [] → s'.srv.x = (1 / (R.map (fun c => (counts c : ℝ))).sum) • (R.map (fun c => (counts c : ℝ) • s'.cli c)).sum) ∧
      (R ≠ [] → (∀ c ∈ R, ∀ d ∈ R, counts c = counts d) → s'.srv.x = (1 / (R.length : ℝ)) • (R.map s'.cli).sum) := by
  have hcoef : (novaCoeff p K).2 = (K : ℝ) := by
    have : ∀ k, (novaCoeff p k).2 = (k : ℝ) := by
      intro k
      induction k with
      | zero => simp [novaCoeff]
      | succ k ih => simp only [novaCoeff, hm, hp, ih]; push_cast; simp
    exact this _
  have hKr : (0 : ℝ) < K := by exact_mod_cast hK
  obtain ⟨s', h1, R, hnd, hsub, hiff, hcl, h0, hne⟩ := C31_round_documented p hsm G (fun _ => K) counts
    (fun _ _ => by rw [hcoef]; exact hKr) w hf hup hex sel hsel k s
  have hloc : ∀ c (x : E) ω, (novaLocal p G (fun _ => K) c x ω).1.x = (localSgd G p.η K c x ω).1 := by
    intro c x ω
    unfold novaLocal localSgd
    have : ∀ K (v : NovaLoop E) ω, (iterW (novaBody p G c x) K v ω).1.x =
        (iterW (fun x ω => let g := G c x ω; (x - p.η • g.1, g.2)) K v.x ω).1 := by
      intro K
      induction K with
      | zero => intro v ω; rfl
      | succ K ih => intro v ω; simp only [iterW]; rw [ih]; simp [novaBody, hm, hp]
    exact this _ _ _
  have hpos : R ≠ [] → 0 < (R.map (fun c => (counts c : ℝ))).sum := by
    intro hR
    cases R with
    | nil => exact absurd rfl hR
    | cons a t =>
      rw [List.map_cons, List.sum_cons]
      have h1 : (0 : ℝ) < counts a := by exact_mod_cast hcounts a (hsub a (by simp))
      have h2 : 0 ≤ (t.map (fun c => (counts c : ℝ))).sum := List.sum_nonneg (by
        intro x hx; obtain ⟨c, _, rfl⟩ := List.mem_map.1 hx; positivity)
      linarith
  have hmain : R ≠ [] → s'.srv.x = (1 / (R.map (fun c => (counts c : ℝ))).sum) •
      (R.map (fun c => (counts c : ℝ) • s'.cli c)).sum := by
    intro hR
    rw [hne hR]
    set S := (R.map (fun c => (counts c : ℝ))).sum with hS
    have hSpos := hpos hR
    have htau : (R.map (fun c => (counts c : ℝ) / S * (novaCoeff p K).2)).sum = (K : ℝ) := by
      rw [hcoef]
      have : ∀ l : List A, (l.map (fun c => (counts c : ℝ) / S * (K : ℝ))).sum =
          (l.map (fun c => (counts c : ℝ))).sum / S * K := by
        intro l
        induction l with
        | nil => simp
        | cons a t ih => simp only [List.map_cons, List.sum_cons, ih]; ring
      rw [this R, ← hS, div_self hSpos.ne', one_mul]
    rw [htau, hcoef, div_self hKr.ne']
    have : ∀ l : List A, (l.map (fun c => ((counts c : ℝ) / S * 1) • (s.srv.x - s'.cli c))).sum =
        ((l.map (fun c => (counts c : ℝ))).sum / S) • s.srv.x - (1 / S) • (l.map (fun c => (counts c : ℝ) • s'.cli c)).sum := by
      intro l
      induction l with
      | nil => simp
      | cons a t ih =>
        simp only [List.map_cons, List.sum_cons, ih]
        rw [add_div, add_smul, smul_add, mul_one, smul_sub, smul_smul, show 1 / S * (counts a : ℝ) = (counts a : ℝ) / S by ring]
        abel
    rw [this R, ← hS, div_self hSpos.ne', one_smul]
    abel
  refine ⟨s', h1, R, hnd, hsub, hiff, fun c hc => ?_, h0, hmain, ?_⟩
  · obtain ⟨ω, hω⟩ := hcl c hc
    exact ⟨ω, by rw [hω, hloc]⟩
  · intro hR heq
    rw [hmain hR]
    cases hRc : R with
    | nil => exact absurd hRc hR
    | cons a t =>
      have hN : ∀ c ∈ R, (counts c : ℝ) = (counts a : ℝ) := fun c hc => by
        rw [heq c hc a (by rw [hRc]; simp)]
      rw [← hRc]
      have e1 : (R.map (fun c => (counts c : ℝ))).sum = (R.length : ℝ) * (counts a : ℝ) := by
        rw [List.map_congr_left hN]; simp
      have e2 : (R.map (fun c => (counts c : ℝ) • s'.cli c)).sum = (counts a : ℝ) • (R.map s'.cli).sum := by
        rw [List.map_congr_left (fun c hc => by rw [hN c hc] : ∀ c ∈ R, (counts c : ℝ) • s'.cli c = (counts a : ℝ) • s'.cli c),
          List.smul_sum, List.map_map]
        rfl
      have ha : (counts a : ℝ) ≠ 0 := by
        have := hcounts a (hsub a (by rw [hRc]; simp))
        positivity
      have hl : (R.length : ℝ) ≠ 0 := by rw [hRc]; simp; positivity
      rw [e1, e2, smul_smul]
      congr 1
      field_simp

end
end Verif.Props
