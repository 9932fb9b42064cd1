import Verif.Lemmas.FedPd
import Verif.Props.FedLocal
import Verif.Props.FedDrift
set_option linter.unusedSectionVars false
/-!
# C88: FedPD rounds

`pdIter … k s` is one iteration of `Algorithm.run`: `network._step(k)` followed by `FedPD.step`; `γ` is `step_size`, `η` is
`penalty`, `K c` the number of local steps of client `c`, `coin` is `random.random() >= skip_probability`.
-/
namespace Verif.Props
open Verif Verif.Fed NetState

section
variable {A Ω E : Type} [DecidableEq A] [AddCommGroup E] [Module ℝ E]
variable {n : Net A} {server : A} {clients : List A}

/-- `client.message(server, "center_update")` exists and equals `m` -/
def GotCentre (s : FSys A E Ω (PdCli E) E) (server c : A) (m : E) : Prop := (s.net.inbox c).get server .centerUpdate = .ok m

/-- Every iteration, over every network: it never raises; every client either did nothing, or made exactly `K c` gradient steps on
`f_c + ⟨λ_c, ·⟩ + ‖· - centre_c‖² / (2η)` from its own `x`, followed by the documented dual step. If all clients are always
active, all of them train. -/
theorem C88_clients (G : Grad A Ω E) (γ η : ℝ) (K : A → Nat) (coin : Ω → Bool × Ω) (w : World A E Ω) (hf : IsFed n server clients)
    (hup : ServerUp w server) (k : Int) (s : FSys A E Ω (PdCli E) E) :
    ∃ s', pdIter G γ η K coin server w n k s = .ok s' ∧ ∃ P : List A, P.Nodup ∧ (∀ c ∈ P, c ∈ clients) ∧
      ((∀ c ∈ clients, ∀ it ω, (w.isActive c it ω).1 = true) → P = clients) ∧
      (∀ c, s'.nSelected c = s.nSelected c + if c ∈ P then 1 else 0) ∧ (∀ c, c ∉ P → s'.cli c = s.cli c) ∧
      ∀ c ∈ P, (s'.cli c).lam = (s.cli c).lam + (1 / η) • ((s'.cli c).x - (s.cli c).center) ∧
        ∃ x g : Nat → E, Queried G c (K c) x g ∧ x 0 = (s.cli c).x ∧
          (∀ j : Nat, j < K c → x (j + 1) = x j - γ • (g j + (s.cli c).lam + (1 / η) • (x j - (s.cli c).center))) ∧ (s'.cli c).x = x (K c) := by
  obtain ⟨s', P, R, up, talk, h1, hr⟩ := pd_round G γ η K coin w hf hup k s
  refine ⟨s', h1, P, hr.nodup, hr.sub, hr.everyone, hr.count, hr.idle, fun c hc => ⟨hr.dual c hc, ?_⟩⟩
  obtain ⟨ω, hω⟩ := hr.train c hc
  obtain ⟨x, g, q1, q2, q3, q4⟩ := local_trajectory G c (fun x g => x - γ • (g + (s.cli c).lam + (1 / η) • (x - (s.cli c).center))) (K c) (s.cli c).x ω
  exact ⟨x, g, q1, q2, q3, by rw [hω]; exact q4⟩

/-- The centres: `R` lists the clients whose candidate `x + ηλ` reached the server. The server's model is the uniform mean of what it
received, and unchanged if it received nothing, and then nobody is answered; a client that got the server's answer has exactly that as
its centre, every other client that trained keeps its own candidate, and that happens only if the server heard nobody or its message to the
client was dropped (all participants are answered). A silent round delivers nothing. -/
theorem C88_centres (G : Grad A Ω E) (γ η : ℝ) (K : A → Nat) (coin : Ω → Bool × Ω) (w : World A E Ω) (hf : IsFed n server clients)
    (hup : ServerUp w server) (k : Int) (s : FSys A E Ω (PdCli E) E) :
    ∃ s', pdIter G γ η K coin server w n k s = .ok s' ∧ ∃ R : List A, ∃ up : A → E, Heard s' server .centerCand R up ∧ (∀ c ∈ R, c ∈ clients) ∧
      (∀ c ∈ R, Arrives w c ((s'.cli c).x + η • (s'.cli c).lam) (up c)) ∧
      ((∀ ω, (coin ω).1 = false) → R = []) ∧
      (R = [] → s'.srv = s.srv ∧ ∀ c ∈ clients, ¬ ∃ m, GotCentre s' server c m) ∧
      (R ≠ [] → s'.srv = (1 / (R.length : ℝ)) • (R.map up).sum) ∧
      (∀ c ∈ clients, ∀ m, GotCentre s' server c m → Arrives w server s'.srv m ∧ (s'.cli c).center = m) ∧
      (∀ c ∈ clients, (¬ ∃ m, GotCentre s' server c m) → s'.nSelected c = s.nSelected c + 1 →
        (s'.cli c).center = (s'.cli c).x + η • (s'.cli c).lam ∧ (R = [] ∨ ∃ ω, (w.shouldDrop server ω).1 = true)) := by
  obtain ⟨s', P, R, up, talk, h1, hr⟩ := pd_round G γ η K coin w hf hup k s
  refine ⟨s', h1, R, up, hr.heard, fun c hc => hr.sub c (hr.from_ c hc).1, fun c hc => (hr.from_ c hc).2.1, ?_, ?_, hr.mean, ?_, ?_⟩
  · intro hc
    by_cases hP : P = []
    · apply List.eq_nil_iff_forall_not_mem.2
      intro c hcR
      have := (hr.from_ c hcR).1
      rw [hP] at this; cases this
    · obtain ⟨ω, hω⟩ := hr.coin_ hP
      exact hr.silent (by rw [hω, hc ω])
  · intro hR
    refine ⟨hr.kept hR, fun c hc ⟨m, hm⟩ => ?_⟩
    exact (hr.update c m hc hm).2.1 hR
  · intro c hc m hm
    exact (hr.update c m hc hm).2.2
  · intro c hc hno hsel
    have hcP : c ∈ P := by
      by_contra hcP
      have := hr.count c
      rw [if_neg hcP] at this
      omega
    exact hr.candidate c hcP hno

/-- If rounds never communicate (`skip_probability = 1`), or every upload is lost, then for every number of iterations the server's
model is still the initial one, and no client has received anything. -/
theorem C88_silence (G : Grad A Ω E) (γ η : ℝ) (K : A → Nat) (coin : Ω → Bool × Ω) (w : World A E Ω) (hf : IsFed n server clients)
    (hup : ServerUp w server) (hq : (∀ ω, (coin ω).1 = false) ∨ ∀ c ∈ clients, AlwaysDropped w c) (x0 : A → E) (s : FSys A E Ω (PdCli E) E)
    (k : Nat) : ∃ s', pdAfter G γ η K coin server w n x0 s k = .ok s' ∧ s'.srv = x0 server ∧
      (0 < k → ∀ c ∈ clients, ¬ ∃ m, GotCentre s' server c m) := by
  apply pd_after_induction (n := n) (server := server) G γ η K coin w x0 s (fun k s' => s'.srv = x0 server ∧
      (0 < k → ∀ c ∈ clients, ¬ ∃ m, GotCentre s' server c m))
  · exact ⟨rfl, fun h => absurd h (lt_irrefl 0)⟩
  · rintro k s1 ⟨ih, _⟩
    obtain ⟨s', P, R, up, talk, h1, hr⟩ := pd_round G γ η K coin w hf hup k s1
    have hR : R = [] := by
      apply List.eq_nil_iff_forall_not_mem.2
      intro c hcR
      rcases hq with hq | hq
      · obtain ⟨ω, hω⟩ := hr.coin_ (List.ne_nil_of_mem (hr.from_ c hcR).1)
        have := hr.silent (by rw [hω, hq ω])
        rw [this] at hcR; cases hcR
      · obtain ⟨hc, _, ω, hω⟩ := hr.from_ c hcR
        rw [hq c (hr.sub c hc) ω] at hω; cases hω
    refine ⟨s', h1, by rw [hr.kept hR, ih], fun _ c hc ⟨m, hm⟩ => ?_⟩
    exact (hr.update c m hc hm).2.1 hR

/-! ### ideal networks -/

/-- SPEC: `K` gradient steps of length `γ` on `f + ⟨lam, ·⟩ + ‖· - c‖² / (2η)`, where `g = ∇f` -/
noncomputable def augSteps (g : E → E) (γ η : ℝ) (lam c : E) : Nat → E → E
  | 0, x => x
  | K + 1, x => augSteps g γ η lam c K (x - γ • (g x + lam + (1 / η) • (x - c)))

/-- SPEC: client models, client duals, common centre -/
structure PdState (A E : Type) where
  x : A → E
  lam : A → E
  c : E

/-- SPEC: one documented FedPD round with full participation -/
noncomputable def pdDoc (clients : List A) (g : A → E → E) (γ η : ℝ) (K : A → Nat) (p : PdState A E) : PdState A E :=
  let x := fun i => augSteps (g i) γ η (p.lam i) p.c (K i) (p.x i)
  let lam := fun i => p.lam i + (1 / η) • (x i - p.c)
  ⟨x, lam, (1 / (clients.length : ℝ)) • (clients.map (fun i => x i + η • lam i)).sum⟩

/-- Every agent's messages arrive, unchanged; all clients are always active; every round communicates. -/
structure PdIdeal (w : World A E Ω) (coin : Ω → Bool × Ω) (server : A) (clients : List A) : Prop where
  up : ServerUp w server
  active : ∀ c ∈ clients, ∀ it ω, (w.isActive c it ω).1 = true
  exact_ : ∀ a ∈ server :: clients, Exact w a
  lossless : ∀ a ∈ server :: clients, Lossless w a
  talk : ∀ ω, (coin ω).1 = true

theorem pdLocal_det (G : Grad A Ω E) (g : A → E → E) (hg : ∀ c x ω, (G c x ω).1 = g c x) (γ η : ℝ) (K : Nat) (c : A) (v : PdCli E)
    (ω : Ω) : (pdLocal G γ η K c v ω).1 = augSteps (g c) γ η v.lam v.center K v.x := by
  unfold pdLocal
  obtain ⟨x, lam, cen⟩ := v
  simp only
  induction K generalizing x ω with
  | zero => rfl
  | succ K ih =>
    have := ih (G c x ω).2 (x - γ • ((G c x ω).1 + lam + (1 / η) • (x - cen)))
    simp only [iterW, augSteps]
    rw [← hg c x ω]
    exact this

/-- one ideal round -/
theorem pd_ideal_round (G : Grad A Ω E) (g : A → E → E) (hg : ∀ c x ω, (G c x ω).1 = g c x) (γ η : ℝ) (K : A → Nat)
    (coin : Ω → Bool × Ω) (w : World A E Ω) (hf : IsFed n server clients) (hcl : clients ≠ []) (hi : PdIdeal w coin server clients)
    (k : Int) (s : FSys A E Ω (PdCli E) E) :
    ∃ s', pdIter G γ η K coin server w n k s = .ok s' ∧
      (∀ c ∈ clients, (s'.cli c).x = augSteps (g c) γ η (s.cli c).lam (s.cli c).center (K c) (s.cli c).x ∧
        (s'.cli c).lam = (s.cli c).lam + (1 / η) • ((s'.cli c).x - (s.cli c).center) ∧ (s'.cli c).center = s'.srv) ∧
      s'.srv = (1 / (clients.length : ℝ)) • (clients.map (fun c => (s'.cli c).x + η • (s'.cli c).lam)).sum := by
  obtain ⟨s', P, R, up, talk, h1, hr⟩ := pd_round G γ η K coin w hf hi.up k s
  have hP : P = clients := hr.everyone hi.active
  subst hP
  have htalk : talk = true := by
    obtain ⟨ω, hω⟩ := hr.coin_ hcl
    rw [hω, hi.talk ω]
  have hRiff : ∀ c, c ∈ R ↔ c ∈ P := by
    intro c
    refine ⟨fun h => (hr.from_ c h).1, fun h => ?_⟩
    by_contra hc
    rcases hr.lost c h hc with h2 | ⟨ω, hω⟩
    · rw [htalk] at h2; cases h2
    · rw [hi.lossless c (by simp [h]) ω] at hω; cases hω
  have hperm : R.Perm P := (List.perm_ext_iff_of_nodup hr.heard.nodup hr.nodup).2 hRiff
  have hR0 : R ≠ [] := fun h => hcl (by rw [h] at hperm; exact List.nil_perm.1 hperm)
  have hup : ∀ c ∈ P, up c = (s'.cli c).x + η • (s'.cli c).lam := fun c hc =>
    ((hr.from_ c ((hRiff c).2 hc)).2.1).exact (hi.exact_ c (by simp [hc]))
  refine ⟨s', h1, fun c hc => ⟨?_, hr.dual c hc, ?_⟩, ?_⟩
  · obtain ⟨ω, hω⟩ := hr.train c hc
    rw [hω, pdLocal_det G g hg]
  · by_cases hm : ∃ m, (s'.net.inbox c).get server .centerUpdate = .ok m
    · obtain ⟨m, hm⟩ := hm
      obtain ⟨_, _, ha, hce⟩ := hr.update c m hc hm
      rw [hce]; exact ha.exact (hi.exact_ server (by simp))
    · rcases (hr.candidate c hc hm).2 with h2 | ⟨ω, hω⟩
      · exact absurd h2 hR0
      · rw [hi.lossless server (by simp) ω] at hω; cases hω
  · rw [hr.mean hR0, hperm.length_eq, (hperm.map up).sum_eq]
    rw [List.map_congr_left hup]

/-- The whole run over an ideal network with deterministic gradients is the documented recursion, for every number of rounds. -/
theorem C88_ideal_run (G : Grad A Ω E) (g : A → E → E) (hg : ∀ c x ω, (G c x ω).1 = g c x) (γ η : ℝ) (K : A → Nat)
    (coin : Ω → Bool × Ω) (w : World A E Ω) (hf : IsFed n server clients) (hcl : clients ≠ []) (hi : PdIdeal w coin server clients)
    (x0 : A → E) (s : FSys A E Ω (PdCli E) E) (k : Nat) :
    ∃ s', pdAfter G γ η K coin server w n x0 s k = .ok s' ∧ s'.srv = ((pdDoc clients g γ η K)^[k] ⟨x0, fun _ => 0, x0 server⟩).c ∧
      ∀ c ∈ clients, s'.cli c = ⟨((pdDoc clients g γ η K)^[k] ⟨x0, fun _ => 0, x0 server⟩).x c,
        ((pdDoc clients g γ η K)^[k] ⟨x0, fun _ => 0, x0 server⟩).lam c, ((pdDoc clients g γ η K)^[k] ⟨x0, fun _ => 0, x0 server⟩).c⟩ := by
  apply pd_after_induction (n := n) (server := server) G γ η K coin w x0 s (fun k s' =>
      s'.srv = ((pdDoc clients g γ η K)^[k] ⟨x0, fun _ => 0, x0 server⟩).c ∧
      ∀ c ∈ clients, s'.cli c = ⟨((pdDoc clients g γ η K)^[k] ⟨x0, fun _ => 0, x0 server⟩).x c,
        ((pdDoc clients g γ η K)^[k] ⟨x0, fun _ => 0, x0 server⟩).lam c, ((pdDoc clients g γ η K)^[k] ⟨x0, fun _ => 0, x0 server⟩).c⟩)
  · exact ⟨rfl, fun _ _ => rfl⟩
  · rintro k s1 ⟨_, hc⟩
    rw [Function.iterate_succ_apply']
    set p := (pdDoc clients g γ η K)^[k] ⟨x0, fun _ => 0, x0 server⟩ with hp
    obtain ⟨s', h1, h2, h3⟩ := pd_ideal_round G g hg γ η K coin w hf hcl hi k s1
    have hx : ∀ c ∈ clients, (s'.cli c).x = (pdDoc clients g γ η K p).x c := by
      intro c hm
      rw [(h2 c hm).1, hc c hm]; rfl
    have hl : ∀ c ∈ clients, (s'.cli c).lam = (pdDoc clients g γ η K p).lam c := by
      intro c hm
      rw [(h2 c hm).2.1, hc c hm, hx c hm]; rfl
    have hs : s'.srv = (pdDoc clients g γ η K p).c := by
      rw [h3, List.map_congr_left (fun c hm => by rw [hx c hm, hl c hm] : ∀ c ∈ clients, (s'.cli c).x + η • (s'.cli c).lam =
        (pdDoc clients g γ η K p).x c + η • (pdDoc clients g γ η K p).lam c)]
      rfl
    refine ⟨s', h1, hs, fun c hm => ?_⟩
    rw [← hx c hm, ← hl c hm, ← hs, ← (h2 c hm).2.2]

theorem map_const_sum (l : List A) (v : E) : (l.map (fun _ => v)).sum = (l.length : ℝ) • v := by
  induction l with
  | nil => simp
  | cons a t ih => rw [List.map_cons, List.sum_cons, ih, List.length_cons]; push_cast; module

theorem map_add_smul_sum (l : List A) (f h : A → E) (η : ℝ) :
    (l.map (fun i => f i + η • h i)).sum = (l.map f).sum + η • (l.map h).sum := by
  induction l with
  | nil => simp
  | cons a t ih => simp only [List.map_cons, List.sum_cons, ih]; module

theorem map_sub_const_sum (l : List A) (f : A → E) (v : E) : (l.map (fun i => f i - v)).sum = (l.map f).sum - (l.length : ℝ) • v := by
  induction l with
  | nil => simp
  | cons a t ih => simp only [List.map_cons, List.sum_cons, ih, List.length_cons]; push_cast; module

/-- what the duals and the centre satisfy after a documented round -/
theorem pdDoc_centre (clients : List A) (hcl : clients ≠ []) (g : A → E → E) (γ η : ℝ) (hη : η ≠ 0) (K : A → Nat) (p : PdState A E) :
    let q := pdDoc clients g γ η K p
    (clients.map (fun i => q.lam i)).sum = (1 / η) • ((clients.length : ℝ) • q.c - (clients.map q.x).sum) ∧
    (clients.map (fun i => q.lam i)).sum = (clients.map (fun i => p.lam i)).sum + (1 / η) • ((clients.map q.x).sum - (clients.length : ℝ) • p.c) := by
  intro q
  have hN : (clients.length : ℝ) ≠ 0 := by
    have := List.length_pos_iff.2 hcl
    positivity
  constructor
  · have : q.c = (1 / (clients.length : ℝ)) • (clients.map (fun i => q.x i + η • q.lam i)).sum := rfl
    rw [this, map_add_smul_sum, smul_smul, mul_one_div_cancel hN, one_smul]
    change _ = (1 / η) • ((clients.map q.x).sum + η • (clients.map q.lam).sum - (clients.map q.x).sum)
    rw [add_sub_cancel_left, smul_smul, one_div_mul_cancel hη, one_smul]
  · have : (fun i => q.lam i) = fun i => p.lam i + (1 / η) • (q.x i - p.c) := rfl
    rw [this, map_add_smul_sum, map_sub_const_sum]

/-- Over an ideal network the server's model is not the mean of the client models: from the second round on it is the extrapolation
`2 · mean(x_k) - mean(x_{k-1})`, and after the first round `2 · mean(x_1) - (initial server model)`. -/
theorem C88_server_extrapolates (G : Grad A Ω E) (g : A → E → E) (hg : ∀ c x ω, (G c x ω).1 = g c x) (γ η : ℝ) (hη : 0 < η) (K : A → Nat)
    (coin : Ω → Bool × Ω) (w : World A E Ω) (hf : IsFed n server clients) (hcl : clients ≠ []) (hi : PdIdeal w coin server clients)
    (x0 : A → E) (s : FSys A E Ω (PdCli E) E) (k : Nat) :
    ∃ s1 s2, pdAfter G γ η K coin server w n x0 s k = .ok s1 ∧ pdAfter G γ η K coin server w n x0 s (k + 1) = .ok s2 ∧
      s2.srv = (2 / (clients.length : ℝ)) • (clients.map (fun c => (s2.cli c).x)).sum -
        (if k = 0 then x0 server else (1 / (clients.length : ℝ)) • (clients.map (fun c => (s1.cli c).x)).sum) := by
  obtain ⟨s1, h1, a1, b1⟩ := C88_ideal_run G g hg γ η K coin w hf hcl hi x0 s k
  obtain ⟨s2, h2, a2, b2⟩ := C88_ideal_run G g hg γ η K coin w hf hcl hi x0 s (k + 1)
  refine ⟨s1, s2, h1, h2, ?_⟩
  have hN : (clients.length : ℝ) ≠ 0 := by
    have := List.length_pos_iff.2 hcl
    positivity
  have e2 : (clients.map (fun c => (s2.cli c).x)).sum = (clients.map ((pdDoc clients g γ η K)^[k + 1] ⟨x0, fun _ => 0, x0 server⟩).x).sum :=
    congrArg List.sum (List.map_congr_left (fun c hc => by rw [b2 c hc]))
  have e1 : (clients.map (fun c => (s1.cli c).x)).sum = (clients.map ((pdDoc clients g γ η K)^[k] ⟨x0, fun _ => 0, x0 server⟩).x).sum :=
    congrArg List.sum (List.map_congr_left (fun c hc => by rw [b1 c hc]))
  rw [a2, e2, e1]
  rw [Function.iterate_succ_apply']
  set p := (pdDoc clients g γ η K)^[k] ⟨x0, fun _ => 0, x0 server⟩ with hp
  obtain ⟨q1, q2⟩ := pdDoc_centre clients hcl g γ η hη.ne' K p
  set q := pdDoc clients g γ η K p with hq
  have hkey : (clients.map (fun i => p.lam i)).sum = (1 / η) • ((clients.length : ℝ) • p.c -
      (clients.length : ℝ) • (if k = 0 then x0 server else (1 / (clients.length : ℝ)) • (clients.map p.x).sum)) := by
    cases k with
    | zero =>
      have : p = ⟨x0, fun _ => 0, x0 server⟩ := rfl
      rw [this]; simp
    | succ k =>
      rw [hp, Function.iterate_succ_apply']
      set p' := (pdDoc clients g γ η K)^[k] ⟨x0, fun _ => 0, x0 server⟩ with hp'
      rw [(pdDoc_centre clients hcl g γ η hη.ne' K p').1, if_neg (Nat.succ_ne_zero k), smul_smul, mul_one_div_cancel hN, one_smul]
  set z : E := if k = 0 then x0 server else (1 / (clients.length : ℝ)) • (clients.map p.x).sum with hz
  rw [q1, hkey] at q2
  have q3 := congrArg (fun v => η • v) q2
  simp only [smul_add, smul_smul, mul_one_div_cancel hη.ne', one_smul] at q3
  have q4 : (clients.length : ℝ) • q.c = (2 : ℝ) • (clients.map q.x).sum - (clients.length : ℝ) • z := by
    have : (clients.length : ℝ) • q.c = ((clients.length : ℝ) • q.c - (clients.map q.x).sum) + (clients.map q.x).sum := by abel
    rw [this, q3]; module
  have q5 := congrArg (fun v => (1 / (clients.length : ℝ)) • v) q4
  simp only [smul_sub, smul_smul, one_div_mul_cancel hN, one_smul] at q5
  rw [q5]
  congr 2
  ring

end

/-! ### concrete runs -/

/-- a coin that always communicates -/
def alwaysTalk : Unit → Bool × Unit := fun ω => (true, ω)

theorem star_pdIdeal (V : Type) (l : List Nat) : PdIdeal (E := V) (ideal V) alwaysTalk 0 l :=
  ⟨fun _ _ => rfl, fun _ _ _ _ => rfl, fun a _ => ideal_exact V a, fun a _ => ideal_lossless V a, fun _ => rfl⟩

/-- two clients with costs `(x - 1)²/2` and `(x - 2)²/2` -/
def pullGrad : Grad Nat Unit ℝ := fun c x ω => (x - c, ω)

/-- one FedPD round from zero: the server's model is `3/2`, twice the mean of the client models `1/2` and `1` -/
example (s : FSys Nat ℝ Unit (PdCli ℝ) ℝ) :
    ∃ s', pdAfter pullGrad (1 / 2) 1 (fun _ => 1) alwaysTalk 0 (ideal ℝ) fedNet2 (fun _ => 0) s 1 = .ok s' ∧ s'.srv = 3 / 2 ∧
      (s'.cli 1).x = 1 / 2 ∧ (s'.cli 2).x = 1 := by
  obtain ⟨s', h1, h2, h3⟩ := C88_ideal_run (n := fedNet2) (server := 0) (clients := [1, 2]) pullGrad (fun c x => x - c) (fun _ _ _ => rfl)
    (1 / 2) 1 (fun _ => 1) alwaysTalk (ideal ℝ) fedNet2_isFed (by simp) (star_pdIdeal ℝ _) (fun _ => 0) s 1
  refine ⟨s', h1, ?_, ?_, ?_⟩
  · rw [h2]; norm_num [pdDoc, augSteps]
  · rw [h3 1 (by simp)]; norm_num [pdDoc, augSteps]
  · rw [h3 2 (by simp)]; norm_num [pdDoc, augSteps]

/-- the same system with `skip_probability = 1` -/
example (s : FSys Nat ℝ Unit (PdCli ℝ) ℝ) (k : Nat) :=
  C88_silence (n := fedNet2) (server := 0) (clients := [1, 2]) pullGrad (1 / 2) 1 (fun _ => 3) (fun ω => (false, ω)) (lossy1 ℝ) fedNet2_isFed
    (fun _ _ => rfl) (Or.inl (fun _ => rfl)) (fun _ => 0) s k

/-- the round theorems on the network that loses client 1's uploads -/
example (s : FSys Nat ℝ Unit (PdCli ℝ) ℝ) :=
  C88_centres (n := fedNet2) (server := 0) (clients := [1, 2]) pullGrad (1 / 2) 1 (fun _ => 3) alwaysTalk (lossy1 ℝ) fedNet2_isFed
    (fun _ _ => rfl) 0 s

end Verif.Props
