import Verif.Props.FedChance
set_option linter.unusedSectionVars false
/-!
# C134: uneven losses bias FedAvg
-/
namespace Verif.Props
open Verif Verif.Fed NetState Verif.Costs Verif.Consensus
open scoped InnerProductSpace

section bias
variable {A Ω : Type} [DecidableEq A] {n : Net A} {server : A} {clients : List A} {d : Nat}
variable {Θ : Type} [Fintype Θ]

/-- SPEC: expected share of client `c` in the mean taken by the server -/
noncomputable def expShare (q : Θ → ℝ) (heard : Θ → List A) (c : A) : ℝ := ∑ θ, if c ∈ heard θ then q θ * (1 / ((heard θ).length : ℝ)) else 0

theorem list_sum_if {V : Type} [AddCommMonoid V] (l R : List A) (hl : l.Nodup) (hR : R.Nodup) (hsub : ∀ c ∈ R, c ∈ l) (F : A → V) :
    (l.map (fun c => if c ∈ R then F c else 0)).sum = (R.map F).sum := by
  rw [← List.sum_toFinset _ hl, ← List.sum_toFinset _ hR, ← Finset.sum_filter]
  refine Finset.sum_congr ?_ fun _ _ => rfl
  ext c
  simp only [Finset.mem_filter, List.mem_toFinset]
  exact ⟨fun h => h.2, fun h => ⟨hsub c h, h⟩⟩

/-- C134: the shares of the clients sum to the probability that anything is heard. -/
theorem C134_shares (q : Θ → ℝ) (heard : Θ → List A) (hc : clients.Nodup) (hnd : ∀ θ, (heard θ).Nodup) (hsub : ∀ θ, ∀ c ∈ heard θ, c ∈ clients) :
    (clients.map (expShare q heard)).sum = someHeard q heard := by
  unfold expShare
  rw [← List.sum_toFinset _ hc, Finset.sum_comm, someHeard, chance]
  refine Finset.sum_congr rfl fun θ _ => ?_
  rw [List.sum_toFinset _ hc, list_sum_if clients (heard θ) hc (hnd θ) (hsub θ)]
  by_cases h : heard θ = []
  · simp [h]
  · have h0 : ((heard θ).length : ℝ) ≠ 0 := by
      have := List.length_pos_iff.2 h
      positivity
    rw [List.map_const', List.sum_replicate, nsmul_eq_mul]
    simp only [h, ne_eq, not_false_eq_true, decide_true, if_true]
    field_simp

/-- the expectation over who is heard -/
theorem expected_heard (q : Θ → ℝ) (hq : Distribution q) (heard : Θ → List A) (hc : clients.Nodup) (hnd : ∀ θ, (heard θ).Nodup)
    (hsub : ∀ θ, ∀ c ∈ heard θ, c ∈ clients) (g : A → Vec d → Vec d) (η μ : ℝ) (K : Nat) (x : Vec d) :
    ∑ θ, q θ • heardMean (heard θ) g η μ K x = (1 - someHeard q heard) • x +
      (clients.map (fun c => expShare q heard c • proxSteps (g c) η μ x K x)).sum := by
  have h4 : (clients.map (fun c => expShare q heard c • proxSteps (g c) η μ x K x)).sum =
      ∑ θ, (q θ * (1 / ((heard θ).length : ℝ))) • ((heard θ).map (fun c => proxSteps (g c) η μ x K x)).sum := by
    unfold expShare
    rw [← List.sum_toFinset _ hc]
    simp only [Finset.sum_smul, ite_smul, zero_smul]
    rw [Finset.sum_comm]
    refine Finset.sum_congr rfl fun θ _ => ?_
    rw [List.sum_toFinset _ hc, list_sum_if clients (heard θ) hc (hnd θ) (hsub θ), List.smul_sum, List.map_map]
    rfl
  have h5 : (1 - someHeard q heard) = ∑ θ, if heard θ = [] then q θ else 0 := by
    rw [← hq.total, someHeard, chance, ← Finset.sum_sub_distrib]
    refine Finset.sum_congr rfl fun θ _ => ?_
    by_cases h : heard θ = [] <;> simp [h]
  rw [h4, h5, Finset.sum_smul, ← Finset.sum_add_distrib]
  refine Finset.sum_congr rfl fun θ _ => ?_
  unfold heardMean
  by_cases h : heard θ = []
  · simp [h]
  · rw [if_neg h, if_neg h, zero_smul, zero_add, meanProx, smul_smul]

/-- C134: whatever the losses, the expected model after an iteration is the clients' local results weighted by their shares, and the old
model weighted by the probability of hearing nobody. -/
theorem C134_expected (hf : IsFed n server clients) (q : Θ → ℝ) (hq : Distribution q) (heard : Θ → List A) (hnd : ∀ θ, (heard θ).Nodup)
    (hsub : ∀ θ, ∀ c ∈ heard θ, c ∈ clients) (G : Grad A Ω (Vec d)) (g : A → Vec d → Vec d) (hg : ∀ c x ω, (G c x ω).1 = g c x)
    (η μ : ℝ) (K : Nat) (w : Θ → World A (Vec d) Ω) (hw : ∀ θ, Faithful (w θ) server clients) (it : Int) (s : FSys A (Vec d) Ω (Vec d) (Vec d))
    (sel : Θ → Select A Ω) (hsel : ∀ θ, SelOK (sel θ)) :
    ∃ s' : Θ → FSys A (Vec d) Ω (Vec d) (Vec d), (∀ θ, iter (fedProx G η μ K) (sel θ) server (w θ) n it s = .ok (s' θ)) ∧
      ((∀ θ, UploadsFrom server (heard θ) (s' θ)) →
        ∑ θ, q θ • (s' θ).srv = (1 - someHeard q heard) • s.srv +
          (clients.map (fun c => expShare q heard c • proxSteps (g c) η μ s.srv K s.srv)).sum) := by
  choose s' h1 h2 using fun θ => C127_round G g hg η μ K (w θ) hf (hw θ) (sel θ) (hsel θ) it s
  refine ⟨s', h1, fun hh => ?_⟩
  have h3 : ∀ θ, (s' θ).srv = heardMean (heard θ) g η μ K s.srv := fun θ => h2 θ _ (hnd θ) (hh θ)
  rw [Finset.sum_congr rfl (fun θ _ => by rw [h3 θ])]
  exact expected_heard q hq heard hf.clients_nodup hnd hsub g η μ K s.srv

/-- C134: if all clients have the same share, the expected model is that of an iteration in which everybody is heard, weighted by the
probability of hearing anybody, and the old one; nothing is needed about pairs of clients or the sizes of the sets. -/
theorem C134_even_unbiased (hf : IsFed n server clients) (hcl : clients ≠ []) (q : Θ → ℝ) (hq : Distribution q) (heard : Θ → List A)
    (hnd : ∀ θ, (heard θ).Nodup) (hsub : ∀ θ, ∀ c ∈ heard θ, c ∈ clients)
    (heven : ∀ a ∈ clients, ∀ b ∈ clients, expShare q heard a = expShare q heard b)
    (G : Grad A Ω (Vec d)) (g : A → Vec d → Vec d) (hg : ∀ c x ω, (G c x ω).1 = g c x)
    (η μ : ℝ) (K : Nat) (w : Θ → World A (Vec d) Ω) (hw : ∀ θ, Faithful (w θ) server clients) (it : Int) (s : FSys A (Vec d) Ω (Vec d) (Vec d))
    (sel : Θ → Select A Ω) (hsel : ∀ θ, SelOK (sel θ)) :
    ∃ s' : Θ → FSys A (Vec d) Ω (Vec d) (Vec d), (∀ θ, iter (fedProx G η μ K) (sel θ) server (w θ) n it s = .ok (s' θ)) ∧
      ((∀ θ, UploadsFrom server (heard θ) (s' θ)) →
        ∑ θ, q θ • (s' θ).srv = (1 - someHeard q heard) • s.srv + someHeard q heard • meanProx clients g η μ K s.srv) := by
  obtain ⟨s', h1, h2⟩ := C134_expected hf q hq heard hnd hsub G g hg η μ K w hw it s sel hsel
  refine ⟨s', h1, fun hh => ?_⟩
  rw [h2 hh]
  congr 1
  obtain ⟨a, ha⟩ := List.exists_mem_of_ne_nil clients hcl
  have h3 : ∀ c ∈ clients, expShare q heard c = expShare q heard a := fun c hc => heven c hc a ha
  have h4 : (clients.length : ℝ) * expShare q heard a = someHeard q heard := by
    rw [← C134_shares q heard hf.clients_nodup hnd hsub, List.map_congr_left h3, List.map_const', List.sum_replicate, nsmul_eq_mul]
  have h0 : (clients.length : ℝ) ≠ 0 := by
    have := List.length_pos_iff.2 hcl
    positivity
  rw [List.map_congr_left (fun c hc => by rw [h3 c hc]), ← h4, meanProx, smul_smul, List.smul_sum, List.map_map]
  rw [show (clients.length : ℝ) * expShare q heard a * (1 / (clients.length : ℝ)) = expShare q heard a by field_simp]
  rfl

/-- the two clients `a`, `b` pull in opposite directions, the others not at all -/
noncomputable def pull (a b : A) (v : Vec d) (c : A) : Vec d := if c = a then v else if c = b then -v else 0

theorem pull_sum (a b : A) (ha : a ∈ clients) (hb : b ∈ clients) (hab : a ≠ b) (hc : clients.Nodup) (v : Vec d) (W : A → ℝ) :
    (clients.map (fun c => W c • pull a b v c)).sum = (W a - W b) • v := by
  have h1 : ∀ c, W c • pull a b v c = (if c = a then W a • v else 0) + (if c = b then -(W b • v) else 0) := by
    intro c
    unfold pull
    by_cases h : c = a
    · subst h; simp [hab]
    · by_cases h' : c = b
      · subst h'; simp [h]
      · simp [h, h']
  rw [← List.sum_toFinset _ hc, Finset.sum_congr rfl (fun c _ => h1 c), Finset.sum_add_distrib, Finset.sum_ite_eq', Finset.sum_ite_eq',
    if_pos (List.mem_toFinset.2 ha), if_pos (List.mem_toFinset.2 hb), sub_smul, sub_eq_add_neg]

theorem quad_steps (v : Vec d) (η : ℝ) (K : Nat) (ref x : Vec d) :
    proxSteps (fun y => y - v) η 0 ref K x = v + (1 - η) ^ K • (x - v) := by
  induction K generalizing x with
  | zero => simp [proxSteps]
  | succ K ih => rw [proxSteps, ih, pow_succ]; module

/-- C134: for any two clients whose shares differ there are costs and a minimiser of their sum from which the expected model of the next
FedAvg iteration is elsewhere, for every number of local steps and every step size up to 1. -/
theorem C134_uneven_biased (hf : IsFed n server clients) (q : Θ → ℝ) (hq : Distribution q) (heard : Θ → List A) (hnd : ∀ θ, (heard θ).Nodup)
    (hsub : ∀ θ, ∀ c ∈ heard θ, c ∈ clients) (a b : A) (ha : a ∈ clients) (hb : b ∈ clients) (hne : expShare q heard a ≠ expShare q heard b)
    (v : Vec d) (hv : v ≠ 0) (η : ℝ) (hη : 0 < η) (hη1 : η ≤ 1) (K : Nat) (hK : 0 < K) :
    ∃ (f : A → Vec d → ℝ) (g : A → Vec d → Vec d) (xs : Vec d), ClientsSmooth clients f g 1 1 ∧ BestForClients clients f xs ∧
      ∀ (w : Θ → World A (Vec d) Ω), (∀ θ, Faithful (w θ) server clients) → ∀ (it : Int) (s : FSys A (Vec d) Ω (Vec d) (Vec d)), s.srv = xs →
        ∀ sel : Θ → Select A Ω, (∀ θ, SelOK (sel θ)) → ∃ s' : Θ → FSys A (Vec d) Ω (Vec d) (Vec d),
          (∀ θ, iter (fedProx (fun c x ω => (g c x, ω)) η 0 K) (sel θ) server (w θ) n it s = .ok (s' θ)) ∧
          ((∀ θ, UploadsFrom server (heard θ) (s' θ)) → ∑ θ, q θ • (s' θ).srv ≠ xs) := by
  have hab : a ≠ b := fun e => hne (by rw [e])
  have hsm : ClientsSmooth clients (fun c (x : Vec d) => 1 / 2 * ‖x - pull a b v c‖ ^ 2) (fun c x => x - pull a b v c) 1 1 := by
    have e1 : ∀ u x y : Vec d, 1 / 2 * ‖y - u‖ ^ 2 = 1 / 2 * ‖x - u‖ ^ 2 + ⟪x - u, y - x⟫_ℝ + 1 / 2 * ‖y - x‖ ^ 2 := by
      intro u x y
      have : y - u = (x - u) + (y - x) := by abel
      rw [this, norm_add_sq_real]
      ring
    exact ⟨one_pos, fun i _ x y => (e1 _ x y).le, fun i _ x y => (e1 _ x y).ge⟩
  refine ⟨_, _, 0, hsm, ?_, fun w hw it s hs sel hsel => ?_⟩
  · rw [best_iff hsm one_pos]
    have := pull_sum (d := d) a b ha hb hab hf.clients_nodup v (fun _ => -1)
    simpa using this
  · obtain ⟨s', h1, h2⟩ := C134_expected hf q hq heard hnd hsub (fun c x (ω : Ω) => (x - pull a b v c, ω)) (fun c x => x - pull a b v c)
      (fun _ _ _ => rfl) η 0 K w hw it s sel hsel
    refine ⟨s', h1, fun hh e => ?_⟩
    have h3 := h2 hh
    rw [e, hs, smul_zero, zero_add] at h3
    have h4 : ∀ c, expShare q heard c • proxSteps (fun x => x - pull a b v c) η 0 0 K (0 : Vec d) =
        (expShare q heard c * (1 - (1 - η) ^ K)) • pull a b v c := by
      intro c
      rw [quad_steps]
      module
    simp only [h4] at h3
    rw [pull_sum a b ha hb hab hf.clients_nodup v (fun c => expShare q heard c * (1 - (1 - η) ^ K)), ← sub_mul] at h3
    have h5 := (smul_eq_zero.1 h3.symm).resolve_right hv
    have h6 : (1 - η) ^ K < 1 := pow_lt_one₀ (by linarith) (by linarith) (by omega)
    rcases mul_eq_zero.1 h5 with h7 | h7
    · exact hne (by linarith)
    · linarith

theorem avg_of_prox (G : Grad A Ω (Vec d)) (η : ℝ) (K : Nat) : fedProx G η 0 K = fedAvg G η K := by
  have hl : ∀ c x ω, localProx G η 0 K c x ω = localSgd G η K c x ω := by
    intro c x ω
    unfold localProx localSgd
    congr 1
    funext y ω
    simp
  unfold fedProx fedAvg
  simp only [hl]

/-- only activity decides who is heard -/
def heardWorld (server : A) (R : List A) : World A (Vec d) Unit :=
  { isActive := fun c _ ω => (decide (c = server) || decide (c ∈ R), ω),
    shouldDrop := fun _ ω => (false, ω), compSize := fun _ _ => 1, compress := fun _ v ω => (v, ω), makeNoise := fun _ _ _ ω => (none, ω),
    add := fun a _ => a, costSize := fun _ => 1 }

theorem heardWorld_active (heard : Θ → List A) (hs : server ∉ clients) (θ : Θ) :
    ActiveBy (heardWorld (d := d) server (heard θ)) server clients heard [θ] where
  faithful := ⟨fun it ω => by simp [heardWorld], fun a _ => ⟨fun _ _ => rfl, fun _ _ _ => rfl⟩⟩
  lossless := fun _ _ _ => rfl
  active := by
    intro j hj c hc ω
    have hj0 : j = 0 := by simpa using hj
    subst hj0
    have hc0 : c ≠ server := fun e => hs (e ▸ hc)
    simp [heardWorld, hc0]

/-- C134: FedAvg with one local step leaves in expectation every minimiser of every 1-smooth 1-strongly convex problem where it is, if and
only if all clients have the same share. -/
theorem C134_unbiased_iff (hf : IsFed n server clients) (hcl : clients ≠ []) (q : Θ → ℝ) (hq : Distribution q) (heard : Θ → List A)
    (hnd : ∀ θ, (heard θ).Nodup) (hsub : ∀ θ, ∀ c ∈ heard θ, c ∈ clients) (v : Vec d) (hv : v ≠ 0) (η : ℝ) (hη : 0 < η) (hη1 : η ≤ 1) :
    (∀ a ∈ clients, ∀ b ∈ clients, expShare q heard a = expShare q heard b) ↔
    ∀ (f : A → Vec d → ℝ) (g : A → Vec d → Vec d) (xs : Vec d), ClientsSmooth clients f g 1 1 → BestForClients clients f xs →
      ∀ (w : Θ → World A (Vec d) Unit), (∀ θ, Faithful (w θ) server clients) → ∀ (s : FSys A (Vec d) Unit (Vec d) (Vec d)), s.srv = xs →
        ∀ s' : Θ → FSys A (Vec d) Unit (Vec d) (Vec d),
          (∀ θ, iter (fedAvg (fun c x ω => (g c x, ω)) η 1) none server (w θ) n 0 s = .ok (s' θ)) →
          (∀ θ, UploadsFrom server (heard θ) (s' θ)) → ∑ θ, q θ • (s' θ).srv = xs := by
  constructor
  · intro heven f g xs hsm hb w hw s hs s' hit hup
    obtain ⟨s2, h1, h2⟩ := C134_even_unbiased hf hcl q hq heard hnd hsub heven (fun c x (ω : Unit) => (g c x, ω)) g (fun _ _ _ => rfl) η 0 1
      w hw 0 s (fun _ => none) (fun _ f e => by cases e)
    have he : ∀ θ, s2 θ = s' θ := by
      intro θ
      have e1 := h1 θ
      rw [avg_of_prox, hit θ] at e1
      injection e1 with e1
      exact e1.symm
    have he : s2 = s' := funext he
    subst he
    rw [h2 hup, hs, (C90_one_step_exact hsm one_pos hcl η 0 hη xs).2 hb, ← add_smul, sub_add_cancel, one_smul]
  · intro h a ha b hb
    by_contra hne
    obtain ⟨f, g, xs, h1, h2, h3⟩ := C134_uneven_biased (Ω := Unit) hf q hq heard hnd hsub a b ha hb hne v hv η hη hη1 1 one_pos
    have hact := fun θ => heardWorld_active (d := d) (server := server) (clients := clients) heard hf.server_not_client θ
    let s : FSys A (Vec d) Unit (Vec d) (Vec d) := ⟨⟨0, none, ⟨[]⟩, fun _ => ⟨⟨[]⟩⟩, fun _ => 0, fun _ => 0, fun _ => 0, ()⟩, xs, fun _ => 0, fun _ => 0⟩
    obtain ⟨s', h4, h5⟩ := h3 (fun θ => heardWorld server (heard θ)) (fun θ => (hact θ).faithful) 0 s rfl (fun _ => none) (fun _ f e => by cases e)
    have hup : ∀ θ, UploadsFrom server (heard θ) (s' θ) := fun θ =>
      iter_uploads (fun c x (ω : Unit) => (g c x, ω)) η 0 1 (heardWorld server (heard θ)) hf heard hsub [θ] (hact θ) 0 (by simp) s (s' θ) (h4 θ)
    exact h5 hup (h f g xs h1 h2 _ (fun θ => (hact θ).faithful) s rfl s' (fun θ => by rw [← avg_of_prox]; exact h4 θ) hup)

/-- C134: on the costs `½‖x - a c‖²` the expected model of a whole FedAvg run under independent losses tends geometrically to the centres
weighted by the clients' shares, and not to their plain mean (the minimiser of the summed costs) unless these agree. -/
theorem C134_run_mean (hf : IsFed n server clients) (q : Θ → ℝ) (hq : Distribution q) (heard : Θ → List A) (hnd : ∀ θ, (heard θ).Nodup)
    (hsub : ∀ θ, ∀ c ∈ heard θ, c ∈ clients) (hp : 0 < someHeard q heard) (a : A → Vec d) (η : ℝ) (K : Nat)
    (x0 : A → Vec d) (N : Nat) (w : List Θ → World A (Vec d) Ω) (s0 : List Θ → FSys A (Vec d) Ω (Vec d) (Vec d)) (sel : List Θ → Select A Ω)
    (hw : ∀ l, Faithful (w l) server clients) (hsel : ∀ l, SelOK (sel l))
    (hb : ∀ l, l.length = N → Brought server heard ((fedAvg (fun c x ω => (x - a c, ω)) η K).after (sel l) server (w l) n x0 (s0 l)) l) :
    ∃ S : List Θ → FSys A (Vec d) Ω (Vec d) (Vec d),
      (∀ l, l.length = N → (fedAvg (fun c x ω => (x - a c, ω)) η K).after (sel l) server (w l) n x0 (s0 l) N = .ok (S l)) ∧
      ∀ u : Vec d, tapeMean q N (fun l => ⟪u, (S l).srv - (1 / someHeard q heard) • (clients.map (fun c => expShare q heard c • a c)).sum⟫_ℝ) =
        (1 - someHeard q heard * (1 - (1 - η) ^ K)) ^ N *
          ⟪u, x0 server - (1 / someHeard q heard) • (clients.map (fun c => expShare q heard c • a c)).sum⟫_ℝ := by
  rw [← avg_of_prox] at hb ⊢
  set xs := (1 / someHeard q heard) • (clients.map (fun c => expShare q heard c • a c)).sum with hxs
  set F : List Θ → Vec d := fun l => l.foldl (fun x θ => heardMean (heard θ) (fun c x => x - a c) η 0 K x) (x0 server) with hF
  have hrun : ∀ l : List Θ, ∃ s', l.length = N → (fedProx (fun c x (ω : Ω) => (x - a c, ω)) η 0 K).after (sel l) server (w l) n x0 (s0 l) N = .ok s' ∧
      s'.srv = F l := by
    intro l
    by_cases hl : l.length = N
    · obtain ⟨s', h1, h2⟩ := C127_run (fun c x (ω : Ω) => (x - a c, ω)) (fun c x => x - a c) (fun _ _ _ => rfl) η 0 K (w l) hf (hw l) (sel l)
        (hsel l) heard hnd x0 (s0 l) l (hb l hl)
      exact ⟨s', fun _ => ⟨hl ▸ h1, h2⟩⟩
    · exact ⟨s0 l, fun h => absurd h hl⟩
  choose S hS using hrun
  refine ⟨S, fun l hl => (hS l hl).1, fun u => ?_⟩
  have hstep : ∀ x : Vec d, ∑ θ, q θ * ⟪u, heardMean (heard θ) (fun c x => x - a c) η 0 K x - xs⟫_ℝ =
      (1 - someHeard q heard * (1 - (1 - η) ^ K)) * ⟪u, x - xs⟫_ℝ := by
    intro x
    have e1 : ∑ θ, q θ * ⟪u, heardMean (heard θ) (fun c x => x - a c) η 0 K x - xs⟫_ℝ =
        ⟪u, (∑ θ, q θ • heardMean (heard θ) (fun c x => x - a c) η 0 K x) - xs⟫_ℝ := by
      simp only [inner_sub_right, mul_sub, Finset.sum_sub_distrib, inner_sum, inner_smul_right, ← Finset.sum_mul, hq.total, one_mul]
    rw [e1, expected_heard q hq heard hf.clients_nodup hnd hsub, ← real_inner_smul_right]
    congr 1
    have e2 : ∀ c, expShare q heard c • proxSteps (fun x => x - a c) η 0 x K x =
        (1 - (1 - η) ^ K) • (expShare q heard c • a c) + expShare q heard c • ((1 - η) ^ K • x) := by
      intro c; rw [quad_steps]; module
    have e3 : (clients.map (fun c => expShare q heard c • a c)).sum = someHeard q heard • xs := by
      rw [hxs, smul_smul, mul_one_div_cancel hp.ne', one_smul]
    have e4 : (clients.map (fun c => expShare q heard c • ((1 - η) ^ K • x))).sum = someHeard q heard • ((1 - η) ^ K • x) := by
      rw [← C134_shares q heard hf.clients_nodup hnd hsub, List.sum_smul, List.map_map]; rfl
    simp only [e2]
    rw [List.sum_map_add, e4]
    have e5 : (clients.map (fun c => (1 - (1 - η) ^ K) • (expShare q heard c • a c))).sum =
        (1 - (1 - η) ^ K) • (clients.map (fun c => expShare q heard c • a c)).sum := by
      rw [List.smul_sum, List.map_map]; rfl
    rw [e5, e3]
    module
  have key : ∀ k, tapeMean q k (fun l => ⟪u, F l - xs⟫_ℝ) = (1 - someHeard q heard * (1 - (1 - η) ^ K)) ^ k * ⟪u, x0 server - xs⟫_ℝ := by
    intro k
    induction k with
    | zero => simp [tapeMean, hF]
    | succ k ih =>
      rw [tapeMean_snoc]
      have e : ∀ l : List Θ, ∑ θ, q θ * ⟪u, F (l ++ [θ]) - xs⟫_ℝ = (1 - someHeard q heard * (1 - (1 - η) ^ K)) * ⟪u, F l - xs⟫_ℝ := by
        intro l
        rw [← hstep (F l)]
        refine Finset.sum_congr rfl fun θ _ => ?_
        rw [hF]
        simp only [List.foldl_append, List.foldl_cons, List.foldl_nil]
      simp only [e]
      rw [tapeMean_smul, ih, pow_succ]
      ring
  rw [← key N]
  refine le_antisymm (tapeMean_mono hq.nonneg N _ _ fun l hl => ?_) (tapeMean_mono hq.nonneg N _ _ fun l hl => ?_) <;> rw [(hS l hl).2]

end bias

/-! ## a concrete system -/

/-- with probability one half both clients are heard, otherwise only the first: its share is three quarters, the other's one quarter -/
example : expShare (fun _ : Bool => (1 / 2 : ℝ)) (fun b => if b then [1, 2] else [1]) 1 = 3 / 4 ∧
    expShare (fun _ : Bool => (1 / 2 : ℝ)) (fun b => if b then [1, 2] else [1]) 2 = 1 / 4 := by
  constructor <;> simp [expShare] <;> norm_num

/-- a FedAvg iteration from an optimum in that system leaves it in expectation -/
example (v : Vec 1) (hv : v ≠ 0) : ∃ (g : Nat → Vec 1 → Vec 1) (f : Nat → Vec 1 → ℝ) (xs : Vec 1), BestForClients [1, 2] f xs ∧
    ∃ w : Bool → World Nat (Vec 1) Unit, ∀ s : FSys Nat (Vec 1) Unit (Vec 1) (Vec 1), s.srv = xs →
    ∃ s' : Bool → FSys Nat (Vec 1) Unit (Vec 1) (Vec 1),
      (∀ θ, iter (fedProx (fun c x ω => (g c x, ω)) (1 / 4) 0 3) none 0 (w θ) fedNet2 0 s = .ok (s' θ)) ∧
      ∑ θ, (1 / 2 : ℝ) • (s' θ).srv ≠ xs := by
  let heard : Bool → List Nat := fun b => if b then [1, 2] else [1]
  have hs1 : expShare (fun _ : Bool => (1 / 2 : ℝ)) heard 1 = 3 / 4 := by simp [expShare, heard]; norm_num
  have hs2 : expShare (fun _ : Bool => (1 / 2 : ℝ)) heard 2 = 1 / 4 := by simp [expShare, heard]; norm_num
  have hsub : ∀ θ, ∀ c ∈ heard θ, c ∈ ([1, 2] : List Nat) := by
    intro θ c hc
    cases θ <;> simp [heard] at hc ⊢ <;> omega
  obtain ⟨f, g, xs, h1, h2, h3⟩ := C134_uneven_biased (Ω := Unit) fedNet2_isFed (fun _ : Bool => (1 / 2 : ℝ)) ⟨fun _ => by norm_num, by norm_num⟩
    heard (fun θ => by cases θ <;> simp [heard]) hsub 1 2 (by simp) (by simp) (by rw [hs1, hs2]; norm_num) v hv (1 / 4) (by norm_num) (by norm_num) 3 (by norm_num)
  let w : Bool → World Nat (Vec 1) Unit := fun b =>
    { isActive := fun c _ ω => (decide (c = 0) || decide (c ∈ heard b), ω),
      shouldDrop := fun _ ω => (false, ω), compSize := fun _ _ => 1, compress := fun _ v ω => (v, ω), makeNoise := fun _ _ _ ω => (none, ω),
      add := fun a _ => a, costSize := fun _ => 1 }
  have hw : ∀ b, ActiveBy (w b) 0 [1, 2] heard [b] := fun b =>
    { faithful := ⟨fun it ω => rfl, fun a _ => ⟨fun _ _ => rfl, fun _ _ _ => rfl⟩⟩
      lossless := fun _ _ _ => rfl
      active := by
        intro j hj c hc ω
        have hj0 : j = 0 := by simpa using hj
        subst hj0
        have hc0 : c ≠ 0 := by
          have : c = 1 ∨ c = 2 := by simpa using hc
          omega
        simp [w, hc0] }
  refine ⟨g, f, xs, h2, w, fun s hs => ?_⟩
  obtain ⟨s', h4, h5⟩ := h3 w (fun b => (hw b).faithful) 0 s hs (fun _ => none) (fun _ => fun f e => by cases e)
  refine ⟨s', h4, h5 fun θ => ?_⟩
  exact iter_uploads (fun c x (ω : Unit) => (g c x, ω)) (1 / 4) 0 3 (w θ) fedNet2_isFed heard hsub [θ] (hw θ) 0 (by simp) s (s' θ) (h4 θ)

/-- the same system over whole runs: the expected model of FedAvg with three local steps tends to `v / 2`, while the costs `½‖x - v‖²` and
`½‖x + v‖²` are best served by 0 -/
example (v : Vec 1) (N : Nat) : ∃ w : List Bool → World Nat (Vec 1) Unit, ∀ (s0 : FSys Nat (Vec 1) Unit (Vec 1) (Vec 1)),
    ∃ S : List Bool → FSys Nat (Vec 1) Unit (Vec 1) (Vec 1),
      (∀ l, l.length = N → (fedAvg (fun c x ω => (x - (if c = 1 then v else -v), ω)) (1 / 4) 3).after none 0 (w l) fedNet2 (fun _ => 0) s0 N = .ok (S l)) ∧
      ∀ u : Vec 1, tapeMean (fun _ : Bool => (1 / 2 : ℝ)) N (fun l => ⟪u, (S l).srv - (1 / 2 : ℝ) • v⟫_ℝ) =
        (1 - (1 - (3 / 4 : ℝ) ^ 3)) ^ N * ⟪u, 0 - (1 / 2 : ℝ) • v⟫_ℝ := by
  let heard : Bool → List Nat := fun b => if b then [1, 2] else [1]
  have hs1 : expShare (fun _ : Bool => (1 / 2 : ℝ)) heard 1 = 3 / 4 := by simp [expShare, heard]; norm_num
  have hs2 : expShare (fun _ : Bool => (1 / 2 : ℝ)) heard 2 = 1 / 4 := by simp [expShare, heard]; norm_num
  have hsub : ∀ θ, ∀ c ∈ heard θ, c ∈ ([1, 2] : List Nat) := by
    intro θ c hc
    cases θ <;> simp [heard] at hc ⊢ <;> omega
  have hnd : ∀ θ, (heard θ).Nodup := fun θ => by cases θ <;> simp [heard]
  have hP : someHeard (fun _ : Bool => (1 / 2 : ℝ)) heard = 1 := by
    rw [← C134_shares (clients := [1, 2]) _ heard (by simp) hnd hsub]
    simp only [List.map_cons, List.map_nil, List.sum_cons, List.sum_nil]
    rw [hs1, hs2]
    norm_num
  let w : List Bool → World Nat (Vec 1) Unit := fun l =>
    { isActive := fun c k ω => (match l[k.toNat]? with
        | some b => decide (c = 0) || decide (c ∈ heard b)
        | none => true, ω),
      shouldDrop := fun _ ω => (false, ω), compSize := fun _ _ => 1, compress := fun _ v ω => (v, ω), makeNoise := fun _ _ _ ω => (none, ω),
      add := fun a _ => a, costSize := fun _ => 1 }
  have hw : ∀ l, ActiveBy (w l) 0 [1, 2] heard l := fun l =>
    { faithful := ⟨fun it ω => by simp only [w]; split <;> simp, fun a _ => ⟨fun _ _ => rfl, fun _ _ _ => rfl⟩⟩
      lossless := fun _ _ _ => rfl
      active := by
        intro j hj c hc ω
        have hc0 : c ≠ 0 := by
          have : c = 1 ∨ c = 2 := by simpa using hc
          omega
        simp [w, hc0, hj] }
  refine ⟨w, fun s0 => ?_⟩
  obtain ⟨S, h1, h2⟩ := C134_run_mean (Ω := Unit) fedNet2_isFed (fun _ : Bool => (1 / 2 : ℝ)) ⟨fun _ => by norm_num, by norm_num⟩ heard hnd hsub
    (by rw [hP]; norm_num) (fun c => if c = 1 then v else -v) (1 / 4) 3 (fun _ => 0) N w (fun _ => s0) (fun _ => none) (fun l => (hw l).faithful)
    (fun _ f e => by cases e) (fun l _ => by
      rw [← avg_of_prox]
      exact C127_activity _ _ _ _ (w l) fedNet2_isFed heard hsub l (hw l) _ _)
  refine ⟨S, h1, fun u => ?_⟩
  have h3 := h2 u
  have e : (1 / (1 : ℝ)) • ((([1, 2] : List Nat).map (fun c => expShare (fun _ : Bool => (1 / 2 : ℝ)) heard c • (if c = 1 then v else -v))).sum) =
      (1 / 2 : ℝ) • v := by
    simp only [List.map_cons, List.map_nil, List.sum_cons, List.sum_nil, hs1, hs2, if_true, show ¬ (2 : Nat) = 1 by decide, if_false]
    module
  rw [hP, e] at h3
  rw [h3]
  norm_num

end Verif.Props
