import Verif.Props.FedSample
set_option linter.unusedSectionVars false
/-!
# C127: FedAvg and FedProx when the uploads that arrive are random
-/
namespace Verif.Props
open Verif Verif.Fed NetState Verif.Costs Verif.Consensus
open scoped InnerProductSpace

/-! ## specification -/

section spec
variable {A Ω V α σ : Type} [DecidableEq A]

/-- SPEC: what arrives from the server and the clients arrives unchanged; activity, selection and losses are arbitrary -/
structure Faithful (w : World A V Ω) (server : A) (clients : List A) : Prop where
  up : ServerUp w server
  exact_ : ∀ a ∈ server :: clients, Fed.Exact w a

/-- SPEC: the server's inbox holds uploads of exactly the clients `R` -/
def UploadsFrom (server : A) (R : List A) (s' : FSys A V Ω α σ) : Prop := ∀ c, (∃ v, (s'.net.inbox server).get c .dflt = .ok v) ↔ c ∈ R

/-- SPEC: iteration `j` of a run brought the uploads of exactly the clients `heard l[j]` -/
def Brought {Θ : Type} (server : A) (heard : Θ → List A) (run : Nat → Py (FSys A V Ω α σ)) (l : List Θ) : Prop :=
  ∀ (j : Nat) (hj : j < l.length) s', run (j + 1) = .ok s' → UploadsFrom server (heard l[j]) s'

variable {Θ : Type} [Fintype Θ]

/-- SPEC: random sets of clients of which, among sets of one size, all clients and all pairs of clients are equally often members -/
structure EvenLoss (q : Θ → ℝ) (clients : List A) (heard : Θ → List A) : Prop where
  dist : Distribution q
  nodup : ∀ θ, (heard θ).Nodup
  sub : ∀ θ, ∀ c ∈ heard θ, c ∈ clients
  one : ∀ k, ∀ c ∈ clients, ∀ c' ∈ clients, chance q (fun θ => decide ((heard θ).length = k ∧ c ∈ heard θ)) =
    chance q (fun θ => decide ((heard θ).length = k ∧ c' ∈ heard θ))
  two : ∀ k, ∀ a ∈ clients, ∀ b ∈ clients, ∀ a' ∈ clients, ∀ b' ∈ clients, a ≠ b → a' ≠ b' →
    chance q (fun θ => decide ((heard θ).length = k ∧ a ∈ heard θ ∧ b ∈ heard θ)) =
      chance q (fun θ => decide ((heard θ).length = k ∧ a' ∈ heard θ ∧ b' ∈ heard θ))

/-- SPEC: probability that at least one upload arrives -/
noncomputable def someHeard (q : Θ → ℝ) (heard : Θ → List A) : ℝ := chance q (fun θ => decide (heard θ ≠ []))

/-- SPEC: finite-population factor of a sample of `k` out of `N` -/
noncomputable def popFactor (N k : Nat) : ℝ := ((N : ℝ) - k) / (k * ((N : ℝ) - 1))

/-- SPEC: mean finite-population factor of the sets that are not empty -/
noncomputable def meanFactor (q : Θ → ℝ) (N : Nat) (heard : Θ → List A) : ℝ :=
  (∑ θ, if heard θ = [] then 0 else q θ * popFactor N (heard θ).length) / someHeard q heard

end spec

/-! ## one iteration -/

section round
variable {A Ω E : Type} [DecidableEq A] [AddCommGroup E] [Module ℝ E]
variable {n : Net A} {server : A} {clients : List A}

/-- SPEC: the mean of the local results of `R` from `x`; `x` itself if nothing was heard -/
noncomputable def heardMean (R : List A) (g : A → E → E) (η μ : ℝ) (K : Nat) (x : E) : E := if R = [] then x else meanProx R g η μ K x

/-- C127: whatever the activity, the selection and the losses, one FedProx iteration replaces the server model by the mean of the local
results of the clients heard. -/
theorem C127_round (G : Grad A Ω E) (g : A → E → E) (hg : ∀ c x ω, (G c x ω).1 = g c x) (η μ : ℝ) (K : Nat)
    (w : World A E Ω) (hf : IsFed n server clients) (hw : Faithful w server clients) (sel : Select A Ω) (hsel : SelOK sel) (k : Int) (s : FSys A E Ω E E) :
    ∃ s', iter (fedProx G η μ K) sel server w n k s = .ok s' ∧ ∀ R : List A, R.Nodup → UploadsFrom server R s' →
      s'.srv = heardMean R g η μ K s.srv := by
  obtain ⟨s', R', up, selected, P, bc, ωs, h1, h2, h3, hr, h4, h5⟩ := mean_round (fedProx G η μ K) (fun _ _ => rfl) rfl
    (fun _ _ _ _ => by simp [fedProx]) w hf hw.up sel hsel k s
  refine ⟨s', h1, fun R hnd hR => ?_⟩
  have hmem : ∀ c, c ∈ R' ↔ c ∈ R := by
    intro c
    rw [← hR c]
    constructor
    · intro hc; exact ⟨up c, (h2.iff_ c _).2 ⟨hc, rfl⟩⟩
    · rintro ⟨v, hv⟩; exact ((h2.iff_ c v).1 hv).1
  have hperm : R'.Perm R := (List.perm_ext_iff_of_nodup h2.nodup hnd).2 hmem
  unfold heardMean
  by_cases hRe : R = []
  · rw [if_pos hRe]
    apply h4
    rw [hRe] at hperm
    exact List.perm_nil.1 hperm
  · rw [if_neg hRe]
    have hRne : R' ≠ [] := by
      intro e
      rw [e] at hperm
      exact hRe (List.nil_perm.1 hperm)
    rw [h5 hRne, hperm.length_eq, (hperm.map up).sum_eq]
    unfold meanProx
    congr 2
    apply List.map_congr_left
    intro c hc
    have hc' := (hmem c).2 hc
    have hin : (s'.net.inbox server).abs .dflt c = some (up c) := (get_ok_iff _ _ _ _).1 ((h2.iff_ c _).2 ⟨hc', rfl⟩)
    have hcP := h3 c hc'
    have hcc : c ∈ clients := hr.sel_client c (hr.sub c hcP)
    rcases hr.uploads c hcP (.dflt, (localProx G η μ K c (bc c) (ωs c)).1) (by simp [fedProx]) with ⟨v', ha, hn, _⟩ | ⟨hn, _⟩
    · simp only at hn ha
      rw [hin] at hn
      cases hn
      rw [ha.exact (hw.exact_ c (by simp [hcc])), localProx_det G g hg, (hr.heard c hcP).exact (hw.exact_ server (by simp))]
      rfl
    · simp only at hn
      rw [hin] at hn
      cases hn

/-- C127: the server model of a whole run is determined by who was heard. -/
theorem C127_run {Θ : Type} (G : Grad A Ω E) (g : A → E → E) (hg : ∀ c x ω, (G c x ω).1 = g c x) (η μ : ℝ) (K : Nat)
    (w : World A E Ω) (hf : IsFed n server clients) (hw : Faithful w server clients) (sel : Select A Ω) (hsel : SelOK sel)
    (heard : Θ → List A) (hnd : ∀ θ, (heard θ).Nodup)
    (x0 : A → E) (s : FSys A E Ω E E) (l : List Θ) (hd : Brought server heard ((fedProx G η μ K).after sel server w n x0 s) l) :
    ∃ s', (fedProx G η μ K).after sel server w n x0 s l.length = .ok s' ∧
      s'.srv = l.foldl (fun x θ => heardMean (heard θ) g η μ K x) (x0 server) := by
  have key : ∀ k : Nat, k ≤ l.length → ∃ s', (fedProx G η μ K).after sel server w n x0 s k = .ok s' ∧
      s'.srv = (l.take k).foldl (fun x θ => heardMean (heard θ) g η μ K x) (x0 server) := by
    intro k
    induction k with
    | zero => intro _; exact ⟨_, Fed.after_zero _ _ _ _ _, rfl⟩
    | succ k ih =>
      intro hk
      obtain ⟨s1, h1, h2⟩ := ih (by omega)
      obtain ⟨s2, h3, h4⟩ := C127_round G g hg η μ K w hf hw sel hsel k s1
      have h5 : (fedProx G η μ K).after sel server w n x0 s (k + 1) = .ok s2 := by
        rw [Fed.after_succ, h1]; exact h3
      refine ⟨s2, h5, ?_⟩
      rw [List.take_succ_eq_append_getElem hk, List.foldl_append, ← h2]
      exact h4 _ (hnd _) (hd k hk s2 h5)
  have := key l.length le_rfl
  rwa [List.take_length] at this

end round

/-! ## conditioning on the number of uploads -/

section cond
variable {A Ω Θ : Type} [DecidableEq A] [Fintype Θ]
variable {q : Θ → ℝ} {clients : List A} {heard : Θ → List A}

theorem sum_size {M : Type} [AddCommMonoid M] (heard : Θ → List A) (k : Nat) (F : Θ → M) :
    ∑ θ : {θ // (heard θ).length = k}, F θ = ∑ θ, if (heard θ).length = k then F θ else 0 := by
  rw [← Finset.sum_filter]
  exact (Finset.sum_subtype _ (fun θ => by simp) F).symm

/-- probability of `k` uploads -/
noncomputable def sizeChance (q : Θ → ℝ) (heard : Θ → List A) (k : Nat) : ℝ := chance q (fun θ => decide ((heard θ).length = k))

theorem chance_size (q : Θ → ℝ) (heard : Θ → List A) (k : Nat) (c : ℝ) (p : Θ → Prop) [DecidablePred p] :
    chance (fun θ : {θ // (heard θ).length = k} => q θ / c) (fun θ => decide (p θ)) =
      chance q (fun θ => decide ((heard θ).length = k ∧ p θ)) / c := by
  unfold chance
  rw [sum_size heard k (fun θ => if decide (p θ) = true then q θ / c else 0), Finset.sum_div]
  refine Finset.sum_congr rfl fun θ _ => ?_
  by_cases h1 : (heard θ).length = k <;> by_cases h2 : p θ <;> simp [h1, h2]

/-- among sets of one size the choice is fair -/
theorem EvenLoss.fair (h : EvenLoss q clients heard) (k : Nat) (hk : 0 < sizeChance q heard k) :
    FairChoice (fun θ : {θ // (heard θ).length = k} => q θ / sizeChance q heard k) clients (fun θ => heard θ) k where
  dist := ⟨fun θ => div_nonneg (h.dist.nonneg _) hk.le, by
    rw [← Finset.sum_div, sum_size heard k q]
    rw [div_eq_one_iff_eq hk.ne']
    unfold sizeChance chance
    exact Finset.sum_congr rfl fun θ _ => by simp⟩
  nodup θ := h.nodup θ
  size θ := θ.2
  sub θ := h.sub θ
  one c hc c' hc' := by
    rw [chance_size q heard k _ (fun θ => c ∈ heard θ), chance_size q heard k _ (fun θ => c' ∈ heard θ), h.one k c hc c' hc']
  two a ha b hb a' ha' b' hb' hab hab' := by
    rw [chance_size q heard k _ (fun θ => a ∈ heard θ ∧ b ∈ heard θ), chance_size q heard k _ (fun θ => a' ∈ heard θ ∧ b' ∈ heard θ),
      h.two k a ha b hb a' ha' b' hb' hab hab']

/-- sets of an impossible size carry no weight -/
theorem EvenLoss.none (h : EvenLoss q clients heard) (k : Nat) (hk : ¬ 0 < sizeChance q heard k) (θ : Θ) (hθ : (heard θ).length = k) : q θ = 0 := by
  have h0 : sizeChance q heard k = 0 := by
    refine le_antisymm (not_lt.1 hk) ?_
    unfold sizeChance chance
    exact Finset.sum_nonneg fun θ _ => by split <;> [exact h.dist.nonneg θ; exact le_rfl]
  unfold sizeChance chance at h0
  rw [Finset.sum_eq_zero_iff_of_nonneg (fun θ _ => by split <;> [exact h.dist.nonneg θ; exact le_rfl])] at h0
  have := h0 θ (Finset.mem_univ _)
  simpa [hθ] using this

theorem EvenLoss.le_length (h : EvenLoss q clients heard) (θ : Θ) : (heard θ).length ≤ clients.length :=
  (List.subperm_of_subset (h.nodup θ) (h.sub θ)).length_le

/-- a sum over all outcomes, by the number of uploads -/
theorem EvenLoss.by_size {M : Type} [AddCommMonoid M] (h : EvenLoss q clients heard) (F : Θ → M) :
    ∑ θ, F θ = ∑ k ∈ Finset.range (clients.length + 1), ∑ θ : {θ // (heard θ).length = k}, F θ := by
  rw [Finset.sum_congr rfl (fun k _ => sum_size heard k F), Finset.sum_comm]
  refine Finset.sum_congr rfl fun θ _ => ?_
  rw [Finset.sum_ite_eq, if_pos]
  have := h.le_length θ
  exact Finset.mem_range.2 (by omega)

theorem not_heard (h : EvenLoss q clients heard) : ∑ θ, (if heard θ = [] then q θ else 0) = 1 - someHeard q heard := by
  have h1 := h.dist.total
  have h2 : ∑ θ, q θ = ∑ θ, (if heard θ = [] then q θ else 0) + someHeard q heard := by
    unfold someHeard chance
    rw [← Finset.sum_add_distrib]
    exact Finset.sum_congr rfl fun θ _ => by by_cases hθ : heard θ = [] <;> simp [hθ]
  linarith

end cond

/-! ## means -/

section rate
variable {A Ω Θ : Type} [DecidableEq A] [Fintype Θ] {d : Nat} {n : Net A} {server : A} {clients : List A}
variable {q : Θ → ℝ} {heard : Θ → List A}

/-- the mean over the outcomes of one size -/
theorem mean_size (h : EvenLoss q clients heard) (hc : clients.Nodup) (g : A → Vec d → Vec d) (η μ : ℝ) (K : Nat) (x : Vec d) (k : Nat) (hk : 0 < k) :
    ∑ θ : {θ // (heard θ).length = k}, q θ • heardMean (heard θ) g η μ K x =
      ∑ θ : {θ // (heard θ).length = k}, q θ • meanProx clients g η μ K x := by
  by_cases hp : 0 < sizeChance q heard k
  · have hfc := h.fair k hp
    have h1 := (hfc.fair hc).mean hk (fun i : Fin clients.length => proxSteps (g clients[i]) η μ x K x)
    rw [meanProx_all] at h1
    have h2 : ∀ θ : {θ // (heard θ).length = k}, heardMean (heard θ) g η μ K x =
        (1 / (k : ℝ)) • ∑ i ∈ places clients (heard θ), proxSteps (g clients[i]) η μ x K x := by
      intro θ
      have hne : heard θ ≠ [] := fun e => by have := θ.2; rw [e] at this; simp at this; omega
      rw [heardMean, if_neg hne, meanProx_places hc hfc g η μ K θ x]
    have h3 := congrArg (fun v => sizeChance q heard k • v) h1
    simp only [Finset.smul_sum (r := sizeChance q heard k)] at h3
    have h4 : ∀ θ : {θ // (heard θ).length = k}, sizeChance q heard k • (q θ / sizeChance q heard k) •
        ((1 / (k : ℝ)) • ∑ i ∈ places clients (heard θ), proxSteps (g clients[i]) η μ x K x) = q θ • heardMean (heard θ) g η μ K x := by
      intro θ
      rw [h2 θ, smul_smul (sizeChance q heard k), mul_div_cancel₀ _ hp.ne']
    rw [Finset.sum_congr rfl (fun θ _ => h4 θ)] at h3
    rw [h3, ← Finset.sum_smul, sum_size heard k q]
    congr 1
    unfold sizeChance chance
    exact Finset.sum_congr rfl fun θ _ => by simp
  · exact Finset.sum_congr rfl fun θ _ => by rw [h.none k hp θ θ.2, zero_smul, zero_smul]

/-- C127: on average an iteration moves the server model, by the probability that something is heard, to where all clients together would have
moved it: losses slow FedAvg down but do not pull it away. -/
theorem C127_unbiased (hf : IsFed n server clients) (hq : EvenLoss q clients heard) (G : Grad A Ω (Vec d)) (g : A → Vec d → Vec d) (hg : ∀ c x ω, (G c x ω).1 = g c x)
    (η μ : ℝ) (K : Nat) (w : Θ → World A (Vec d) Ω) (hw : ∀ θ, Faithful (w θ) server clients) (it : Int) (s : FSys A (Vec d) Ω (Vec d) (Vec d))
    (sel : Θ → Select A Ω) (hsel : ∀ θ, SelOK (sel θ)) :
    ∃ s' : Θ → FSys A (Vec d) Ω (Vec d) (Vec d), (∀ θ, iter (fedProx G η μ K) (sel θ) server (w θ) n it s = .ok (s' θ)) ∧
      ((∀ θ, UploadsFrom server (heard θ) (s' θ)) →
        ∑ θ, q θ • (s' θ).srv = (1 - someHeard q heard) • s.srv + someHeard q heard • meanProx clients g η μ K s.srv) := by
  choose s' h1 h2 using fun θ => C127_round G g hg η μ K (w θ) hf (hw θ) (sel θ) (hsel θ) it s
  refine ⟨s', h1, fun hh => ?_⟩
  have h3 : ∀ θ, (s' θ).srv = heardMean (heard θ) g η μ K s.srv := fun θ => h2 θ _ (hq.nodup θ) (hh θ)
  rw [Finset.sum_congr rfl (fun θ _ => by rw [h3 θ])]
  have h4 : ∑ θ, q θ • heardMean (heard θ) g η μ K s.srv =
      ∑ θ, q θ • (if heard θ = [] then s.srv else meanProx clients g η μ K s.srv) := by
    rw [hq.by_size, hq.by_size]
    refine Finset.sum_congr rfl fun k _ => ?_
    rcases Nat.eq_zero_or_pos k with rfl | hk
    · refine Finset.sum_congr rfl fun θ _ => ?_
      have : heard θ = [] := List.length_eq_zero_iff.1 θ.2
      rw [if_pos this, heardMean, if_pos this]
    · rw [mean_size hq hf.clients_nodup g η μ K s.srv k hk]
      refine Finset.sum_congr rfl fun θ _ => ?_
      have hne : heard θ ≠ [] := fun e => by have := θ.2; rw [e] at this; simp at this; omega
      rw [if_neg hne]
  rw [h4, ← not_heard hq, someHeard, chance, Finset.sum_smul, Finset.sum_smul, ← Finset.sum_add_distrib]
  refine Finset.sum_congr rfl fun θ _ => ?_
  by_cases hθ : heard θ = [] <;> simp [hθ]

/-- the mean square over the outcomes of one size -/
theorem mean_sq_size (h : EvenLoss q clients heard) (hc : clients.Nodup) (hcl : clients ≠ []) (g : A → Vec d → Vec d) (η μ : ℝ) (K : Nat) (Q : ℝ) (hQ0 : 0 ≤ Q)
    (hT : ∀ (i : Fin clients.length) (x y : Vec d), ‖proxSteps (g clients[i]) η μ x K x - proxSteps (g clients[i]) η μ y K y‖ ≤ Q * ‖x - y‖)
    (xs : Vec d) (hfix : meanProx clients g η μ K xs = xs) (ε : ℝ) (hε : 0 < ε) (x : Vec d) (k : Nat) (hk : 0 < k) :
    ∑ θ : {θ // (heard θ).length = k}, q θ * ‖heardMean (heard θ) g η μ K x - xs‖ ^ 2 ≤
      ∑ θ : {θ // (heard θ).length = k}, q θ * ((1 + ε) * Q ^ 2 * ‖x - xs‖ ^ 2 + (1 + 1 / ε) * (popFactor clients.length (heard θ).length *
        ((1 / (clients.length : ℝ)) * (clients.map (fun c => ‖proxSteps (g c) η μ xs K xs - xs‖ ^ 2)).sum))) := by
  by_cases hp : 0 < sizeChance q heard k
  · haveI : Nonempty (Fin clients.length) := ⟨⟨0, List.length_pos_iff.2 hcl⟩⟩
    have hfc := h.fair k hp
    have hkN : k ≤ Fintype.card (Fin clients.length) := by
      by_contra hlt
      rw [Fintype.card_fin] at hlt
      have h0 : sizeChance q heard k = 0 := by
        unfold sizeChance chance
        refine Finset.sum_eq_zero fun θ _ => ?_
        have := h.le_length θ
        rw [if_neg]
        simp
        omega
      linarith
    have hfix' : (1 / (Fintype.card (Fin clients.length) : ℝ)) • ∑ i : Fin clients.length, proxSteps (g clients[i]) η μ xs K xs = xs := by
      rw [meanProx_all]; exact hfix
    have h1 := (hfc.fair hc).contract hk hkN (fun i x => proxSteps (g clients[i]) η μ x K x) Q hQ0 hT xs hfix' ε hε x
    rw [Fintype.card_fin, sum_clients clients (fun a => ‖proxSteps (g a) η μ xs K xs - xs‖ ^ 2)] at h1
    have h3 := mul_le_mul_of_nonneg_left h1 hp.le
    rw [Finset.mul_sum] at h3
    have h4 : ∀ θ : {θ // (heard θ).length = k}, sizeChance q heard k * (q θ / sizeChance q heard k *
        ‖(1 / (k : ℝ)) • ∑ i ∈ places clients (heard θ), proxSteps (g clients[i]) η μ x K x - xs‖ ^ 2) = q θ * ‖heardMean (heard θ) g η μ K x - xs‖ ^ 2 := by
      intro θ
      have hne : heard θ ≠ [] := fun e => by have := θ.2; rw [e] at this; simp at this; omega
      rw [heardMean, if_neg hne, meanProx_places hc hfc g η μ K θ x, ← mul_assoc, mul_div_cancel₀ _ hp.ne']
    rw [Finset.sum_congr rfl (fun θ _ => h4 θ)] at h3
    refine h3.trans (le_of_eq ?_)
    rw [Finset.sum_congr rfl (fun θ _ => by rw [θ.2]), ← Finset.sum_mul, sum_size heard k q]
    congr 1
    unfold sizeChance chance
    exact Finset.sum_congr rfl fun θ _ => by simp
  · refine le_of_eq (Finset.sum_congr rfl fun θ _ => by rw [h.none k hp θ θ.2, zero_mul, zero_mul])

theorem popFactor_nonneg (h : EvenLoss q clients heard) {θ : Θ} (hθ : heard θ ≠ []) : 0 ≤ popFactor clients.length (heard θ).length := by
  have h1 : ((heard θ).length : ℝ) ≤ clients.length := by exact_mod_cast h.le_length θ
  have h2 : (1 : ℝ) ≤ (heard θ).length := by exact_mod_cast List.length_pos_iff.2 hθ
  unfold popFactor
  exact div_nonneg (by linarith) (mul_nonneg (by linarith) (by linarith))

theorem meanFactor_nonneg (h : EvenLoss q clients heard) (hp : 0 < someHeard q heard) : 0 ≤ meanFactor q clients.length heard := by
  refine div_nonneg (Finset.sum_nonneg fun θ _ => ?_) hp.le
  split
  · exact le_rfl
  · rename_i hθ; exact mul_nonneg (h.dist.nonneg θ) (popFactor_nonneg h hθ)

/-- one iteration in mean square -/
theorem mean_sq_step (h : EvenLoss q clients heard) (hp : 0 < someHeard q heard) (hc : clients.Nodup) (hcl : clients ≠ []) (g : A → Vec d → Vec d) (η μ : ℝ) (K : Nat) (Q : ℝ) (hQ0 : 0 ≤ Q)
    (hT : ∀ (i : Fin clients.length) (x y : Vec d), ‖proxSteps (g clients[i]) η μ x K x - proxSteps (g clients[i]) η μ y K y‖ ≤ Q * ‖x - y‖)
    (xs : Vec d) (hfix : meanProx clients g η μ K xs = xs) (ε : ℝ) (hε : 0 < ε) (x : Vec d) (V : ℝ)
    (hV : V = (1 / (clients.length : ℝ)) * (clients.map (fun c => ‖proxSteps (g c) η μ xs K xs - xs‖ ^ 2)).sum) :
    ∑ θ, q θ * ‖heardMean (heard θ) g η μ K x - xs‖ ^ 2 ≤ (1 - someHeard q heard * (1 - (1 + ε) * Q ^ 2)) * ‖x - xs‖ ^ 2 +
      (1 + 1 / ε) * (someHeard q heard * meanFactor q clients.length heard) * V := by
  have h1 : ∑ θ, q θ * ‖heardMean (heard θ) g η μ K x - xs‖ ^ 2 ≤ ∑ θ, (if heard θ = [] then q θ * ‖x - xs‖ ^ 2 else
      q θ * ((1 + ε) * Q ^ 2 * ‖x - xs‖ ^ 2 + (1 + 1 / ε) * (popFactor clients.length (heard θ).length * V))) := by
    rw [h.by_size, h.by_size]
    refine Finset.sum_le_sum fun k _ => ?_
    rcases Nat.eq_zero_or_pos k with rfl | hk
    · refine le_of_eq (Finset.sum_congr rfl fun θ _ => ?_)
      have : heard θ = [] := List.length_eq_zero_iff.1 θ.2
      rw [if_pos this, heardMean, if_pos this]
    · refine (mean_sq_size h hc hcl g η μ K Q hQ0 hT xs hfix ε hε x k hk).trans (le_of_eq (Finset.sum_congr rfl fun θ _ => ?_))
      have hne : heard θ ≠ [] := fun e => by have := θ.2; rw [e] at this; simp at this; omega
      rw [if_neg hne, hV]
  refine h1.trans (le_of_eq ?_)
  have e1 : someHeard q heard * meanFactor q clients.length heard = ∑ θ, if heard θ = [] then 0 else q θ * popFactor clients.length (heard θ).length := by
    rw [meanFactor, mul_div_cancel₀ _ hp.ne']
  have e2 : 1 - someHeard q heard * (1 - (1 + ε) * Q ^ 2) = (∑ θ, if heard θ = [] then q θ else 0) + someHeard q heard * ((1 + ε) * Q ^ 2) := by
    rw [not_heard h]; ring
  rw [e1, e2, someHeard, chance]
  generalize (1 + ε) * Q ^ 2 = R
  rw [add_mul, Finset.sum_mul, Finset.sum_mul, Finset.sum_mul, Finset.mul_sum, Finset.sum_mul, ← Finset.sum_add_distrib, ← Finset.sum_add_distrib]
  refine Finset.sum_congr rfl fun θ _ => ?_
  by_cases hθ : heard θ = []
  · simp [hθ]
  · simp only [hθ, if_false, ne_eq, not_false_eq_true, decide_true, if_true]
    ring

/-- the mean map of all clients has one fixed point -/
theorem exists_meanPoint {f : A → Vec d → ℝ} {g : A → Vec d → Vec d} {L m : ℝ} (hsm : ClientsSmooth clients f g L m) (hm : 0 < m)
    (η μ : ℝ) (hη : 0 < η) (hμ : 0 ≤ μ) (hs : η * (L + μ) ≤ 1) (K : Nat) (hK : 0 < K) (hf : IsFed n server clients) (hcl : clients ≠ []) :
    ∃ xs : Vec d, ∀ y, meanProx clients g η μ K y = y ↔ y = xs := by
  let w : World A (Vec d) Unit :=
    { isActive := fun _ _ ω => (true, ω), shouldDrop := fun _ ω => (false, ω), compSize := fun _ _ => 1,
      compress := fun _ v ω => (v, ω), makeNoise := fun _ _ _ ω => (none, ω), add := fun a _ => a, costSize := fun _ => 1 }
  obtain ⟨xs, h, _⟩ := C90_fedprox_converges hsm hm (fun c x (ω : Unit) => (g c x, ω)) (fun _ _ _ => rfl) η μ hη hμ hs K hK w hf hcl
    ⟨fun _ _ => rfl, fun _ _ _ _ => rfl, fun _ _ => ⟨fun _ _ => rfl, fun _ _ _ => rfl⟩, fun _ _ _ => rfl⟩
  exact ⟨xs, h⟩

/-- C127: with random, even losses FedProx comes, in mean square and at a linear rate slowed down by the probability of hearing something, to within a
distance of the model it would reach without losses that is given by the disagreement of the clients there. -/
theorem C127_converges {f : A → Vec d → ℝ} {g : A → Vec d → Vec d} {L m : ℝ} (hsm : ClientsSmooth clients f g L m) (hm : 0 < m)
    (G : Grad A Ω (Vec d)) (hg : ∀ c x ω, (G c x ω).1 = g c x) (η μ : ℝ) (hη : 0 < η) (hμ : 0 ≤ μ) (hs : η * (L + μ) ≤ 1) (K : Nat) (hK : 0 < K)
    (hf : IsFed n server clients) (hcl : clients ≠ []) :
    ∃ xs : Vec d, (∀ y, meanProx clients g η μ K y = y ↔ y = xs) ∧ ∃ r B : ℝ, 0 ≤ r ∧ r < 1 ∧ 0 ≤ B ∧
      ∀ (Θ : Type) [Fintype Θ] (q : Θ → ℝ) (heard : Θ → List A), EvenLoss q clients heard → 0 < someHeard q heard →
      ∀ (x0 : A → Vec d) (N : Nat) (w : List Θ → World A (Vec d) Ω) (s0 : List Θ → FSys A (Vec d) Ω (Vec d) (Vec d)) (sel : List Θ → Select A Ω),
        (∀ l, Faithful (w l) server clients) → (∀ l, SelOK (sel l)) →
        (∀ l, l.length = N → Brought server heard ((fedProx G η μ K).after (sel l) server (w l) n x0 (s0 l)) l) →
        ∃ S : List Θ → FSys A (Vec d) Ω (Vec d) (Vec d), (∀ l, l.length = N → (fedProx G η μ K).after (sel l) server (w l) n x0 (s0 l) N = .ok (S l)) ∧
          tapeMean q N (fun l => ‖(S l).srv - xs‖ ^ 2) ≤ (1 - someHeard q heard * (1 - r)) ^ N * ‖x0 server - xs‖ ^ 2 +
            B * (meanFactor q clients.length heard *
              ((1 / (clients.length : ℝ)) * (clients.map (fun c => ‖proxSteps (g c) η μ xs K xs - xs‖ ^ 2)).sum)) := by
  obtain ⟨xs, hxs⟩ := exists_meanPoint hsm hm η μ hη hμ hs K hK hf hcl
  have hηL : 0 < η * L := mul_pos hη hsm.Lpos
  have hemu : 0 ≤ η * μ := by positivity
  have hexp : η * (L + μ) = η * L + η * μ := by ring
  have ha : 0 < 1 - η * μ := by linarith
  obtain ⟨p, hp⟩ : ∃ p, p = Real.sqrt (max 0 (1 - η * m)) := ⟨_, rfl⟩
  have hp0 : 0 ≤ p := hp ▸ Real.sqrt_nonneg _
  have hp1 : p < 1 := by
    rw [hp, Real.sqrt_lt' one_pos, one_pow]
    exact max_lt zero_lt_one (by have : 0 < η * m := by positivity
                                 linarith)
  obtain ⟨Q, hQ⟩ : ∃ Q, Q = (1 - η * μ) * p + η * μ := ⟨_, rfl⟩
  have hQ0 : 0 ≤ Q := by rw [hQ]; positivity
  have hQ1 : Q < 1 := by
    have := mul_lt_mul_of_pos_left hp1 ha
    rw [hQ]; linarith
  obtain ⟨t, ht⟩ : ∃ t, t = Q ^ 2 := ⟨_, rfl⟩
  have ht0 : 0 ≤ t := by rw [ht]; positivity
  have ht1 : t < 1 := by rw [ht]; nlinarith
  obtain ⟨ε, hε⟩ : ∃ ε, ε = (1 - t) / 2 := ⟨_, rfl⟩
  have hε0 : 0 < ε := by rw [hε]; linarith
  obtain ⟨r, hr⟩ : ∃ r, r = (1 + ε) * t := ⟨_, rfl⟩
  have hr0 : 0 ≤ r := by rw [hr]; positivity
  have hr1 : r < 1 := by rw [hr, hε]; nlinarith
  have h1r : 0 < 1 - r := by linarith
  refine ⟨xs, hxs, r, (1 + 1 / ε) / (1 - r), hr0, hr1, by positivity, ?_⟩
  intro Θ _ q heard hq hpos x0 N w s0 sel hw hsel hdrew
  have hcn := hf.clients_nodup
  have hall : ∀ l : List Θ, ∃ s', l.length = N → (fedProx G η μ K).after (sel l) server (w l) n x0 (s0 l) N = .ok s' ∧
      s'.srv = l.foldl (fun x θ => heardMean (heard θ) g η μ K x) (x0 server) := by
    intro l
    by_cases hlN : l.length = N
    · obtain ⟨s', h1, h2⟩ := C127_run G g hg η μ K (w l) hf (hw l) (sel l) (hsel l) heard hq.nodup x0 (s0 l) l (hdrew l hlN)
      rw [hlN] at h1
      exact ⟨s', fun _ => ⟨h1, h2⟩⟩
    · exact ⟨s0 l, fun h => absurd h hlN⟩
  choose S hS using hall
  refine ⟨S, fun l hl => (hS l hl).1, ?_⟩
  have hT : ∀ (i : Fin clients.length) (x y : Vec d), ‖proxSteps (g clients[i]) η μ x K x - proxSteps (g clients[i]) η μ y K y‖ ≤ Q * ‖x - y‖ := by
    intro i x y
    rw [hQ, hp]
    exact proxSteps_contract (hsm.upper _ (List.getElem_mem _)) (hsm.lower _ (List.getElem_mem _)) hm hsm.Lpos hη hμ hs K hK x y
  obtain ⟨V, hV⟩ : ∃ V, V = (1 / (clients.length : ℝ)) * (clients.map (fun c => ‖proxSteps (g c) η μ xs K xs - xs‖ ^ 2)).sum := ⟨_, rfl⟩
  obtain ⟨P, hP⟩ : ∃ P, P = someHeard q heard := ⟨_, rfl⟩
  obtain ⟨F, hF⟩ : ∃ F, F = meanFactor q clients.length heard := ⟨_, rfl⟩
  have hP0 : 0 < P := hP ▸ hpos
  have hP1 : P ≤ 1 := by
    have h1 := not_heard hq
    have h2 : 0 ≤ ∑ θ, (if heard θ = [] then q θ else 0) := Finset.sum_nonneg fun θ _ => by split <;> [exact hq.dist.nonneg θ; exact le_rfl]
    rw [hP]; linarith
  have hF0 : 0 ≤ F := hF ▸ meanFactor_nonneg hq hpos
  have hV0 : 0 ≤ V := by
    rw [hV]
    refine mul_nonneg (by positivity) (List.sum_nonneg (by intro y hy; obtain ⟨c, _, rfl⟩ := List.mem_map.1 hy; positivity))
  have hstep : ∀ x : Vec d, ∑ θ, q θ * ‖heardMean (heard θ) g η μ K x - xs‖ ^ 2 ≤ (1 - P * (1 - r)) * ‖x - xs‖ ^ 2 + (1 + 1 / ε) * (P * F) * V := by
    intro x
    have := mean_sq_step hq hpos hcn hcl g η μ K Q hQ0 hT xs ((hxs xs).2 rfl) ε hε0 x V hV
    rwa [← ht, ← hr, ← hP, ← hF] at this
  have hPr : 0 < P * (1 - r) := mul_pos hP0 h1r
  have hPr1 : P * (1 - r) ≤ 1 := mul_le_one₀ hP1 h1r.le (by linarith)
  have hbound := tape_floor hq.dist (fun θ x => heardMean (heard θ) g η μ K x) (fun x => ‖x - xs‖ ^ 2) (1 - P * (1 - r)) ((1 + 1 / ε) * (P * F) * V)
    (by linarith) (by linarith) (by positivity) hstep (x0 server) N
  rw [← hP, ← hF, ← hV]
  refine (tapeMean_mono hq.dist.nonneg N _ _ fun l hl => ?_).trans (hbound.trans (le_of_eq ?_))
  · show ‖(S l).srv - xs‖ ^ 2 ≤ _
    rw [(hS l hl).2]
  · congr 1
    have h1 : 1 - (1 - P * (1 - r)) = P * (1 - r) := by ring
    rw [h1]
    field_simp

/-- C127: with one local step FedAvg under random, even losses tends to the minimiser of the clients' costs up to the stated distance; exactly, if
that model is best for each client. -/
theorem C127_fedavg_one_step {f : A → Vec d → ℝ} {g : A → Vec d → Vec d} {L m : ℝ} (hsm : ClientsSmooth clients f g L m) (hm : 0 < m)
    (G : Grad A Ω (Vec d)) (hg : ∀ c x ω, (G c x ω).1 = g c x) (η : ℝ) (hη : 0 < η) (hs : η * L ≤ 1) (hf : IsFed n server clients) (hcl : clients ≠ []) :
    ∃ xs : Vec d, BestForClients clients f xs ∧ ∃ r B : ℝ, 0 ≤ r ∧ r < 1 ∧ 0 ≤ B ∧
      ∀ (Θ : Type) [Fintype Θ] (q : Θ → ℝ) (heard : Θ → List A), EvenLoss q clients heard → 0 < someHeard q heard →
      ∀ (x0 : A → Vec d) (N : Nat) (w : List Θ → World A (Vec d) Ω) (s0 : List Θ → FSys A (Vec d) Ω (Vec d) (Vec d)) (sel : List Θ → Select A Ω),
        (∀ l, Faithful (w l) server clients) → (∀ l, SelOK (sel l)) →
        (∀ l, l.length = N → Brought server heard ((fedAvg G η 1).after (sel l) server (w l) n x0 (s0 l)) l) →
        ∃ S : List Θ → FSys A (Vec d) Ω (Vec d) (Vec d), (∀ l, l.length = N → (fedAvg G η 1).after (sel l) server (w l) n x0 (s0 l) N = .ok (S l)) ∧
          tapeMean q N (fun l => ‖(S l).srv - xs‖ ^ 2) ≤ (1 - someHeard q heard * (1 - r)) ^ N * ‖x0 server - xs‖ ^ 2 +
            B * (meanFactor q clients.length heard * ((1 / (clients.length : ℝ)) * (clients.map (fun c => ‖g c xs‖ ^ 2)).sum)) := by
  obtain ⟨xs, hxs, r, B, h1, h2, h3, h4⟩ := C127_converges (Ω := Ω) hsm hm G hg η 0 hη le_rfl (by rwa [add_zero]) 1 one_pos hf hcl
  refine ⟨xs, (C90_one_step_exact hsm hm hcl η 0 hη xs).1 ((hxs xs).2 rfl), r, B * η ^ 2, h1, h2, by positivity, ?_⟩
  intro Θ _ q heard hq hp x0 N w s0 sel hw hsel hb
  have e0 : ∀ l, (fedProx G η 0 1).after (sel l) server (w l) n x0 (s0 l) = (fedAvg G η 1).after (sel l) server (w l) n x0 (s0 l) :=
    fun l => funext fun k => C30_fedprox_zero_is_fedavg _ _ _ _ _ _ _ _ _ _
  obtain ⟨S, h5, h6⟩ := h4 Θ q heard hq hp x0 N w s0 sel hw hsel (fun l hl => by rw [e0 l]; exact hb l hl)
  have h5 : ∀ l, l.length = N → (fedAvg G η 1).after (sel l) server (w l) n x0 (s0 l) N = .ok (S l) := fun l hl => by rw [← e0 l]; exact h5 l hl
  refine ⟨S, h5, h6.trans (le_of_eq ?_)⟩
  have e : (clients.map (fun c => ‖proxSteps (g c) η 0 xs 1 xs - xs‖ ^ 2)).sum = η ^ 2 * (clients.map (fun c => ‖g c xs‖ ^ 2)).sum := by
    rw [← List.sum_map_mul_left]
    congr 1
    apply List.map_congr_left
    intro c _
    simp only [proxSteps, zero_smul, add_zero]
    rw [sub_sub_cancel_left, norm_neg, norm_smul, mul_pow, Real.norm_eq_abs, sq_abs]
  rw [e]
  ring

end rate

/-! ## independent losses -/

section independent
variable {A : Type} [DecidableEq A] {clients : List A}

/-- SPEC: the clients whose coin shows heads -/
def headsOf (clients : List A) (b : Fin clients.length → Bool) : List A := ((List.finRange clients.length).filter (fun i => b i)).map (fun i => clients[i])

/-- SPEC: independent coins, each heads with probability `p` -/
noncomputable def coins (p : ℝ) (N : Nat) (b : Fin N → Bool) : ℝ := ∏ i, if b i then p else 1 - p

theorem coins_total (p : ℝ) (N : Nat) : ∑ b : Fin N → Bool, coins p N b = 1 := by
  unfold coins
  rw [← Fintype.prod_sum (fun (_ : Fin N) (x : Bool) => if x then p else 1 - p)]
  simp

theorem mem_headsOf (hc : clients.Nodup) (b : Fin clients.length → Bool) (i : Fin clients.length) : clients[i] ∈ headsOf clients b ↔ b i = true := by
  unfold headsOf
  rw [List.mem_map]
  constructor
  · rintro ⟨j, hj, e⟩
    have : j = i := Fin.ext ((List.Nodup.getElem_inj_iff hc).1 e)
    rw [← this]
    exact (List.mem_filter.1 hj).2
  · intro h
    exact ⟨i, List.mem_filter.2 ⟨List.mem_finRange i, h⟩, rfl⟩

theorem headsOf_length (b : Fin clients.length → Bool) : (headsOf clients b).length = (Finset.univ.filter (fun i => b i = true)).card := by
  unfold headsOf
  rw [List.length_map, ← List.toFinset_card_of_nodup ((List.nodup_finRange _).filter _)]
  congr 1
  ext i
  simp

theorem headsOf_nil (b : Fin clients.length → Bool) : headsOf clients b = [] ↔ ∀ i, b i = false := by
  rw [← List.length_eq_zero_iff, headsOf_length, Finset.card_eq_zero, Finset.filter_eq_empty_iff]
  simp

/-- permuting the coins changes neither probabilities nor numbers of heads -/
theorem coins_perm (p : ℝ) (τ : Equiv.Perm (Fin clients.length)) (e e' : (Fin clients.length → Bool) → Bool)
    (h : ∀ b, e' b = e (b ∘ τ)) : chance (coins p clients.length) e = chance (coins p clients.length) e' := by
  unfold chance
  rw [← Equiv.sum_comp (Equiv.arrowCongr τ.symm (Equiv.refl Bool)) (fun b => if e b = true then coins p clients.length b else 0)]
  refine Finset.sum_congr rfl fun b _ => ?_
  have e1 : (Equiv.arrowCongr τ.symm (Equiv.refl Bool)) b = b ∘ τ := by
    funext i; rfl
  rw [e1, h b]
  have e2 : coins p clients.length (b ∘ τ) = coins p clients.length b := by
    unfold coins
    exact Equiv.prod_comp τ (fun i => if b i then p else 1 - p)
  rw [e2]

theorem heads_perm (τ : Equiv.Perm (Fin clients.length)) (b : Fin clients.length → Bool) :
    (headsOf clients (b ∘ τ)).length = (headsOf clients b).length := by
  rw [headsOf_length, headsOf_length]
  refine Finset.card_bij (fun i _ => τ i) ?_ ?_ ?_
  · intro i hi; simpa using hi
  · intro i _ j _ h; exact τ.injective h
  · intro i hi; exact ⟨τ.symm i, by simpa using hi, by simp⟩

/-- C127: independent losses with the same probability are even, and something is heard with probability `1 - (1-p)^N`. -/
theorem C127_independent (hc : clients.Nodup) (p : ℝ) (hp0 : 0 ≤ p) (hp1 : p ≤ 1) :
    EvenLoss (coins p clients.length) clients (headsOf clients) ∧
      someHeard (coins p clients.length) (headsOf clients) = 1 - (1 - p) ^ clients.length := by
  constructor
  · have hdist : Distribution (coins p clients.length) := by
      refine ⟨fun b => ?_, coins_total p _⟩
      unfold coins
      refine Finset.prod_nonneg fun i _ => ?_
      split <;> linarith
    refine ⟨hdist, fun b => ?_, fun b c hb => ?_, ?_, ?_⟩
    · unfold headsOf
      refine ((List.nodup_finRange _).filter _).map ?_
      intro i j h
      exact Fin.ext ((List.Nodup.getElem_inj_iff hc).1 h)
    · unfold headsOf at hb
      obtain ⟨i, _, rfl⟩ := List.mem_map.1 hb
      exact List.getElem_mem _
    · intro k c hcc c' hcc'
      obtain ⟨i, hi, rfl⟩ := List.mem_iff_getElem.1 hcc
      obtain ⟨j, hj, rfl⟩ := List.mem_iff_getElem.1 hcc'
      refine coins_perm p (Equiv.swap ⟨i, hi⟩ ⟨j, hj⟩) (fun θ => decide ((headsOf clients θ).length = k ∧ clients[i] ∈ headsOf clients θ))
        (fun θ => decide ((headsOf clients θ).length = k ∧ clients[j] ∈ headsOf clients θ)) ?_
      intro b
      have h1 := mem_headsOf hc b ⟨j, hj⟩
      have h2 := mem_headsOf hc (b ∘ Equiv.swap ⟨i, hi⟩ ⟨j, hj⟩) ⟨i, hi⟩
      simp only [Fin.getElem_fin, Function.comp_apply, Equiv.swap_apply_left] at h1 h2
      rw [heads_perm, decide_eq_decide, h1, h2]
    · intro k a ha b hb a' ha' b' hb' hab hab'
      obtain ⟨i, hi, rfl⟩ := List.mem_iff_getElem.1 ha
      obtain ⟨j, hj, rfl⟩ := List.mem_iff_getElem.1 hb
      obtain ⟨i', hi', rfl⟩ := List.mem_iff_getElem.1 ha'
      obtain ⟨j', hj', rfl⟩ := List.mem_iff_getElem.1 hb'
      obtain ⟨τ, t1, t2⟩ := exists_perm (a := (⟨i, hi⟩ : Fin clients.length)) (b := ⟨j, hj⟩) (a' := ⟨i', hi'⟩) (b' := ⟨j', hj'⟩)
        (fun e => hab (by simp only [Fin.mk.injEq] at e; simp [e])) (fun e => hab' (by simp only [Fin.mk.injEq] at e; simp [e]))
      refine coins_perm p τ (fun θ => decide ((headsOf clients θ).length = k ∧ clients[i] ∈ headsOf clients θ ∧ clients[j] ∈ headsOf clients θ))
        (fun θ => decide ((headsOf clients θ).length = k ∧ clients[i'] ∈ headsOf clients θ ∧ clients[j'] ∈ headsOf clients θ)) ?_
      intro θ
      have h1 := mem_headsOf hc θ ⟨i', hi'⟩
      have h2 := mem_headsOf hc θ ⟨j', hj'⟩
      have h3 := mem_headsOf hc (θ ∘ τ) ⟨i, hi⟩
      have h4 := mem_headsOf hc (θ ∘ τ) ⟨j, hj⟩
      simp only [Fin.getElem_fin, Function.comp_apply, t1, t2] at h1 h2 h3 h4
      rw [heads_perm, decide_eq_decide, h1, h2, h3, h4]
  · have h1 : someHeard (coins p clients.length) (headsOf clients) + coins p clients.length (fun _ => false) = 1 := by
      rw [← coins_total p clients.length]
      unfold someHeard chance
      rw [← Finset.sum_erase_add _ _ (Finset.mem_univ (fun _ : Fin clients.length => false)),
        ← Finset.sum_erase_add (Finset.univ) (coins p clients.length) (Finset.mem_univ (fun _ : Fin clients.length => false))]
      have e0 : headsOf clients (fun _ : Fin clients.length => false) = [] := (headsOf_nil _).2 fun _ => rfl
      simp only [e0, ne_eq, not_true_eq_false, decide_false, Bool.false_eq_true, if_false, add_zero]
      congr 1
      refine Finset.sum_congr rfl fun b hb => ?_
      rw [if_pos]
      rw [decide_eq_true_iff]
      intro e
      exact (Finset.mem_erase.1 hb).1 (funext fun i => (headsOf_nil b).1 e i)
    have h2 : coins p clients.length (fun _ => false) = (1 - p) ^ clients.length := by
      unfold coins; simp
    linarith

end independent
/-! ## random activity -/

section activity
variable {A Ω : Type} [DecidableEq A] {n : Net A} {server : A} {clients : List A}

theorem filterActive_known {V : Type} (w : World A V Ω) (act : A → Bool) (k : Int) (l : List A) (h : ∀ c ∈ l, ∀ ω, (w.isActive c k ω).1 = act c) :
    ∀ ω, (filterActive w k l ω).1 = l.filter act := by
  induction l with
  | nil => intro ω; rfl
  | cons a t ih =>
    intro ω
    simp only [filterActive]
    rw [ih (fun c hc => h c (by simp [hc])), h a (by simp)]
    by_cases hh : act a = true
    · rw [if_pos hh, List.filter_cons_of_pos hh]
    · rw [if_neg hh, List.filter_cons_of_neg hh]

/-- without a selection scheme the counters show which clients were active -/
theorem iter_active {V α σ : Type} (alg : FedAlg A V Ω α σ) (w : World A V Ω) (hf : IsFed n server clients) (k : Int) (act : A → Bool)
    (hact : ∀ c ∈ clients, ∀ ω, (w.isActive c k ω).1 = act c) (s s' : FSys A V Ω α σ) (h : iter alg none server w n k s = .ok s') :
    s'.nSelected = (clients.filter act).foldl (fun f c => upd f c (f c + 1)) s.nSelected := by
  unfold iter FedAlg.step FedAlg.selectClients at h
  have hall : ∀ ω, (filterActive w k n.queryAgents ω).1 = clients.filter act := by
    intro ω; rw [hf.query]; exact filterActive_known w act k clients hact ω
  simp only [NetState.step, activeAgents, hall] at h
  by_cases he : clients.filter act = []
  · rw [if_pos he] at h
    simp only [bind, Except.bind] at h
    rw [if_pos trivial] at h
    cases h
    rw [he]
    rfl
  · rw [if_neg he] at h
    simp only [bind, Except.bind] at h
    split at h
    · cases h; rfl
    · split at h
      · cases h
      · rename_i s1 hs1
        have e1 := sendF_counts hs1
        split at h
        · cases h; exact e1
        · split at h
          · cases h
          · rename_i s2 hs2
            have e2 := left_foldlM (fun s : FSys A V Ω α σ => s.nSelected) _ (fun s b s' hb => trainOne_counts hb) _ _ s2 hs2
            split at h
            · cases h
            · cases h
              exact e2.trans e1

/-- SPEC: nothing is lost or changed, and client `c` is active in iteration `j` exactly if it is in `heard l[j]` -/
structure ActiveBy {Θ V : Type} (w : World A V Ω) (server : A) (clients : List A) (heard : Θ → List A) (l : List Θ) : Prop where
  faithful : Faithful w server clients
  lossless : ∀ a ∈ server :: clients, Fed.Lossless w a
  active : ∀ (j : Nat) (hj : j < l.length), ∀ c ∈ clients, ∀ ω, (w.isActive c j ω).1 = decide (c ∈ heard l[j])

/-- in one iteration over reliable channels without client selection the uploads that arrive are those of the active clients -/
theorem iter_uploads {Θ E : Type} [AddCommGroup E] [Module ℝ E] (G : Grad A Ω E) (η μ : ℝ) (K : Nat) (w : World A E Ω)
    (hf : IsFed n server clients) (heard : Θ → List A) (hsub : ∀ θ, ∀ c ∈ heard θ, c ∈ clients) (l : List Θ) (hw : ActiveBy w server clients heard l)
    (j : Nat) (hj : j < l.length) (s0 s' : FSys A E Ω E E) (hs' : iter (fedProx G η μ K) none server w n j s0 = .ok s') :
    UploadsFrom server (heard l[j]) s' := by
  obtain ⟨s1, R', up, selected, P, bc, ωs, h1, h2, h3, hr, h4, h5⟩ := mean_round (fedProx G η μ K) (fun _ _ => rfl) rfl
    (fun _ _ _ _ => by simp [fedProx]) w hf hw.faithful.up none (fun f e => by cases e) j s0
  have e1 : s' = s1 := by
    have : (Except.ok s' : Py _) = .ok s1 := hs'.symm.trans h1
    injection this
  subst e1
  have hcnt := iter_active _ w hf j (fun c => decide (c ∈ heard l[j])) (hw.active j hj) s0 s' h1
  have hselR : ∀ c, c ∈ selected ↔ c ∈ heard l[j] := by
    intro c
    have e1 := hr.count c
    rw [hcnt, foldl_count _ (hf.clients_nodup.filter _)] at e1
    dsimp only at e1
    have e2 : c ∈ clients.filter (fun c => decide (c ∈ heard l[j])) ↔ c ∈ heard l[j] := by
      rw [List.mem_filter, decide_eq_true_iff]
      exact ⟨fun h => h.2, fun h => ⟨hsub _ c h, h⟩⟩
    rw [← e2]
    by_cases ha : c ∈ selected <;> by_cases hb : c ∈ clients.filter (fun c => decide (c ∈ heard l[j]))
    · exact ⟨fun _ => hb, fun _ => ha⟩
    · rw [if_pos ha, if_neg hb] at e1; omega
    · rw [if_neg ha, if_pos hb] at e1; omega
    · exact ⟨fun h => absurd h ha, fun h => absurd h hb⟩
  intro c
  constructor
  · rintro ⟨v, hv⟩
    exact (hselR c).1 (hr.sub c (h3 c ((h2.iff_ c v).1 hv).1))
  · intro hc
    have hcs := (hselR c).2 hc
    have hcP : c ∈ P := by
      by_contra hcP
      obtain ⟨ω, hω⟩ := hr.missed c hcs hcP
      rw [hw.lossless server (by simp) ω] at hω; cases hω
    obtain ⟨v', _, hn⟩ := (hr.uploads c hcP (.dflt, (localProx G η μ K c (bc c) (ωs c)).1)
      (by simp [fedProx])).lossless (hw.lossless c (by simp [hsub _ c hc]))
    exact ⟨v', (get_ok_iff _ _ _ _).2 hn⟩

/-- C127: over reliable channels without client selection the uploads that arrive are those of the active clients. -/
theorem C127_activity {Θ E : Type} [AddCommGroup E] [Module ℝ E] (G : Grad A Ω E) (η μ : ℝ) (K : Nat) (w : World A E Ω)
    (hf : IsFed n server clients) (heard : Θ → List A) (hsub : ∀ θ, ∀ c ∈ heard θ, c ∈ clients) (l : List Θ) (hw : ActiveBy w server clients heard l)
    (x0 : A → E) (s : FSys A E Ω E E) : Brought server heard ((fedProx G η μ K).after none server w n x0 s) l := by
  intro j hj s' hs'
  rw [Fed.after_succ] at hs'
  cases h0 : (fedProx G η μ K).after none server w n x0 s j with
  | error e => rw [h0] at hs'; cases hs'
  | ok s0 =>
    rw [h0] at hs'
    have hs' : iter (fedProx G η μ K) none server w n j s0 = .ok s' := hs'
    exact iter_uploads G η μ K w hf heard hsub l hw j hj s0 s' hs'

/-- C127: FedAvg with one local step whose clients are active independently with probability `p > 0` in every iteration. -/
theorem C127_random_activity {d : Nat} {f : A → Vec d → ℝ} {g : A → Vec d → Vec d} {L m : ℝ} (hsm : ClientsSmooth clients f g L m) (hm : 0 < m)
    (G : Grad A Ω (Vec d)) (hg : ∀ c x ω, (G c x ω).1 = g c x) (η : ℝ) (hη : 0 < η) (hs : η * L ≤ 1) (hf : IsFed n server clients) (hcl : clients ≠ []) :
    ∃ xs : Vec d, BestForClients clients f xs ∧ ∃ r B : ℝ, 0 ≤ r ∧ r < 1 ∧ 0 ≤ B ∧
      ∀ (p : ℝ), 0 < p → p ≤ 1 →
      ∀ (x0 : A → Vec d) (N : Nat) (w : List (Fin clients.length → Bool) → World A (Vec d) Ω) (s0 : FSys A (Vec d) Ω (Vec d) (Vec d)),
        (∀ l, ActiveBy (w l) server clients (headsOf clients) l) →
        ∃ S : List (Fin clients.length → Bool) → FSys A (Vec d) Ω (Vec d) (Vec d),
          (∀ l, l.length = N → (fedAvg G η 1).after none server (w l) n x0 s0 N = .ok (S l)) ∧
          tapeMean (coins p clients.length) N (fun l => ‖(S l).srv - xs‖ ^ 2) ≤ (1 - (1 - (1 - p) ^ clients.length) * (1 - r)) ^ N * ‖x0 server - xs‖ ^ 2 +
            B * (meanFactor (coins p clients.length) clients.length (headsOf clients) *
              ((1 / (clients.length : ℝ)) * (clients.map (fun c => ‖g c xs‖ ^ 2)).sum)) := by
  obtain ⟨xs, hx, r, B, h1, h2, h3, h4⟩ := C127_fedavg_one_step (n := n) (server := server) hsm hm G hg η hη hs hf hcl
  refine ⟨xs, hx, r, B, h1, h2, h3, fun p hp0 hp1 x0 N w s0 hw => ?_⟩
  obtain ⟨he, hsome⟩ := C127_independent hf.clients_nodup p hp0.le hp1
  have hpos : 0 < someHeard (coins p clients.length) (headsOf clients) := by
    rw [hsome]
    have : (1 - p) ^ clients.length < 1 := pow_lt_one₀ (by linarith) (by linarith) (by have := List.length_pos_iff.2 hcl; omega)
    linarith
  obtain ⟨S, h5, h6⟩ := h4 _ _ _ he hpos x0 N w (fun _ => s0) (fun _ => none) (fun l => (hw l).faithful) (fun l f e => by cases e) (fun l _ => by
    have := C127_activity G η 0 1 (w l) hf (headsOf clients) he.sub l (hw l) x0 s0
    intro j hj s' hs'
    exact this j hj s' (by rw [C30_fedprox_zero_is_fedavg]; exact hs'))
  rw [hsome] at h6
  exact ⟨S, h5, h6⟩

end activity

/-! ## a concrete system -/

/-- two clients, each active by its own coin -/
def coinWorld (d : Nat) (l : List (Fin ([1, 2] : List Nat).length → Bool)) : World Nat (Vec d) Unit :=
  { isActive := fun c k ω => (match l[k.toNat]? with
      | some b => if c = 0 then true else decide (c ∈ headsOf [1, 2] b)
      | none => true, ω),
    shouldDrop := fun _ ω => (false, ω), compSize := fun _ _ => 1, compress := fun _ v ω => (v, ω), makeNoise := fun _ _ _ ω => (none, ω),
    add := fun a _ => a, costSize := fun _ => 1 }

theorem coinWorld_active (d : Nat) (l : List (Fin ([1, 2] : List Nat).length → Bool)) : ActiveBy (coinWorld d l) 0 [1, 2] (headsOf [1, 2]) l where
  faithful := ⟨fun it ω => by simp only [coinWorld]; split <;> simp, fun a _ => ⟨fun _ _ => rfl, fun _ _ _ => rfl⟩⟩
  lossless := fun _ _ _ => rfl
  active := by
    intro j hj c hc ω
    have hc0 : c ≠ 0 := by
      have : c = 1 ∨ c = 2 := by simpa using hc
      omega
    simp only [coinWorld, Int.toNat_natCast, List.getElem?_eq_getElem hj, if_neg hc0]

/-- two clients with different costs, each awake with probability one third: FedAvg tends to their common optimum up to the stated distance -/
example {d : Nat} (v : Vec d) : ∃ xs : Vec d, BestForClients [1, 2] (unequal v) xs ∧ ∃ r B : ℝ, 0 ≤ r ∧ r < 1 ∧ 0 ≤ B ∧
    ∀ (x0 : Nat → Vec d) (s0 : FSys Nat (Vec d) Unit (Vec d) (Vec d)) (N : Nat),
      ∃ S : List (Fin ([1, 2] : List Nat).length → Bool) → FSys Nat (Vec d) Unit (Vec d) (Vec d),
        (∀ l, l.length = N → (fedAvg (fun c x ω => (unequalGrad v c x, ω)) (1 / 4) 1).after none 0 (coinWorld d l) fedNet2 x0 s0 N = .ok (S l)) ∧
        tapeMean (coins (1 / 3) ([1, 2] : List Nat).length) N (fun l => ‖(S l).srv - xs‖ ^ 2) ≤
          (1 - (1 - (1 - 1 / 3) ^ ([1, 2] : List Nat).length) * (1 - r)) ^ N * ‖x0 0 - xs‖ ^ 2 +
            B * (meanFactor (coins (1 / 3) ([1, 2] : List Nat).length) ([1, 2] : List Nat).length (headsOf [1, 2]) *
              ((1 / ((([1, 2] : List Nat).length : ℕ) : ℝ)) * (([1, 2] : List Nat).map (fun c => ‖unequalGrad v c xs‖ ^ 2)).sum)) := by
  obtain ⟨xs, hx, r, B, h1, h2, h3, h4⟩ := C127_random_activity (n := fedNet2) (server := 0) (clients := [1, 2]) (unequal_smooth v) one_pos
    (fun c x (ω : Unit) => (unequalGrad v c x, ω)) (fun _ _ _ => rfl) (1 / 4) (by norm_num) (by norm_num) fedNet2_isFed (by simp)
  exact ⟨xs, hx, r, B, h1, h2, h3, fun x0 s0 N => h4 (1 / 3) (by norm_num) (by norm_num) x0 N (coinWorld d) s0 (coinWorld_active d)⟩

end Verif.Props
