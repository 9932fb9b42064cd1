import Verif.Props.FedRate
import Verif.Props.FedMore
import Verif.Props.AdmmRandom
import Verif.Lemmas.Sampling
import Mathlib.Data.Fintype.Perm
import Mathlib.Algebra.BigOperators.Fin
set_option linter.unusedSectionVars false
/-!
# C112: client sampling in FedAvg and FedProx
-/
namespace Verif.Props
open Verif Verif.Fed NetState Verif.Costs Verif.Consensus
open scoped InnerProductSpace

section round
variable {A Ω E : Type} [DecidableEq A] [AddCommGroup E] [Module ℝ E]
variable {n : Net A} {server : A} {clients : List A}

/-- SPEC: in the iteration from `s` to `s'` exactly the clients `R` were selected, by their `_n_times_selected` -/
def SelectedWere {V α σ : Type} (clients R : List A) (s s' : FSys A V Ω α σ) : Prop :=
  ∀ c ∈ clients, s'.nSelected c = s.nSelected c + if c ∈ R then 1 else 0

/-- C112: on an ideal network one FedProx iteration replaces the server model by the mean of the local results of the selected clients. -/
theorem C112_round (G : Grad A Ω E) (g : A → E → E) (hg : ∀ c x ω, (G c x ω).1 = g c x) (η μ : ℝ) (K : Nat)
    (w : World A E Ω) (hf : IsFed n server clients) (hi : FedIdeal w server clients) (sel : Select A Ω) (hsel : SelOK sel) (k : Int) (s : FSys A E Ω E E) :
    ∃ s', iter (fedProx G η μ K) sel server w n k s = .ok s' ∧ ∀ R : List A, R ≠ [] → R.Nodup → (∀ c ∈ R, c ∈ clients) →
      SelectedWere clients R s s' → s'.srv = meanProx R g η μ K s.srv := by
  obtain ⟨s', R', up, selected, P, bc, ωs, h1, h2, h3, hr, h4, h5⟩ := mean_round (fedProx G η μ K) (fun _ _ => rfl) rfl
    (fun _ _ _ _ => by simp [fedProx]) w hf hi.up sel hsel k s
  refine ⟨s', h1, fun R hR hnd hsub hch => ?_⟩
  have hselR : ∀ c, c ∈ selected ↔ c ∈ R := by
    intro c
    by_cases hc : c ∈ clients
    · have e1 := hr.count c
      have e2 := hch c hc
      rw [e1] at e2
      dsimp only at e2
      by_cases ha : c ∈ selected <;> by_cases hb : c ∈ R
      · exact ⟨fun _ => hb, fun _ => ha⟩
      · rw [if_pos ha, if_neg hb] at e2; omega
      · rw [if_neg ha, if_pos hb] at e2; omega
      · exact ⟨fun h => absurd h ha, fun h => absurd h hb⟩
    · exact ⟨fun h => absurd (hr.sel_client c h) hc, fun h => absurd (hsub c h) hc⟩
  have hPall : ∀ c ∈ R, c ∈ P := by
    intro c hc
    by_contra hcP
    obtain ⟨ω, hω⟩ := hr.missed c ((hselR c).2 hc) hcP
    rw [hi.lossless server (by simp) ω] at hω; cases hω
  have hin : ∀ c ∈ R, (s'.net.inbox server).get c .dflt = .ok (proxSteps (g c) η μ s.srv K s.srv) := by
    intro c hc
    have hcc := hsub c hc
    rw [get_ok_iff]
    obtain ⟨v', ha, hn⟩ := (hr.uploads c (hPall c hc) (.dflt, (localProx G η μ K c (bc c) (ωs c)).1)
      (by simp [fedProx])).lossless (hi.lossless c (by simp [hcc]))
    simp only at hn
    rw [hn, ha.exact (hi.exact_ c (by simp [hcc])), localProx_det G g hg,
      (hr.heard c (hPall c hc)).exact (hi.exact_ server (by simp))]
    rfl
  have hmem : ∀ c, c ∈ R' ↔ c ∈ R := by
    intro c
    constructor
    · intro hc; exact (hselR c).1 (hr.sub c (h3 c hc))
    · intro hc; exact ((h2.iff_ c _).1 (hin c hc)).1
  have hperm : R'.Perm R := (List.perm_ext_iff_of_nodup h2.nodup hnd).2 hmem
  have hRne : R' ≠ [] := by
    intro e
    rw [e] at hperm
    exact hR (List.nil_perm.1 hperm)
  rw [h5 hRne, hperm.length_eq, (hperm.map up).sum_eq]
  unfold meanProx
  congr 2
  apply List.map_congr_left
  intro c hc
  exact ((h2.iff_ c _).1 (hin c hc)).2.symm

/-! ## which clients a selection scheme selects -/

theorem sendF_counts {V α σ : Type} {w : World A V Ω} {sender : A} {r : Recv A} {m : V} {ch : FChan} {s s' : FSys A V Ω α σ}
    (h : FedAlg.sendF w n server sender r m ch s = .ok s') : s'.nSelected = s.nSelected := by
  unfold FedAlg.sendF at h
  dsimp only at h
  split at h
  · cases h; rfl
  · cases h

theorem trainOne_counts {V α σ : Type} {alg : FedAlg A V Ω α σ} {w : World A V Ω} {c : A} {s s' : FSys A V Ω α σ}
    (h : alg.trainOne w n server c s = .ok s') : s'.nSelected = s.nSelected := by
  unfold FedAlg.trainOne at h
  dsimp only at h
  split at h
  · cases h
  · have := left_foldlM (fun s : FSys A V Ω α σ => s.nSelected) (fun (s : FSys A V Ω α σ) (u : FChan × V) => FedAlg.sendF w n server c (.one server) u.2 u.1 s)
      (fun s b s' hb => sendF_counts hb) _ _ s' h
    exact this

/-- the counters after an iteration in which all clients are active -/
theorem iter_counts {V α σ : Type} (alg : FedAlg A V Ω α σ) (w : World A V Ω) (hf : IsFed n server clients) (hact : ∀ c ∈ clients, ∀ it ω, (w.isActive c it ω).1 = true)
    (hcl : clients ≠ []) (f : List A → Int → Ω → Py (List A × Ω)) (k : Int) (l : List A) (hfl : ∀ ω, ∃ ω', f clients k ω = .ok (l, ω')) (s s' : FSys A V Ω α σ)
    (h : iter alg (some f) server w n k s = .ok s') : s'.nSelected = l.foldl (fun f c => upd f c (f c + 1)) s.nSelected := by
  unfold iter FedAlg.step FedAlg.selectClients at h
  have hall : ∀ ω, (filterActive w k n.queryAgents ω).1 = clients := by
    intro ω; rw [hf.query]; exact filterActive_all w k clients ω hact
  simp only [NetState.step, activeAgents, hall, if_neg hcl] at h
  obtain ⟨ω', hω'⟩ := hfl (filterActive w k n.queryAgents (alg.prepare s.srv s.net.ω).2).2
  rw [hω'] at h
  simp only [bind, Except.bind] at h
  split at h
  · cases h; rfl
  · split at h
    · cases h
    · rename_i s1 hs1
      have e1 := sendF_counts hs1
      split at h
      · cases h; exact e1
      · split at h
        · cases h
        · rename_i s2 hs2
          have e2 := left_foldlM (fun s : FSys A V Ω α σ => s.nSelected) _ (fun s b s' hb => trainOne_counts hb) _ _ s2 hs2
          split at h
          · cases h
          · cases h
            exact e2.trans e1

/-- SPEC: iteration `j` of a run selected exactly the clients `chosen l[j]` -/
def Drew {V α σ Θ : Type} (clients : List A) (chosen : Θ → List A) (run : Nat → Py (FSys A V Ω α σ)) (l : List Θ) : Prop :=
  ∀ (j : Nat) (hj : j < l.length) s s', run j = .ok s → run (j + 1) = .ok s' → SelectedWere clients (chosen l[j]) s s'

/-- C112: over an ideal network the server model of FedProx depends on the selected clients only, by the documented recursion. -/
theorem C112_run {Θ : Type} (G : Grad A Ω E) (g : A → E → E) (hg : ∀ c x ω, (G c x ω).1 = g c x) (η μ : ℝ) (K : Nat)
    (w : World A E Ω) (hf : IsFed n server clients) (hi : FedIdeal w server clients) (sel : Select A Ω) (hsel : SelOK sel)
    (chosen : Θ → List A) (hne : ∀ θ, chosen θ ≠ []) (hnd : ∀ θ, (chosen θ).Nodup) (hsub : ∀ θ, ∀ c ∈ chosen θ, c ∈ clients)
    (x0 : A → E) (s : FSys A E Ω E E) (l : List Θ) (hd : Drew clients chosen ((fedProx G η μ K).after sel server w n x0 s) l) :
    ∃ s', (fedProx G η μ K).after sel server w n x0 s l.length = .ok s' ∧
      s'.srv = l.foldl (fun x θ => meanProx (chosen θ) g η μ K x) (x0 server) := by
  have key : ∀ k : Nat, k ≤ l.length → ∃ s', (fedProx G η μ K).after sel server w n x0 s k = .ok s' ∧
      s'.srv = (l.take k).foldl (fun x θ => meanProx (chosen θ) g η μ K x) (x0 server) := by
    intro k
    induction k with
    | zero => intro _; exact ⟨_, Fed.after_zero _ _ _ _ _, rfl⟩
    | succ k ih =>
      intro hk
      obtain ⟨s1, h1, h2⟩ := ih (by omega)
      obtain ⟨s2, h3, h4⟩ := C112_round G g hg η μ K w hf hi sel hsel k s1
      have h5 : (fedProx G η μ K).after sel server w n x0 s (k + 1) = .ok s2 := by
        rw [Fed.after_succ, h1]; exact h3
      refine ⟨s2, h5, ?_⟩
      rw [List.take_succ_eq_append_getElem hk, List.foldl_append, ← h2]
      exact h4 _ (hne _) (hnd _) (hsub _) (hd k hk s1 s2 h1 h5)
  have := key l.length le_rfl
  rwa [List.take_length] at this

end round

/-! ## fair choices -/

section fair
variable {A Ω Θ : Type} [DecidableEq A] [Fintype Θ]

/-- SPEC: `k` different clients are chosen at random so that all clients, and all pairs of clients, are equally likely to be in the choice -/
structure FairChoice (q : Θ → ℝ) (clients : List A) (chosen : Θ → List A) (k : Nat) : Prop where
  dist : Distribution q
  nodup : ∀ θ, (chosen θ).Nodup
  size : ∀ θ, (chosen θ).length = k
  sub : ∀ θ, ∀ c ∈ chosen θ, c ∈ clients
  one : ∀ c ∈ clients, ∀ c' ∈ clients, chance q (fun θ => decide (c ∈ chosen θ)) = chance q (fun θ => decide (c' ∈ chosen θ))
  two : ∀ a ∈ clients, ∀ b ∈ clients, ∀ a' ∈ clients, ∀ b' ∈ clients, a ≠ b → a' ≠ b' →
    chance q (fun θ => decide (a ∈ chosen θ ∧ b ∈ chosen θ)) = chance q (fun θ => decide (a' ∈ chosen θ ∧ b' ∈ chosen θ))

/-- positions of the chosen clients -/
def places (clients : List A) (l : List A) : Finset (Fin clients.length) := Finset.univ.filter (fun i => clients[i] ∈ l)

theorem sum_places {H : Type} [AddCommMonoid H] {clients l : List A} (hc : clients.Nodup) (hl : l.Nodup) (hs : ∀ c ∈ l, c ∈ clients) (v : A → H) :
    ∑ i ∈ places clients l, v clients[i] = (l.map v).sum := by
  rw [← List.sum_toFinset v hl]
  refine Finset.sum_nbij (fun i => clients[i]) ?_ ?_ ?_ ?_
  · intro i hi
    rw [List.mem_toFinset]
    exact (Finset.mem_filter.1 hi).2
  · intro i _ j _ h
    exact Fin.ext ((List.Nodup.getElem_inj_iff hc).1 h)
  · intro c hc'
    have hcl : c ∈ l := by simpa using hc'
    obtain ⟨i, hi, e⟩ := List.mem_iff_getElem.1 (hs c hcl)
    exact ⟨⟨i, hi⟩, by simp [places, e, hcl], e⟩
  · intro i _; rfl

theorem sum_clients {H : Type} [AddCommMonoid H] (clients : List A) (v : A → H) : ∑ i : Fin clients.length, v clients[i] = (clients.map v).sum :=
  Fin.sum_univ_fun_getElem clients v

theorem card_places {clients l : List A} (hc : clients.Nodup) (hl : l.Nodup) (hs : ∀ c ∈ l, c ∈ clients) : (places clients l).card = l.length := by
  have := sum_places hc hl hs (fun _ => (1 : Nat))
  simpa using this

variable {q : Θ → ℝ} {clients : List A} {chosen : Θ → List A} {k : Nat}

theorem FairChoice.fair (h : FairChoice q clients chosen k) (hc : clients.Nodup) : Sampling.Fair q (fun θ => places clients (chosen θ)) k := by
  have e1 : ∀ i : Fin clients.length, Sampling.prob q (fun θ => i ∈ places clients (chosen θ)) = chance q (fun θ => decide (clients[i] ∈ chosen θ)) := by
    intro i
    unfold Sampling.prob chance
    refine Finset.sum_congr rfl fun θ _ => ?_
    by_cases hi : clients[i] ∈ chosen θ <;> simp [places, hi]
  have e2 : ∀ i j : Fin clients.length, Sampling.prob q (fun θ => i ∈ places clients (chosen θ) ∧ j ∈ places clients (chosen θ)) =
      chance q (fun θ => decide (clients[i] ∈ chosen θ ∧ clients[j] ∈ chosen θ)) := by
    intro i j
    unfold Sampling.prob chance
    refine Finset.sum_congr rfl fun θ _ => ?_
    by_cases hi : clients[i] ∈ chosen θ <;> by_cases hj : clients[j] ∈ chosen θ <;> simp [places, hi, hj]
  have inj : ∀ i j : Fin clients.length, i ≠ j → clients[i] ≠ clients[j] := fun i j hij e => hij (Fin.ext ((List.Nodup.getElem_inj_iff hc).1 e))
  refine ⟨h.dist.total, fun θ => by rw [card_places hc (h.nodup θ) (h.sub θ), h.size], fun i j => ?_, fun i j i' j' hij hij' => ?_⟩
  · rw [e1, e1]; exact h.one _ (List.getElem_mem _) _ (List.getElem_mem _)
  · rw [e2, e2]
    exact h.two _ (List.getElem_mem _) _ (List.getElem_mem _) _ (List.getElem_mem _) _ (List.getElem_mem _) (inj _ _ hij) (inj _ _ hij')

end fair

section rate
variable {A Ω Θ : Type} [DecidableEq A] [Fintype Θ] {d : Nat} {n : Net A} {server : A} {clients : List A}
variable {q : Θ → ℝ} {chosen : Θ → List A} {k : Nat}

theorem meanProx_places (hc : clients.Nodup) (hq : FairChoice q clients chosen k) (g : A → Vec d → Vec d) (η μ : ℝ) (K : Nat) (θ : Θ) (x : Vec d) :
    meanProx (chosen θ) g η μ K x = (1 / (k : ℝ)) • ∑ i ∈ places clients (chosen θ), proxSteps (g clients[i]) η μ x K x := by
  unfold meanProx
  rw [hq.size, sum_places hc (hq.nodup θ) (hq.sub θ) (fun c => proxSteps (g c) η μ x K x)]

theorem meanProx_all (g : A → Vec d → Vec d) (η μ : ℝ) (K : Nat) (x : Vec d) :
    (1 / (Fintype.card (Fin clients.length) : ℝ)) • ∑ i : Fin clients.length, proxSteps (g clients[i]) η μ x K x = meanProx clients g η μ K x := by
  unfold meanProx
  rw [Fintype.card_fin, sum_clients clients (fun c => proxSteps (g c) η μ x K x)]

/-- C112: the average, over a fair choice of the clients, of the new server model is the model that all clients together would have given. -/
theorem C112_unbiased (hf : IsFed n server clients) (hq : FairChoice q clients chosen k) (hk : 0 < k) (G : Grad A Ω (Vec d)) (g : A → Vec d → Vec d) (hg : ∀ c x ω, (G c x ω).1 = g c x)
    (η μ : ℝ) (K : Nat) (w : World A (Vec d) Ω) (hi : FedIdeal w server clients) (it : Int) (s : FSys A (Vec d) Ω (Vec d) (Vec d))
    (sel : Θ → Select A Ω) (hsel : ∀ θ, SelOK (sel θ)) :
    ∃ s' : Θ → FSys A (Vec d) Ω (Vec d) (Vec d), (∀ θ, iter (fedProx G η μ K) (sel θ) server w n it s = .ok (s' θ)) ∧
      ((∀ θ, SelectedWere clients (chosen θ) s (s' θ)) →
        ∑ θ, q θ • (s' θ).srv = meanProx clients g η μ K s.srv ∧
        ∑ θ, q θ * ‖(s' θ).srv - meanProx clients g η μ K s.srv‖ ^ 2 =
          ((clients.length : ℝ) - k) / (k * ((clients.length : ℝ) - 1)) *
            ((1 / (clients.length : ℝ)) * (clients.map (fun c => ‖proxSteps (g c) η μ s.srv K s.srv - meanProx clients g η μ K s.srv‖ ^ 2)).sum)) := by
  have hcl := hf.clients_nodup
  choose s' h1 h2 using fun θ => C112_round G g hg η μ K w hf hi (sel θ) (hsel θ) it s
  refine ⟨s', h1, fun hch => ?_⟩
  have hne : ∀ θ, chosen θ ≠ [] := fun θ e => by have := hq.size θ; rw [e] at this; simp at this; omega
  have h3 : ∀ θ, (s' θ).srv = meanProx (chosen θ) g η μ K s.srv := fun θ => h2 θ _ (hne θ) (hq.nodup θ) (hq.sub θ) (hch θ)
  have hfair := hq.fair hcl
  refine ⟨?_, ?_⟩
  · rw [Finset.sum_congr rfl (fun θ _ => by rw [h3 θ, meanProx_places hcl hq]), hfair.mean hk, meanProx_all]
  · obtain ⟨c, hc⟩ : ∃ c, c = meanProx clients g η μ K s.srv := ⟨_, rfl⟩
    rw [← hc]
    have hkr : (k : ℝ) ≠ 0 := by positivity
    have hN : (clients.length : ℝ) ≠ 0 := by
      obtain ⟨θ0⟩ : Nonempty Θ := by
        by_contra hem
        rw [not_nonempty_iff] at hem
        have := hq.dist.total
        simp at this
      obtain ⟨a, ha⟩ := List.exists_mem_of_ne_nil _ (hne θ0)
      have := List.length_pos_of_mem (hq.sub θ0 a ha)
      positivity
    have e : ∀ θ, (s' θ).srv - c = (1 / (k : ℝ)) • ∑ i ∈ places clients (chosen θ), (proxSteps (g clients[i]) η μ s.srv K s.srv - c) := by
      intro θ
      rw [h3 θ, meanProx_places hcl hq, Finset.sum_sub_distrib, smul_sub, Finset.sum_const, card_places hcl (hq.nodup θ) (hq.sub θ), hq.size, ← Nat.cast_smul_eq_nsmul ℝ, smul_smul,
        one_div_mul_cancel hkr, one_smul]
    rw [Finset.sum_congr rfl (fun θ _ => by rw [e θ])]
    have hz : ∑ i : Fin clients.length, (proxSteps (g clients[i]) η μ s.srv K s.srv - c) = 0 := by
      have h4 := meanProx_all (clients := clients) g η μ K s.srv
      rw [← hc, Fintype.card_fin] at h4
      rw [Finset.sum_sub_distrib, Finset.sum_const, Finset.card_univ, Fintype.card_fin, ← Nat.cast_smul_eq_nsmul ℝ]
      rw [← h4] 
      rw [smul_smul, mul_one_div_cancel hN, one_smul, sub_self]
    have := hfair.variance hk (fun i : Fin clients.length => proxSteps (g clients[i]) η μ s.srv K s.srv - c) hz
    rw [Fintype.card_fin, sum_clients clients (fun a => ‖proxSteps (g a) η μ s.srv K s.srv - c‖ ^ 2)] at this
    exact this

theorem tapeMean_shift (hq : Distribution q) (c : ℝ) (k : Nat) : ∀ F : List Θ → ℝ, tapeMean q k (fun l => F l - c) = tapeMean q k F - c := by
  induction k with
  | zero => intro F; rfl
  | succ k ih =>
    intro F
    rw [tapeMean, tapeMean, Finset.sum_congr rfl (fun θ _ => by rw [ih (fun l => F (θ :: l)), mul_sub]), Finset.sum_sub_distrib, ← Finset.sum_mul, hq.total, one_mul]

/-- a potential that shrinks by a factor up to an additive constant -/
theorem tape_floor (hq : Distribution q) {St : Type} (next : Θ → St → St) (Φ : St → ℝ) (r b : ℝ) (hr : 0 ≤ r) (hr1 : r < 1) (hb : 0 ≤ b) (h : ∀ s, ∑ θ, q θ * Φ (next θ s) ≤ r * Φ s + b)
    (s0 : St) (k : Nat) : tapeMean q k (fun l => Φ (l.foldl (fun s θ => next θ s) s0)) ≤ r ^ k * Φ s0 + b / (1 - r) := by
  have h1 : 0 < 1 - r := by linarith
  obtain ⟨c, hc⟩ : ∃ c, c = b / (1 - r) := ⟨_, rfl⟩
  have hc0 : 0 ≤ c := by rw [hc]; positivity
  have hcb : b - c = - (r * c) := by rw [hc]; field_simp; ring
  have h2 := tape_decay hq.nonneg next (fun s => Φ s - c) r hr (fun s => by
    have e : ∑ θ, q θ * (Φ (next θ s) - c) = ∑ θ, q θ * Φ (next θ s) - c := by
      rw [Finset.sum_congr rfl (fun θ _ => mul_sub _ _ _), Finset.sum_sub_distrib, ← Finset.sum_mul, hq.total, one_mul]
    rw [e]
    have := h s
    linarith) s0 k
  rw [tapeMean_shift hq] at h2
  rw [← hc]
  have := mul_nonneg (pow_nonneg hr k) hc0
  linarith

/-- C112: with fairly chosen clients FedProx comes, in mean square and at a linear rate, within a distance of the model it would reach with all clients
that is given by the finite-population factor and by the disagreement of the clients there. -/
theorem C112_converges {f : A → Vec d → ℝ} {g : A → Vec d → Vec d} {L m : ℝ} (hsm : ClientsSmooth clients f g L m) (hm : 0 < m)
    (G : Grad A Ω (Vec d)) (hg : ∀ c x ω, (G c x ω).1 = g c x) (η μ : ℝ) (hη : 0 < η) (hμ : 0 ≤ μ) (hs : η * (L + μ) ≤ 1) (K : Nat) (hK : 0 < K)
    (w : World A (Vec d) Ω) (hf : IsFed n server clients) (hcl : clients ≠ []) (hi : FedIdeal w server clients) :
    ∃ xs : Vec d, (∀ y, meanProx clients g η μ K y = y ↔ y = xs) ∧ ∃ r B : ℝ, 0 ≤ r ∧ r < 1 ∧ 0 ≤ B ∧
      ∀ (Θ : Type) [Fintype Θ] (q : Θ → ℝ) (chosen : Θ → List A) (k : Nat), 0 < k → FairChoice q clients chosen k →
      ∀ (x0 : A → Vec d) (s0 : List Θ → FSys A (Vec d) Ω (Vec d) (Vec d)) (sel : List Θ → Select A Ω) (N : Nat), (∀ l, SelOK (sel l)) →
        (∀ l, l.length = N → Drew clients chosen ((fedProx G η μ K).after (sel l) server w n x0 (s0 l)) l) →
        ∃ S : List Θ → FSys A (Vec d) Ω (Vec d) (Vec d), (∀ l, l.length = N → (fedProx G η μ K).after (sel l) server w n x0 (s0 l) N = .ok (S l)) ∧
          tapeMean q N (fun l => ‖(S l).srv - xs‖ ^ 2) ≤ r ^ N * ‖x0 server - xs‖ ^ 2 +
            B * (((clients.length : ℝ) - k) / (k * ((clients.length : ℝ) - 1)) *
              ((1 / (clients.length : ℝ)) * (clients.map (fun c => ‖proxSteps (g c) η μ xs K xs - xs‖ ^ 2)).sum)) := by
  obtain ⟨xs, hxs, _⟩ := C90_fedprox_converges hsm hm G hg η μ hη hμ hs K hK w hf hcl hi
  have hηL : 0 < η * L := mul_pos hη hsm.Lpos
  have hemu : 0 ≤ η * μ := by positivity
  have hexp : η * (L + μ) = η * L + η * μ := by ring
  have ha : 0 < 1 - η * μ := by linarith
  obtain ⟨p, hp⟩ : ∃ p, p = Real.sqrt (max 0 (1 - η * m)) := ⟨_, rfl⟩
  have hp0 : 0 ≤ p := hp ▸ Real.sqrt_nonneg _
  have hp1 : p < 1 := by
    rw [hp, Real.sqrt_lt' one_pos, one_pow]
    exact max_lt zero_lt_one (by have : 0 < η * m := by positivity
                                 linarith)
  obtain ⟨Q, hQ⟩ : ∃ Q, Q = (1 - η * μ) * p + η * μ := ⟨_, rfl⟩
  have hQ0 : 0 ≤ Q := by rw [hQ]; positivity
  have hQ1 : Q < 1 := by
    have := mul_lt_mul_of_pos_left hp1 ha
    rw [hQ]; linarith
  obtain ⟨t, ht⟩ : ∃ t, t = Q ^ 2 := ⟨_, rfl⟩
  have ht0 : 0 ≤ t := by rw [ht]; positivity
  have ht1 : t < 1 := by rw [ht]; nlinarith
  obtain ⟨ε, hε⟩ : ∃ ε, ε = (1 - t) / 2 := ⟨_, rfl⟩
  have hε0 : 0 < ε := by rw [hε]; linarith
  obtain ⟨r, hr⟩ : ∃ r, r = (1 + ε) * t := ⟨_, rfl⟩
  have hr0 : 0 ≤ r := by rw [hr]; positivity
  have hr1 : r < 1 := by rw [hr, hε]; nlinarith
  have h1r : 0 < 1 - r := by linarith
  refine ⟨xs, hxs, r, (1 + 1 / ε) / (1 - r), hr0, hr1, by positivity, ?_⟩
  intro Θ _ q chosen k hk hq x0 s0 sel N hsel hdrew
  have hcn := hf.clients_nodup
  have hne : ∀ θ, chosen θ ≠ [] := fun θ e => by have := hq.size θ; rw [e] at this; simp at this; omega
  have hall : ∀ l : List Θ, ∃ s', l.length = N → (fedProx G η μ K).after (sel l) server w n x0 (s0 l) N = .ok s' ∧
      s'.srv = l.foldl (fun x θ => meanProx (chosen θ) g η μ K x) (x0 server) := by
    intro l
    by_cases hlN : l.length = N
    · obtain ⟨s', h1, h2⟩ := C112_run G g hg η μ K w hf hi (sel l) (hsel l) chosen hne hq.nodup hq.sub x0 (s0 l) l (hdrew l hlN)
      rw [hlN] at h1
      exact ⟨s', fun _ => ⟨h1, h2⟩⟩
    · exact ⟨s0 l, fun h => absurd h hlN⟩
  choose S hS using hall
  refine ⟨S, fun l hl => (hS l hl).1, ?_⟩
  haveI : Nonempty (Fin clients.length) := ⟨⟨0, List.length_pos_iff.2 hcl⟩⟩
  have hfair := hq.fair hcn
  have hkN : k ≤ Fintype.card (Fin clients.length) := by
    obtain ⟨θ0⟩ : Nonempty Θ := by
      by_contra hem
      rw [not_nonempty_iff] at hem
      have := hq.dist.total
      simp at this
    rw [← hfair.card θ0]; exact Finset.card_le_univ _
  have hfix : (1 / (Fintype.card (Fin clients.length) : ℝ)) • ∑ i : Fin clients.length, proxSteps (g clients[i]) η μ xs K xs = xs := by
    rw [meanProx_all]; exact (hxs xs).2 rfl
  have hT : ∀ (i : Fin clients.length) (x y : Vec d), ‖proxSteps (g clients[i]) η μ x K x - proxSteps (g clients[i]) η μ y K y‖ ≤ Q * ‖x - y‖ := by
    intro i x y
    rw [hQ, hp]
    exact proxSteps_contract (hsm.upper _ (List.getElem_mem _)) (hsm.lower _ (List.getElem_mem _)) hm hsm.Lpos hη hμ hs K hK x y
  obtain ⟨V, hV⟩ : ∃ V, V = ((clients.length : ℝ) - k) / (k * ((clients.length : ℝ) - 1)) *
      ((1 / (clients.length : ℝ)) * (clients.map (fun c => ‖proxSteps (g c) η μ xs K xs - xs‖ ^ 2)).sum) := ⟨_, rfl⟩
  have hstep : ∀ x : Vec d, ∑ θ, q θ * ‖meanProx (chosen θ) g η μ K x - xs‖ ^ 2 ≤ r * ‖x - xs‖ ^ 2 + (1 + 1 / ε) * V := by
    intro x
    have h1 := hfair.contract hk hkN (fun i x => proxSteps (g clients[i]) η μ x K x) Q hQ0 hT xs hfix ε hε0 x
    rw [Fintype.card_fin, sum_clients clients (fun a => ‖proxSteps (g a) η μ xs K xs - xs‖ ^ 2), ← hV, ← ht, ← hr] at h1
    rw [Finset.sum_congr rfl (fun θ _ => by rw [meanProx_places hcn hq])]
    exact h1
  have hV0 : 0 ≤ V := by
    rw [hV]
    have hN1 : (1 : ℝ) ≤ clients.length := by exact_mod_cast List.length_pos_iff.2 hcl
    have hkN' : (k : ℝ) ≤ clients.length := by rw [Fintype.card_fin] at hkN; exact_mod_cast hkN
    refine mul_nonneg (div_nonneg (by linarith) (mul_nonneg (by positivity) (by linarith))) (mul_nonneg (by positivity) ?_)
    exact List.sum_nonneg (by intro y hy; obtain ⟨c, _, rfl⟩ := List.mem_map.1 hy; positivity)
  have hbound := tape_floor hq.dist (fun θ x => meanProx (chosen θ) g η μ K x) (fun x => ‖x - xs‖ ^ 2) r ((1 + 1 / ε) * V) hr0 hr1 (by positivity) hstep (x0 server) N
  refine (tapeMean_mono hq.dist.nonneg N _ _ fun l hl => ?_).trans (hbound.trans (le_of_eq ?_))
  · show ‖(S l).srv - xs‖ ^ 2 ≤ _
    rw [(hS l hl).2]
  · rw [← hV]; ring

end rate
/-! ## UniformSelection -/

section uniform
variable {A Ω Θ : Type} [DecidableEq A] [Fintype Θ]
open Selection

/-- SPEC: `k` distinct positions below `N` -/
structure IsSample (N k : Nat) (l : List Nat) : Prop where
  distinct : l.Nodup
  length_ : l.length = k
  below : ∀ i ∈ l, i < N

/-- SPEC: documented contract of `random.sample(range(N), k)`: every list of `k` distinct positions is equally likely -/
structure UniformSample (q : Θ → ℝ) (N k : Nat) (pick : Θ → List Nat) : Prop where
  dist : Distribution q
  valid : ∀ θ, IsSample N k (pick θ)
  equal : ∀ l l', IsSample N k l → IsSample N k l' → chance q (fun θ => decide (pick θ = l)) = chance q (fun θ => decide (pick θ = l'))

/-- the list of an injection -/
def listOf {N k : Nat} (e : Fin k ↪ Fin N) : List Nat := List.ofFn (fun i => (e i : Nat))

theorem listOf_sample {N k : Nat} (e : Fin k ↪ Fin N) : IsSample N k (listOf e) := by
  refine ⟨?_, by simp [listOf], ?_⟩
  · unfold listOf
    rw [List.nodup_ofFn]
    exact fun i j h => e.injective (Fin.ext h)
  · intro i hi
    obtain ⟨j, rfl⟩ := (List.mem_ofFn' _ _).1 hi
    exact (e j).2

theorem listOf_inj {N k : Nat} {e e' : Fin k ↪ Fin N} (h : listOf e = listOf e') : e = e' := by
  have := List.ofFn_injective h
  ext i
  exact congrFun this i

theorem listOf_surj {N k : Nat} {l : List Nat} (h : IsSample N k l) : ∃ e : Fin k ↪ Fin N, listOf e = l := by
  refine ⟨⟨fun i => ⟨l[i.1]'(by rw [h.length_]; exact i.2), h.below _ (List.getElem_mem _)⟩, fun i j hij => ?_⟩, ?_⟩
  · simp only [Fin.mk.injEq] at hij
    exact Fin.ext ((List.Nodup.getElem_inj_iff h.distinct).1 hij)
  · apply List.ext_getElem
    · simp [listOf, h.length_]
    · intro i h1 h2
      simp only [listOf, List.getElem_ofFn]
      rfl

/-- the probability of an event under a uniform sample is a count -/
theorem UniformSample.count {q : Θ → ℝ} {N k : Nat} {pick : Θ → List Nat} (h : UniformSample q N k pick) :
    ∃ p : ℝ, ∀ P : List Nat → Bool, chance q (fun θ => P (pick θ)) = ∑ e : Fin k ↪ Fin N, if P (listOf e) then p else 0 := by
  have hne : Nonempty Θ := by
    by_contra hem
    rw [not_nonempty_iff] at hem
    have := h.dist.total
    simp at this
  obtain ⟨θ0⟩ := hne
  refine ⟨chance q (fun θ => decide (pick θ = pick θ0)), fun P => ?_⟩
  have e1 : ∀ θ, (if P (pick θ) = true then q θ else 0) = ∑ e : Fin k ↪ Fin N, if P (listOf e) = true then (if pick θ = listOf e then q θ else 0) else 0 := by
    intro θ
    obtain ⟨e0, he0⟩ := listOf_surj (h.valid θ)
    rw [Finset.sum_eq_single e0]
    · rw [he0, if_pos rfl]
    · intro e _ hee
      have : pick θ ≠ listOf e := fun hh => hee (listOf_inj (hh.symm.trans he0.symm))
      rw [if_neg this]; simp
    · intro hh; exact absurd (Finset.mem_univ _) hh
  have e2 : chance q (fun θ => P (pick θ)) = ∑ θ, ∑ e : Fin k ↪ Fin N, if P (listOf e) = true then (if pick θ = listOf e then q θ else 0) else 0 :=
    Finset.sum_congr rfl fun θ _ => e1 θ
  rw [e2, Finset.sum_comm]
  refine Finset.sum_congr rfl fun e _ => ?_
  by_cases hP : P (listOf e) = true
  · simp only [hP, if_true]
    have := h.equal (listOf e) (pick θ0) (listOf_sample e) (h.valid θ0)
    rw [← this]
    unfold chance
    exact Finset.sum_congr rfl fun θ _ => by by_cases hh : pick θ = listOf e <;> simp [hh]
  · simp [hP]

theorem mem_listOf {N k : Nat} (e : Fin k ↪ Fin N) (a : Fin N) : (a : Nat) ∈ listOf e ↔ ∃ i, e i = a := by
  unfold listOf
  rw [List.mem_ofFn']
  constructor
  · rintro ⟨i, hi⟩; exact ⟨i, Fin.ext hi⟩
  · rintro ⟨i, hi⟩; exact ⟨i, congrArg Fin.val hi⟩

/-- positions are exchangeable -/
theorem UniformSample.swap {q : Θ → ℝ} {N k : Nat} {pick : Θ → List Nat} (h : UniformSample q N k pick) (τ : Equiv.Perm (Fin N)) (a b : Fin N) :
    chance q (fun θ => decide ((a : Nat) ∈ pick θ ∧ (b : Nat) ∈ pick θ)) = chance q (fun θ => decide ((τ a : Nat) ∈ pick θ ∧ (τ b : Nat) ∈ pick θ)) := by
  obtain ⟨p, hp⟩ := h.count
  rw [hp (fun l => decide ((a : Nat) ∈ l ∧ (b : Nat) ∈ l)), hp (fun l => decide ((τ a : Nat) ∈ l ∧ (τ b : Nat) ∈ l))]
  refine Fintype.sum_equiv ((Equiv.refl (Fin k)).embeddingCongr τ) _ _ fun e => ?_
  have key : ∀ c : Fin N, (τ c : Nat) ∈ listOf ((Equiv.refl (Fin k)).embeddingCongr τ e) ↔ (c : Nat) ∈ listOf e := by
    intro c
    rw [mem_listOf, mem_listOf]
    simp [Equiv.embeddingCongr, Equiv.toEmbedding]
  by_cases h1 : (a : Nat) ∈ listOf e <;> by_cases h2 : (b : Nat) ∈ listOf e <;> simp only [decide_eq_true_eq, key, h1, h2]

theorem exists_perm {N : Nat} {a b a' b' : Fin N} (h : a ≠ b) (h' : a' ≠ b') : ∃ τ : Equiv.Perm (Fin N), τ a = a' ∧ τ b = b' := by
  refine ⟨Equiv.swap (Equiv.swap a a' b) b' * Equiv.swap a a', ?_, ?_⟩
  · rw [Equiv.Perm.mul_apply, Equiv.swap_apply_left]
    refine Equiv.swap_apply_of_ne_of_ne (fun e => ?_) h'
    have : Equiv.swap a a' a = Equiv.swap a a' b := by rw [Equiv.swap_apply_left]; exact e
    exact h ((Equiv.swap a a').injective this)
  · rw [Equiv.Perm.mul_apply, Equiv.swap_apply_left]

theorem mem_pickAt {clients : List A} (hc : clients.Nodup) (i : Nat) (hi : i < clients.length) (l : List Nat) : clients[i] ∈ pickAt clients l ↔ i ∈ l := by
  unfold pickAt
  rw [List.mem_filterMap]
  constructor
  · rintro ⟨j, hj, e⟩
    obtain ⟨hjl, e'⟩ := List.getElem?_eq_some_iff.1 e
    have := (List.Nodup.getElem_inj_iff hc).1 e'
    exact this ▸ hj
  · intro h; exact ⟨i, h, by simp [hi]⟩

/-- the documented number of clients is unique -/
theorem requested_unique {sz : Size} (hs : validate sz = .ok ()) {N k k' : Nat} (h : Requested sz N k) (h' : Requested sz N k') : k = k' := by
  rcases sz with ⟨num, frac⟩
  have lt : ∀ (f : Rat) (k k' : Nat), 1 ≤ k → ((k' : Rat) ≤ f * N ∨ k' = 1) → f * N < k + 1 → k' ≤ k := by
    intro f k k' h1 h2 h3
    rcases h2 with h2 | h2
    · have : (k' : Rat) < ((k + 1 : Nat) : Rat) := by push_cast; linarith
      have := Nat.cast_lt.1 this
      omega
    · omega
  rcases h with ⟨m, e, h⟩ | ⟨f, e, h⟩ <;> rcases h' with ⟨m', e', h'⟩ | ⟨f', e', h'⟩
  · simp only at e e'; rw [e] at e'; cases e'; omega
  · simp only at e e'; subst e; subst e'; simp [validate] at hs
  · simp only at e e'; subst e; subst e'; simp [validate] at hs
  · simp only at e e'; rw [e] at e'; cases e'
    exact le_antisymm (lt f k' k h'.1 h.2.1 h'.2.2) (lt f k k' h.1 h'.2.1 h.2.2)

/-- C112: UniformSelection makes a fair choice. -/
theorem C112_uniform_fair (sz : Size) (hs : validate sz = .ok ()) {clients : List A} (hc : clients.Nodup) (hne : clients ≠ []) (q : Θ → ℝ) (pick : Θ → Nat → Nat → List Nat) (k : Nat)
    (hk : Requested sz clients.length k) (hp : UniformSample q clients.length k (fun θ => pick θ clients.length k)) :
    0 < k ∧ FairChoice q clients (fun θ => uniform sz (pick θ) clients) k := by
  obtain ⟨hr, h1, hle⟩ := resolve_spec sz hs clients.length (List.length_pos_iff.2 hne)
  have hkr : resolve sz clients.length = k := requested_unique hs hr hk
  rw [hkr] at h1 hle
  refine ⟨h1, ?_⟩
  have hu : ∀ θ, uniform sz (pick θ) clients = if k = clients.length then clients else pickAt clients (pick θ clients.length k) := by
    intro θ; simp only [uniform, hne, if_false, hkr]
  simp only [hu]
  by_cases hkN : k = clients.length
  · simp only [hkN, if_true]
    refine ⟨hp.dist, fun _ => hc, fun _ => rfl, fun _ c h => h, fun c hc' c' hc'' => ?_, fun a ha b hb a' ha' b' hb' _ _ => ?_⟩
    · simp [hc', hc'']
    · simp [ha, hb, ha', hb']
  · simp only [if_neg hkN]
    have hv := fun θ => pickAt_valid clients hc _ (hp.valid θ).distinct (hp.valid θ).below
    have two : ∀ i j i' j' : Fin clients.length, (∃ τ : Equiv.Perm (Fin clients.length), τ i = i' ∧ τ j = j') →
        chance q (fun θ => decide (clients[i] ∈ pickAt clients (pick θ clients.length k) ∧ clients[j] ∈ pickAt clients (pick θ clients.length k))) =
        chance q (fun θ => decide (clients[i'] ∈ pickAt clients (pick θ clients.length k) ∧ clients[j'] ∈ pickAt clients (pick θ clients.length k))) := by
      rintro i j i' j' ⟨τ, rfl, rfl⟩
      have := hp.swap τ i j
      simp only [Fin.getElem_fin, mem_pickAt hc _ (Fin.is_lt _)]
      exact this
    refine ⟨hp.dist, fun θ => (hv θ).distinct, fun θ => (hv θ).count.trans (hp.valid θ).length_, fun θ => (hv θ).subset, fun c hc' c' hc'' => ?_, fun a ha b hb a' ha' b' hb' hab hab' => ?_⟩
    · obtain ⟨i, hi, rfl⟩ := List.mem_iff_getElem.1 hc'
      obtain ⟨i', hi', rfl⟩ := List.mem_iff_getElem.1 hc''
      have := two ⟨i, hi⟩ ⟨i, hi⟩ ⟨i', hi'⟩ ⟨i', hi'⟩ ⟨Equiv.swap ⟨i, hi⟩ ⟨i', hi'⟩, by simp, by simp⟩
      simpa using this
    · obtain ⟨i, hi, rfl⟩ := List.mem_iff_getElem.1 ha
      obtain ⟨j, hj, rfl⟩ := List.mem_iff_getElem.1 hb
      obtain ⟨i', hi', rfl⟩ := List.mem_iff_getElem.1 ha'
      obtain ⟨j', hj', rfl⟩ := List.mem_iff_getElem.1 hb'
      refine two ⟨i, hi⟩ ⟨j, hj⟩ ⟨i', hi'⟩ ⟨j', hj'⟩ (exists_perm (fun e => hab ?_) (fun e => hab' ?_))
      · have := Fin.mk.inj e; subst this; rfl
      · have := Fin.mk.inj e; subst this; rfl

/-- `UniformSelection.select` in a run whose successive draws are `l` (the scheme is called once per iteration; after the end of the list, not reached
by the runs considered, it returns all clients) -/
def uniformRun (sz : Size) (pick : Θ → Nat → Nat → List Nat) (l : List Θ) : Select A Ω :=
  some (fun cl it ω => .ok ((l[it.toNat]?).elim cl (fun θ => uniform sz (pick θ) cl), ω))

theorem uniformRun_ok (sz : Size) (hs : validate sz = .ok ()) (pick : Θ → Nat → Nat → List Nat) (hp : ∀ θ, SampleOK (pick θ)) (l : List Θ) :
    SelOK (uniformRun sz pick l : Select A Ω) := by
  intro f hf cl it ω hcl
  cases hf
  refine ⟨_, _, rfl, ?_⟩
  cases l[it.toNat]? with
  | none => exact ⟨hcl, fun _ h => h⟩
  | some θ =>
    obtain ⟨h1, h2⟩ := C16_uniform sz hs (pick θ) (hp θ) cl hcl
    by_cases he : cl = []
    · show (uniform sz (pick θ) cl).Nodup ∧ _
      rw [Option.elim_some, h1 he]; simp
    · obtain ⟨m, _, _, hv⟩ := h2 he
      exact ⟨hv.distinct, hv.subset⟩

/-- with UniformSelection and all clients active, the clients selected are those drawn -/
theorem uniformRun_drew {E α σ : Type} {n : Net A} {server : A} {clients : List A} (alg : FedAlg A E Ω α σ) (w : World A E Ω) (hf : IsFed n server clients)
    (hact : ∀ c ∈ clients, ∀ it ω, (w.isActive c it ω).1 = true) (hcl : clients ≠ []) (sz : Size) (hs : validate sz = .ok ()) (pick : Θ → Nat → Nat → List Nat)
    (hp : ∀ θ, SampleOK (pick θ)) (x0 : A → E) (s0 : FSys A E Ω α σ) (l : List Θ) :
    Drew clients (fun θ => uniform sz (pick θ) clients) (alg.after (uniformRun sz pick l) server w n x0 s0) l := by
  intro j hj s s' h h' c _
  have hit : iter alg (uniformRun sz pick l) server w n j s = .ok s' := by
    rw [Fed.after_succ, h] at h'; exact h'
  have := iter_counts alg w hf hact hcl _ j (uniform sz (pick l[j]) clients) (fun ω => ⟨ω, by
    simp only [Int.toNat_natCast, List.getElem?_eq_getElem hj, Option.elim_some]⟩) s s' hit
  rw [this]
  obtain ⟨m, _, _, hv⟩ := (C16_uniform sz hs (pick l[j]) (hp _) clients hf.clients_nodup).2 hcl
  exact foldl_count _ hv.distinct _ c

/-- C112: FedProx with UniformSelection on an ideal network (with `μ = 0`: FedAvg). -/
theorem C112_uniform_selection {d : Nat} {n : Net A} {server : A} {clients : List A} {f : A → Vec d → ℝ} {g : A → Vec d → Vec d} {L m : ℝ} (hsm : ClientsSmooth clients f g L m) (hm : 0 < m)
    (G : Grad A Ω (Vec d)) (hg : ∀ c x ω, (G c x ω).1 = g c x) (η μ : ℝ) (hη : 0 < η) (hμ : 0 ≤ μ) (hs : η * (L + μ) ≤ 1) (K : Nat) (hK : 0 < K)
    (w : World A (Vec d) Ω) (hf : IsFed n server clients) (hcl : clients ≠ []) (hi : FedIdeal w server clients) :
    ∃ xs : Vec d, (∀ y, meanProx clients g η μ K y = y ↔ y = xs) ∧ ∃ r B : ℝ, 0 ≤ r ∧ r < 1 ∧ 0 ≤ B ∧
      ∀ (Θ : Type) [Fintype Θ] (q : Θ → ℝ) (sz : Size) (k : Nat) (pick : Θ → Nat → Nat → List Nat), validate sz = .ok () → Requested sz clients.length k →
      (∀ θ, SampleOK (pick θ)) → UniformSample q clients.length k (fun θ => pick θ clients.length k) →
      ∀ (x0 : A → Vec d) (s0 : FSys A (Vec d) Ω (Vec d) (Vec d)) (N : Nat),
        ∃ S : List Θ → FSys A (Vec d) Ω (Vec d) (Vec d), (∀ l, l.length = N → (fedProx G η μ K).after (uniformRun sz pick l) server w n x0 s0 N = .ok (S l)) ∧
          tapeMean q N (fun l => ‖(S l).srv - xs‖ ^ 2) ≤ r ^ N * ‖x0 server - xs‖ ^ 2 +
            B * (((clients.length : ℝ) - k) / (k * ((clients.length : ℝ) - 1)) *
              ((1 / (clients.length : ℝ)) * (clients.map (fun c => ‖proxSteps (g c) η μ xs K xs - xs‖ ^ 2)).sum)) := by
  obtain ⟨xs, hxs, r, B, h1, h2, h3, h4⟩ := C112_converges hsm hm G hg η μ hη hμ hs K hK w hf hcl hi
  refine ⟨xs, hxs, r, B, h1, h2, h3, ?_⟩
  intro Θ _ q sz k pick hsz hk hp hu x0 s0 N
  obtain ⟨hk0, hfair⟩ := C112_uniform_fair sz hsz hf.clients_nodup hcl q pick k hk hu
  exact h4 Θ q _ k hk0 hfair x0 (fun _ => s0) (fun l => uniformRun sz pick l) N (fun l => uniformRun_ok sz hsz pick hp l)
    (fun l _ => uniformRun_drew _ w hf hi.active hcl sz hsz pick hp x0 s0 l)

/-- C112: the same for FedAvg; if the clients' local results agree at the limit (for instance because their costs share a minimiser) or all clients are
requested, the limit is reached exactly. -/
theorem C112_fedavg {d : Nat} {n : Net A} {server : A} {clients : List A} {f : A → Vec d → ℝ} {g : A → Vec d → Vec d} {L m : ℝ} (hsm : ClientsSmooth clients f g L m) (hm : 0 < m)
    (G : Grad A Ω (Vec d)) (hg : ∀ c x ω, (G c x ω).1 = g c x) (η : ℝ) (hη : 0 < η) (hs : η * L ≤ 1) (K : Nat) (hK : 0 < K)
    (w : World A (Vec d) Ω) (hf : IsFed n server clients) (hcl : clients ≠ []) (hi : FedIdeal w server clients) :
    ∃ xs : Vec d, (∀ y, meanProx clients g η 0 K y = y ↔ y = xs) ∧ ∃ r B : ℝ, 0 ≤ r ∧ r < 1 ∧ 0 ≤ B ∧
      ∀ (Θ : Type) [Fintype Θ] (q : Θ → ℝ) (sz : Size) (k : Nat) (pick : Θ → Nat → Nat → List Nat), validate sz = .ok () → Requested sz clients.length k →
      (∀ θ, SampleOK (pick θ)) → UniformSample q clients.length k (fun θ => pick θ clients.length k) →
      ∀ (x0 : A → Vec d) (s0 : FSys A (Vec d) Ω (Vec d) (Vec d)) (N : Nat),
        ∃ S : List Θ → FSys A (Vec d) Ω (Vec d) (Vec d), (∀ l, l.length = N → (fedAvg G η K).after (uniformRun sz pick l) server w n x0 s0 N = .ok (S l)) ∧
          tapeMean q N (fun l => ‖(S l).srv - xs‖ ^ 2) ≤ r ^ N * ‖x0 server - xs‖ ^ 2 +
            B * (((clients.length : ℝ) - k) / (k * ((clients.length : ℝ) - 1)) *
              ((1 / (clients.length : ℝ)) * (clients.map (fun c => ‖proxSteps (g c) η 0 xs K xs - xs‖ ^ 2)).sum)) ∧
          ((k = clients.length ∨ ∀ c ∈ clients, g c xs = 0) → tapeMean q N (fun l => ‖(S l).srv - xs‖ ^ 2) ≤ r ^ N * ‖x0 server - xs‖ ^ 2) := by
  obtain ⟨xs, hxs, r, B, h1, h2, h3, h4⟩ := C112_uniform_selection hsm hm G hg η 0 hη le_rfl (by rwa [add_zero]) K hK w hf hcl hi
  refine ⟨xs, hxs, r, B, h1, h2, h3, ?_⟩
  intro Θ _ q sz k pick hsz hk hp hu x0 s0 N
  obtain ⟨S, h5, h6⟩ := h4 Θ q sz k pick hsz hk hp hu x0 s0 N
  simp only [C30_fedprox_zero_is_fedavg] at h5
  refine ⟨S, h5, h6, fun hz => h6.trans (le_of_eq ?_)⟩
  rcases hz with hz | hz
  · rw [hz, sub_self, zero_div, zero_mul, mul_zero, add_zero]
  · have e : ∀ c ∈ clients, proxSteps (g c) η 0 xs K xs = xs := by
      intro c hc
      clear h5 h6 hK h4 hxs
      induction K with
      | zero => rfl
      | succ K ih => rw [proxSteps, hz c hc]; simp only [zero_smul, add_zero, smul_zero, sub_zero]; exact ih
    have : (clients.map (fun c => ‖proxSteps (g c) η 0 xs K xs - xs‖ ^ 2)).sum = 0 := by
      apply List.sum_eq_zero
      intro y hy
      obtain ⟨c, hc, rfl⟩ := List.mem_map.1 hy
      rw [e c hc, sub_self, norm_zero]; norm_num
    rw [this]; simp

end uniform

/-! ### concrete systems -/

/-- one of two positions, each with probability one half, when one is asked for; the first `k` positions otherwise -/
def flip2 (b : Bool) (N k : Nat) : List Nat := if N = 2 ∧ k = 1 then [if b then 1 else 0] else List.range k

theorem flip2_ok (b : Bool) : SampleOK (flip2 b) := by
  intro N k hk
  unfold flip2
  split
  · rename_i h
    obtain ⟨rfl, rfl⟩ := h
    cases b <;> simp
  · exact ⟨List.nodup_range, List.length_range, fun i hi => by have := List.mem_range.1 hi; omega⟩

theorem half_half : Distribution (fun _ : Bool => (1 / 2 : ℝ)) := ⟨fun _ => by norm_num, by simp⟩

theorem flip2_uniform : UniformSample (fun _ : Bool => (1 / 2 : ℝ)) 2 1 (fun b => flip2 b 2 1) := by
  refine ⟨half_half, fun b => ⟨?_, ?_, ?_⟩, ?_⟩
  · exact (flip2_ok b 2 1 (by norm_num)).1
  · exact (flip2_ok b 2 1 (by norm_num)).2.1
  · exact (flip2_ok b 2 1 (by norm_num)).2.2
  · intro l l' h h'
    have key : ∀ l, IsSample 2 1 l → chance (fun _ : Bool => (1 / 2 : ℝ)) (fun θ => decide (flip2 θ 2 1 = l)) = 1 / 2 := by
      intro l hl
      obtain ⟨a, rfl⟩ := List.length_eq_one_iff.1 hl.length_
      have ha := hl.below a (by simp)
      have : a = 0 ∨ a = 1 := by omega
      rcases this with rfl | rfl <;> simp [chance, flip2]
    rw [key l h, key l' h']

/-- FedAvg with three local steps on two clients with unequal costs, one of which is drawn in every iteration -/
example {d : Nat} (v : Vec d) : ∃ xs : Vec d, ∃ r B : ℝ, 0 ≤ r ∧ r < 1 ∧ 0 ≤ B ∧ ∀ (x0 : Nat → Vec d) (s0 : FSys Nat (Vec d) Unit (Vec d) (Vec d)) (N : Nat),
    ∃ S : List Bool → FSys Nat (Vec d) Unit (Vec d) (Vec d),
      (∀ l, l.length = N → (fedAvg (fun c x ω => (unequalGrad v c x, ω)) (1 / 4) 3).after (uniformRun ⟨some 1, none⟩ flip2 l) 0 (ideal (Vec d)) fedNet2 x0 s0 N = .ok (S l)) ∧
      tapeMean (fun _ => (1 / 2 : ℝ)) N (fun l => ‖(S l).srv - xs‖ ^ 2) ≤ r ^ N * ‖x0 0 - xs‖ ^ 2 + B * (1 / 2 * (‖proxSteps (unequalGrad v 1) (1 / 4) 0 xs 3 xs - xs‖ ^ 2 + ‖proxSteps (unequalGrad v 2) (1 / 4) 0 xs 3 xs - xs‖ ^ 2)) := by
  obtain ⟨xs, _, r, B, h1, h2, h3, h4⟩ := C112_fedavg (n := fedNet2) (server := 0) (clients := [1, 2]) (unequal_smooth v) one_pos
    (fun c x ω => (unequalGrad v c x, ω)) (fun _ _ _ => rfl) (1 / 4) (by norm_num) (by norm_num) 3 (by norm_num) (ideal (Vec d)) fedNet2_isFed
    (by simp) (star_fedIdeal (Vec d) _)
  refine ⟨xs, r, B, h1, h2, h3, fun x0 s0 N => ?_⟩
  obtain ⟨S, h5, h6, _⟩ := h4 Bool (fun _ => 1 / 2) ⟨some 1, none⟩ 1 flip2 rfl (Or.inl ⟨1, rfl, by norm_num⟩) flip2_ok flip2_uniform x0 s0 N
  refine ⟨S, h5, h6.trans (le_of_eq ?_)⟩
  have e : (([1, 2] : List Nat).length : ℝ) = 2 := by norm_num
  rw [e]
  simp only [List.map_cons, List.map_nil, List.sum_cons, List.sum_nil, add_zero]
  norm_num

end Verif.Props
