import Verif.Props.FedMore
import Verif.Props.FedRate
import Verif.Props.FedLocal
set_option linter.unusedSectionVars false
/-!
# C131: how far an adaptive server can move

The server of FedAdagrad, FedAdam and FedYogi divides its momentum by the root of its second moment. `s.srv.x i` is coordinate `i` of the
server's model.
-/
namespace Verif.Props
open Verif Verif.Fed NetState

section
variable {A Ω ι : Type} [DecidableEq A]
variable {n : Net A} {server : A} {clients : List A}

/-- SPEC: in every run, in every round and every coordinate, the server moves by at most `b`, and after `k` rounds it is at most `k b` away
from where it started; no round raises. -/
def ServerMovesAtMost (alg : FedAlg A (ι → ℝ) Ω (ι → ℝ) (OptSrv ι)) (sel : Select A Ω) (server : A) (w : World A (ι → ℝ) Ω)
    (n : Net A) (b : ℝ) : Prop :=
  ∀ (x0 : A → ι → ℝ) (s : FSys A (ι → ℝ) Ω (ι → ℝ) (OptSrv ι)) (k : Nat), ∃ s1 s2,
    alg.after sel server w n x0 s k = .ok s1 ∧ alg.after sel server w n x0 s (k + 1) = .ok s2 ∧
    ∀ i, |s2.srv.x i - s1.srv.x i| ≤ b ∧ |s1.srv.x i - x0 server i| ≤ k * b

/-! ### the scalar inequality -/

/-- the square of the bound -/
noncomputable def stepSq (β1 a c : ℝ) : ℝ := (1 - β1) ^ 2 * a / (c * (a - β1 ^ 2))

theorem stepSq_nonneg {β1 a c : ℝ} (ha : β1 ^ 2 < a) (hc : 0 < c) : 0 ≤ stepSq β1 a c := by
  have h1 : 0 < a - β1 ^ 2 := sub_pos.2 ha
  have h2 : 0 < a := lt_of_le_of_lt (sq_nonneg _) ha
  unfold stepSq
  positivity

theorem moment_step {β1 a c m v d : ℝ} (ha : β1 ^ 2 < a) (hc : 0 < c) (h : m ^ 2 ≤ stepSq β1 a c * v) :
    (β1 * m + (1 - β1) * d) ^ 2 ≤ stepSq β1 a c * (a * v + c * d ^ 2) := by
  have h1 : 0 < a - β1 ^ 2 := sub_pos.2 ha
  have h2 : 0 < a := lt_of_le_of_lt (sq_nonneg _) ha
  obtain ⟨q, hq⟩ : ∃ q, q = stepSq β1 a c := ⟨_, rfl⟩
  rw [← hq] at h ⊢
  have hqc : q * c * (a - β1 ^ 2) = (1 - β1) ^ 2 * a := by
    rw [hq]; unfold stepSq; field_simp
  have h3 : (a - β1 ^ 2) * (q * (a * v + c * d ^ 2)) = (a - β1 ^ 2) * a * (q * v) + (1 - β1) ^ 2 * a * d ^ 2 := by
    rw [← hqc]; ring
  have h4 : (a - β1 ^ 2) * a * m ^ 2 ≤ (a - β1 ^ 2) * a * (q * v) := mul_le_mul_of_nonneg_left h (by positivity)
  have h5 : (a - β1 ^ 2) * (β1 * m + (1 - β1) * d) ^ 2 ≤ (a - β1 ^ 2) * (q * (a * v + c * d ^ 2)) := by
    rw [h3]
    have := sq_nonneg ((a - β1 ^ 2) * m - β1 * ((1 - β1) * d))
    nlinarith
  exact le_of_mul_le_mul_left h5 h1

/-- the second moment keeps a share `a` of its old value and takes a share `c` of the square of the new delta, at least -/
def KeepsShare (second : ℝ → ℝ → ℝ) (a c : ℝ) : Prop := ∀ v d, 0 ≤ v → a * v + c * d ^ 2 ≤ second v d

theorem adagrad_keeps : KeepsShare adagradV 1 1 := fun v d _ => by unfold adagradV; nlinarith

theorem adam_keeps (β2 : ℝ) : KeepsShare (adamV β2) β2 (1 - β2) := fun v d _ => by unfold adamV; nlinarith

theorem yogi_keeps {β2 c : ℝ} (hc : 0 < c) (h : c ≤ 1 - β2) : KeepsShare (yogiV β2) (β2 - c) c := by
  intro v d hv
  unfold yogiV
  have hd := mul_self_nonneg d
  have e : d ^ 2 = d * d := sq d
  rw [e]
  rcases lt_trichotomy v (d * d) with h' | h' | h'
  · rw [Real.sign_of_neg (by linarith)]
    have h1 : (1 - β2) * (d * d) ≥ c * (d * d) := mul_le_mul_of_nonneg_right h hd
    have h2 : (1 - β2 + c) * v ≥ 0 := mul_nonneg (by linarith) hv
    nlinarith
  · rw [← h', sub_self, Real.sign_zero]
    have h2 : (1 - β2) * v ≥ 0 := mul_nonneg (by linarith) hv
    nlinarith
  · rw [Real.sign_of_pos (by linarith)]
    have h2 : (1 - β2 + c) * (v - d * d) ≥ 0 := mul_nonneg (by linarith) (by linarith)
    nlinarith

theorem opt_moves (G : Grad A Ω (ι → ℝ)) (η ηs β1 ε : ℝ) (hε : 0 < ε) (hηs : 0 ≤ ηs) (K : Nat) (second : ℝ → ℝ → ℝ)
    {a c : ℝ} (ha : β1 ^ 2 < a) (hc : 0 < c) (hk : KeepsShare second a c) (hn : ∀ v d, 0 ≤ v → 0 ≤ second v d)
    (w : World A (ι → ℝ) Ω) (hf : IsFed n server clients) (hup : ServerUp w server) (sel : Select A Ω) (hsel : SelOK sel) :
    ServerMovesAtMost (fedOpt G η ηs β1 ε K second) sel server w n (ηs * Real.sqrt (stepSq β1 a c)) := by
  intro x0 s k
  have hq := stepSq_nonneg ha hc
  obtain ⟨q, hqe⟩ : ∃ q, q = stepSq β1 a c := ⟨_, rfl⟩
  have hb : 0 ≤ ηs * Real.sqrt q := mul_nonneg hηs (Real.sqrt_nonneg _)
  have round : ∀ (k : Int) (s1 : FSys A (ι → ℝ) Ω (ι → ℝ) (OptSrv ι)), (∀ i, 0 ≤ s1.srv.v i ∧ s1.srv.m i ^ 2 ≤ q * s1.srv.v i) →
      ∃ s2, iter (fedOpt G η ηs β1 ε K second) sel server w n k s1 = .ok s2 ∧
        (∀ i, 0 ≤ s2.srv.v i ∧ s2.srv.m i ^ 2 ≤ q * s2.srv.v i) ∧ ∀ i, |s2.srv.x i - s1.srv.x i| ≤ ηs * Real.sqrt q := by
    intro k s1 hI
    obtain ⟨s2, h2, R, up, _, h0, h3⟩ := opt_round G η ηs β1 ε K second w hf hup sel hsel k s1
    refine ⟨s2, h2, ?_⟩
    by_cases he : R = []
    · rw [h0 he]
      exact ⟨hI, fun i => by rw [sub_self, abs_zero]; exact hb⟩
    · obtain ⟨d, _, hd⟩ := h3 he
      have hI2 : ∀ i, 0 ≤ s2.srv.v i ∧ s2.srv.m i ^ 2 ≤ q * s2.srv.v i := by
        intro i
        obtain ⟨e1, e2, _⟩ := hd i
        rw [e1, e2]
        refine ⟨hn _ _ (hI i).1, ?_⟩
        have := moment_step (d := d i) ha hc (by rw [← hqe]; exact (hI i).2)
        rw [← hqe] at this
        exact this.trans (mul_le_mul_of_nonneg_left (hk _ _ (hI i).1) (by rw [hqe]; exact hq))
      refine ⟨hI2, fun i => ?_⟩
      have hm : |s2.srv.m i| ≤ Real.sqrt q * Real.sqrt (s2.srv.v i) := by
        rw [← Real.sqrt_mul (by rw [hqe]; exact hq)]
        exact Real.abs_le_sqrt (hI2 i).2
      have hden : 0 < Real.sqrt (s2.srv.v i) + ε := by linarith [Real.sqrt_nonneg (s2.srv.v i)]
      rw [(hd i).2.2, add_sub_cancel_left, abs_div, abs_mul, abs_of_nonneg hηs, abs_of_pos hden, div_le_iff₀ hden, mul_assoc]
      refine mul_le_mul_of_nonneg_left (hm.trans ?_) hηs
      exact mul_le_mul_of_nonneg_left (by linarith) (Real.sqrt_nonneg _)
  obtain ⟨s1, h1, hI, hx⟩ := Fed.after_induction (n := n) (server := server) (fedOpt G η ηs β1 ε K second) sel w x0 s
    (fun k s' => (∀ i, 0 ≤ s'.srv.v i ∧ s'.srv.m i ^ 2 ≤ q * s'.srv.v i) ∧ ∀ i, |s'.srv.x i - x0 server i| ≤ k * (ηs * Real.sqrt q))
    ⟨fun i => by simp [FedAlg.initialize_, fedOpt], fun i => by simp [FedAlg.initialize_, fedOpt]⟩
    (fun k s1 ih => by
      obtain ⟨s2, h2, h3, h4⟩ := round k s1 ih.1
      refine ⟨s2, h2, h3, fun i => ?_⟩
      have e : s2.srv.x i - x0 server i = (s2.srv.x i - s1.srv.x i) + (s1.srv.x i - x0 server i) := by ring
      rw [e]
      refine (abs_add_le _ _).trans ?_
      have := h4 i
      have := ih.2 i
      push_cast
      linarith) k
  obtain ⟨s2, h2, _, h4⟩ := round k s1 hI
  refine ⟨s1, s2, h1, ?_, fun i => ?_⟩
  · rw [Fed.after_succ, h1]; exact h2
  · rw [← hqe]; exact ⟨h4 i, hx i⟩

/-- FedAdagrad's server moves by at most `√((1-β₁)/(1+β₁))` (at most 1) times the server step size per round and coordinate, whatever the
clients upload and whatever is lost, distorted or delayed. -/
theorem C131_fedadagrad (G : Grad A Ω (ι → ℝ)) (η ηs β1 ε : ℝ) (hβ : 0 ≤ β1 ∧ β1 < 1) (hε : 0 < ε) (hηs : 0 ≤ ηs) (K : Nat)
    (w : World A (ι → ℝ) Ω) (hf : IsFed n server clients) (hup : ServerUp w server) (sel : Select A Ω) (hsel : SelOK sel) :
    ServerMovesAtMost (fedOpt G η ηs β1 ε K adagradV) sel server w n (ηs * Real.sqrt ((1 - β1) / (1 + β1))) ∧
    Real.sqrt ((1 - β1) / (1 + β1)) ≤ 1 := by
  have h1 : 0 < 1 - β1 := sub_pos.2 hβ.2
  have h2 : 0 < 1 + β1 := by linarith [hβ.1]
  have ha : β1 ^ 2 < 1 := by nlinarith
  have e : stepSq β1 1 1 = (1 - β1) / (1 + β1) := by
    unfold stepSq
    have : (1 : ℝ) - β1 ^ 2 = (1 - β1) * (1 + β1) := by ring
    rw [this]
    field_simp
  rw [← e]
  refine ⟨opt_moves G η ηs β1 ε hε hηs K adagradV ha one_pos adagrad_keeps (fun _ d hv => hv.trans (adagradV_nonneg hv d)) w hf hup sel hsel, ?_⟩
  rw [e, Real.sqrt_le_left zero_le_one, one_pow, div_le_one h2]
  linarith [hβ.1]

/-- FedAdam's server, when `β₁² < β₂`: at most `(1-β₁) √(β₂ / ((1-β₂)(β₂-β₁²)))` times the server step size per round and coordinate. -/
theorem C131_fedadam (G : Grad A Ω (ι → ℝ)) (η ηs β1 β2 ε : ℝ) (hβ : 0 ≤ β1 ∧ β1 < 1) (h12 : β1 ^ 2 < β2) (h2 : β2 < 1) (hε : 0 < ε)
    (hηs : 0 ≤ ηs) (K : Nat) (w : World A (ι → ℝ) Ω) (hf : IsFed n server clients) (hup : ServerUp w server) (sel : Select A Ω)
    (hsel : SelOK sel) :
    ServerMovesAtMost (fedOpt G η ηs β1 ε K (adamV β2)) sel server w n (ηs * ((1 - β1) * Real.sqrt (β2 / ((1 - β2) * (β2 - β1 ^ 2))))) := by
  have hb2 : 0 ≤ β2 := (sq_nonneg _).trans h12.le
  have e : Real.sqrt (stepSq β1 β2 (1 - β2)) = (1 - β1) * Real.sqrt (β2 / ((1 - β2) * (β2 - β1 ^ 2))) := by
    unfold stepSq
    rw [mul_div_assoc, Real.sqrt_mul (sq_nonneg _), Real.sqrt_sq (by linarith [hβ.2])]
  rw [← e]
  exact opt_moves G η ηs β1 ε hε hηs K _ h12 (sub_pos.2 h2) (adam_keeps β2) (fun _ d hv => adamV_nonneg ⟨hb2, h2.le⟩ hv d) w hf hup sel hsel

/-- FedYogi's server, for every `c` with `0 < c ≤ 1 - β₂` and `β₁² < β₂ - c`. -/
theorem C131_fedyogi (G : Grad A Ω (ι → ℝ)) (η ηs β1 β2 c ε : ℝ) (hβ : 0 ≤ β1 ∧ β1 < 1) (hc : 0 < c ∧ c ≤ 1 - β2) (h12 : β1 ^ 2 < β2 - c)
    (hε : 0 < ε) (hηs : 0 ≤ ηs) (K : Nat) (w : World A (ι → ℝ) Ω) (hf : IsFed n server clients) (hup : ServerUp w server)
    (sel : Select A Ω) (hsel : SelOK sel) :
    ServerMovesAtMost (fedOpt G η ηs β1 ε K (yogiV β2)) sel server w n
      (ηs * ((1 - β1) * Real.sqrt ((β2 - c) / (c * (β2 - c - β1 ^ 2))))) := by
  have hb2 : 0 ≤ β2 := by linarith [sq_nonneg β1, hc.1]
  have e : Real.sqrt (stepSq β1 (β2 - c) c) = (1 - β1) * Real.sqrt ((β2 - c) / (c * (β2 - c - β1 ^ 2))) := by
    unfold stepSq
    rw [mul_div_assoc, Real.sqrt_mul (sq_nonneg _), Real.sqrt_sq (by linarith [hβ.2])]
  rw [← e]
  exact opt_moves G η ηs β1 ε hε hηs K _ h12 hc.1 (yogi_keeps hc.1 hc.2) (fun _ d hv => yogiV_nonneg ⟨hb2, by linarith [hc.1, hc.2]⟩ hv d)
    w hf hup sel hsel

/-- with the default coefficients `β₁ = 0.9`, `β₂ = 0.99` FedAdam's server and FedYogi's server move by at most 2.41 server step sizes -/
example (G : Grad A Ω (ι → ℝ)) (w : World A (ι → ℝ) Ω) (hf : IsFed n server clients) (hup : ServerUp w server) :
    ServerMovesAtMost (fedOpt G (1 / 100) (1 / 10) (9 / 10) (1 / 1000) 3 (yogiV (99 / 100))) none server w n ((1 / 10) * (241 / 100)) := by
  have := C131_fedyogi G (1 / 100) (1 / 10) (9 / 10) (99 / 100) (1 / 100) (1 / 1000) (by norm_num) (by norm_num) (by norm_num) (by norm_num)
    (by norm_num) 3 w hf hup none (fun f e => by cases e)
  have e : (1 - (9 / 10 : ℝ)) * Real.sqrt ((99 / 100 - 1 / 100) / (1 / 100 * (99 / 100 - 1 / 100 - (9 / 10) ^ 2))) ≤ 241 / 100 := by
    have : Real.sqrt ((99 / 100 - 1 / 100) / (1 / 100 * (99 / 100 - 1 / 100 - (9 / 10 : ℝ) ^ 2))) ≤ 241 / 10 := by
      rw [Real.sqrt_le_left (by norm_num)]
      norm_num
    linarith
  intro x0 s k
  obtain ⟨s1, s2, h1, h2, h3⟩ := this x0 s k
  refine ⟨s1, s2, h1, h2, fun i => ⟨(h3 i).1.trans (by linarith), (h3 i).2.trans (mul_le_mul_of_nonneg_left (by linarith) (by positivity))⟩⟩

/-! ### when `β₂ < β₁²` -/

/-- one round over an ideal network: the delta is the mean of what the clients' local steps change -/
theorem opt_ideal (G : Grad A Ω (ι → ℝ)) (g : A → (ι → ℝ) → ι → ℝ) (hg : ∀ c x ω, (G c x ω).1 = g c x) (η ηs β1 ε : ℝ) (K : Nat)
    (second : ℝ → ℝ → ℝ) (w : World A (ι → ℝ) Ω) (hf : IsFed n server clients) (hcl : clients ≠ []) (hi : FedIdeal w server clients) (k : Int)
    (s : FSys A (ι → ℝ) Ω (ι → ℝ) (OptSrv ι)) :
    ∃ s', iter (fedOpt G η ηs β1 ε K second) none server w n k s = .ok s' ∧ ∃ d : ι → ℝ,
      d = (1 / (clients.length : ℝ)) • (clients.map (fun c => gdSteps (g c) η K s.srv.x - s.srv.x)).sum ∧
      ∀ i, s'.srv.m i = β1 * s.srv.m i + (1 - β1) * d i ∧ s'.srv.v i = second (s.srv.v i) (d i) ∧
        s'.srv.x i = s.srv.x i + ηs * s'.srv.m i / (Real.sqrt (s'.srv.v i) + ε) := by
  obtain ⟨s', h1, R, up, hh, _, h3⟩ := opt_round G η ηs β1 ε K second w hf hi.up none (fun f e => by cases e) k s
  obtain ⟨srv1, net', cli', nSel', selected, P, bc, ωs, hr, hit⟩ := iter_spec (fedOpt G η ηs β1 ε K second)
    (fun _ _ _ _ => by simp [fedOpt]) (fun b srv => by simp [fedOpt, receivedFrom]) w hf hi.up none (fun f e => by cases e) k s
  have hsrv : srv1 = s.srv := hr.prep
  subst hsrv
  have hnet : s'.net = net' := by
    have h := hit.symm.trans h1
    cases ha : (fedOpt G η ηs β1 ε K second).aggregate clients (net'.inbox server) P s.srv with
    | error e => rw [ha] at h; cases h
    | ok v => rw [ha] at h; simp only [bind, Except.bind, pure, Except.pure] at h; cases h; rfl
  have hsel : selected = clients := hr.all_active rfl hi.active
  have hP : ∀ c ∈ clients, c ∈ P := by
    intro c hc
    by_contra hcP
    obtain ⟨ω, hω⟩ := hr.missed c (by rw [hsel]; exact hc) hcP
    rw [hi.lossless server (by simp) ω] at hω; cases hω
  have hbc : ∀ c ∈ clients, bc c = s.srv.x := fun c hc => (hr.heard c (hP c hc)).exact (hi.exact_ server (by simp))
  have habs : ∀ c ∈ clients, (net'.inbox server).abs .dflt c = some (gdSteps (g c) η K s.srv.x - s.srv.x) := by
    intro c hc
    obtain ⟨v, hv1, hv⟩ := (hr.uploads c (hP c hc) (.dflt, _) (by simp [fedOpt]; rfl)).lossless (hi.lossless c (by simp [hc]))
    simp only at hv
    rw [hv, hv1.exact (hi.exact_ c (by simp [hc]))]
    simp only [hbc c hc, localSgd_det G g hg]
  have hR : ∀ c, c ∈ R ↔ c ∈ clients := by
    intro c
    constructor
    · intro h
      have := (hh.iff_ c (up c)).2 ⟨h, rfl⟩
      rw [hnet, get_ok_iff] at this
      have hm := (hr.only .dflt c (by simp [this])).1
      exact hr.sel_client c (hr.sub c hm)
    · intro h
      exact ((hh.iff_ c _).1 (by rw [hnet, get_ok_iff]; exact habs c h)).1
  have hupv : ∀ c ∈ clients, up c = gdSteps (g c) η K s.srv.x - s.srv.x := fun c h =>
    (((hh.iff_ c _).1 (by rw [hnet, get_ok_iff]; exact habs c h)).2).symm
  have hperm : R.Perm clients := (List.perm_ext_iff_of_nodup hh.nodup hf.clients_nodup).2 hR
  have hRne : R ≠ [] := fun e => hcl (List.nil_perm.1 (e ▸ hperm))
  obtain ⟨d, hd, hrest⟩ := h3 hRne
  refine ⟨s', h1, d, ?_, hrest⟩
  rw [hd, hperm.length_eq, (hperm.map up).sum_eq, List.map_congr_left (fun c hc => hupv c hc)]

theorem mean_const {N : List A} (hN : N ≠ []) (v : ι → ℝ) : (1 / (N.length : ℝ)) • (N.map (fun _ => v)).sum = v := by
  have h0 : (N.length : ℝ) ≠ 0 := by
    have := List.length_pos_iff.2 hN
    positivity
  rw [List.map_const', List.sum_replicate, ← Nat.cast_smul_eq_nsmul ℝ, smul_smul, one_div, inv_mul_cancel₀ h0, one_smul]

/-- For accepted coefficients with `β₂ < β₁²` (here `β₂ = 0`) there is no such bound for FedAdam: whatever `b` is, the clients' costs can be
convex, with continuous gradient `gr` in each coordinate, and the server move by more than `b` in the second round. -/
theorem C131_fedadam_refuted [Nonempty ι] (η ηs β1 ε : ℝ) (hη : 0 < η) (hηs : 0 < ηs) (hβ : 0 < β1 ∧ β1 < 1) (hε : 0 < ε)
    (w : World A (ι → ℝ) Ω) (hf : IsFed n server clients) (hcl : clients ≠ []) (hi : FedIdeal w server clients)
    (s : FSys A (ι → ℝ) Ω (ι → ℝ) (OptSrv ι)) (b : ℝ) :
    ∃ gr : ℝ → ℝ, Monotone gr ∧ Continuous gr ∧
      ¬ ServerMovesAtMost (fedOpt (fun _ x ω => (fun i => gr (x i), ω)) η ηs β1 ε 1 (adamV 0)) none server w n b := by
  obtain ⟨D, hD⟩ : ∃ D, D = (|b| + 1) * ε / (ηs * (β1 * (1 - β1))) := ⟨_, rfl⟩
  have hb1 : 0 < 1 - β1 := sub_pos.2 hβ.2
  have hβ0 := hβ.1
  have hDp : 0 < D := by rw [hD]; positivity
  obtain ⟨x1, hx1⟩ : ∃ x1, x1 = ηs * ((1 - β1) * D) / (D + ε) := ⟨_, rfl⟩
  have hx1p : 0 < x1 := by rw [hx1]; positivity
  obtain ⟨gr, hgr⟩ : ∃ gr : ℝ → ℝ, gr = fun x => min 0 ((x / x1 - 1) * (D / η)) := ⟨_, rfl⟩
  have g0 : gr 0 = -(D / η) := by
    rw [hgr]
    have : 0 < D / η := by positivity
    simp only [zero_div, zero_sub, neg_mul, one_mul]
    exact min_eq_right (by linarith)
  have g1 : gr x1 = 0 := by
    rw [hgr]
    simp only [div_self hx1p.ne', sub_self, zero_mul, min_self]
  refine ⟨gr, ?_, ?_, ?_⟩
  · rw [hgr]
    intro x y hxy
    refine min_le_min_left _ (mul_le_mul_of_nonneg_right ?_ (by positivity))
    have := div_le_div_of_nonneg_right hxy hx1p.le
    linarith
  · rw [hgr]; fun_prop
  · intro hbound
    obtain ⟨i⟩ := ‹Nonempty ι›
    obtain ⟨s1, s2, h1, h2, h3⟩ := hbound (fun _ => 0) s 1
    have step := opt_ideal (fun _ x ω => (fun i => gr (x i), ω)) (fun _ (x : ι → ℝ) i => gr (x i)) (fun _ _ _ => rfl) η ηs β1 ε 1 (adamV 0) w hf hcl hi
    rw [show (1 : Nat) = 0 + 1 from rfl, Fed.after_succ, Fed.after_zero] at h1
    obtain ⟨t1, e1, d1, hd1, r1⟩ := step 0 ((fedOpt (A := A) (Ω := Ω) (fun _ x ω => (fun i => gr (x i), ω)) η ηs β1 ε 1 (adamV 0)).initialize_ n server (fun _ => 0) s)
    have ht1 : t1 = s1 := by
      have := e1.symm.trans h1
      exact Except.ok.inj this
    rw [Fed.after_succ, show (1 : Nat) = 0 + 1 from rfl, Fed.after_succ, Fed.after_zero] at h2
    obtain ⟨t2, e2, d2, hd2, r2⟩ := step 1 s1
    have ht2 : t2 = s2 := by
      have h4 : (Except.ok s1 : Py _).bind _ = _ := h1 ▸ h2
      have := e2.symm.trans h4
      exact Except.ok.inj this
    rw [ht1] at r1
    rw [ht2] at r2
    rw [mean_const hcl] at hd1 hd2
    have ed1 : d1 i = D := by
      rw [hd1]
      show (gdSteps _ η 1 (0 : ι → ℝ) - 0) i = D
      simp only [gdSteps, Pi.sub_apply, Pi.smul_apply, Pi.zero_apply, smul_eq_mul, g0]
      field_simp
      ring
    obtain ⟨m1, v1, y1⟩ := r1 i
    have z : (∀ i, ((fedOpt (A := A) (Ω := Ω) (fun _ x ω => (fun i => gr (x i), ω)) η ηs β1 ε 1 (adamV 0)).initialize_ n server (fun _ => 0) s).srv.m i = 0) ∧
      (∀ i, ((fedOpt (A := A) (Ω := Ω) (fun _ x ω => (fun i => gr (x i), ω)) η ηs β1 ε 1 (adamV 0)).initialize_ n server (fun _ => 0) s).srv.v i = 0) ∧
      (∀ i, ((fedOpt (A := A) (Ω := Ω) (fun _ x ω => (fun i => gr (x i), ω)) η ηs β1 ε 1 (adamV 0)).initialize_ n server (fun _ => 0) s).srv.x i = 0) :=
      ⟨fun _ => rfl, fun _ => rfl, fun _ => rfl⟩
    rw [z.1 i, ed1] at m1
    rw [z.2.1 i, ed1] at v1
    have v1' : s1.srv.v i = D * D := by rw [v1]; unfold adamV; ring
    rw [z.2.2 i, m1, v1', Real.sqrt_mul_self hDp.le] at y1
    have y1' : s1.srv.x i = x1 := by rw [y1, hx1]; ring
    have ed2 : d2 i = 0 := by
      rw [hd2]
      simp only [gdSteps, Pi.sub_apply, Pi.smul_apply, smul_eq_mul, y1', g1]
      ring
    obtain ⟨m2, v2, y2⟩ := r2 i
    have v2' : s2.srv.v i = 0 := by rw [v2, ed2]; unfold adamV; ring
    rw [m1, ed2] at m2
    rw [v2', Real.sqrt_zero, zero_add, m2] at y2
    have h5 := (h3 i).1
    have e5 : s2.srv.x i - s1.srv.x i = |b| + 1 := by
      rw [y2, hD]
      field_simp
      ring
    rw [e5] at h5
    have := le_abs_self (|b| + 1)
    have := le_abs_self b
    linarith

/-- FedAdagrad's bound cannot be improved for `β₁ = 0`: with (linear) client costs of slope steep enough the server moves by more than any
`b` below the server step size. -/
theorem C131_fedadagrad_tight [Nonempty ι] (η ηs ε : ℝ) (hη : 0 < η) (hε : 0 < ε) (w : World A (ι → ℝ) Ω) (hf : IsFed n server clients)
    (hcl : clients ≠ []) (hi : FedIdeal w server clients) (s : FSys A (ι → ℝ) Ω (ι → ℝ) (OptSrv ι)) (b : ℝ) (hb : 0 ≤ b ∧ b < ηs) :
    ∃ slope : ℝ, ¬ ServerMovesAtMost (fedOpt (fun _ _ ω => (fun _ => slope, ω)) η ηs 0 ε 1 adagradV) none server w n b := by
  have hgap : 0 < ηs - b := sub_pos.2 hb.2
  have hb0 := hb.1
  obtain ⟨D, hD⟩ : ∃ D, D = (b * ε + 1) / (ηs - b) := ⟨_, rfl⟩
  have hDp : 0 < D := by rw [hD]; positivity
  have hDe : D * (ηs - b) = b * ε + 1 := by rw [hD]; field_simp
  refine ⟨-(D / η), fun hbound => ?_⟩
  obtain ⟨i⟩ := ‹Nonempty ι›
  obtain ⟨s1, s2, h1, h2, h3⟩ := hbound (fun _ => 0) s 0
  obtain ⟨t1, e1, d1, hd1, r1⟩ := opt_ideal (fun _ _ ω => (fun _ => -(D / η), ω)) (fun _ (_ : ι → ℝ) _ => -(D / η)) (fun _ _ _ => rfl) η ηs 0 ε 1 adagradV
    w hf hcl hi 0 s1
  have ht1 : t1 = s2 := by
    rw [Fed.after_succ, h1] at h2
    have := e1.symm.trans h2
    exact Except.ok.inj this
  rw [Fed.after_zero] at h1
  have hv : s1.srv.v i = 0 := by rw [← Except.ok.inj h1]; rfl
  rw [ht1] at r1
  rw [mean_const hcl] at hd1
  have ed1 : d1 i = D := by
    rw [hd1]
    simp only [gdSteps, Pi.sub_apply, Pi.smul_apply, smul_eq_mul]
    field_simp
    ring
  obtain ⟨m1, v1, y1⟩ := r1 i
  rw [hv, ed1] at v1
  have v1' : s2.srv.v i = D * D := by rw [v1]; unfold adagradV; ring
  rw [v1', Real.sqrt_mul_self hDp.le, m1, ed1] at y1
  have h5 := (h3 i).1
  rw [y1, add_sub_cancel_left] at h5
  have h6 := (le_abs_self _).trans h5
  rw [div_le_iff₀ (by positivity)] at h6
  nlinarith

/-- the hypotheses of the refuted claim are met by the concrete network of one server and two clients -/
example (b : ℝ) : ∃ gr : ℝ → ℝ, Monotone gr ∧ Continuous gr ∧
    ¬ ServerMovesAtMost (fedOpt (fun _ x ω => (fun i => gr (x i), ω)) (1 / 10) (1 / 10) (9 / 10) (1 / 1000) 1 (adamV 0)) none 0
      (ideal (Fin 2 → ℝ)) fedNet2 b := by
  refine C131_fedadam_refuted (clients := [1, 2]) (1 / 10) (1 / 10) (9 / 10) (1 / 1000) (by norm_num) (by norm_num) (by norm_num) (by norm_num) _ fedNet2_isFed
    (by simp) (star_fedIdeal _ _) ⟨NetState.fresh (), ⟨0, 0, 0⟩, fun _ => 0, fun _ => 0⟩ b

end
end Verif.Props
