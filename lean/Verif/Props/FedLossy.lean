import Verif.Props.FedRate
import Verif.Props.Compression
import Mathlib.Order.Filter.AtTopBot.Basic
set_option linter.unusedSectionVars false
/-!
# C124: FedAvg and FedProx on unreliable networks

Any selection scheme, any activation, drop, compression and noise behaviour: the distance of the server's model from a
point `xs` shrinks by a fixed factor in every round in which at least one upload arrives, down to a floor made of the
clients' disagreement about `xs`, the error of their gradients and the distortion of the messages.
-/
namespace Verif.Props
open Verif Verif.Fed NetState Verif.Costs Verif.Consensus
open scoped InnerProductSpace

section
variable {A Ω : Type} [DecidableEq A] {d : Nat}
variable {n : Net A} {server : A} {clients : List A}

/-- SPEC: whatever `a` sends arrives, if it arrives, within distance `ρ ‖v‖ + ε` of what was sent -/
def Distorts (w : World A (Vec d) Ω) (a : A) (ρ ε : ℝ) : Prop := ∀ v v', Arrives w a v v' → ‖v' - v‖ ≤ ρ * ‖v‖ + ε

/-- SPEC: in iteration `k` (counted from 0) of the run at least one upload reached the server -/
def HeardIn (alg : FedAlg A (Vec d) Ω (Vec d) (Vec d)) (sel : Select A Ω) (server : A) (w : World A (Vec d) Ω) (n : Net A)
    (x0 : A → Vec d) (s : FSys A (Vec d) Ω (Vec d) (Vec d)) (k : Nat) : Prop :=
  ∃ s', alg.after sel server w n x0 s (k + 1) = .ok s' ∧ ∃ c v, (s'.net.inbox server).get c .dflt = .ok v

open Classical in
/-- SPEC: number of iterations among the first `N` in which at least one upload reached the server -/
noncomputable def informed (alg : FedAlg A (Vec d) Ω (Vec d) (Vec d)) (sel : Select A Ω) (server : A) (w : World A (Vec d) Ω)
    (n : Net A) (x0 : A → Vec d) (s : FSys A (Vec d) Ω (Vec d) (Vec d)) (N : Nat) : Nat :=
  ((Finset.range N).filter (HeardIn alg sel server w n x0 s)).card

/-- SPEC: what is asked of the clients: `S` contains every client whose uploads are not all lost; on it costs are `L`-smooth
and `m`-strongly convex, gradient oracles err by at most `e`, gradients at `xs` have norm at most `h`; messages of the server
and of these clients are distorted by at most `ρ` of their norm plus `ε`. -/
structure Unreliable (w : World A (Vec d) Ω) (server : A) (clients S : List A) (f : A → Vec d → ℝ) (g : A → Vec d → Vec d)
    (L m : ℝ) (G : Grad A Ω (Vec d)) (e h ρ ε : ℝ) (xs : Vec d) : Prop where
  up : ServerUp w server
  mute : ∀ c ∈ clients, c ∉ S → AlwaysDropped w c
  smooth : ClientsSmooth S f g L m
  oracle : ∀ c ∈ S, ∀ x ω, ‖(G c x ω).1 - g c x‖ ≤ e
  hetero : ∀ c ∈ S, ‖g c xs‖ ≤ h
  server_msg : Distorts w server ρ ε
  client_msg : ∀ c ∈ S, Distorts w c ρ ε
  rho : 0 ≤ ρ
  eps : 0 ≤ ε
  err : 0 ≤ e
  het : 0 ≤ h

/-- SPEC: contraction factor of `K` local steps of size `η` with penalty `μ` -/
noncomputable def slowRate (η μ m : ℝ) (K : Nat) : ℝ := (μ + m * (1 - η * (μ + m)) ^ K) / (μ + m)

/-- SPEC: contraction factor of a round with messages distorted by the share `ρ` -/
noncomputable def roundRate (η μ m : ℝ) (K : Nat) (ρ : ℝ) : ℝ := (1 + ρ) ^ 2 * slowRate η μ m K

/-- SPEC: the distance from `xs` that cannot be excluded: `e + h` is the gradient error and disagreement, `t` the distortion of
a message at `xs` -/
noncomputable def floor (r m ρ e h t : ℝ) : ℝ :=
  ((1 + ρ) * ((1 - r) * ((e + h) / m)) + (1 + (1 + ρ) * r) * t) / (1 - (1 + ρ) ^ 2 * r)

/-! ### one local step -/

theorem prox_gd_contract {f : Vec d → ℝ} {g : Vec d → Vec d} {L m η μ : ℝ} (hu : Upper f g L) (hl : Lower f g m) (hm : 0 < m)
    (hmL : m ≤ L) (hη : 0 < η) (hμ : 0 ≤ μ) (hs : η * (L + μ) ≤ 1) (x y : Vec d) :
    ‖(1 - η * μ) • (x - y) - η • (g x - g y)‖ ≤ (1 - η * (μ + m)) * ‖x - y‖ := by
  have h1 := strong_cocoercive hu hl hm x y
  have h2 := strong_monotone hl x y
  have hηm : η * m ≤ η * L := mul_le_mul_of_nonneg_left hmL hη.le
  have ha : 0 ≤ 1 - η * (μ + m) := by nlinarith
  have e0 : ‖(1 - η * μ) • (x - y) - η • (g x - g y)‖ ^ 2 =
      (1 - η * μ) ^ 2 * ‖x - y‖ ^ 2 - 2 * η * ((1 - η * μ) * ⟪g x - g y, x - y⟫_ℝ) + η ^ 2 * ‖g x - g y‖ ^ 2 := by
    rw [norm_sub_smul_sq, norm_smul, mul_pow, Real.norm_eq_abs, sq_abs, inner_smul_right]
  refine abs_le_of_sq_le_sq' ?_ (mul_nonneg ha (norm_nonneg _)) |>.2
  rw [e0, mul_pow]
  clear e0
  generalize ‖x - y‖ ^ 2 = D at h1 h2 ⊢
  generalize ⟪g x - g y, x - y⟫_ℝ = I at h1 h2 ⊢
  generalize ‖g x - g y‖ ^ 2 = N at h1 ⊢
  have h3 := mul_le_mul_of_nonneg_left h1 (sq_nonneg η)
  have h4 : 0 ≤ η * (2 * (1 - η * μ) - η * (L + m)) := by
    apply mul_nonneg hη.le
    nlinarith
  have h5 := mul_le_mul_of_nonneg_left h2 h4
  nlinarith

/-- the error of `K` local steps from `ref` -/
theorem local_close {f : Vec d → ℝ} {g : Vec d → Vec d} {L m η μ e h : ℝ} (hu : Upper f g L) (hl : Lower f g m) (hm : 0 < m)
    (hmL : m ≤ L) (hη : 0 < η) (hμ : 0 ≤ μ) (hs : η * (L + μ) ≤ 1) (G : Grad A Ω (Vec d)) (c : A)
    (hG : ∀ x ω, ‖(G c x ω).1 - g x‖ ≤ e) (xs : Vec d) (hh : ‖g xs‖ ≤ h) (K : Nat) (ref : Vec d) (ω : Ω) :
    ‖(localProx G η μ K c ref ω).1 - xs‖ ≤
      slowRate η μ m K * ‖ref - xs‖ + (1 - (1 - η * (μ + m)) ^ K) / (μ + m) * (e + h) := by
  have hp : 0 < μ + m := by linarith
  have ha : 0 ≤ 1 - η * (μ + m) := by
    have := mul_le_mul_of_nonneg_left hmL hη.le
    nlinarith
  obtain ⟨a, hadef⟩ : ∃ a, a = 1 - η * (μ + m) := ⟨_, rfl⟩
  have step : ∀ x ω, ‖(x - η • ((G c x ω).1 + μ • (x - ref))) - xs‖ ≤ a * ‖x - xs‖ + η * (μ * ‖ref - xs‖ + e + h) := by
    intro x ω
    have e1 : (x - η • ((G c x ω).1 + μ • (x - ref))) - xs =
        ((1 - η * μ) • (x - xs) - η • (g x - g xs)) + ((η * μ) • (ref - xs) + ((-η) • ((G c x ω).1 - g x) + (-η) • g xs)) := by
      module
    rw [e1]
    have b1 := prox_gd_contract hu hl hm hmL hη hμ hs x xs
    rw [← hadef] at b1
    have b2 : ‖(η * μ) • (ref - xs)‖ = η * μ * ‖ref - xs‖ := by rw [norm_smul, Real.norm_of_nonneg (mul_nonneg hη.le hμ)]
    have b3 : ‖(-η) • ((G c x ω).1 - g x)‖ ≤ η * e := by
      rw [norm_smul, norm_neg, Real.norm_of_nonneg hη.le]; exact mul_le_mul_of_nonneg_left (hG x ω) hη.le
    have b4 : ‖(-η) • g xs‖ ≤ η * h := by
      rw [norm_smul, norm_neg, Real.norm_of_nonneg hη.le]; exact mul_le_mul_of_nonneg_left hh hη.le
    have t1 := norm_add_le ((1 - η * μ) • (x - xs) - η • (g x - g xs)) ((η * μ) • (ref - xs) + ((-η) • ((G c x ω).1 - g x) + (-η) • g xs))
    have t2 := norm_add_le ((η * μ) • (ref - xs)) ((-η) • ((G c x ω).1 - g x) + (-η) • g xs)
    have t3 := norm_add_le ((-η) • ((G c x ω).1 - g x)) ((-η) • g xs)
    nlinarith
  obtain ⟨b, hb⟩ : ∃ b, b = μ * ‖ref - xs‖ + e + h := ⟨_, rfl⟩
  have hη' : η = (1 - a) / (μ + m) := by rw [hadef]; field_simp; ring
  have gen : ∀ K : Nat, ∀ x ω, ‖(iterW (fun x ω => let g := G c x ω; (x - η • (g.1 + μ • (x - ref)), g.2)) K x ω).1 - xs‖ ≤
      a ^ K * ‖x - xs‖ + (1 - a ^ K) / (μ + m) * b := by
    intro K
    induction K with
    | zero => intro x ω; simp [iterW]
    | succ K ih =>
      intro x ω
      have h1 := ih (x - η • ((G c x ω).1 + μ • (x - ref))) (G c x ω).2
      have h2 := step x ω
      have h3 := mul_le_mul_of_nonneg_left h2 (pow_nonneg (hadef ▸ ha) K)
      simp only [iterW]
      refine h1.trans ?_
      have e2 : a ^ (K + 1) * ‖x - xs‖ + (1 - a ^ (K + 1)) / (μ + m) * b =
          a ^ K * (a * ‖x - xs‖ + η * (μ * ‖ref - xs‖ + e + h)) + (1 - a ^ K) / (μ + m) * b := by
        rw [← hb, hη']
        field_simp
        ring
      rw [e2]
      linarith
  have hfin := gen K ref ω
  unfold localProx
  refine hfin.trans (le_of_eq ?_)
  rw [hb, slowRate, ← hadef]
  field_simp
  ring

theorem slowRate_nonneg {η μ m L : ℝ} (hm : 0 < m) (hmL : m ≤ L) (hη : 0 < η) (hμ : 0 ≤ μ) (hs : η * (L + μ) ≤ 1) (K : Nat) :
    0 ≤ slowRate η μ m K := by
  have ha : 0 ≤ 1 - η * (μ + m) := by
    have := mul_le_mul_of_nonneg_left hmL hη.le
    nlinarith
  exact div_nonneg (add_nonneg hμ (mul_nonneg hm.le (pow_nonneg ha K))) (by linarith)

theorem slowRate_lt {η μ m L : ℝ} (hm : 0 < m) (hmL : m ≤ L) (hη : 0 < η) (hμ : 0 ≤ μ) (hs : η * (L + μ) ≤ 1) {K : Nat} (hK : 0 < K) :
    slowRate η μ m K < 1 := by
  have ha : 0 ≤ 1 - η * (μ + m) := by
    have := mul_le_mul_of_nonneg_left hmL hη.le
    nlinarith
  have ha1 : 1 - η * (μ + m) < 1 := by
    have : 0 < η * (μ + m) := mul_pos hη (by linarith)
    linarith
  have := pow_lt_one₀ ha ha1 hK.ne'
  rw [slowRate, div_lt_one (by linarith)]
  nlinarith

/-! ### rounds and runs -/

theorem mean_close (R : List A) (up : A → Vec d) (xs : Vec d) (b : ℝ) (hR : R ≠ []) (h : ∀ c ∈ R, ‖up c - xs‖ ≤ b) :
    ‖(1 / (R.length : ℝ)) • (R.map up).sum - xs‖ ≤ b := by
  have hlen : (0 : ℝ) < R.length := by
    have : 0 < R.length := List.length_pos_iff.2 hR
    exact_mod_cast this
  have hsum : ∀ l : List A, (∀ c ∈ l, ‖up c - xs‖ ≤ b) → ‖(l.map up).sum - (l.length : ℝ) • xs‖ ≤ l.length * b := by
    intro l
    induction l with
    | nil => intro _; simp
    | cons c t ih =>
      intro hl
      have i1 := ih (fun c hc => hl c (by simp [hc]))
      have i2 := hl c (by simp)
      have e : ((c :: t).map up).sum - ((c :: t).length : ℝ) • xs = (up c - xs) + ((t.map up).sum - (t.length : ℝ) • xs) := by
        simp only [List.map_cons, List.sum_cons, List.length_cons]
        push_cast
        module
      rw [e]
      refine (norm_add_le _ _).trans ?_
      simp only [List.length_cons]
      push_cast
      linarith
  have e : (1 / (R.length : ℝ)) • (R.map up).sum - xs = (1 / (R.length : ℝ)) • ((R.map up).sum - (R.length : ℝ) • xs) := by
    rw [smul_sub, smul_smul, one_div_mul_cancel hlen.ne', one_smul]
  rw [e, norm_smul, Real.norm_of_nonneg (by positivity), one_div_mul_eq_div, div_le_iff₀ hlen]
  linarith [hsum R h]

/-- a distorted message is not much further from `xs` than the message -/
theorem moved {ρ ε : ℝ} (hρ : 0 ≤ ρ) {v v' : Vec d} (h : ‖v' - v‖ ≤ ρ * ‖v‖ + ε) (xs : Vec d) :
    ‖v' - xs‖ ≤ (1 + ρ) * ‖v - xs‖ + (ρ * ‖xs‖ + ε) := by
  have e1 : v' - xs = (v' - v) + (v - xs) := by abel
  have e2 : v = (v - xs) + xs := by abel
  have h1 := norm_add_le (v' - v) (v - xs)
  have h2 : ‖v‖ ≤ ‖v - xs‖ + ‖xs‖ := by
    have := norm_add_le (v - xs) xs
    rwa [← e2] at this
  have h3 := mul_le_mul_of_nonneg_left h2 hρ
  rw [e1]
  nlinarith

variable {S : List A} {f : A → Vec d → ℝ} {g : A → Vec d → Vec d} {L m η μ e h ρ ε : ℝ} {G : Grad A Ω (Vec d)} {xs : Vec d}
variable {w : World A (Vec d) Ω}

/-- One iteration: either nothing was heard and the server's model is unchanged, or something was heard and its distance to
`xs` shrank by the factor, up to the floor. -/
theorem C124_round (hw : Unreliable w server clients S f g L m G e h ρ ε xs) (hf : IsFed n server clients) (hm : 0 < m) (hmL : m ≤ L)
    (hη : 0 < η) (hμ : 0 ≤ μ) (hs : η * (L + μ) ≤ 1) (K : Nat) (sel : Select A Ω) (hsel : SelOK sel) (k : Int)
    (s : FSys A (Vec d) Ω (Vec d) (Vec d)) :
    ∃ s', iter (fedProx G η μ K) sel server w n k s = .ok s' ∧
      ((∀ c v, (s'.net.inbox server).get c .dflt ≠ .ok v) → s'.srv = s.srv) ∧
      ((∃ c v, (s'.net.inbox server).get c .dflt = .ok v) →
        ‖s'.srv - xs‖ ≤ roundRate η μ m K ρ * ‖s.srv - xs‖ + ((1 + ρ) * ((1 - slowRate η μ m K) * ((e + h) / m)) +
          (1 + (1 + ρ) * slowRate η μ m K) * (ρ * ‖xs‖ + ε))) := by
  obtain ⟨s', R, up, selected, P, bc, ωs, h1, h2, h3, hr, h4, h5⟩ := mean_round (fedProx G η μ K) (fun _ _ => rfl) rfl
    (fun _ _ _ _ => by simp [fedProx]) w hf hw.up sel hsel k s
  refine ⟨s', h1, ?_, ?_⟩
  · intro hn
    apply h4
    rw [List.eq_nil_iff_forall_not_mem]
    intro c hc
    exact hn c (up c) ((h2.iff_ c _).2 ⟨hc, rfl⟩)
  · rintro ⟨c0, v0, hv0⟩
    have hR : R ≠ [] := List.ne_nil_of_mem ((h2.iff_ c0 v0).1 hv0).1
    rw [h5 hR]
    apply mean_close R up xs _ hR
    intro c hc
    have hin : (s'.net.inbox server).abs .dflt c = some (up c) := (get_ok_iff _ _ _ _).1 ((h2.iff_ c _).2 ⟨hc, rfl⟩)
    have hcP := h3 c hc
    have hcc : c ∈ clients := hr.sel_client c (hr.sub c hcP)
    have hbc := hr.heard c hcP
    have hdel := hr.uploads c hcP (.dflt, (localProx G η μ K c (bc c) (ωs c)).1) (by simp [fedProx])
    have hcS : c ∈ S := by
      by_contra hcS
      have := hdel.dropped (hw.mute c hcc hcS)
      simp only at this
      rw [hin] at this
      cases this
    have hup : ‖up c - (localProx G η μ K c (bc c) (ωs c)).1‖ ≤ ρ * ‖(localProx G η μ K c (bc c) (ωs c)).1‖ + ε := by
      rcases hdel with ⟨v', ha, hn, _⟩ | ⟨hn, _⟩
      · simp only at hn ha
        rw [hin] at hn
        cases hn
        exact hw.client_msg c hcS _ _ ha
      · simp only at hn
        rw [hin] at hn
        cases hn
    have hb : ‖bc c - s.srv‖ ≤ ρ * ‖s.srv‖ + ε := hw.server_msg _ _ hbc
    have hloc := local_close (hw.smooth.upper c hcS) (hw.smooth.lower c hcS) hm hmL hη hμ hs G c (hw.oracle c hcS) xs (hw.hetero c hcS) K
      (bc c) (ωs c)
    have r0 := slowRate_nonneg hm hmL hη hμ hs K
    have hfix : (1 - (1 - η * (μ + m)) ^ K) / (μ + m) * (e + h) = (1 - slowRate η μ m K) * ((e + h) / m) := by
      have : 0 < μ + m := by linarith
      rw [slowRate]
      field_simp
      ring
    rw [hfix] at hloc
    have t1 := moved hw.rho hb xs
    have t2 := moved hw.rho hup xs
    have t3 := mul_le_mul_of_nonneg_left t1 r0
    have t4 := mul_le_mul_of_nonneg_left (hloc.trans (by linarith :
      _ ≤ slowRate η μ m K * ((1 + ρ) * ‖s.srv - xs‖ + (ρ * ‖xs‖ + ε)) + (1 - slowRate η μ m K) * ((e + h) / m)))
      (by linarith [hw.rho] : (0 : ℝ) ≤ 1 + ρ)
    refine (t2.trans (add_le_add_left t4 _)).trans (le_of_eq ?_)
    rw [roundRate]
    ring

theorem informed_succ (alg : FedAlg A (Vec d) Ω (Vec d) (Vec d)) (sel : Select A Ω) (w : World A (Vec d) Ω)
    (x0 : A → Vec d) (s : FSys A (Vec d) Ω (Vec d) (Vec d)) (N : Nat) :
    (HeardIn alg sel server w n x0 s N → informed alg sel server w n x0 s (N + 1) = informed alg sel server w n x0 s N + 1) ∧
    (¬ HeardIn alg sel server w n x0 s N → informed alg sel server w n x0 s (N + 1) = informed alg sel server w n x0 s N) := by
  classical
  unfold informed
  rw [Finset.range_add_one, Finset.filter_insert]
  constructor
  · intro h
    rw [if_pos h, Finset.card_insert_of_notMem (by simp)]
  · intro h
    rw [if_neg h]

/-- The whole run: the distance to `xs` after `N` iterations, `M` of which brought at least one upload. -/
theorem C124_run (hw : Unreliable w server clients S f g L m G e h ρ ε xs) (hf : IsFed n server clients) (hm : 0 < m) (hmL : m ≤ L)
    (hη : 0 < η) (hμ : 0 ≤ μ) (hs : η * (L + μ) ≤ 1) {K : Nat} (hK : 0 < K) (hR : roundRate η μ m K ρ < 1)
    (sel : Select A Ω) (hsel : SelOK sel) (x0 : A → Vec d)
    (s : FSys A (Vec d) Ω (Vec d) (Vec d)) (N : Nat) :
    ∃ s', (fedProx G η μ K).after sel server w n x0 s N = .ok s' ∧
      ‖s'.srv - xs‖ ≤ roundRate η μ m K ρ ^ informed (fedProx G η μ K) sel server w n x0 s N * ‖x0 server - xs‖ +
        floor (slowRate η μ m K) m ρ e h (ρ * ‖xs‖ + ε) := by
  have r0 := slowRate_nonneg hm hmL hη hμ hs K
  have r1 := slowRate_lt hm hmL hη hμ hs hK
  have hρ := hw.rho
  have hRR : roundRate η μ m K ρ = (1 + ρ) ^ 2 * slowRate η μ m K := rfl
  have R0 : 0 ≤ roundRate η μ m K ρ := by rw [hRR]; positivity
  obtain ⟨r, hr⟩ : ∃ r, r = slowRate η μ m K := ⟨_, rfl⟩
  obtain ⟨R, hRd⟩ : ∃ R, R = roundRate η μ m K ρ := ⟨_, rfl⟩
  obtain ⟨t, ht⟩ : ∃ t, t = ρ * ‖xs‖ + ε := ⟨_, rfl⟩
  obtain ⟨b, hb⟩ : ∃ b, b = (1 + ρ) * ((1 - r) * ((e + h) / m)) + (1 + (1 + ρ) * r) * t := ⟨_, rfl⟩
  have ht0 : 0 ≤ t := by rw [ht]; have := hw.eps; positivity
  have hb0 : 0 ≤ b := by
    rw [hb]
    have := hw.err; have := hw.het
    have h1 : 0 ≤ 1 - r := by rw [hr]; linarith
    have h2 : 0 ≤ r := by rw [hr]; exact r0
    positivity
  rw [← hr] at hRR
  rw [← hRd] at hRR R0 hR
  have hFl : floor r m ρ e h t = b / (1 - R) := by rw [floor, hRR, hb]
  obtain ⟨F, hF⟩ : ∃ F, F = b / (1 - R) := ⟨_, rfl⟩
  have hF0 : 0 ≤ F := by
    have : 0 < 1 - R := by linarith
    rw [hF]; positivity
  have hFfix : R * F + b = F := by
    have : 1 - R ≠ 0 := by linarith
    rw [hF]
    field_simp
    ring
  rw [← hRd, ← hr, ← ht, hFl, ← hF]
  induction N with
  | zero => exact ⟨_, Fed.after_zero _ _ _ _ _, by
      show ‖x0 server - xs‖ ≤ _
      have : informed (fedProx G η μ K) sel server w n x0 s 0 = 0 := by simp [informed]
      rw [this, pow_zero, one_mul]
      linarith⟩
  | succ N ih =>
    obtain ⟨s1, e1, b1⟩ := ih
    obtain ⟨s2, e2, q1, q2⟩ := C124_round (n := n) hw hf hm hmL hη hμ hs K sel hsel (N : Int) s1
    have e3 : (fedProx G η μ K).after sel server w n x0 s (N + 1) = .ok s2 := by
      rw [Fed.after_succ, e1]; exact e2
    refine ⟨s2, e3, ?_⟩
    obtain ⟨i1, i2⟩ := informed_succ (server := server) (n := n) (fedProx G η μ K) sel w x0 s N
    by_cases hh : ∃ c v, (s2.net.inbox server).get c .dflt = .ok v
    · rw [i1 ⟨s2, e3, hh⟩]
      have h5 := q2 hh
      rw [← hr, ← hRd, ← ht, ← hb] at h5
      have b2 := mul_le_mul_of_nonneg_left b1 R0
      rw [pow_succ]
      refine h5.trans ?_
      rw [mul_add] at b2
      have : R * (R ^ informed (fedProx G η μ K) sel server w n x0 s N * ‖x0 server - xs‖) =
        R ^ informed (fedProx G η μ K) sel server w n x0 s N * R * ‖x0 server - xs‖ := by ring
      linarith
    · rw [i2]
      · rw [q1 (fun c v hv => hh ⟨c, v, hv⟩)]; exact b1
      · rintro ⟨s3, e4, hh3⟩
        rw [e3] at e4
        cases e4
        exact hh hh3

theorem fedProx_zero (G : Grad A Ω (Vec d)) (η : ℝ) (K : Nat) : fedProx G η 0 K = fedAvg G η K := by
  have hl : ∀ c x ω, localProx G η 0 K c x ω = localSgd G η K c x ω := by
    intro c x ω
    unfold localProx localSgd
    congr 1
    funext y ω
    simp
  unfold fedProx fedAvg
  simp only [hl]

/-- FedAvg: the same with no penalty; for messages without relative distortion the factor is `(1 - η m) ^ K` and the floor
`(e + h) / m + (1 + (1 - η m) ^ K) / (1 - (1 - η m) ^ K) ε`. -/
theorem C124_fedavg (hw : Unreliable w server clients S f g L m G e h 0 ε xs) (hf : IsFed n server clients) (hm : 0 < m) (hmL : m ≤ L)
    (hη : 0 < η) (hs : η * L ≤ 1) {K : Nat} (hK : 0 < K) (sel : Select A Ω) (hsel : SelOK sel) (x0 : A → Vec d)
    (s : FSys A (Vec d) Ω (Vec d) (Vec d)) (N : Nat) :
    ∃ s', (fedAvg G η K).after sel server w n x0 s N = .ok s' ∧
      ‖s'.srv - xs‖ ≤ ((1 - η * m) ^ K) ^ informed (fedAvg G η K) sel server w n x0 s N * ‖x0 server - xs‖ +
        ((e + h) / m + (1 + (1 - η * m) ^ K) / (1 - (1 - η * m) ^ K) * ε) := by
  have hr : slowRate η 0 m K = (1 - η * m) ^ K := by
    rw [slowRate]; simp only [zero_add]; field_simp
  have hs' : η * (L + 0) ≤ 1 := by simpa using hs
  have r1 := slowRate_lt hm hmL hη le_rfl hs' hK
  have hRR : roundRate η 0 m K 0 = (1 - η * m) ^ K := by rw [roundRate, hr]; ring
  have := C124_run (n := n) hw hf hm hmL hη le_rfl hs' hK (by rw [hRR, ← hr]; exact r1) sel hsel x0 s N
  rw [hr] at r1
  have hfl : floor ((1 - η * m) ^ K) m 0 e h (0 * ‖xs‖ + ε) = (e + h) / m + (1 + (1 - η * m) ^ K) / (1 - (1 - η * m) ^ K) * ε := by
    have h1 : 1 - (1 - η * m) ^ K ≠ 0 := by linarith
    rw [floor]
    generalize (1 - η * m) ^ K = r at h1 ⊢
    simp only [add_zero, one_pow, one_mul, zero_mul, zero_add]
    field_simp
  rw [hRR, hr, hfl] at this
  have hi : informed (fedProx G η 0 K) sel server w n x0 s N = informed (fedAvg G η K) sel server w n x0 s N := by
    rw [fedProx_zero]
  rwa [hi, C30_fedprox_zero_is_fedavg] at this

/-- If all heard clients are minimised by `xs`, with exact gradients and undistorted messages, and some upload arrives
infinitely often, the server's model converges to `xs`: losses, inactivity and selection only slow the run down. -/
theorem C124_converges (hw : Unreliable w server clients S f g L m G 0 0 0 0 xs) (hf : IsFed n server clients) (hm : 0 < m) (hmL : m ≤ L)
    (hη : 0 < η) (hμ : 0 ≤ μ) (hs : η * (L + μ) ≤ 1) {K : Nat} (hK : 0 < K) (sel : Select A Ω) (hsel : SelOK sel) (x0 : A → Vec d)
    (s : FSys A (Vec d) Ω (Vec d) (Vec d))
    (often : ∀ k, ∃ j, k ≤ j ∧ HeardIn (fedProx G η μ K) sel server w n x0 s j) (δ : ℝ) (hδ : 0 < δ) :
    ∃ k, ∀ N, k ≤ N → ∃ s', (fedProx G η μ K).after sel server w n x0 s N = .ok s' ∧ ‖s'.srv - xs‖ ≤ δ := by
  have r0 := slowRate_nonneg hm hmL hη hμ hs K
  have r1 := slowRate_lt hm hmL hη hμ hs hK
  have hmono : Monotone (informed (fedProx G η μ K) sel server w n x0 s) := by
    apply monotone_nat_of_le_succ
    intro N
    obtain ⟨i1, i2⟩ := informed_succ (server := server) (n := n) (fedProx G η μ K) sel w x0 s N
    by_cases hh : HeardIn (fedProx G η μ K) sel server w n x0 s N
    · rw [i1 hh]; exact Nat.le_succ _
    · rw [i2 hh]
  have hgrow : ∀ M : Nat, ∃ k, M ≤ informed (fedProx G η μ K) sel server w n x0 s k := by
    intro M
    induction M with
    | zero => exact ⟨0, Nat.zero_le _⟩
    | succ M ih =>
      obtain ⟨k, hk⟩ := ih
      obtain ⟨j, hj, hh⟩ := often k
      refine ⟨j + 1, ?_⟩
      rw [(informed_succ (server := server) (n := n) (fedProx G η μ K) sel w x0 s j).1 hh]
      exact Nat.succ_le_succ (hk.trans (hmono hj))
  obtain ⟨M, hM⟩ : ∃ M : Nat, slowRate η μ m K ^ M * ‖x0 server - xs‖ ≤ δ := by
    by_cases hz : ‖x0 server - xs‖ = 0
    · exact ⟨0, by rw [hz, mul_zero]; exact hδ.le⟩
    · have hpos : 0 < ‖x0 server - xs‖ := lt_of_le_of_ne (norm_nonneg _) (Ne.symm hz)
      obtain ⟨M, hM⟩ := exists_pow_lt_of_lt_one (div_pos hδ hpos) r1
      exact ⟨M, ((lt_div_iff₀ hpos).1 hM).le⟩
  obtain ⟨k, hk⟩ := hgrow M
  refine ⟨k, fun N hN => ?_⟩
  have hRR : roundRate η μ m K 0 = slowRate η μ m K := by rw [roundRate]; ring
  obtain ⟨s', e1, b1⟩ := C124_run (n := n) hw hf hm hmL hη hμ hs hK (by rw [hRR]; exact r1) sel hsel x0 s N
  refine ⟨s', e1, ?_⟩
  rw [hRR] at b1
  simp only [floor, add_zero, zero_div, mul_zero, zero_mul] at b1
  refine b1.trans (le_trans (mul_le_mul_of_nonneg_right (pow_le_pow_of_le_one r0 r1.le (hk.trans (hmono hN))) (norm_nonneg _)) hM)

/-- a round brings an upload as soon as some selected client neither misses the broadcast nor loses its upload; in particular
always when all clients are always active, nobody selects and one client's and the server's messages are never lost -/
theorem C124_heard (hf : IsFed n server clients) (hup : ServerUp w server) (η μ : ℝ) (K : Nat)
    (hact : ∀ c ∈ clients, ∀ it ω, (w.isActive c it ω).1 = true) {c : A} (hc : c ∈ clients) (hl : Fed.Lossless w server)
    (hlc : Fed.Lossless w c) (x0 : A → Vec d) (s : FSys A (Vec d) Ω (Vec d) (Vec d)) (k : Nat) :
    HeardIn (fedProx G η μ K) none server w n x0 s k := by
  have hs : ∀ (k : Int) s1, ∃ s', iter (fedProx G η μ K) none server w n k s1 = .ok s' ∧ ∃ c v, (s'.net.inbox server).get c .dflt = .ok v := by
    intro k s1
    obtain ⟨s', R, up, selected, P, bc, ωs, h1, h2, h3, hr, h4, h5⟩ := mean_round (fedProx G η μ K) (fun _ _ => rfl) rfl
      (fun _ _ _ _ => by simp [fedProx]) w hf hup none (fun f e => by cases e) k s1
    refine ⟨s', h1, c, ?_⟩
    have hselall : selected = clients := hr.all_active rfl hact
    have hcP : c ∈ P := by
      by_contra hcP
      obtain ⟨ω, hω⟩ := hr.missed c (by rw [hselall]; exact hc) hcP
      rw [hl ω] at hω; cases hω
    obtain ⟨v', ha, hn⟩ := (hr.uploads c hcP (.dflt, (localProx G η μ K c (bc c) (ωs c)).1) (by simp [fedProx])).lossless hlc
    exact ⟨v', (get_ok_iff _ _ _ _).2 hn⟩
  obtain ⟨s1, e1, -⟩ := Fed.after_induction (n := n) (server := server) (fedProx G η μ K) none w x0 s (fun _ _ => True) trivial
    (fun k s1 _ => by obtain ⟨s', h1, _⟩ := hs k s1; exact ⟨s', h1, trivial⟩) k
  obtain ⟨s2, e2, hh⟩ := hs k s1
  exact ⟨s2, by rw [Fed.after_succ, e1]; exact e2, hh⟩

theorem distorts_exact {w : World A (Vec d) Ω} {a : A} (h : Fed.Exact w a) : Distorts w a 0 0 := by
  intro v v' ha
  rw [ha.exact h]; simp

theorem arrives_compressed {w : World A (Vec d) Ω} {a : A} (hn : ∀ k v ω, (w.makeNoise a k v ω).1 = none) {v v' : Vec d}
    (h : Arrives w a v v') : ∃ ω, v' = (w.compress a v ω).1 := by
  obtain ⟨ω, k, j, rfl⟩ := h
  exact ⟨ω, by rw [hn]; simp [sentMsg]⟩

theorem norm_le_of_entries (v : Vec d) (b : ℝ) (h : ∀ i, |v i| ≤ b) : ‖v‖ ≤ Real.sqrt d * b := by
  by_cases hd : d = 0
  · subst hd
    have : v = 0 := by ext i; exact i.elim0
    simp [this]
  have hb : 0 ≤ b := (abs_nonneg _).trans (h ⟨0, Nat.pos_of_ne_zero hd⟩)
  rw [EuclideanSpace.norm_eq, ← Real.sqrt_sq hb, ← Real.sqrt_mul (Nat.cast_nonneg _)]
  apply Real.sqrt_le_sqrt
  calc ∑ i, ‖v i‖ ^ 2 ≤ ∑ _i : Fin d, b ^ 2 := Finset.sum_le_sum (fun i _ => by
        rw [Real.norm_eq_abs]; exact pow_le_pow_left₀ (abs_nonneg _) (h i) 2)
    _ = d * b ^ 2 := by simp

theorem norm2_eq (v : Vec d) : Compression.norm2 v.ofLp = ‖v‖ := by
  rw [EuclideanSpace.norm_eq, Compression.norm2]
  simp [sq_abs]

/-- `Quantization` distorts a message by at most half a step per entry. -/
theorem C124_quantization {w : World A (Vec d) Ω} {a : A} {step step' : ℝ} (hs : Compression.quantCtor step = .ok step')
    (hc : ∀ v ω, (w.compress a v ω).1 = WithLp.toLp 2 (Compression.quantize step' v.ofLp))
    (hn : ∀ k v ω, (w.makeNoise a k v ω).1 = none) : Distorts w a 0 (Real.sqrt d * (step / 2)) := by
  intro v v' h
  obtain ⟨ω, rfl⟩ := arrives_compressed hn h
  rw [hc, zero_mul, zero_add]
  exact norm_le_of_entries _ _ (fun i => (C20_quantization step step' hs v.ofLp).1 i)

/-- `StochasticQuantization` with `l` levels, for every outcome of its draws, distorts by the share `√d / l`. -/
theorem C124_stochastic_quantization {w : World A (Vec d) Ω} {a : A} {l : Nat} (hl : 0 < l)
    (hc : ∀ v ω, ∃ u, (w.compress a v ω).1 = WithLp.toLp 2 (Compression.stochQuantize l u v.ofLp))
    (hn : ∀ k v ω, (w.makeNoise a k v ω).1 = none) : Distorts w a (Real.sqrt d / l) 0 := by
  intro v v' h
  obtain ⟨ω, rfl⟩ := arrives_compressed hn h
  obtain ⟨u, hu⟩ := hc v ω
  rw [hu, add_zero]
  have h1 := norm_le_of_entries (WithLp.toLp 2 (Compression.stochQuantize l u v.ofLp) - v) (‖v‖ / l)
    (fun i => by rw [← norm2_eq]; exact (C20_stochastic l hl u v.ofLp i).1)
  rwa [mul_div_assoc', ← div_mul_eq_mul_div] at h1

/-- `TopK` keeping `k` of `d` entries distorts by the share `√(1 - k / d)`. -/
theorem C124_topk {w : World A (Vec d) Ω} {a : A} {k k' : Compression.KParam} (hk : Compression.ctor k = .ok k') (hd : 0 < d)
    {part : (Fin d → ℝ) → Nat → List (Fin d)} (hp : ArgPartOK part)
    (hc : ∀ v ω, (w.compress a v ω).1 = WithLp.toLp 2 (Compression.topK k' part v.ofLp))
    (hn : ∀ k v ω, (w.makeNoise a k v ω).1 = none) :
    Distorts w a (Real.sqrt (1 - (Compression.kCount k' d : ℝ) / d)) 0 := by
  intro v v' h
  obtain ⟨ω, rfl⟩ := arrives_compressed hn h
  rw [hc, add_zero]
  have h1 := C18_topk_contraction k k' hk hd part hp v.ofLp
  have hd' : (0 : ℝ) < d := by exact_mod_cast hd
  rw [EuclideanSpace.norm_eq, EuclideanSpace.norm_eq, ← Real.sqrt_mul' _ (Finset.sum_nonneg fun i _ => sq_nonneg _)]
  apply Real.sqrt_le_sqrt
  have e1 : ∑ i, ‖(WithLp.toLp 2 (Compression.topK k' part v.ofLp) - v : Vec d) i‖ ^ 2 = sqErr v.ofLp (Compression.topK k' part v.ofLp) := by
    unfold sqErr
    refine Finset.sum_congr rfl (fun i _ => ?_)
    rw [Real.norm_eq_abs, sq_abs]
    show (Compression.topK k' part v.ofLp i - v i) ^ 2 = (v i - Compression.topK k' part v.ofLp i) ^ 2
    ring
  have e2 : ∑ i, ‖v i‖ ^ 2 = ∑ i, v.ofLp i ^ 2 := by simp [sq_abs]
  rw [e1, e2, one_sub_div hd'.ne', div_mul_eq_mul_div, le_div_iff₀ hd']
  linarith

/-- The floor is reached: when all uploads but those of one client are always lost, the run converges to that client's own
minimiser, whatever the others' data say. -/
theorem C124_lost_clients_bias (hf : IsFed n server clients) (hup : ServerUp w server) {c : A} (hc : c ∈ clients)
    (hsm : ClientsSmooth [c] f g L m) (hm : 0 < m) (hmL : m ≤ L) (hG : ∀ x ω, (G c x ω).1 = g c x) (hx : g c xs = 0)
    (hact : ∀ c ∈ clients, ∀ it ω, (w.isActive c it ω).1 = true)
    (hex : Fed.Exact w server) (hexc : Fed.Exact w c) (hl : Fed.Lossless w server) (hlc : Fed.Lossless w c)
    (hlost : ∀ c' ∈ clients, c' ≠ c → AlwaysDropped w c')
    (hη : 0 < η) (hμ : 0 ≤ μ) (hs : η * (L + μ) ≤ 1) {K : Nat} (hK : 0 < K) (x0 : A → Vec d)
    (s : FSys A (Vec d) Ω (Vec d) (Vec d)) (δ : ℝ) (hδ : 0 < δ) :
    ∃ k, ∀ N, k ≤ N → ∃ s', (fedProx G η μ K).after none server w n x0 s N = .ok s' ∧ ‖s'.srv - xs‖ ≤ δ := by
  apply C124_converges (S := [c]) (f := f) (g := g) (L := L) (m := m) (n := n) (clients := clients) ⟨hup, ?_, hsm, ?_, ?_, distorts_exact hex, ?_, le_rfl, le_rfl, le_rfl, le_rfl⟩ hf hm hmL hη hμ hs hK none
    (fun f e => by cases e) x0 s ?_ δ hδ
  · intro c' hc' hn
    exact hlost c' hc' (by simpa using hn)
  · intro c' hc' x ω
    rw [List.mem_singleton] at hc'
    subst hc'
    simp [hG]
  · intro c' hc'
    rw [List.mem_singleton] at hc'
    subst hc'
    simp [hx]
  · intro c' hc'
    rw [List.mem_singleton] at hc'
    subst hc'
    exact distorts_exact hexc
  · intro k
    exact ⟨k, le_rfl, C124_heard hf hup η μ K hact hc hl hlc x0 s k⟩

end

/-! ### concrete cases -/

/-- two clients pulling to different points, client 1's uploads lost: FedProx ends at client 2's point, not at the midpoint -/
example {d : Nat} (b : Nat → Vec d) (x0 : Nat → Vec d) (s : FSys Nat (Vec d) Unit (Vec d) (Vec d)) :=
  C124_lost_clients_bias (n := fedNet2) (server := 0) (clients := [1, 2]) (c := 2) (G := pullTo b) (xs := b 2) (η := 1 / 4) (μ := 1) (K := 3)
    (w := lossy1 (Vec d)) fedNet2_isFed (fun _ _ => rfl) (by simp) (springs_clients b [2]) one_pos le_rfl (fun _ _ => rfl) (sub_self _)
    (fun _ _ _ _ => rfl) (lossy1_exact _ 0) (lossy1_exact _ 2) (lossy1_lossless _ 0 (by decide)) (lossy1_lossless _ 2 (by decide))
    (fun c hc h => by
      have : c = 1 := by simp at hc; omega
      subst this; exact lossy1_dropped _) (by norm_num) (by norm_num) (by norm_num) (by norm_num) x0 s

/-- all messages rounded to multiples of `step` -/
noncomputable def rounding (d : Nat) (step : ℝ) : World Nat (Vec d) Unit :=
  { lossy1 (Vec d) with compress := fun _ v _ => (WithLp.toLp 2 (Compression.quantize step v.ofLp), ()) }

/-- quantized FedAvg with a common minimiser `b`, client 1 lost: within `√d step / 2 · (1 + r) / (1 - r)` of `b` in the end -/
example {d : Nat} (b : Vec d) (x0 : Nat → Vec d) (s : FSys Nat (Vec d) Unit (Vec d) (Vec d)) (N : Nat) :=
  C124_fedavg (n := fedNet2) (server := 0) (clients := [1, 2]) (S := [1, 2]) (G := pullTo (fun _ => b)) (xs := b) (η := 1 / 2) (K := 3)
    (w := rounding d (1 / 100)) (f := springs (fun _ => b)) (g := fun _ x => x - b) (L := 1) (m := 1) (e := 0) (h := 0)
    (ε := Real.sqrt d * ((1 / 100) / 2))
    ⟨fun _ _ => rfl, fun c hc h => absurd hc h, springs_clients (fun _ => b) _, fun _ _ _ _ => by simp [pullTo], fun _ _ => by simp,
      C124_quantization (step := 1 / 100) (by norm_num [Compression.quantCtor]) (fun _ _ => rfl) (fun _ _ _ => rfl),
      fun _ _ => C124_quantization (step := 1 / 100) (by norm_num [Compression.quantCtor]) (fun _ _ => rfl) (fun _ _ _ => rfl),
      le_rfl, by positivity, le_rfl, le_rfl⟩
    fedNet2_isFed one_pos le_rfl (by norm_num) (by norm_num) (by norm_num) none (fun f e => by cases e) x0 s N

/-- stochastic quantization with `l` levels, all draws 0 -/
noncomputable def stochastic (d l : Nat) : World Nat (Vec d) Unit :=
  { lossy1 (Vec d) with compress := fun _ v _ => (WithLp.toLp 2 (Compression.stochQuantize l (fun _ => 0) v.ofLp), ()) }

/-- relative distortion: 8 levels for 4 entries, i.e. `ρ = 1/4`; FedProx with penalty 1 and 2 steps of size 1/4 still contracts -/
example (b : Nat → Vec 4) (x0 : Nat → Vec 4) (s : FSys Nat (Vec 4) Unit (Vec 4) (Vec 4)) (N : Nat) :=
  C124_run (n := fedNet2) (server := 0) (clients := [1, 2]) (S := [2]) (G := pullTo b) (xs := b 2) (η := 1 / 4) (μ := 1) (K := 2) (ρ := 1 / 4)
    (w := stochastic 4 8) (f := springs b) (g := fun i x => x - b i) (L := 1) (m := 1) (e := 0) (h := 0) (ε := 0)
    ⟨fun _ _ => rfl, fun c hc h => by
        have : c = 1 := by simp at hc h; omega
        subst this; exact fun _ => rfl,
      springs_clients b _, fun _ _ _ _ => by simp [pullTo], fun c hc => by simp at hc; subst hc; simp,
      by
        have := C124_stochastic_quantization (w := stochastic 4 8) (a := 0) (l := 8) (by norm_num) (fun v _ => ⟨fun _ => 0, rfl⟩) (fun _ _ _ => rfl)
        have e4 : Real.sqrt ((4 : ℕ) : ℝ) / ((8 : ℕ) : ℝ) = 1 / 4 := by
          rw [show (((4 : ℕ) : ℝ)) = 2 ^ 2 by norm_num, Real.sqrt_sq (by norm_num)]; norm_num
        rwa [e4] at this,
      fun c _ => by
        have := C124_stochastic_quantization (w := stochastic 4 8) (a := c) (l := 8) (by norm_num) (fun v _ => ⟨fun _ => 0, rfl⟩) (fun _ _ _ => rfl)
        have e4 : Real.sqrt ((4 : ℕ) : ℝ) / ((8 : ℕ) : ℝ) = 1 / 4 := by
          rw [show (((4 : ℕ) : ℝ)) = 2 ^ 2 by norm_num, Real.sqrt_sq (by norm_num)]; norm_num
        rwa [e4] at this,
      by norm_num, le_rfl, le_rfl, le_rfl⟩
    fedNet2_isFed one_pos le_rfl (by norm_num) (by norm_num) (by norm_num) (by norm_num) (by norm_num [roundRate, slowRate]) none
    (fun f e => by cases e) x0 s N

/-- every message is displaced by `u` -/
noncomputable def shifting {d : Nat} (u : Vec d) : World Nat (Vec d) Unit :=
  { lossy1 (Vec d) with compress := fun _ v _ => (v + u, ()) }

/-- displaced messages, one lossy client, a common minimiser: the floor is proportional to the displacement -/
example {d : Nat} (u b : Vec d) (x0 : Nat → Vec d) (s : FSys Nat (Vec d) Unit (Vec d) (Vec d)) (N : Nat) :=
  C124_fedavg (n := fedNet2) (server := 0) (clients := [1, 2]) (S := [1, 2]) (G := pullTo (fun _ => b)) (xs := b) (η := 1 / 2) (K := 3)
    (w := shifting u) (f := springs (fun _ => b)) (g := fun _ x => x - b) (L := 1) (m := 1) (e := 0) (h := 0) (ε := ‖u‖)
    ⟨fun _ _ => rfl, fun c hc h => absurd hc h, springs_clients (fun _ => b) _, fun _ _ _ _ => by simp [pullTo], fun _ _ => by simp,
      fun v v' ha => by obtain ⟨ω, k, j, rfl⟩ := ha; simp [shifting, lossy1, sentMsg],
      fun _ _ v v' ha => by obtain ⟨ω, k, j, rfl⟩ := ha; simp [shifting, lossy1, sentMsg], le_rfl, norm_nonneg _, le_rfl, le_rfl⟩
    fedNet2_isFed one_pos le_rfl (by norm_num) (by norm_num) (by norm_num) none (fun f e => by cases e) x0 s N

end Verif.Props
