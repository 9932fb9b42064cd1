import Verif.Props.FedRate
import Verif.Props.FedLossy
set_option linter.unusedSectionVars false
/-!
# C129: what FedNova converges to

Plain FedNova: no momentum, no proximal term, no server momentum (`Plainly`). `τ c` is the number of local steps of client `c`, `counts c`
its number of samples.
-/
namespace Verif.Props
open Verif Verif.Fed NetState Verif.Costs Verif.Consensus
open scoped InnerProductSpace

/-- SPEC: the options of FedNova that are switched off here -/
structure Plainly (p : NovaParams) : Prop where
  momentum : p.useMomentum = false
  prox : p.useProx = false
  server : p.useServerMomentum = false

section
variable {A Ω : Type} [DecidableEq A] {d : Nat}
variable {n : Net A} {server : A} {clients : List A}

/-- SPEC: `xs` minimises the sum of the costs weighted by the numbers of samples: the mean loss over all samples -/
def BestForSamples (clients : List A) (counts : A → Nat) (f : A → Vec d → ℝ) (xs : Vec d) : Prop :=
  ∀ y, (clients.map (fun i => (counts i : ℝ) * f i xs)).sum ≤ (clients.map (fun i => (counts i : ℝ) * f i y)).sum

/-- SPEC: the round of FedNova over the clients `R` -/
noncomputable def novaRound (R : List A) (counts τ : A → Nat) (g : A → Vec d → Vec d) (η : ℝ) (x : Vec d) : Vec d :=
  let N := (R.map (fun c => (counts c : ℝ))).sum
  let eff := (R.map (fun c => (counts c : ℝ) / N * (τ c : ℝ))).sum
  x - (R.map (fun c => ((counts c : ℝ) / N * (eff / (τ c : ℝ))) • (x - gdSteps (g c) η (τ c) x))).sum

theorem samples_smooth {f : A → Vec d → ℝ} {g : A → Vec d → Vec d} {L m : ℝ} (h : ClientsSmooth clients f g L m) (hm : 0 < m)
    (counts : A → Nat) (hc : ∀ c ∈ clients, 0 < counts c) :
    ClientsSmooth clients (fun i x => (counts i : ℝ) * f i x) (fun i x => (counts i : ℝ) • g i x) ((((clients.map counts).sum + 1 : Nat) : ℝ) * L) m := by
  obtain ⟨M, hM⟩ : ∃ M : Nat, M = (clients.map counts).sum + 1 := ⟨_, rfl⟩
  have hle : ∀ c ∈ clients, (counts c : ℝ) ≤ M := by
    intro c hc
    have : counts c ≤ (clients.map counts).sum := List.le_sum_of_mem (List.mem_map.2 ⟨c, hc, rfl⟩)
    exact_mod_cast (by omega : counts c ≤ M)
  have hMpos : (0 : ℝ) < M := by exact_mod_cast (by omega : 0 < M)
  rw [← hM]
  · refine ⟨mul_pos hMpos h.Lpos, fun i hi x y => ?_, fun i hi x y => ?_⟩
    · have h1 := mul_le_mul_of_nonneg_left (h.upper i hi x y) (Nat.cast_nonneg (α := ℝ) (counts i))
      rw [inner_smul_left]
      have h2 : (counts i : ℝ) * (L / 2 * ‖y - x‖ ^ 2) ≤ M * (L / 2 * ‖y - x‖ ^ 2) :=
        mul_le_mul_of_nonneg_right (hle i hi) (by have := h.Lpos; positivity)
      simp only [conj_trivial]
      linarith
    · have h1 := mul_le_mul_of_nonneg_left (h.lower i hi x y) (Nat.cast_nonneg (α := ℝ) (counts i))
      rw [inner_smul_left]
      have h0 : (1 : ℝ) ≤ counts i := by exact_mod_cast hc i hi
      have h2 : 1 * (m / 2 * ‖y - x‖ ^ 2) ≤ (counts i : ℝ) * (m / 2 * ‖y - x‖ ^ 2) :=
        mul_le_mul_of_nonneg_right h0 (by positivity)
      simp only [conj_trivial]
      linarith

theorem best_samples_iff {f : A → Vec d → ℝ} {g : A → Vec d → Vec d} {L m : ℝ} (h : ClientsSmooth clients f g L m) (hm : 0 < m)
    (counts : A → Nat) (hc : ∀ c ∈ clients, 0 < counts c) (xs : Vec d) :
    BestForSamples clients counts f xs ↔ (clients.map (fun i => (counts i : ℝ) • g i xs)).sum = 0 :=
  best_iff (samples_smooth h hm counts hc) hm xs

/-! ### one client -/

theorem grad_lip {f : Vec d → ℝ} {g : Vec d → Vec d} {L m : ℝ} (hu : Upper f g L) (hl : Lower f g m) (hm : 0 < m) (hL : 0 < L) (x y : Vec d) :
    ‖g x - g y‖ ≤ L * ‖x - y‖ := by
  have h1 := cocoercive hL hu (hl.mono hm.le) x y
  have h2 := real_inner_le_norm (g x - g y) (x - y)
  by_cases h0 : ‖g x - g y‖ = 0
  · rw [h0]; positivity
  · have hp : 0 < ‖g x - g y‖ := lt_of_le_of_ne (norm_nonneg _) (Ne.symm h0)
    have h3 : 1 / L * ‖g x - g y‖ ^ 2 ≤ ‖g x - g y‖ * ‖x - y‖ := h1.trans h2
    have h4 : ‖g x - g y‖ * (1 / L * ‖g x - g y‖) ≤ ‖g x - g y‖ * ‖x - y‖ := by
      calc ‖g x - g y‖ * (1 / L * ‖g x - g y‖) = 1 / L * ‖g x - g y‖ ^ 2 := by ring
        _ ≤ _ := h3
    have h5 := le_of_mul_le_mul_left h4 hp
    rw [one_div, inv_mul_le_iff₀ hL] at h5
    exact h5

/-- what `K` local steps do differs from `K` steps along the first gradient by a term of second order in the step size -/
theorem local_drift {f : Vec d → ℝ} {g : Vec d → Vec d} {L m η : ℝ} (hu : Upper f g L) (hl : Lower f g m) (hm : 0 < m) (hL : 0 < L)
    (hmL : m ≤ L) (hη : 0 < η) (hs : η * L ≤ 1) (K : Nat) (x : Vec d) :
    ‖(x - gdSteps g η K x) - ((K : ℝ) * η) • g x‖ ≤ (K : ℝ) * ((K : ℝ) - 1) / 2 * η ^ 2 * L * ‖g x‖ := by
  induction K generalizing x with
  | zero => simp [gdSteps]
  | succ K ih =>
    obtain ⟨y, hy⟩ : ∃ y, y = x - η • g x := ⟨_, rfl⟩
    have h1 := ih y
    have hgy : ‖g y - g x‖ ≤ L * (η * ‖g x‖) := by
      have := grad_lip hu hl hm hL y x
      have e : y - x = -(η • g x) := by rw [hy]; abel
      rw [e, norm_neg, norm_smul, Real.norm_of_nonneg hη.le] at this
      exact this
    have hshrink : ‖g y‖ ≤ ‖g x‖ := by
      have h2 := prox_gd_contract (μ := 0) hu hl hm hmL hη le_rfl (by rw [add_zero]; exact hs) x y
      rw [mul_zero, sub_zero, one_smul, zero_add] at h2
      have e : (x - y) - η • (g x - g y) = η • g y := by rw [hy]; module
      have e2 : x - y = η • g x := by rw [hy]; abel
      rw [e, e2, norm_smul, norm_smul, Real.norm_of_nonneg hη.le] at h2
      have hηm : 0 ≤ η * m := by positivity
      have h3 : (1 - η * m) * (η * ‖g x‖) ≤ η * ‖g x‖ := by
        have : 0 ≤ η * m * (η * ‖g x‖) := by positivity
        linarith
      exact le_of_mul_le_mul_left (h2.trans h3) hη
    have e : (x - gdSteps g η (K + 1) x) - (((K + 1 : Nat) : ℝ) * η) • g x =
        ((y - gdSteps g η K y) - ((K : ℝ) * η) • g y) + ((K : ℝ) * η) • (g y - g x) := by
      rw [gdSteps, ← hy]
      have : x = y + η • g x := by rw [hy]; abel
      generalize gdSteps g η K y = s
      nth_rewrite 1 [this]
      push_cast
      module
    rw [e]
    have hK0 : (0 : ℝ) ≤ K := Nat.cast_nonneg K
    have hcoef : 0 ≤ (K : ℝ) * ((K : ℝ) - 1) / 2 * η ^ 2 * L := by
      have : (0 : ℝ) ≤ (K : ℝ) * ((K : ℝ) - 1) := by
        rcases Nat.eq_zero_or_pos K with h | h
        · rw [h]; simp
        · have : (1 : ℝ) ≤ K := by exact_mod_cast h
          exact mul_nonneg hK0 (by linarith)
      positivity
    have t1 := h1.trans (mul_le_mul_of_nonneg_left hshrink hcoef)
    have t2 : ‖((K : ℝ) * η) • (g y - g x)‖ ≤ (K : ℝ) * η * (L * (η * ‖g x‖)) := by
      rw [norm_smul, Real.norm_of_nonneg (by positivity)]
      exact mul_le_mul_of_nonneg_left hgy (by positivity)
    have t3 := norm_add_le ((y - gdSteps g η K y) - ((K : ℝ) * η) • g y) (((K : ℝ) * η) • (g y - g x))
    push_cast
    nlinarith

/-! ### one round -/

theorem wsum_norm_le (l : List A) (w : A → ℝ) (u : A → Vec d) (B : ℝ) (h : ∀ c ∈ l, 0 ≤ w c ∧ ‖u c‖ ≤ B) :
    ‖(l.map (fun c => w c • u c)).sum‖ ≤ (l.map w).sum * B := by
  induction l with
  | nil => simp
  | cons a t ih =>
    rw [List.map_cons, List.sum_cons, List.map_cons, List.sum_cons, add_mul]
    refine (norm_add_le _ _).trans (add_le_add ?_ (ih (fun c hc => h c (List.mem_cons_of_mem _ hc))))
    rw [norm_smul, Real.norm_of_nonneg (h a (by simp)).1]
    exact mul_le_mul_of_nonneg_left (h a (by simp)).2 (h a (by simp)).1

theorem wsum_const (l : List A) (w : A → ℝ) (v : Vec d) : (l.map (fun c => w c • v)).sum = (l.map w).sum • v := by
  induction l with
  | nil => simp
  | cons a t ih => rw [List.map_cons, List.sum_cons, ih, List.map_cons, List.sum_cons, add_smul]

theorem wsum_add (l : List A) (u v : A → Vec d) : (l.map (fun c => u c + v c)).sum = (l.map u).sum + (l.map v).sum := by
  induction l with
  | nil => simp
  | cons a t ih => simp only [List.map_cons, List.sum_cons, ih]; abel

theorem wsum_scale (l : List A) (r : ℝ) (u : A → Vec d) : (l.map (fun c => r • u c)).sum = r • (l.map u).sum := by
  induction l with
  | nil => simp
  | cons a t ih => simp only [List.map_cons, List.sum_cons, ih, smul_add]

/-- SPEC: what one round of FedNova needs: clients that made between 1 and `D + 1` local steps, with data, and a step size for them -/
structure NovaReady (R : List A) (counts τ : A → Nat) (f : A → Vec d → ℝ) (g : A → Vec d → Vec d) (L m η : ℝ) (D : Nat) : Prop where
  smooth : ClientsSmooth R f g L m
  mpos : 0 < m
  mL : m ≤ L
  step : 0 < η
  data : ∀ c ∈ R, 0 < counts c
  steps : ∀ c ∈ R, 1 ≤ τ c ∧ τ c ≤ D + 1
  small : ((D : ℝ) + 1) * η * L ≤ 1
  drift : η * L ^ 2 * D ≤ m

theorem nova_close {R : List A} (hR : R ≠ []) {counts τ : A → Nat} {f : A → Vec d → ℝ} {g : A → Vec d → Vec d} {L m η : ℝ} {D : Nat}
    (h : NovaReady R counts τ f g L m η D) (xs : Vec d) (hxs : (R.map (fun c => (counts c : ℝ) • g c xs)).sum = 0) (b : ℝ)
    (hb : ∀ c ∈ R, ‖g c xs‖ ≤ b) (x : Vec d) :
    ∃ t, η * m / 2 ≤ t ∧ t ≤ 1 ∧ ‖novaRound R counts τ g η x - xs‖ ≤ (1 - t) * ‖x - xs‖ + t * (η * L * D * b / m) := by
  have hm := h.mpos
  have hL := h.smooth.Lpos
  have hη := h.step
  have hD : (0 : ℝ) ≤ D := Nat.cast_nonneg D
  obtain ⟨N, hN⟩ : ∃ N, N = (R.map (fun c => (counts c : ℝ))).sum := ⟨_, rfl⟩
  have hNpos : 0 < N := by
    obtain ⟨c, t, rfl⟩ : ∃ c t, R = c :: t := by
      cases R with
      | nil => exact absurd rfl hR
      | cons c t => exact ⟨c, t, rfl⟩
    rw [hN, List.map_cons, List.sum_cons]
    have h1 : (0 : ℝ) < counts c := by exact_mod_cast h.data c (by simp)
    have h2 : 0 ≤ (t.map (fun c => (counts c : ℝ))).sum := List.sum_nonneg (by
      intro y hy; obtain ⟨c, _, rfl⟩ := List.mem_map.1 hy; positivity)
    linarith
  obtain ⟨w, hw⟩ : ∃ w : A → ℝ, w = fun c => (counts c : ℝ) / N := ⟨_, rfl⟩
  have hwpos : ∀ c, 0 ≤ w c := fun c => by rw [hw]; positivity
  have hdiv : ∀ (l : List A), (l.map w).sum = (l.map (fun c => (counts c : ℝ))).sum / N := by
    intro l
    induction l with
    | nil => simp
    | cons a t ih => rw [List.map_cons, List.sum_cons, ih, List.map_cons, List.sum_cons, add_div, hw]
  have hw1 : (R.map w).sum = 1 := by rw [hdiv, ← hN, div_self hNpos.ne']
  obtain ⟨e, he⟩ : ∃ e, e = (R.map (fun c => w c * (τ c : ℝ))).sum := ⟨_, rfl⟩
  have hbounds : ∀ l : List A, (∀ c ∈ l, c ∈ R) → (l.map w).sum ≤ (l.map (fun c => w c * (τ c : ℝ))).sum ∧
      (l.map (fun c => w c * (τ c : ℝ))).sum ≤ (l.map w).sum * ((D : ℝ) + 1) := by
    intro l
    induction l with
    | nil => intro _; simp
    | cons a t ih =>
      intro ha
      obtain ⟨i1, i2⟩ := ih (fun c hc => ha c (List.mem_cons_of_mem _ hc))
      obtain ⟨s1, s2⟩ := h.steps a (ha a (by simp))
      have s1' : (1 : ℝ) ≤ τ a := by exact_mod_cast s1
      have s2' : (τ a : ℝ) ≤ (D : ℝ) + 1 := by exact_mod_cast s2
      simp only [List.map_cons, List.sum_cons]
      have k1 := mul_le_mul_of_nonneg_left s1' (hwpos a)
      have k2 := mul_le_mul_of_nonneg_left s2' (hwpos a)
      constructor <;> linarith
  obtain ⟨b1, b2⟩ := hbounds R (fun c hc => hc)
  rw [hw1, ← he] at b1
  rw [hw1, one_mul, ← he] at b2
  have hepos : 0 < e := by linarith
  have heL : e * η * L ≤ 1 := by
    have : e * (η * L) ≤ ((D : ℝ) + 1) * (η * L) := mul_le_mul_of_nonneg_right b2 (by positivity)
    have := h.small
    nlinarith
  have heta : η * L ≤ 1 := by
    have : 1 * (η * L) ≤ e * (η * L) := mul_le_mul_of_nonneg_right b1 (by positivity)
    nlinarith
  -- the weighted gradients cancel
  have hzero : (R.map (fun c => w c • g c xs)).sum = 0 := by
    have e1 : ∀ l : List A, (l.map (fun c => w c • g c xs)).sum = (1 / N) • (l.map (fun c => (counts c : ℝ) • g c xs)).sum := by
      intro l
      induction l with
      | nil => simp
      | cons a t ih =>
        simp only [List.map_cons, List.sum_cons, ih, smul_add, smul_smul]
        rw [hw]
        congr 2
        ring
    rw [e1, hxs, smul_zero]
  obtain ⟨u, hu⟩ : ∃ u : A → Vec d, u = fun c => (x - xs) - (e / (τ c : ℝ)) • (x - gdSteps (g c) η (τ c) x) + (e * η) • g c xs := ⟨_, rfl⟩
  have hround : novaRound R counts τ g η x - xs = (R.map (fun c => w c • u c)).sum := by
    have e0 : novaRound R counts τ g η x = x - (R.map (fun c => (w c * (e / (τ c : ℝ))) • (x - gdSteps (g c) η (τ c) x))).sum := by
      unfold novaRound
      rw [he, hw, hN]
    have e1 : (R.map (fun c => w c • u c)).sum = (R.map (fun c => w c • (x - xs))).sum +
        ((R.map (fun c => (-1 : ℝ) • ((w c * (e / (τ c : ℝ))) • (x - gdSteps (g c) η (τ c) x)))).sum +
          (R.map (fun c => (e * η) • (w c • g c xs))).sum) := by
      rw [← wsum_add, ← wsum_add]
      congr 1
      refine List.map_congr_left (fun c _ => ?_)
      rw [hu]
      dsimp only
      module
    rw [e1, wsum_const, hw1, wsum_scale, wsum_scale, hzero, e0]
    module
  -- one client's share
  obtain ⟨Q, hQ⟩ : ∃ Q, Q = (1 - e * η * m) * ‖x - xs‖ + e * ((D : ℝ) / 2 * η ^ 2 * L * (L * ‖x - xs‖ + b)) := ⟨_, rfl⟩
  have hshare : ∀ c ∈ R, 0 ≤ w c ∧ ‖u c‖ ≤ Q := by
    intro c hc
    refine ⟨hwpos c, ?_⟩
    obtain ⟨s1, s2⟩ := h.steps c hc
    have s1' : (1 : ℝ) ≤ τ c := by exact_mod_cast s1
    have s2' : (τ c : ℝ) ≤ (D : ℝ) + 1 := by exact_mod_cast s2
    have hτ : (0 : ℝ) < τ c := by linarith
    have hcu := h.smooth.upper c hc
    have hcl := h.smooth.lower c hc
    have k1 := prox_gd_contract (μ := 0) (η := e * η) hcu hcl hm h.mL (by positivity) le_rfl (by rw [add_zero]; exact heL) x xs
    rw [mul_zero, sub_zero, one_smul, zero_add] at k1
    have k2 := local_drift hcu hcl hm hL h.mL hη heta (τ c) x
    have hgx : ‖g c x‖ ≤ L * ‖x - xs‖ + b := by
      have a1 := grad_lip hcu hcl hm hL x xs
      have a2 := norm_add_le (g c x - g c xs) (g c xs)
      rw [sub_add_cancel] at a2
      linarith [hb c hc]
    have hsplit : u c = ((x - xs) - (e * η) • (g c x - g c xs)) +
        (-(e / (τ c : ℝ))) • ((x - gdSteps (g c) η (τ c) x) - ((τ c : ℝ) * η) • g c x) := by
      rw [hu]
      dsimp only
      have : (-(e / (τ c : ℝ))) • (((τ c : ℝ) * η) • g c x) = (-(e * η)) • g c x := by
        rw [smul_smul]; congr 1; field_simp
      rw [smul_sub (-(e / (τ c : ℝ))), this]
      module
    have k3 : ‖(-(e / (τ c : ℝ))) • ((x - gdSteps (g c) η (τ c) x) - ((τ c : ℝ) * η) • g c x)‖ ≤
        e * ((D : ℝ) / 2 * η ^ 2 * L * (L * ‖x - xs‖ + b)) := by
      rw [norm_smul, norm_neg, Real.norm_of_nonneg (by positivity)]
      have a1 := mul_le_mul_of_nonneg_left k2 (by positivity : 0 ≤ e / (τ c : ℝ))
      refine a1.trans ?_
      have a2 : e / (τ c : ℝ) * ((τ c : ℝ) * ((τ c : ℝ) - 1) / 2 * η ^ 2 * L * ‖g c x‖) = e * (((τ c : ℝ) - 1) / 2 * η ^ 2 * L * ‖g c x‖) := by
        field_simp
      rw [a2]
      refine mul_le_mul_of_nonneg_left ?_ hepos.le
      have a3 : ((τ c : ℝ) - 1) / 2 * η ^ 2 * L ≤ (D : ℝ) / 2 * η ^ 2 * L := by
        have : ((τ c : ℝ) - 1) / 2 ≤ (D : ℝ) / 2 := by linarith
        exact mul_le_mul_of_nonneg_right (mul_le_mul_of_nonneg_right this (sq_nonneg η)) hL.le
      exact mul_le_mul a3 hgx (norm_nonneg _) (by positivity)
    rw [hsplit, hQ]
    exact (norm_add_le _ _).trans (add_le_add k1 k3)
  have hmain := wsum_norm_le R w u Q hshare
  rw [hw1, one_mul, ← hround] at hmain
  refine ⟨e * η * m / 2, ?_, ?_, hmain.trans ?_⟩
  · have : 1 * (η * m) ≤ e * (η * m) := mul_le_mul_of_nonneg_right b1 (by positivity)
    nlinarith
  · have : e * η * m ≤ e * η * L := mul_le_mul_of_nonneg_left h.mL (by positivity)
    have : 0 < e * η * m := by positivity
    linarith
  · rw [hQ]
    have hdr := mul_le_mul_of_nonneg_left h.drift (by positivity : 0 ≤ e * η / 2 * ‖x - xs‖)
    have e1 : e * η * m / 2 * (η * L * D * b / m) = e * η / 2 * (η * L * D * b) := by field_simp
    rw [e1]
    nlinarith

theorem NovaReady.subset {R S : List A} {counts τ : A → Nat} {f : A → Vec d → ℝ} {g : A → Vec d → Vec d} {L m η : ℝ} {D : Nat}
    (h : NovaReady S counts τ f g L m η D) (hs : ∀ c ∈ R, c ∈ S) : NovaReady R counts τ f g L m η D :=
  ⟨⟨h.smooth.Lpos, fun i hi => h.smooth.upper i (hs i hi), fun i hi => h.smooth.lower i (hs i hi)⟩, h.mpos, h.mL, h.step,
    fun c hc => h.data c (hs c hc), fun c hc => h.steps c (hs c hc), h.small, h.drift⟩

theorem novaRound_perm {R S : List A} (h : R.Perm S) (counts τ : A → Nat) (g : A → Vec d → Vec d) (η : ℝ) (x : Vec d) :
    novaRound R counts τ g η x = novaRound S counts τ g η x := by
  have e1 : (R.map (fun c => (counts c : ℝ))).sum = (S.map (fun c => (counts c : ℝ))).sum := (h.map _).sum_eq
  unfold novaRound
  rw [e1]
  have e2 : (R.map (fun c => (counts c : ℝ) / (S.map (fun c => (counts c : ℝ))).sum * (τ c : ℝ))).sum =
      (S.map (fun c => (counts c : ℝ) / (S.map (fun c => (counts c : ℝ))).sum * (τ c : ℝ))).sum := (h.map _).sum_eq
  dsimp only
  rw [e2, (h.map _).sum_eq]

/-! ### the algorithm -/

theorem plain_coeff {p : NovaParams} (hp : Plainly p) (k : Nat) : (novaCoeff p k).2 = (k : ℝ) := by
  induction k with
  | zero => simp [novaCoeff]
  | succ k ih => simp only [novaCoeff, hp.momentum, hp.prox, ih]; push_cast; simp

theorem plain_local {p : NovaParams} (hp : Plainly p) (G : Grad A Ω (Vec d)) (g : A → Vec d → Vec d) (hg : ∀ c x ω, (G c x ω).1 = g c x)
    (τ : A → Nat) (c : A) (x : Vec d) (ω : Ω) : (novaLocal p G τ c x ω).1.x = gdSteps (g c) p.η (τ c) x := by
  rw [← localSgd_det G g hg p.η (τ c) c x ω]
  unfold novaLocal localSgd
  have : ∀ K (v : NovaLoop (Vec d)) ω, (iterW (novaBody p G c x) K v ω).1.x =
      (iterW (fun x ω => let g := G c x ω; (x - p.η • g.1, g.2)) K v.x ω).1 := by
    intro K
    induction K with
    | zero => intro v ω; rfl
    | succ K ih => intro v ω; simp only [iterW]; rw [ih]; simp [novaBody, hp.momentum, hp.prox]
  exact this _ _ _

/-- Over channels that do not change messages, whatever is lost and whoever is selected or inactive, an iteration of plain FedNova applies
the documented round of exactly the clients both of whose uploads arrived, or keeps the model if there are none. -/
theorem C129_round {p : NovaParams} (hp : Plainly p) (G : Grad A Ω (Vec d)) (g : A → Vec d → Vec d) (hg : ∀ c x ω, (G c x ω).1 = g c x)
    (τ counts : A → Nat) (hτ : ∀ c ∈ clients, 1 ≤ τ c) (w : World A (Arr (Vec d)) Ω) (hf : IsFed n server clients) (hup : ServerUp w server)
    (hex : ∀ a ∈ server :: clients, Fed.Exact w a) (sel : Select A Ω) (hsel : SelOK sel) (k : Int)
    (s : FSys A (Arr (Vec d)) Ω (Vec d) (NovaSrv (Vec d))) :
    ∃ s', iter (fedNova p G τ counts) sel server w n k s = .ok s' ∧ ∃ R : List A, R.Nodup ∧ (∀ c ∈ R, c ∈ clients) ∧
      (∀ c, c ∈ R ↔ (∃ u, (s'.net.inbox server).get c .normalizer = .ok u) ∧ (∃ u, (s'.net.inbox server).get c .cumGrad = .ok u)) ∧
      (R = [] → s'.srv.x = s.srv.x) ∧ (R ≠ [] → s'.srv.x = novaRound R counts τ g p.η s.srv.x) := by
  obtain ⟨s', h1, R, hnd, hsub, hiff, hcl, h0, hne⟩ := C31_round_documented p hp.server G τ counts
    (fun c hc => by rw [plain_coeff hp]; exact_mod_cast hτ c hc) w hf hup hex sel hsel k s
  refine ⟨s', h1, R, hnd, hsub, hiff, h0, fun hR => ?_⟩
  rw [hne hR]
  unfold novaRound
  dsimp only
  congr 2
  refine List.map_congr_left (fun c hc => ?_)
  obtain ⟨ω, hω⟩ := hcl c hc
  rw [hω, plain_local hp G g hg, plain_coeff hp]
  congr 3
  exact congrArg List.sum (List.map_congr_left fun a _ => by rw [plain_coeff hp])

/-- over an ideal network everyone is heard -/
theorem nova_all_heard {p : NovaParams} (hp : Plainly p) (G : Grad A Ω (Vec d)) (g : A → Vec d → Vec d) (hg : ∀ c x ω, (G c x ω).1 = g c x)
    (τ counts : A → Nat) (hτ : ∀ c ∈ clients, 1 ≤ τ c) (w : World A (Arr (Vec d)) Ω) (hf : IsFed n server clients) (hcl : clients ≠ [])
    (hi : FedIdeal w server clients) (k : Int) (s : FSys A (Arr (Vec d)) Ω (Vec d) (NovaSrv (Vec d))) :
    ∃ s', iter (fedNova p G τ counts) none server w n k s = .ok s' ∧ s'.srv.x = novaRound clients counts τ g p.η s.srv.x := by
  obtain ⟨s', h1, R, hnd, hsub, hiff, h0, hne⟩ := C129_round hp G g hg τ counts hτ w hf hi.up hi.exact_ none (fun f e => by cases e) k s
  obtain ⟨srv1, net', cli', nSel', selected, P, bc, ωs, hr, hiter⟩ := iter_spec (fedNova p G τ counts)
    (fun _ _ _ _ => by simp [fedNova]) (fun b srv => by simp [fedNova]) w hf hi.up none (fun f e => by cases e) k s
  have hnet : s'.net = net' := by
    rw [hiter] at h1
    cases ha : (fedNova p G τ counts).aggregate clients (net'.inbox server) P srv1 with
    | error e => rw [ha] at h1; cases h1
    | ok srv =>
      rw [ha] at h1
      have := Except.ok.inj h1
      rw [← this]
  have hselall : selected = clients := hr.all_active rfl hi.active
  have hPall : ∀ c ∈ clients, c ∈ P := by
    intro c hc
    by_contra hcP
    obtain ⟨ω, hω⟩ := hr.missed c (by rw [hselall]; exact hc) hcP
    rw [hi.lossless server (by simp) ω] at hω; cases hω
  have hRall : ∀ c, c ∈ R ↔ c ∈ clients := by
    intro c
    refine ⟨hsub c, fun hc => (hiff c).2 ?_⟩
    rw [hnet]
    obtain ⟨v1, _, e1⟩ := (hr.uploads c (hPall c hc) (.normalizer, Arr.number (novaLocal p G τ c (bc c).row0 (ωs c)).1.a)
      (by simp [fedNova])).lossless (hi.lossless c (by simp [hc]))
    obtain ⟨v2, _, e2⟩ := (hr.uploads c (hPall c hc) (.cumGrad, Arr.single (novaLocal p G τ c (bc c).row0 (ωs c)).1.cum)
      (by simp [fedNova])).lossless (hi.lossless c (by simp [hc]))
    exact ⟨⟨v1, (get_ok_iff _ _ _ _).2 e1⟩, ⟨v2, (get_ok_iff _ _ _ _).2 e2⟩⟩
  have hperm : R.Perm clients := (List.perm_ext_iff_of_nodup hnd (IsFed.clients_nodup hf)).2 hRall
  have hRne : R ≠ [] := by
    intro e
    rw [e] at hperm
    exact hcl (List.nil_perm.1 hperm)
  exact ⟨s', h1, by rw [hne hRne, novaRound_perm hperm]⟩

/-- **C129.** Over an ideal network plain FedNova comes linearly within `η L D b / m` of the model that minimises the mean loss over all
samples, whatever the numbers of local steps of the clients: `D + 1` bounds them and `b` the size of the clients' gradients there. -/
theorem C129_converges {f : A → Vec d → ℝ} {g : A → Vec d → Vec d} {L m : ℝ} {D : Nat} {p : NovaParams} (hp : Plainly p)
    (G : Grad A Ω (Vec d)) (hg : ∀ c x ω, (G c x ω).1 = g c x) (τ counts : A → Nat) (h : NovaReady clients counts τ f g L m p.η D)
    (w : World A (Arr (Vec d)) Ω) (hf : IsFed n server clients) (hcl : clients ≠ []) (hi : FedIdeal w server clients) (xs : Vec d)
    (hxs : BestForSamples clients counts f xs) (b : ℝ) (hb : ∀ c ∈ clients, ‖g c xs‖ ≤ b) (x0 : A → Arr (Vec d))
    (s : FSys A (Arr (Vec d)) Ω (Vec d) (NovaSrv (Vec d))) (k : Nat) :
    ∃ s', (fedNova p G τ counts).after none server w n x0 s k = .ok s' ∧
      ‖s'.srv.x - xs‖ ≤ (1 - p.η * m / 2) ^ k * ‖(x0 server).row0 - xs‖ + p.η * L * D * b / m := by
  have hm := h.mpos
  have hη := h.step
  have hb0 : 0 ≤ b := by
    cases clients with
    | nil => exact absurd rfl hcl
    | cons c t => exact (norm_nonneg _).trans (hb c (by simp))
  obtain ⟨F, hF⟩ : ∃ F, F = p.η * L * D * b / m := ⟨_, rfl⟩
  have hF0 : 0 ≤ F := by rw [hF]; have := h.smooth.Lpos; positivity
  rw [← hF]
  apply Fed.after_induction (n := n) (server := server) (fedNova p G τ counts) none w x0 s (fun k s' =>
    ‖s'.srv.x - xs‖ ≤ (1 - p.η * m / 2) ^ k * ‖(x0 server).row0 - xs‖ + F)
  · rw [pow_zero, one_mul]
    show ‖(x0 server).row0 - xs‖ ≤ _
    linarith
  · intro k s1 ih
    obtain ⟨s', h1, h2⟩ := nova_all_heard hp G g hg τ counts (fun c hc => (h.steps c hc).1) w hf hcl hi k s1
    refine ⟨s', h1, ?_⟩
    rw [h2]
    obtain ⟨t, t1, t2, t3⟩ := nova_close hcl h xs ((best_samples_iff h.smooth hm counts h.data xs).1 hxs) b hb s1.srv.x
    rw [← hF] at t3
    have hr0 : 0 ≤ 1 - p.η * m / 2 := by linarith
    have hpow : 0 ≤ (1 - p.η * m / 2) ^ k * ‖(x0 server).row0 - xs‖ := mul_nonneg (pow_nonneg hr0 k) (norm_nonneg _)
    have hstep : ‖novaRound clients counts τ g p.η s1.srv.x - xs‖ - F ≤ (1 - t) * (‖s1.srv.x - xs‖ - F) := by linarith
    by_cases hd : ‖s1.srv.x - xs‖ - F ≤ 0
    · have k1 := mul_nonneg (by linarith : 0 ≤ 1 - t) (neg_nonneg.2 hd)
      have k2 := mul_nonneg hr0 hpow
      rw [pow_succ]
      nlinarith
    · have hd' : 0 ≤ ‖s1.srv.x - xs‖ - F := le_of_lt (not_le.1 hd)
      have k1 := mul_le_mul_of_nonneg_right (by linarith : 1 - t ≤ 1 - p.η * m / 2) hd'
      have k2 := mul_le_mul_of_nonneg_left (by linarith : ‖s1.srv.x - xs‖ - F ≤ (1 - p.η * m / 2) ^ k * ‖(x0 server).row0 - xs‖) hr0
      have e : (1 - p.η * m / 2) ^ (k + 1) * ‖(x0 server).row0 - xs‖ =
          (1 - p.η * m / 2) * ((1 - p.η * m / 2) ^ k * ‖(x0 server).row0 - xs‖) := by rw [pow_succ]; ring
      rw [e]
      linarith

/-- There is exactly one such model. -/
theorem C129_optimum {f : A → Vec d → ℝ} {g : A → Vec d → Vec d} {L m : ℝ} (h : ClientsSmooth clients f g L m) (hm : 0 < m)
    (hcl : clients ≠ []) (counts : A → Nat) (hc : ∀ c ∈ clients, 0 < counts c) :
    ∃ xs, BestForSamples clients counts f xs ∧ (∀ y, BestForSamples clients counts f y → y = xs) ∧
      (clients.map (fun c => (counts c : ℝ) • g c xs)).sum = 0 := by
  obtain ⟨M, hM⟩ : ∃ M : Nat, M = (clients.map counts).sum + 1 := ⟨_, rfl⟩
  have hs := samples_smooth h hm counts hc
  obtain ⟨xs, h1, h2, h3⟩ := C80_optimum (n := (⟨clients, fun _ => [], []⟩ : Net A)) (hs.smooth hm) hcl
  exact ⟨xs, h1, h3, h2⟩

/-- With one local step per client, or when every client's cost is minimal at the same model, the limit is exact. -/
theorem C129_exact {f : A → Vec d → ℝ} {g : A → Vec d → Vec d} {L m : ℝ} {D : Nat} {p : NovaParams} (hp : Plainly p)
    (G : Grad A Ω (Vec d)) (hg : ∀ c x ω, (G c x ω).1 = g c x) (τ counts : A → Nat) (h : NovaReady clients counts τ f g L m p.η D)
    (w : World A (Arr (Vec d)) Ω) (hf : IsFed n server clients) (hcl : clients ≠ []) (hi : FedIdeal w server clients) (xs : Vec d)
    (hxs : BestForSamples clients counts f xs) (hcase : D = 0 ∨ ∀ c ∈ clients, g c xs = 0) (x0 : A → Arr (Vec d))
    (s : FSys A (Arr (Vec d)) Ω (Vec d) (NovaSrv (Vec d))) (k : Nat) :
    ∃ s', (fedNova p G τ counts).after none server w n x0 s k = .ok s' ∧
      ‖s'.srv.x - xs‖ ≤ (1 - p.η * m / 2) ^ k * ‖(x0 server).row0 - xs‖ := by
  have hb : ∃ b : ℝ, (∀ c ∈ clients, ‖g c xs‖ ≤ b) ∧ (D : ℝ) * b = 0 := by
    rcases hcase with h0 | h0
    · refine ⟨(clients.map (fun c => ‖g c xs‖)).sum, fun c hc => ?_, by rw [h0]; simp⟩
      exact List.single_le_sum (fun y hy => by obtain ⟨c, _, rfl⟩ := List.mem_map.1 hy; exact norm_nonneg _) _
        (List.mem_map.2 ⟨c, hc, rfl⟩)
    · exact ⟨0, fun c hc => by rw [h0 c hc]; simp, by simp⟩
  obtain ⟨b, hb1, hb2⟩ := hb
  obtain ⟨s', h1, h2⟩ := C129_converges hp G hg τ counts h w hf hcl hi xs hxs b hb1 x0 s k
  refine ⟨s', h1, ?_⟩
  have e : p.η * L * D * b / m = 0 := by
    rw [mul_assoc (p.η * L), hb2]; simp
  rw [e, add_zero] at h2
  exact h2

/-- The bias vanishes with the step size: for every accuracy all small enough step sizes reach it, from every start, although the numbers
of local steps differ between clients. -/
theorem C129_small_steps {f : A → Vec d → ℝ} {g : A → Vec d → Vec d} {L m : ℝ} (hsm : ClientsSmooth clients f g L m) (hm : 0 < m) (hmL : m ≤ L)
    (G : Grad A Ω (Vec d)) (hg : ∀ c x ω, (G c x ω).1 = g c x) (τ counts : A → Nat) (hτ : ∀ c ∈ clients, 1 ≤ τ c)
    (hc : ∀ c ∈ clients, 0 < counts c)
    (w : World A (Arr (Vec d)) Ω) (hf : IsFed n server clients) (hcl : clients ≠ []) (hi : FedIdeal w server clients) (xs : Vec d)
    (hxs : BestForSamples clients counts f xs) (ε : ℝ) (hε : 0 < ε) :
    ∃ η0 : ℝ, 0 < η0 ∧ ∀ p : NovaParams, Plainly p → 0 < p.η → p.η ≤ η0 →
      ∀ (x0 : A → Arr (Vec d)) (s : FSys A (Arr (Vec d)) Ω (Vec d) (NovaSrv (Vec d))), ∃ N : Nat, ∀ k ≥ N, ∃ s',
        (fedNova p G τ counts).after none server w n x0 s k = .ok s' ∧ ‖s'.srv.x - xs‖ ≤ ε := by
  have hL := hsm.Lpos
  obtain ⟨b, hb⟩ : ∃ b, b = (clients.map (fun c => ‖g c xs‖)).sum := ⟨_, rfl⟩
  have hb1 : ∀ c ∈ clients, ‖g c xs‖ ≤ b := fun c hc => by
    rw [hb]
    exact List.single_le_sum (fun y hy => by obtain ⟨c, _, rfl⟩ := List.mem_map.1 hy; exact norm_nonneg _) _
      (List.mem_map.2 ⟨c, hc, rfl⟩)
  have hb0 : 0 ≤ b := by
    rw [hb]
    exact List.sum_nonneg (fun y hy => by obtain ⟨c, _, rfl⟩ := List.mem_map.1 hy; exact norm_nonneg _)
  obtain ⟨D, hD⟩ : ∃ D : Nat, D = (clients.map τ).sum := ⟨_, rfl⟩
  have hτD : ∀ c ∈ clients, τ c ≤ D + 1 := fun c hc => by
    have : τ c ≤ (clients.map τ).sum := List.le_sum_of_mem (List.mem_map.2 ⟨c, hc, rfl⟩)
    omega
  have hD0 : (0 : ℝ) ≤ D := Nat.cast_nonneg D
  have p1 : 0 < ((D : ℝ) + 1) * L := by positivity
  have p2 : 0 < L ^ 2 * D + 1 := by positivity
  have p3 : 0 < L * D * b + 1 := by positivity
  refine ⟨min (1 / (((D : ℝ) + 1) * L)) (min (m / (L ^ 2 * D + 1)) (ε * m / 2 / (L * D * b + 1))), by positivity, ?_⟩
  intro p hp hη hle x0 s
  have l1 : p.η * (((D : ℝ) + 1) * L) ≤ 1 := (le_div_iff₀ p1).1 (hle.trans (min_le_left _ _))
  have l2 : p.η * (L ^ 2 * D + 1) ≤ m := (le_div_iff₀ p2).1 (hle.trans ((min_le_right _ _).trans (min_le_left _ _)))
  have l3 : p.η * (L * D * b + 1) ≤ ε * m / 2 := (le_div_iff₀ p3).1 (hle.trans ((min_le_right _ _).trans (min_le_right _ _)))
  have hready : NovaReady clients counts τ f g L m p.η D :=
    ⟨hsm, hm, hmL, hη, hc, fun c hc' => ⟨hτ c hc', hτD c hc'⟩, by nlinarith, by nlinarith⟩
  have hηm : 0 < p.η * m := by positivity
  have hηm1 : p.η * m ≤ 1 := by
    have a1 : p.η * m ≤ p.η * L := mul_le_mul_of_nonneg_left hmL hη.le
    have a2 : 0 ≤ p.η * ((D : ℝ) * L) := by positivity
    nlinarith
  have hfloor : p.η * L * D * b / m ≤ ε / 2 := by
    rw [div_le_iff₀ hm]
    nlinarith
  obtain ⟨N, hN⟩ := exists_pow_lt_of_lt_one (show 0 < ε / 2 / (‖(x0 server).row0 - xs‖ + 1) by positivity)
    (show 1 - p.η * m / 2 < 1 by linarith)
  refine ⟨N, fun k hk => ?_⟩
  obtain ⟨s', h1, h2⟩ := C129_converges hp G hg τ counts hready w hf hcl hi xs hxs b hb1 x0 s k
  refine ⟨s', h1, h2.trans ?_⟩
  have hr0 : 0 ≤ 1 - p.η * m / 2 := by linarith
  have hpow : (1 - p.η * m / 2) ^ k ≤ (1 - p.η * m / 2) ^ N := pow_le_pow_of_le_one hr0 (by linarith) hk
  have q1 : (1 - p.η * m / 2) ^ k * ‖(x0 server).row0 - xs‖ ≤ ε / 2 := by
    have a1 : (1 - p.η * m / 2) ^ k * (‖(x0 server).row0 - xs‖ + 1) ≤ ε / 2 := by
      have := (hpow.trans_lt hN).le
      rwa [le_div_iff₀ (by positivity)] at this
    have a2 : 0 ≤ (1 - p.η * m / 2) ^ k := pow_nonneg hr0 k
    nlinarith
  linarith

/-- When all costs are minimal at one model, FedNova never moves away from it, whatever is lost and whoever takes part, and every iteration
in which a client was heard brings it closer by a fixed factor. -/
theorem C129_shared_round {f : A → Vec d → ℝ} {g : A → Vec d → Vec d} {L m : ℝ} {D : Nat} {p : NovaParams} (hp : Plainly p)
    (G : Grad A Ω (Vec d)) (hg : ∀ c x ω, (G c x ω).1 = g c x) (τ counts : A → Nat) (h : NovaReady clients counts τ f g L m p.η D)
    (w : World A (Arr (Vec d)) Ω) (hf : IsFed n server clients) (hup : ServerUp w server) (hex : ∀ a ∈ server :: clients, Fed.Exact w a)
    (sel : Select A Ω) (hsel : SelOK sel) (xs : Vec d) (hxs : ∀ c ∈ clients, g c xs = 0) (k : Int)
    (s : FSys A (Arr (Vec d)) Ω (Vec d) (NovaSrv (Vec d))) :
    ∃ s', iter (fedNova p G τ counts) sel server w n k s = .ok s' ∧ ‖s'.srv.x - xs‖ ≤ ‖s.srv.x - xs‖ ∧
      ∀ c, (∃ u, (s'.net.inbox server).get c .normalizer = .ok u) → (∃ u, (s'.net.inbox server).get c .cumGrad = .ok u) →
        ‖s'.srv.x - xs‖ ≤ (1 - p.η * m / 2) * ‖s.srv.x - xs‖ := by
  obtain ⟨s', h1, R, hnd, hsub, hiff, h0, hne⟩ := C129_round hp G g hg τ counts (fun c hc => (h.steps c hc).1) w hf hup hex sel hsel k s
  have hηm : 0 < p.η * m := mul_pos h.step h.mpos
  have key : R ≠ [] → ‖s'.srv.x - xs‖ ≤ (1 - p.η * m / 2) * ‖s.srv.x - xs‖ := by
    intro hR
    rw [hne hR]
    have hz : (R.map (fun c => (counts c : ℝ) • g c xs)).sum = 0 := by
      have : R.map (fun c => (counts c : ℝ) • g c xs) = R.map (fun _ => (0 : Vec d)) :=
        List.map_congr_left fun c hc => by rw [hxs c (hsub c hc), smul_zero]
      rw [this]
      simp
    obtain ⟨t, t1, t2, t3⟩ := nova_close hR (h.subset hsub) xs hz 0 (fun c hc => by rw [hxs c (hsub c hc)]; simp) s.srv.x
    rw [mul_zero, zero_div, mul_zero, add_zero] at t3
    exact t3.trans (mul_le_mul_of_nonneg_right (by linarith) (norm_nonneg _))
  refine ⟨s', h1, ?_, fun c hn hcg => ?_⟩
  · by_cases hR : R = []
    · rw [h0 hR]
    · refine (key hR).trans ?_
      have : 0 ≤ p.η * m / 2 * ‖s.srv.x - xs‖ := by positivity
      linarith
  · exact key (fun e => by
      have := (hiff c).2 ⟨hn, hcg⟩
      rw [e] at this
      cases this)

/-- ... so after any number of iterations it is no farther away than at the start -/
theorem C129_shared_run {f : A → Vec d → ℝ} {g : A → Vec d → Vec d} {L m : ℝ} {D : Nat} {p : NovaParams} (hp : Plainly p)
    (G : Grad A Ω (Vec d)) (hg : ∀ c x ω, (G c x ω).1 = g c x) (τ counts : A → Nat) (h : NovaReady clients counts τ f g L m p.η D)
    (w : World A (Arr (Vec d)) Ω) (hf : IsFed n server clients) (hup : ServerUp w server) (hex : ∀ a ∈ server :: clients, Fed.Exact w a)
    (sel : Select A Ω) (hsel : SelOK sel) (xs : Vec d) (hxs : ∀ c ∈ clients, g c xs = 0) (x0 : A → Arr (Vec d))
    (s : FSys A (Arr (Vec d)) Ω (Vec d) (NovaSrv (Vec d))) (k : Nat) :
    ∃ s', (fedNova p G τ counts).after sel server w n x0 s k = .ok s' ∧ ‖s'.srv.x - xs‖ ≤ ‖(x0 server).row0 - xs‖ := by
  apply Fed.after_induction (n := n) (server := server) (fedNova p G τ counts) sel w x0 s (fun _ s' =>
    ‖s'.srv.x - xs‖ ≤ ‖(x0 server).row0 - xs‖)
  · exact le_rfl
  · intro k s1 ih
    obtain ⟨s', h1, h2, _⟩ := C129_shared_round hp G hg τ counts h w hf hup hex sel hsel xs hxs k s1
    exact ⟨s', h1, h2.trans ih⟩

end

/-! ### examples -/

/-- plain FedNova with a given step size -/
def novaOf (η : ℝ) : NovaParams := ⟨η, false, 0, false, 0, false, 0⟩

theorem novaOf_plain (η : ℝ) : Plainly (novaOf η) := ⟨rfl, rfl, rfl⟩

/-- client 1 makes one local step, client 2 three; client 2 has three times the samples -/
def oneAndThree (c : Nat) : Nat := if c = 1 then 1 else 3

theorem unequal_ready {d : Nat} (v : Vec d) : NovaReady [1, 2] oneAndThree oneAndThree (unequal v) (unequalGrad v) 2 1 (1 / 8) 2 := by
  refine ⟨unequal_smooth v, one_pos, by norm_num, by norm_num, fun c hc => ?_, fun c hc => ?_, by norm_num, by norm_num⟩
  · unfold oneAndThree; split <;> norm_num
  · unfold oneAndThree; split <;> norm_num

/-- **C129.** FedNova and FedAvg do not minimise the same objective when clients have different numbers of samples: for two clients with 1
and 3 samples the mean loss over samples is minimal at `6/7 v`, the sum of the client losses, which FedAvg with one local step minimises,
at `2/3 v`. -/
theorem C129_other_objective_than_fedavg {d : Nat} (v : Vec d) (hv : v ≠ 0) : ∃ a b : Vec d, a ≠ b ∧
    (∀ y, BestForSamples [1, 2] oneAndThree (unequal v) y ↔ y = a) ∧ (∀ y, BestForClients [1, 2] (unequal v) y ↔ y = b) := by
  have hpos : ∀ c ∈ [1, 2], 0 < oneAndThree c := fun c _ => by unfold oneAndThree; split <;> norm_num
  refine ⟨(6 / 7 : ℝ) • v, (2 / 3 : ℝ) • v, fun e => hv ?_, fun y => ?_, fun y => ?_⟩
  · have h1 : ((6 / 7 : ℝ) - 2 / 3) • v = 0 := by rw [sub_smul, e, sub_self]
    exact (smul_eq_zero.1 h1).resolve_left (by norm_num)
  · rw [best_samples_iff (unequal_smooth v) one_pos oneAndThree hpos]
    have e : ([1, 2].map (fun i => (oneAndThree i : ℝ) • unequalGrad v i y)).sum = (7 : ℝ) • (y - (6 / 7 : ℝ) • v) := by
      simp [oneAndThree, unequalGrad]
      module
    rw [e, smul_eq_zero, sub_eq_zero]
    simp
  · rw [best_iff (unequal_smooth v) one_pos]
    have e : ([1, 2].map (fun i => unequalGrad v i y)).sum = (3 : ℝ) • (y - (2 / 3 : ℝ) • v) := by
      simp [unequalGrad]
      module
    rw [e, smul_eq_zero, sub_eq_zero]
    simp

theorem unequal_best {d : Nat} (v : Vec d) : BestForSamples [1, 2] oneAndThree (unequal v) ((6 / 7 : ℝ) • v) := by
  have hpos : ∀ c ∈ [1, 2], 0 < oneAndThree c := fun c _ => by unfold oneAndThree; split <;> norm_num
  rw [best_samples_iff (unequal_smooth v) one_pos oneAndThree hpos]
  simp [oneAndThree, unequalGrad]
  module

theorem unequal_bias {d : Nat} (v : Vec d) : ∀ c ∈ [1, 2], ‖unequalGrad v c ((6 / 7 : ℝ) • v)‖ ≤ ‖v‖ := by
  intro c hc
  have hn := norm_nonneg v
  simp only [List.mem_cons, List.not_mem_nil, or_false] at hc
  rcases hc with rfl | rfl
  · have e : unequalGrad v 1 ((6 / 7 : ℝ) • v) = (6 / 7 : ℝ) • v := by
      simp [unequalGrad]
    rw [e, norm_smul, Real.norm_of_nonneg (by norm_num)]
    linarith
  · have e : unequalGrad v 2 ((6 / 7 : ℝ) • v) = (-(2 / 7) : ℝ) • v := by
      simp [unequalGrad]
      module
    rw [e, norm_smul, Real.norm_eq_abs, show |(-(2 / 7) : ℝ)| = 2 / 7 by norm_num]
    linarith

/-- the gradient oracle of the example -/
noncomputable def unequalOracle {d : Nat} (v : Vec d) : Grad Nat Unit (Vec d) := fun c x ω => (unequalGrad v c x, ω)

/-- concrete instance: with one and three local steps of size 1/8 FedNova comes within `‖v‖ / 2` of `6/7 v` up to a vanishing term -/
example {d : Nat} (v : Vec d) (s : FSys Nat (Arr (Vec d)) Unit (Vec d) (NovaSrv (Vec d))) (x0 : Nat → Arr (Vec d)) (k : Nat) :
    ∃ s', (fedNova (novaOf (1 / 8)) (unequalOracle v) oneAndThree oneAndThree).after none 0
      (ideal (Arr (Vec d))) fedNet2 x0 s k = .ok s' ∧
      ‖s'.srv.x - (6 / 7 : ℝ) • v‖ ≤ (1 - (novaOf (1 / 8)).η * 1 / 2) ^ k * ‖(x0 0).row0 - (6 / 7 : ℝ) • v‖
        + (novaOf (1 / 8)).η * 2 * (2 : Nat) * ‖v‖ / 1 := by
  have hr : NovaReady [1, 2] oneAndThree oneAndThree (unequal v) (unequalGrad v) 2 1 (novaOf (1 / 8)).η 2 := unequal_ready v
  have hi : FedIdeal (ideal (Arr (Vec d))) 0 [1, 2] := star_fedIdeal _ _
  exact C129_converges (novaOf_plain _) (unequalOracle v) (fun _ _ _ => rfl) oneAndThree oneAndThree
    hr (ideal (Arr (Vec d))) fedNet2_isFed (by simp) hi ((6 / 7 : ℝ) • v) (unequal_best v) ‖v‖ (unequal_bias v) x0 s k

end Verif.Props
