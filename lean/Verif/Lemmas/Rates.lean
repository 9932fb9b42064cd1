import Verif.Lemmas.Consensus
import Mathlib.Topology.MetricSpace.Contracting
set_option linter.unusedSectionVars false
/-! # Rates of the exact and inexact consensus methods in a Hilbert space -/
namespace Verif.Consensus
open scoped InnerProductSpace
open Verif.Costs

section
variable {H : Type} [NormedAddCommGroup H] [InnerProductSpace ℝ H]

/-- exact diffusion: `y⁺ = x - ρ g(x)`, `x⁺ = W̃ (x + y⁺ - y)` -/
theorem diffusion_rate {W : H →ₗ[ℝ] H} (h : Averaging W) (g : H → H) (ρ c lam : ℝ) (xs us u0 : H) (hxs : minus W xs = 0)
    (hus : minus W us = -(ρ • g xs)) (hcon : ∀ x, ‖(x - xs) - ρ • (g x - g xs)‖ ^ 2 ≤ c * ‖x - xs‖ ^ 2)
    (hlam : lam ≤ 1) (hgap : ∀ v, lam * ⟪v, minus W v⟫_ℝ ≤ ‖minus W v‖ ^ 2) (X Y : Nat → H) (h0 : Y 0 - X 0 = minus W u0)
    (hy : ∀ k, Y (k + 1) = X k - ρ • g (X k)) (hx : ∀ k, X (k + 1) = plus W (X k + Y (k + 1) - Y k)) (k : Nat) :
    ‖X k - xs‖ ^ 2 ≤ max c (1 - lam) ^ k * (‖X 0 - xs‖ ^ 2 + ⟪u0 - us, minus W (u0 - us)⟫_ℝ) := by
  have hr0 : 0 ≤ max c (1 - lam) := le_max_of_le_right (by linarith)
  have key : ∃ e, minus W e = Y k - X k - minus W us ∧
      ‖X k - xs‖ ^ 2 + ⟪e, minus W e⟫_ℝ ≤ max c (1 - lam) ^ k * (‖X 0 - xs‖ ^ 2 + ⟪u0 - us, minus W (u0 - us)⟫_ℝ) := by
    induction k with
    | zero => exact ⟨u0 - us, by rw [map_sub, h0], by simp⟩
    | succ k ih =>
      obtain ⟨e, he, hle⟩ := ih
      set a := (X k - xs) - ρ • (g (X k) - g xs) with ha
      have hv : a - minus W e = X k + Y (k + 1) - Y k - xs := by rw [ha, he, hus, hy]; module
      have hplus : plus W (a - minus W e) = X (k + 1) - xs := by
        rw [hx, hv]
        have hWxs : W xs = xs := by
          rw [minus_apply] at hxs
          have := (smul_eq_zero.1 hxs).resolve_left (by norm_num)
          exact (sub_eq_zero.1 this).symm
        rw [plus, plus, map_sub, hWxs]; module
      have step := diffusion_step h a e
      rw [hplus] at step
      refine ⟨e + (a - minus W e), ?_, step.trans ?_⟩
      · have e1 := plus_add_minus W (X k + Y (k + 1) - Y k)
        rw [← hx] at e1
        have e2 : minus W (X k + Y (k + 1) - Y k) = X k + Y (k + 1) - Y k - X (k + 1) :=
          eq_sub_of_add_eq (by rw [add_comm]; exact e1)
        rw [hv, map_add, he, map_sub, hxs, e2]; abel
      · have h1 := hcon (X k)
        have h2 := hgap e
        rw [← ha] at h1
        have hq := minus_nonneg h e
        have m1 : c * ‖X k - xs‖ ^ 2 ≤ max c (1 - lam) * ‖X k - xs‖ ^ 2 := mul_le_mul_of_nonneg_right (le_max_left _ _) (sq_nonneg _)
        have m2 : (1 - lam) * ⟪e, minus W e⟫_ℝ ≤ max c (1 - lam) * ⟪e, minus W e⟫_ℝ := mul_le_mul_of_nonneg_right (le_max_right _ _) hq
        have m3 := mul_le_mul_of_nonneg_left hle hr0
        rw [pow_succ' (max c (1 - lam)) k, mul_assoc]
        linarith
  obtain ⟨e, -, hle⟩ := key
  have := minus_nonneg h e
  linarith

/-! ### EXTRA -/

theorem plus_symm {W : H →ₗ[ℝ] H} (h : Averaging W) (u v : H) : ⟪plus W u, v⟫_ℝ = ⟪u, plus W v⟫_ℝ := by
  rw [plus, plus, inner_smul_left, inner_smul_right, inner_add_left, inner_add_right, h.symm]; rfl

theorem plus_sub (W : H →ₗ[ℝ] H) (u v : H) : plus W (u - v) = plus W u - plus W v := by
  rw [plus, plus, plus, map_sub]; module

theorem plus_norm_le {W : H →ₗ[ℝ] H} (h : Averaging W) (v : H) : ‖plus W v‖ ≤ ‖v‖ := by
  rw [plus, norm_smul]
  have := norm_add_le v (W v)
  have := h.le v
  have e : ‖(1 / 2 : ℝ)‖ = 1 / 2 := by norm_num
  rw [e]; linarith

theorem sq_norm_add3 (a b c : H) : ‖a + b + c‖ ^ 2 ≤ 3 * (‖a‖ ^ 2 + ‖b‖ ^ 2 + ‖c‖ ^ 2) := by
  have h1 : ‖a + b + c‖ ≤ ‖a‖ + ‖b‖ + ‖c‖ := norm_add₃_le
  have h2 := pow_le_pow_left₀ (norm_nonneg _) h1 2
  nlinarith [sq_nonneg (‖a‖ - ‖b‖), sq_nonneg (‖a‖ - ‖c‖), sq_nonneg (‖b‖ - ‖c‖)]

/-- energy balance of one step of `x⁺ = W̃ x - ρ g(x) - B u` with `u⁺ = u + x⁺`, in the deviations from a solution -/
theorem extra_energy {W : H →ₗ[ℝ] H} (h : Averaging W) (ρ : ℝ) (x x' u γ : H) (hx : x' = plus W x - ρ • γ - minus W u) :
    ⟪x', plus W x'⟫_ℝ + ⟪u + x', minus W (u + x')⟫_ℝ + ⟪x', minus W x'⟫_ℝ + ⟪x' - x, plus W (x' - x)⟫_ℝ + 2 * ρ * ⟪γ, x'⟫_ℝ =
      ⟪x, plus W x⟫_ℝ + ⟪u, minus W u⟫_ℝ := by
  have e1 : plus W x' + minus W x' = plus W x - ρ • γ - minus W u := by rw [plus_add_minus]; exact hx
  have e2 : ⟪plus W x', x'⟫_ℝ + ⟪minus W x', x'⟫_ℝ = ⟪plus W x, x'⟫_ℝ - ρ * ⟪γ, x'⟫_ℝ - ⟪minus W u, x'⟫_ℝ := by
    rw [← inner_add_left, e1, inner_sub_left, inner_sub_left, inner_smul_left]; rfl
  have e3 : ⟪u + x', minus W (u + x')⟫_ℝ = ⟪u, minus W u⟫_ℝ + 2 * ⟪minus W u, x'⟫_ℝ + ⟪x', minus W x'⟫_ℝ := by
    rw [map_add, inner_add_left, inner_add_right, inner_add_right, ← minus_symm h u x', real_inner_comm x' (minus W u)]
    ring
  have e4 : ⟪x' - x, plus W (x' - x)⟫_ℝ = ⟪x', plus W x'⟫_ℝ - 2 * ⟪plus W x, x'⟫_ℝ + ⟪x, plus W x⟫_ℝ := by
    rw [plus_sub, inner_sub_left, inner_sub_right, inner_sub_right, ← plus_symm h x x', real_inner_comm x' (plus W x)]
    ring
  rw [real_inner_comm x' (plus W x'), real_inner_comm x' (minus W x')] at e2
  rw [e3, e4]
  linarith

theorem young (a b : H) (t : ℝ) (ht : 0 < t) : -(2 * ⟪a, b⟫_ℝ) ≤ t * ‖b‖ ^ 2 + (1 / t) * ‖a‖ ^ 2 := by
  have h1 : 0 ≤ ‖a + t • b‖ ^ 2 := sq_nonneg _
  rw [norm_add_sq_real, inner_smul_right, norm_smul, mul_pow, Real.norm_eq_abs, sq_abs] at h1
  have h2 := mul_le_mul_of_nonneg_left h1 (show 0 ≤ 1 / t by positivity)
  have h3 : 1 / t * (‖a‖ ^ 2 + 2 * (t * ⟪a, b⟫_ℝ) + t ^ 2 * ‖b‖ ^ 2) = 1 / t * ‖a‖ ^ 2 + 2 * ⟪a, b⟫_ℝ + t * ‖b‖ ^ 2 := by field_simp
  rw [h3] at h2
  linarith

/-- the energy of EXTRA decreases geometrically if `ρ L < 2 δ`, `δ` a lower bound of `W̃` -/
theorem extra_rate {W : H →ₗ[ℝ] H} (h : Averaging W) (g : H → H) (ρ L m δ lam : ℝ) (hρ : 0 < ρ) (hL : 0 < L) (hm : 0 < m) (hδ : 0 < δ) (hρL : ρ * L < 2 * δ)
    (hlam : 0 < lam) (hgap : ∀ v, lam * ⟪v, minus W v⟫_ℝ ≤ ‖minus W v‖ ^ 2)
    (hdiag : ∀ v, δ * ‖v‖ ^ 2 ≤ ⟪v, plus W v⟫_ℝ) (xs us : H) (hxs : minus W xs = 0) (hus : minus W us = -(ρ • g xs))
    (hco : ∀ x, ‖g x - g xs‖ ^ 2 ≤ L * ⟪g x - g xs, x - xs⟫_ℝ) (hmo : ∀ x, m * ‖x - xs‖ ^ 2 ≤ ⟪g x - g xs, x - xs⟫_ℝ) :
    ∃ r : ℝ, 0 ≤ r ∧ r < 1 ∧ ∀ (X U : Nat → H), (∀ k, U (k + 1) = U k + X (k + 1)) → (∀ k, X (k + 1) = plus W (X k) - ρ • g (X k) - minus W (U k)) →
      ∀ k, δ * ‖X k - xs‖ ^ 2 ≤ r ^ k * (‖X 0 - xs‖ ^ 2 + ⟪U 0 - us, minus W (U 0 - us)⟫_ℝ) := by
  -- constants
  set δ1 : ℝ := (ρ * L / 2 + δ) / 2 with hδ1
  have hδ1p : 0 < δ1 := by rw [hδ1]; positivity
  have hδ1lt : δ1 < δ := by rw [hδ1]; linarith
  set ε : ℝ := 1 - ρ * L / (2 * δ1) with hε
  have hεp : 0 < ε := by
    rw [hε, sub_pos, div_lt_one (by positivity), hδ1]; linarith
  set a : ℝ := min (2 * ρ * ε * m) (δ - δ1) with ha
  have hap : 0 < a := lt_min (by positivity) (by linarith)
  set C : ℝ := 1 + 1 / lam * (3 * (1 + 1 + ρ ^ 2 * L ^ 2) * 2 + 6) with hC
  have hCp : 0 < C := by rw [hC]; positivity
  have hCa : 0 < C + a := by linarith
  refine ⟨C / (C + a), by positivity, by rw [div_lt_one hCa]; linarith, ?_⟩
  intro X U hU hX
  have hWxs : plus W xs = xs := by have := plus_add_minus W xs; rwa [hxs, add_zero] at this
  -- deviations
  set x : Nat → H := fun k => X k - xs with hx
  -- `U` drifts by `xs`, which the dual energy does not see
  set u : Nat → H := fun k => U k - us - (k : ℝ) • xs with hu
  have hBu : ∀ k, minus W (u k) = minus W (U k) - minus W us := by
    intro k; rw [hu]; simp only [map_sub, map_smul, hxs, smul_zero, sub_zero]
  have hu1 : ∀ k, u (k + 1) = u k + x (k + 1) := by
    intro k; simp only [hu, hx, hU]; push_cast; module
  set γ : Nat → H := fun k => g (X k) - g xs with hγ
  have hx1 : ∀ k, x (k + 1) = plus W (x k) - ρ • γ k - minus W (u k) := by
    intro k; rw [hBu, hus]; simp only [hx, hγ]; rw [hX, plus_sub, hWxs]; module
  set V : Nat → ℝ := fun k => ⟪x k, plus W (x k)⟫_ℝ + ⟪u k, minus W (u k)⟫_ℝ with hV
  have hp : ∀ v, ⟪v, plus W v⟫_ℝ ≤ ‖v‖ ^ 2 := by
    intro v
    have := minus_nonneg h v
    have e : ⟪v, plus W v⟫_ℝ + ⟪v, minus W v⟫_ℝ = ‖v‖ ^ 2 := by rw [← inner_add_right, plus_add_minus, real_inner_self_eq_norm_sq]
    linarith
  have hVdec : ∀ k, V (k + 1) + a * (‖x k‖ ^ 2 + ‖x (k + 1) - x k‖ ^ 2) ≤ V k := by
    intro k
    have en := extra_energy h ρ (x k) (x (k + 1)) (u k) (γ k) (hx1 k)
    have h1 := hco (X k)
    have h2 := hmo (X k)
    have h3 := hdiag (x (k + 1) - x k)
    have h4 := minus_nonneg h (x (k + 1))
    have h5 := young (γ k) (x (k + 1) - x k) (δ1 / ρ) (by positivity)
    have e1 : ⟪γ k, x (k + 1)⟫_ℝ = ⟪γ k, x k⟫_ℝ + ⟪γ k, x (k + 1) - x k⟫_ℝ := by rw [← inner_add_right]; congr 1; abel
    rw [e1, ← hu1] at en
    change ‖γ k‖ ^ 2 ≤ L * ⟪γ k, x k⟫_ℝ at h1
    change m * ‖x k‖ ^ 2 ≤ ⟪γ k, x k⟫_ℝ at h2
    have h6 : ρ * (-(2 * ⟪γ k, x (k + 1) - x k⟫_ℝ)) ≤ δ1 * ‖x (k + 1) - x k‖ ^ 2 + ρ ^ 2 / δ1 * ‖γ k‖ ^ 2 := by
      have := mul_le_mul_of_nonneg_left h5 hρ.le
      have e : ρ * (δ1 / ρ * ‖x (k + 1) - x k‖ ^ 2 + 1 / (δ1 / ρ) * ‖γ k‖ ^ 2) = δ1 * ‖x (k + 1) - x k‖ ^ 2 + ρ ^ 2 / δ1 * ‖γ k‖ ^ 2 := by field_simp
      linarith
    have h7 : ρ ^ 2 / δ1 * ‖γ k‖ ^ 2 ≤ 2 * ρ * (1 - ε) * ⟪γ k, x k⟫_ℝ := by
      have := mul_le_mul_of_nonneg_left h1 (show 0 ≤ ρ ^ 2 / δ1 by positivity)
      refine this.trans (le_of_eq ?_)
      rw [hε]; field_simp; ring
    have h8 := mul_le_mul_of_nonneg_left h2 (show 0 ≤ 2 * ρ * ε by positivity)
    have a1 : a * ‖x k‖ ^ 2 ≤ 2 * ρ * ε * m * ‖x k‖ ^ 2 := mul_le_mul_of_nonneg_right (min_le_left _ _) (sq_nonneg _)
    have a2 : a * ‖x (k + 1) - x k‖ ^ 2 ≤ (δ - δ1) * ‖x (k + 1) - x k‖ ^ 2 := mul_le_mul_of_nonneg_right (min_le_right _ _) (sq_nonneg _)
    simp only [hV]
    linarith
  have hVbound : ∀ k, V (k + 1) ≤ C * (‖x k‖ ^ 2 + ‖x (k + 1) - x k‖ ^ 2) ∧ V k ≤ C * (‖x k‖ ^ 2 + ‖x (k + 1) - x k‖ ^ 2) := by
    intro k
    have hk : V k ≤ C * (‖x k‖ ^ 2 + ‖x (k + 1) - x k‖ ^ 2) := by
      have h1 := hgap (u k)
      have h2 : minus W (u k) = (plus W (x k) - x k) + (-(ρ • γ k)) + (-(x (k + 1) - x k)) := by rw [hx1 k]; abel
      have h3 := sq_norm_add3 (plus W (x k) - x k) (-(ρ • γ k)) (-(x (k + 1) - x k))
      rw [← h2, norm_neg, norm_neg, norm_smul, Real.norm_of_nonneg hρ.le, mul_pow] at h3
      have h4 : ‖plus W (x k) - x k‖ ^ 2 ≤ 4 * ‖x k‖ ^ 2 := by
        have a := norm_sub_le (plus W (x k)) (x k)
        have b := plus_norm_le h (x k)
        have c := pow_le_pow_left₀ (norm_nonneg _) (show ‖plus W (x k) - x k‖ ≤ 2 * ‖x k‖ by linarith) 2
        refine c.trans (le_of_eq ?_); ring
      have h5 : ‖γ k‖ ^ 2 ≤ L ^ 2 * ‖x k‖ ^ 2 := by
        have a := hco (X k)
        change ‖γ k‖ ^ 2 ≤ L * ⟪γ k, x k⟫_ℝ at a
        have b := real_inner_le_norm (γ k) (x k)
        have c := mul_le_mul_of_nonneg_left b hL.le
        have : ‖γ k‖ ≤ L * ‖x k‖ := by
          by_contra hcon
          have hcon := not_le.1 hcon
          have hg0 : 0 < ‖γ k‖ := lt_of_le_of_lt (by positivity) hcon
          have := mul_lt_mul_of_pos_left hcon hg0
          nlinarith
        have := pow_le_pow_left₀ (norm_nonneg _) this 2
        refine this.trans (le_of_eq ?_); ring
      have h6 : ⟪u k, minus W (u k)⟫_ℝ ≤ 1 / lam * ‖minus W (u k)‖ ^ 2 := by
        rw [one_div, ← div_eq_inv_mul, le_div_iff₀ hlam]; linarith
      have h7 : ‖minus W (u k)‖ ^ 2 ≤ (3 * (1 + 1 + ρ ^ 2 * L ^ 2) * 2 + 6) * (‖x k‖ ^ 2 + ‖x (k + 1) - x k‖ ^ 2) := by
        have := mul_le_mul_of_nonneg_left h5 (sq_nonneg ρ)
        have p1 := sq_nonneg ‖x k‖
        have p2 := sq_nonneg ‖x (k + 1) - x k‖
        have p3 : 0 ≤ ρ ^ 2 * L ^ 2 * ‖x (k + 1) - x k‖ ^ 2 := by positivity
        have p4 : 0 ≤ ρ ^ 2 * L ^ 2 * ‖x k‖ ^ 2 := by positivity
        linarith
      have h8 := mul_le_mul_of_nonneg_left h7 (show 0 ≤ 1 / lam by positivity)
      have h9 := hp (x k)
      have p2 := sq_nonneg ‖x (k + 1) - x k‖
      simp only [hV]
      rw [hC, add_mul, one_mul, mul_assoc]
      linarith
    exact ⟨le_trans (by have := hVdec k; have : 0 ≤ a * (‖x k‖ ^ 2 + ‖x (k + 1) - x k‖ ^ 2) := by positivity
                        linarith) hk, hk⟩
  have hstep : ∀ k, V (k + 1) ≤ C / (C + a) * V k := by
    intro k
    have h1 := hVdec k
    have h2 := (hVbound k).1
    rw [div_mul_eq_mul_div, le_div_iff₀ hCa]
    have h3 := mul_le_mul_of_nonneg_left h1 hCp.le
    have h4 := mul_le_mul_of_nonneg_left h2 hap.le
    nlinarith
  have hr : 0 ≤ C / (C + a) := by positivity
  have hpow : ∀ k, V k ≤ (C / (C + a)) ^ k * V 0 := by
    intro k
    induction k with
    | zero => simp
    | succ k ih =>
      have := mul_le_mul_of_nonneg_left ih hr
      rw [pow_succ', mul_assoc]
      exact (hstep k).trans this
  intro k
  have h1 := hdiag (x k)
  have h2 := minus_nonneg h (u k)
  have h3 := hpow k
  have h4 : V 0 ≤ ‖X 0 - xs‖ ^ 2 + ⟪U 0 - us, minus W (U 0 - us)⟫_ℝ := by
    have := hp (x 0)
    have e : u 0 = U 0 - us := by simp [hu]
    simp only [hV]
    rw [e]
    linarith
  have h5 := mul_le_mul_of_nonneg_left h4 (pow_nonneg hr k)
  have h6 : δ * ‖x k‖ ^ 2 ≤ V k := by simp only [hV]; linarith
  exact h6.trans (h3.trans h5)

/-! ### DGD -/

theorem minus_firm {W : H →ₗ[ℝ] H} (h : Averaging W) (δ : ℝ) (hdiag : ∀ v, δ * ‖v‖ ^ 2 ≤ ⟪v, plus W v⟫_ℝ) (v : H) : ⟪v, minus W v⟫_ℝ ≤ (1 - δ) * ‖v‖ ^ 2 := by
  have := hdiag v
  have e : ⟪v, plus W v⟫_ℝ + ⟪v, minus W v⟫_ℝ = ‖v‖ ^ 2 := by rw [← inner_add_right, plus_add_minus, real_inner_self_eq_norm_sq]
  linarith

/-- a positive operator below `s` satisfies `‖T v‖² ≤ s ⟨v, T v⟩` -/
theorem positive_firm (T : H →ₗ[ℝ] H) (hs : ∀ u v, ⟪T u, v⟫_ℝ = ⟪u, T v⟫_ℝ) (hp : ∀ v, 0 ≤ ⟪v, T v⟫_ℝ) (s : ℝ) (hle : ∀ v, ⟪v, T v⟫_ℝ ≤ s * ‖v‖ ^ 2) (v : H) :
    ‖T v‖ ^ 2 ≤ s * ⟪v, T v⟫_ℝ := by
  -- Cauchy-Schwarz for the form of `T` between `v` and `T v`
  have key : ∀ t : ℝ, 0 ≤ ⟪v, T v⟫_ℝ - 2 * t * ‖T v‖ ^ 2 + t ^ 2 * (s * ‖T v‖ ^ 2) := by
    intro t
    have h1 := hp (v - t • T v)
    have h2 := hle (T v)
    have e : ⟪v - t • T v, T (v - t • T v)⟫_ℝ = ⟪v, T v⟫_ℝ - 2 * t * ‖T v‖ ^ 2 + t ^ 2 * ⟪T v, T (T v)⟫_ℝ := by
      rw [map_sub, map_smul, inner_sub_left, inner_sub_right, inner_sub_right, inner_smul_left, inner_smul_left, inner_smul_right, inner_smul_right,
        ← hs v (T v), real_inner_self_eq_norm_sq]
      simp only [conj_trivial]; ring
    rw [e] at h1
    have := mul_le_mul_of_nonneg_left h2 (sq_nonneg t)
    linarith
  by_cases hz : ‖T v‖ = 0
  · have : T v = 0 := norm_eq_zero.1 hz
    rw [this]; simp
  · have hT : 0 < ‖T v‖ ^ 2 := by have := lt_of_le_of_ne (norm_nonneg (T v)) (Ne.symm hz); positivity
    have hs0 : 0 < s := by
      have hv : v ≠ 0 := fun hv => hz (by rw [hv]; simp)
      have h1 := hle (T v)
      have h2 := hp (T v)
      by_contra hcon
      have hcon := not_lt.1 hcon
      have : s * ‖T v‖ ^ 2 ≤ 0 := mul_nonpos_of_nonpos_of_nonneg hcon hT.le
      have k1 := key ((⟪v, T v⟫_ℝ + 1) / (2 * ‖T v‖ ^ 2))
      have e : 2 * ((⟪v, T v⟫_ℝ + 1) / (2 * ‖T v‖ ^ 2)) * ‖T v‖ ^ 2 = ⟪v, T v⟫_ℝ + 1 := by field_simp
      rw [e] at k1
      have := mul_nonpos_of_nonneg_of_nonpos (sq_nonneg ((⟪v, T v⟫_ℝ + 1) / (2 * ‖T v‖ ^ 2))) this
      linarith
    have k := key (1 / s)
    have e : ⟪v, T v⟫_ℝ - 2 * (1 / s) * ‖T v‖ ^ 2 + (1 / s) ^ 2 * (s * ‖T v‖ ^ 2) = ⟪v, T v⟫_ℝ - ‖T v‖ ^ 2 / s := by field_simp; ring
    rw [e, sub_nonneg, div_le_iff₀ hs0] at k
    linarith

/-- one step of DGD contracts -/
theorem dgd_contract {W : H →ₗ[ℝ] H} (h : Averaging W) (g : H → H) (ρ L m δ : ℝ) (hρ : 0 < ρ) (hL : 0 < L) (hρL : ρ * L ≤ 2 * δ) (hδ1 : δ < 1)
    (hdiag : ∀ v, δ * ‖v‖ ^ 2 ≤ ⟪v, plus W v⟫_ℝ)
    (x y : H) (hco : ‖g x - g y‖ ^ 2 ≤ L * ⟪g x - g y, x - y⟫_ℝ) (hmo : m * ‖x - y‖ ^ 2 ≤ ⟪g x - g y, x - y⟫_ℝ) :
    ‖(W x - ρ • g x) - (W y - ρ • g y)‖ ^ 2 ≤ (1 - (2 * δ - ρ * L) * (ρ * m)) * ‖x - y‖ ^ 2 := by
  set z := x - y with hz
  set γ := g x - g y with hγ
  have e0 : (W x - ρ • g x) - (W y - ρ • g y) = z - ((2 : ℝ) • minus W z + ρ • γ) := by
    rw [minus_apply, hz, hγ, map_sub]; module
  have hf := positive_firm (minus W) (fun u v => minus_symm h u v) (minus_nonneg h) (1 - δ) (minus_firm h δ hdiag) z
  have hq := minus_nonneg h z
  set P := minus W z with hP
  set q := ⟪z, P⟫_ℝ with hqd
  set b := ⟪γ, z⟫_ℝ with hb
  -- Cauchy: ‖2P + ργ‖² ≤ (s + t)(‖2P‖²/s + ‖ργ‖²/t), s = 2(1-δ), t = ρL
  have hs : 0 < 2 * (1 - δ) := by linarith
  have ht : 0 < ρ * L := by positivity
  have hc : ‖(2 : ℝ) • P + ρ • γ‖ ^ 2 ≤ (2 * (1 - δ) + ρ * L) * (2 * q + ρ * b) := by
    have hd1 : 0 < 1 - δ := by linarith
    have y1 := young P (-γ) (ρ * (1 - δ) / (ρ * L)) (by positivity)
    rw [inner_neg_right, norm_neg] at y1
    have y2 : 2 * ⟪P, γ⟫_ℝ ≤ (1 - δ) / L * ‖γ‖ ^ 2 + L / (1 - δ) * ‖P‖ ^ 2 := by
      have e1 : ρ * (1 - δ) / (ρ * L) = (1 - δ) / L := by field_simp
      rw [e1] at y1
      have e2 : 1 / ((1 - δ) / L) = L / (1 - δ) := one_div_div _ _
      rw [e2] at y1
      linarith
    have h1 : L / (1 - δ) * ‖P‖ ^ 2 ≤ L * q := by
      have : 0 < 1 - δ := by linarith
      rw [div_mul_eq_mul_div, div_le_iff₀ this]
      have := mul_le_mul_of_nonneg_left hf hL.le
      linarith
    have h2 : (1 - δ) / L * ‖γ‖ ^ 2 ≤ (1 - δ) * b := by
      rw [div_mul_eq_mul_div, div_le_iff₀ hL]
      have := mul_le_mul_of_nonneg_left hco (show 0 ≤ 1 - δ by linarith)
      linarith
    rw [norm_add_sq_real, norm_smul, norm_smul, inner_smul_left, inner_smul_right, mul_pow, mul_pow, Real.norm_eq_abs, Real.norm_eq_abs, sq_abs, sq_abs]
    simp only [conj_trivial]
    have h3 := mul_le_mul_of_nonneg_left hco (sq_nonneg ρ)
    have h4 := mul_le_mul_of_nonneg_left (y2.trans (add_le_add h2 h1)) (show 0 ≤ 2 * ρ by linarith)
    nlinarith
  rw [e0, norm_sub_sq_real, inner_add_right, inner_smul_right, inner_smul_right, real_inner_comm γ z, ← hb, ← hqd]
  have hb0 : (2 * δ - ρ * L) * (ρ * (m * ‖z‖ ^ 2)) ≤ (2 * δ - ρ * L) * (2 * q + ρ * b) := by
    apply mul_le_mul_of_nonneg_left _ (by linarith)
    have := mul_le_mul_of_nonneg_left hmo hρ.le
    linarith
  have e5 : (2 * (1 - δ) + ρ * L) * (2 * q + ρ * b) = 2 * (2 * q + ρ * b) - (2 * δ - ρ * L) * (2 * q + ρ * b) := by ring
  rw [e5] at hc
  linarith

end
end Verif.Consensus
