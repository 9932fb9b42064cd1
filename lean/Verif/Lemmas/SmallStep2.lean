import Verif.Lemmas.SmallStep
set_option linter.unusedSectionVars false
/-! # Small steps: the primal-dual methods (Wang-Elia, LED) -/
namespace Verif.Consensus
open scoped InnerProductSpace

/-- `small_gain` along a sequence -/
theorem small_gain_seq (μ K s : ℝ) (hμ : 0 < μ) (hK : 0 ≤ K) (hs0 : 0 ≤ s) (hs1 : s < 1) : ∃ ρ0 : ℝ, 0 < ρ0 ∧ ρ0 ≤ 1 ∧ ∀ ρ, 0 < ρ → ρ < ρ0 →
    ∃ r : ℝ, 0 ≤ r ∧ r < 1 ∧ ∀ (a b D : Nat → ℝ) (B : ℝ), 0 ≤ B → (∀ k, 0 ≤ a k) → (∀ k, 0 ≤ b k) → (∀ k, 0 ≤ D k) → (∀ k, D k ≤ B * (a k + b k)) →
      (∀ k, a (k + 1) ≤ (1 - ρ * μ + ρ ^ 2 * K) * a k + ρ * K * b k) → (∀ k, b (k + 1) ≤ s * b k + ρ * K * (a k + b k)) →
      ∃ C : ℝ, ∀ k, D k ^ 2 ≤ C * r ^ k := by
  obtain ⟨ρ0, h0, h1, hg⟩ := small_gain μ K s hμ hK hs0 hs1
  refine ⟨ρ0, h0, h1, fun ρ hρ hlt => ?_⟩
  obtain ⟨q, θ, hq, hθ0, hθ1, hstep⟩ := hg ρ hρ hlt
  refine ⟨θ ^ 2, sq_nonneg _, by nlinarith, fun a b D B hB ha hb hD hDB h2 h3 => ?_⟩
  have hVk : ∀ k, a k + q * b k ≤ θ ^ k * (a 0 + q * b 0) := by
    intro k
    induction k with
    | zero => simp
    | succ k ih =>
      refine (hstep _ _ _ _ (ha k) (hb k) (h2 k) (h3 k)).trans ?_
      rw [pow_succ θ k, mul_comm (θ ^ k) θ, mul_assoc]
      exact mul_le_mul_of_nonneg_left ih hθ0
  refine ⟨(B * (1 + 1 / q) * (a 0 + q * b 0)) ^ 2, fun k => ?_⟩
  have h4 : a k + b k ≤ (1 + 1 / q) * (a k + q * b k) := by
    have e : (1 + 1 / q) * (a k + q * b k) = a k + b k + (1 / q * a k + q * b k) := by field_simp; ring
    have : 0 ≤ 1 / q * a k + q * b k := add_nonneg (mul_nonneg (by positivity) (ha k)) (mul_nonneg hq.le (hb k))
    linarith
  have h5 : D k ≤ B * (1 + 1 / q) * (a 0 + q * b 0) * θ ^ k := by
    refine (hDB k).trans ((mul_le_mul_of_nonneg_left (h4.trans (mul_le_mul_of_nonneg_left (hVk k) (by positivity))) hB).trans (le_of_eq ?_))
    ring
  calc D k ^ 2 ≤ (B * (1 + 1 / q) * (a 0 + q * b 0) * θ ^ k) ^ 2 := pow_le_pow_left₀ (hD k) h5 2
    _ = (B * (1 + 1 / q) * (a 0 + q * b 0)) ^ 2 * (θ ^ 2) ^ k := by rw [mul_pow, ← pow_mul, ← pow_mul, mul_comm k 2]

section abstract_
variable {H : Type} [NormedAddCommGroup H] [InnerProductSpace ℝ H]

/-- one gradient step seen by the mean, with a disturbance -/
theorem mean_step {P : H →ₗ[ℝ] H} (hP : Proj P) {g : H → H} {L m : ℝ} (hg : GradLike g L m) {ρ : ℝ} (hρ : 0 < ρ) (hρL : ρ * L ≤ 1)
    {x xs e p' : H} (hxs : P xs = xs) (hopt : P (g xs) = 0) (hp : p' = P x - ρ • P (g x) + P e) :
    ‖p' - xs‖ ≤ (1 - ρ * (m / 2)) * ‖P x - xs‖ + ρ * L * ‖x - P x‖ + ‖P e‖ := by
  have e0 : p' - xs = (P x - xs - ρ • P (g (P x))) - ρ • P (g x - g (P x)) + P e := by rw [hp, map_sub]; module
  rw [e0]
  have a1 := mean_contract hP hg hρ hρL (hP.idem x) hxs hopt
  have a2 : ‖ρ • P (g x - g (P x))‖ ≤ ρ * L * ‖x - P x‖ := by
    rw [norm_smul, Real.norm_of_nonneg hρ.le, mul_assoc]
    exact mul_le_mul_of_nonneg_left ((hP.norm_le _).trans (hg.lip _ _)) hρ.le
  have h1 := norm_add_le (P x - xs - ρ • P (g (P x)) - ρ • P (g x - g (P x))) (P e)
  have h2 := norm_sub_le (P x - xs - ρ • P (g (P x))) (ρ • P (g x - g (P x)))
  linarith

theorem dist_split {P : H →ₗ[ℝ] H} (x xs : H) : ‖x - xs‖ ≤ ‖P x - xs‖ + ‖x - P x‖ := by
  have : x - xs = (P x - xs) + (x - P x) := by abel
  rw [this]; exact norm_add_le _ _

/-! ### Wang-Elia -/

/-- the energy of a primal-dual pair -/
noncomputable def weEnergy (u v : H) : ℝ := (‖u‖ ^ 2 + ‖v‖ ^ 2 + ‖u + v‖ ^ 2) / 2

theorem we_energy {W : H →ₗ[ℝ] H} (h : Averaging W) {δ c : ℝ} (hδ : 0 ≤ δ) (hdiag : ∀ v, δ * ‖v‖ ^ 2 ≤ ⟪v, plus W v⟫_ℝ) {u v : H}
    (hu : c * ‖u‖ ^ 2 ≤ ⟪u, minus W u⟫_ℝ) (hv : c * ‖v‖ ^ 2 ≤ ⟪v, minus W v⟫_ℝ) (huv : c * ‖u + v‖ ^ 2 ≤ ⟪u + v, minus W (u + v)⟫_ℝ) :
    weEnergy (u - minus W (u + v)) (v + minus W u) ≤ (1 - δ * c) * weEnergy u v := by
  have hR : ∀ x, c * ‖x‖ ^ 2 ≤ ⟪x, minus W x⟫_ℝ → δ * c * ‖x‖ ^ 2 ≤ ⟪x, minus W x⟫_ℝ - ‖minus W x‖ ^ 2 := by
    intro x hx
    have h1 := positive_firm (minus W) (minus_symm h) (minus_nonneg h) (1 - δ) (minus_firm h δ hdiag) x
    have h2 := mul_le_mul_of_nonneg_left hx hδ
    linarith
  have r1 := hR u hu
  have r2 := hR v hv
  have r3 := hR (u + v) huv
  have key : weEnergy (u - minus W (u + v)) (v + minus W u) = weEnergy u v - ((⟪u, minus W u⟫_ℝ - ‖minus W u‖ ^ 2) + (⟪v, minus W v⟫_ℝ - ‖minus W v‖ ^ 2)
      + (⟪u + v, minus W (u + v)⟫_ℝ - ‖minus W (u + v)‖ ^ 2)) / 2 := by
    have hsw : ⟪v, minus W u⟫_ℝ = ⟪u, minus W v⟫_ℝ := by rw [real_inner_comm, minus_symm h]
    have e1 : u - minus W (u + v) + (v + minus W u) = (u + v) - minus W v := by rw [map_add]; abel
    rw [map_add] at *
    rw [weEnergy, weEnergy, e1]
    generalize minus W u = p at *
    generalize minus W v = q at *
    have n1 : ‖u - (p + q)‖ ^ 2 = ‖u‖ ^ 2 - 2 * (⟪u, p⟫_ℝ + ⟪u, q⟫_ℝ) + (‖p‖ ^ 2 + 2 * ⟪p, q⟫_ℝ + ‖q‖ ^ 2) := by
      rw [norm_sub_sq_real, inner_add_right, norm_add_sq_real p q]
    have n2 : ‖v + p‖ ^ 2 = ‖v‖ ^ 2 + 2 * ⟪v, p⟫_ℝ + ‖p‖ ^ 2 := norm_add_sq_real v p
    have n3 : ‖u + v - q‖ ^ 2 = ‖u + v‖ ^ 2 - 2 * (⟪u, q⟫_ℝ + ⟪v, q⟫_ℝ) + ‖q‖ ^ 2 := by rw [norm_sub_sq_real, inner_add_left]
    have n4 : ⟪u + v, p + q⟫_ℝ = ⟪u, p⟫_ℝ + ⟪u, q⟫_ℝ + (⟪v, p⟫_ℝ + ⟪v, q⟫_ℝ) := by rw [inner_add_left, inner_add_right, inner_add_right]
    have n5 : ‖p + q‖ ^ 2 = ‖p‖ ^ 2 + 2 * ⟪p, q⟫_ℝ + ‖q‖ ^ 2 := norm_add_sq_real p q
    rw [n1, n2, n3, n4, n5, hsw]
    ring
  rw [key, weEnergy]
  linarith

theorem we_energy_nonneg (u v : H) : 0 ≤ weEnergy u v := by rw [weEnergy]; positivity

theorem we_perturb (u v e : H) : Real.sqrt (weEnergy (u + e) v) ≤ Real.sqrt (weEnergy u v) + ‖e‖ := by
  have h0 := we_energy_nonneg u v
  refine Real.sqrt_le_iff.2 ⟨by positivity, ?_⟩
  have e1 : weEnergy (u + e) v = weEnergy u v + 2 * ⟪u + (1 / 2 : ℝ) • v, e⟫_ℝ + ‖e‖ ^ 2 := by
    rw [weEnergy, weEnergy]
    have n1 := norm_add_sq_real u e
    have n2 : ‖u + e + v‖ ^ 2 = ‖u + v‖ ^ 2 + 2 * (⟪u, e⟫_ℝ + ⟪v, e⟫_ℝ) + ‖e‖ ^ 2 := by
      have : u + e + v = (u + v) + e := by abel
      rw [this, norm_add_sq_real, inner_add_left]
    rw [n1, n2, inner_add_left, inner_smul_left]
    simp only [conj_trivial]; ring
  have e2 : ‖u + (1 / 2 : ℝ) • v‖ ^ 2 ≤ weEnergy u v := by
    rw [weEnergy, norm_add_sq_real, norm_add_sq_real, inner_smul_right, norm_smul, mul_pow]
    have : ‖(1 / 2 : ℝ)‖ ^ 2 = 1 / 4 := by norm_num
    rw [this]
    nlinarith [sq_nonneg ‖v‖]
  have e3 : ‖u + (1 / 2 : ℝ) • v‖ ≤ Real.sqrt (weEnergy u v) := Real.le_sqrt_of_sq_le e2
  have e4 := (real_inner_le_norm (u + (1 / 2 : ℝ) • v) e).trans (mul_le_mul_of_nonneg_right e3 (norm_nonneg e))
  have e5 := Real.sq_sqrt h0
  rw [e1]
  nlinarith

/-- **Wang-Elia** converges linearly for all small step sizes. -/
theorem wang_elia_rate (L m δ c : ℝ) (hL : 0 < L) (hm : 0 < m) (hδ : 0 < δ) (hδ1 : δ ≤ 1) (hc : 0 < c) (hc1 : c ≤ 1) :
    ∃ ρ0 : ℝ, 0 < ρ0 ∧ ∀ ρ, 0 < ρ → ρ < ρ0 → ∃ r : ℝ, 0 ≤ r ∧ r < 1 ∧
      ∀ (P W : H →ₗ[ℝ] H), Proj P → Averaging W → Even P W → (∀ v, δ * ‖v‖ ^ 2 ≤ ⟪v, plus W v⟫_ℝ) →
      (∀ v, P v = 0 → c * ‖v‖ ^ 2 ≤ ⟪v, minus W v⟫_ℝ) → ∀ (g : H → H), GradLike g L m →
      ∀ xs zs : H, P xs = xs → P (g xs) = 0 → P zs = 0 → minus W zs = -(ρ • g xs) → ∀ (X Z : Nat → H), P (Z 0) = 0 →
        (∀ k, X (k + 1) = X k - minus W (X k + Z k) - ρ • g (X k)) → (∀ k, Z (k + 1) = Z k + minus W (X k)) →
        ∃ C : ℝ, ∀ k, ‖X k - xs‖ ^ 2 ≤ C * r ^ k := by
  have hdc : 0 < δ * c := mul_pos hδ hc
  have hdc1 : δ * c ≤ 1 := by nlinarith
  set s := Real.sqrt (1 - δ * c) with hs
  have hs0 : 0 ≤ s := Real.sqrt_nonneg _
  have hs1 : s < 1 := by rw [hs, Real.sqrt_lt' one_pos, one_pow]; linarith
  obtain ⟨ρ0, h0, -, hgain⟩ := small_gain_seq (m / 2) (2 * L) s (by linarith) (by linarith) hs0 hs1
  refine ⟨min ρ0 (1 / L), by positivity, fun ρ hρ hlt => ?_⟩
  have hρL : ρ * L ≤ 1 := by
    have := hlt.le.trans (min_le_right _ _)
    rwa [le_div_iff₀ hL] at this
  obtain ⟨r, hr0, hr1, hseq⟩ := hgain ρ hρ (hlt.trans_le (min_le_left _ _))
  refine ⟨r, hr0, hr1, ?_⟩
  intro P W hP hA hE hdiag hgap g hg xs zs hxs hopt hPz hz X Z hZ0 hX hZ
  have hWxs : minus W xs = 0 := by rw [minus_apply, ← hxs, hE.keeps, sub_self, smul_zero]
  have hPm : ∀ v, P (minus W v) = 0 := by intro v; rw [minus_apply, map_smul, map_sub, hE.mean, sub_self, smul_zero]
  have hmP : ∀ v, minus W (P v) = 0 := by intro v; rw [minus_apply, hE.keeps, sub_self, smul_zero]
  have hPZ : ∀ k, P (Z k) = 0 := by
    intro k
    induction k with
    | zero => exact hZ0
    | succ k ih => rw [hZ, map_add, ih, hPm, add_zero]
  let u : Nat → H := fun k => X k - P (X k)
  let v : Nat → H := fun k => Z k - zs
  have hPu : ∀ k, P (u k) = 0 := fun k => by show P (X k - P (X k)) = 0; rw [map_sub, hP.idem, sub_self]
  have hPv : ∀ k, P (v k) = 0 := fun k => by show P (Z k - zs) = 0; rw [map_sub, hPZ, hPz, sub_self]
  have hmu : ∀ k, minus W (u k) = minus W (X k) := fun k => by show minus W (X k - P (X k)) = _; rw [map_sub, hmP, sub_zero]
  have hPX : ∀ k, P (X (k + 1)) = P (X k) - ρ • P (g (X k)) := by
    intro k; rw [hX, map_sub, map_sub, hPm, map_smul, sub_zero]
  have hu1 : ∀ k, u (k + 1) = (u k - minus W (u k + v k)) + -(ρ • ((g (X k) - g xs) - P (g (X k) - g xs))) := by
    intro k
    have e1 : minus W (u k + v k) = minus W (X k + Z k) + ρ • g xs := by
      rw [map_add, hmu]
      show minus W (X k) + minus W (Z k - zs) = _
      rw [map_sub, hz, map_add]; abel
    rw [e1]
    show X (k + 1) - P (X (k + 1)) = (X k - P (X k)) - _ + _
    rw [hPX, hX, map_sub, hopt]; module
  have hv1 : ∀ k, v (k + 1) = v k + minus W (u k) := by
    intro k
    show Z (k + 1) - zs = Z k - zs + _
    rw [hmu, hZ]; abel
  let a : Nat → ℝ := fun k => ‖P (X k) - xs‖
  let b : Nat → ℝ := fun k => Real.sqrt (weEnergy (u k) (v k))
  have hub : ∀ k, ‖u k‖ ≤ 2 * b k := by
    intro k
    have h1 : ‖u k‖ ^ 2 ≤ (2 * b k) ^ 2 := by
      rw [mul_pow]
      show _ ≤ 2 ^ 2 * Real.sqrt _ ^ 2
      rw [Real.sq_sqrt (we_energy_nonneg _ _), weEnergy]
      nlinarith [sq_nonneg ‖u k‖, sq_nonneg ‖v k‖, sq_nonneg ‖u k + v k‖]
    exact (abs_le_of_sq_le_sq' h1 (mul_nonneg (by norm_num) (Real.sqrt_nonneg _))).2
  have ha0 : ∀ k, 0 ≤ a k := fun k => norm_nonneg _
  have hb0 : ∀ k, 0 ≤ b k := fun k => Real.sqrt_nonneg _
  refine hseq a b (fun k => ‖X k - xs‖) 2 (by norm_num) ha0 hb0 (fun k => norm_nonneg _) (fun k => ?_) (fun k => ?_) (fun k => ?_)
  · have h1 := dist_split (P := P) (X k) xs
    have h2 := hub k
    have h3 := ha0 k
    show ‖X k - xs‖ ≤ 2 * (a k + b k)
    have : ‖X k - xs‖ ≤ a k + ‖u k‖ := h1
    linarith
  · have h1 := mean_step hP hg hρ hρL (e := 0) hxs hopt (p' := P (X (k + 1))) (x := X k) (by rw [hPX, map_zero, add_zero])
    rw [map_zero, norm_zero, add_zero] at h1
    have h2 := mul_le_mul_of_nonneg_left (hub k) (mul_nonneg hρ.le hL.le)
    have h3 : 0 ≤ ρ ^ 2 * (2 * L) * a k := mul_nonneg (by positivity) (ha0 k)
    show a (k + 1) ≤ _
    have h4 : a (k + 1) ≤ (1 - ρ * (m / 2)) * a k + ρ * L * ‖u k‖ := h1
    linarith
  · show Real.sqrt (weEnergy (u (k + 1)) (v (k + 1))) ≤ _
    rw [hu1, hv1]
    refine (we_perturb _ _ _).trans ?_
    have h1 : weEnergy (u k - minus W (u k + v k)) (v k + minus W (u k)) ≤ (1 - δ * c) * weEnergy (u k) (v k) :=
      we_energy hA hδ.le hdiag (hgap _ (hPu k)) (hgap _ (hPv k)) (hgap _ (by rw [map_add, hPu, hPv, add_zero]))
    have h2 : Real.sqrt (weEnergy (u k - minus W (u k + v k)) (v k + minus W (u k))) ≤ s * b k := by
      refine (Real.sqrt_le_sqrt h1).trans (le_of_eq ?_)
      rw [Real.sqrt_mul (by linarith)]
    have h3 : ‖-(ρ • ((g (X k) - g xs) - P (g (X k) - g xs)))‖ ≤ ρ * (L * (a k + ‖u k‖)) := by
      rw [norm_neg, norm_smul, Real.norm_of_nonneg hρ.le]
      refine mul_le_mul_of_nonneg_left ?_ hρ.le
      exact (hP.compl_le _).trans ((hg.lip _ _).trans (mul_le_mul_of_nonneg_left (dist_split _ _) hL.le))
    have h4 := mul_le_mul_of_nonneg_left (mul_le_mul_of_nonneg_left (hub k) hL.le) hρ.le
    have h5 : 0 ≤ ρ * (L * a k) := mul_nonneg hρ.le (mul_nonneg hL.le (ha0 k))
    linarith

/-! ### LED -/

/-- the energy of LED: `x` and a preimage `s` of the dual variable under `1 - W` -/
noncomputable def ledEnergy (W : H →ₗ[ℝ] H) (t : ℝ) (x s : H) : ℝ := ‖x‖ ^ 2 + 2 * t * ⟪s, minus W s⟫_ℝ

theorem led_energy_nonneg {W : H →ₗ[ℝ] H} (h : Averaging W) {t : ℝ} (ht : 0 ≤ t) (x s : H) : 0 ≤ ledEnergy W t x s := by
  rw [ledEnergy]
  have := mul_nonneg (show 0 ≤ 2 * t by linarith) (minus_nonneg h s)
  positivity

/-- one undisturbed step: `φ = x - t (1 - W) s`, `x⁺ = W φ`, `s⁺ = s + φ` -/
theorem led_energy {W : H →ₗ[ℝ] H} (h : Averaging W) {δ t : ℝ} (hdiag : ∀ v, δ * ‖v‖ ^ 2 ≤ ⟪v, plus W v⟫_ℝ) (x s φ : H)
    (hφ : φ = x - (2 * t) • minus W s) :
    ledEnergy W t (W φ) (s + φ) ≤ ledEnergy W t x s - 4 * t ^ 2 * ‖minus W s‖ ^ 2 - 2 * (2 * δ - t) * ⟪φ, minus W φ⟫_ℝ := by
  have h1 := positive_firm (minus W) (minus_symm h) (minus_nonneg h) (1 - δ) (minus_firm h δ hdiag) φ
  have ex : x = φ + (2 * t) • minus W s := by rw [hφ]; abel
  have eW : W φ = φ - (2 : ℝ) • minus W φ := by rw [minus_apply]; module
  have n1 : ‖W φ‖ ^ 2 = ‖φ‖ ^ 2 - 4 * ⟪φ, minus W φ⟫_ℝ + 4 * ‖minus W φ‖ ^ 2 := by
    rw [eW, norm_sub_sq_real, inner_smul_right, norm_smul, mul_pow]
    have : ‖(2 : ℝ)‖ ^ 2 = 4 := by norm_num
    rw [this]; ring
  have n2 : ‖x‖ ^ 2 = ‖φ‖ ^ 2 + 4 * t * ⟪φ, minus W s⟫_ℝ + 4 * t ^ 2 * ‖minus W s‖ ^ 2 := by
    rw [ex, norm_add_sq_real, inner_smul_right, norm_smul, mul_pow, Real.norm_eq_abs, sq_abs]; ring
  have n3 : ⟪s + φ, minus W (s + φ)⟫_ℝ = ⟪s, minus W s⟫_ℝ + 2 * ⟪φ, minus W s⟫_ℝ + ⟪φ, minus W φ⟫_ℝ := by
    rw [map_add, inner_add_left, inner_add_right, inner_add_right, ← minus_symm h s φ, real_inner_comm φ (minus W s)]; ring
  rw [ledEnergy, ledEnergy, n1, n2, n3]
  linarith

/-- the energy shrinks on disagreements -/
theorem led_shrink {W : H →ₗ[ℝ] H} (h : Averaging W) {δ c t : ℝ} (hc : 0 < c) (ht : 0 < t) (htδ : t < 2 * δ) (hdiag : ∀ v, δ * ‖v‖ ^ 2 ≤ ⟪v, plus W v⟫_ℝ)
    (hgap : ∀ v, c * ⟪v, minus W v⟫_ℝ ≤ ‖minus W v‖ ^ 2) :
    ∃ κ : ℝ, 0 < κ ∧ κ ≤ 1 ∧ ∀ x s φ : H, φ = x - (2 * t) • minus W s → c * ‖φ‖ ^ 2 ≤ ⟪φ, minus W φ⟫_ℝ →
      ledEnergy W t (W φ) (s + φ) ≤ (1 - κ) * ledEnergy W t x s := by
  set p : ℝ := 2 * (2 * δ - t) with hp
  have hp0 : 0 < p := by rw [hp]; linarith
  -- energy ≤ A ‖φ‖² + B ‖y‖²
  set B : ℝ := 8 * t ^ 2 + 2 * t / c with hB
  have hB0 : 0 < B := by rw [hB]; positivity
  set κ : ℝ := min 1 (min (p * c / 2) (4 * t ^ 2 / B)) with hκ
  have hκ0 : 0 < κ := by rw [hκ]; positivity
  refine ⟨κ, hκ0, min_le_left _ _, fun x s φ hφ hcφ => ?_⟩
  have h1 := led_energy h hdiag x s φ hφ
  have h2 := hgap s
  have ex : x = φ + (2 * t) • minus W s := by rw [hφ]; abel
  have h3 : ‖x‖ ^ 2 ≤ 2 * ‖φ‖ ^ 2 + 8 * t ^ 2 * ‖minus W s‖ ^ 2 := by
    have h5 : ‖x‖ ≤ ‖φ‖ + 2 * t * ‖minus W s‖ := by
      rw [ex]
      refine (norm_add_le _ _).trans (le_of_eq ?_)
      rw [norm_smul, Real.norm_of_nonneg (by linarith)]
    have h6 := pow_le_pow_left₀ (norm_nonneg _) h5 2
    nlinarith [sq_nonneg (‖φ‖ - 2 * t * ‖minus W s‖)]
  have h4 : 2 * t * ⟪s, minus W s⟫_ℝ ≤ 2 * t / c * ‖minus W s‖ ^ 2 := by
    have : ⟪s, minus W s⟫_ℝ ≤ 1 / c * ‖minus W s‖ ^ 2 := by
      rw [one_div, inv_mul_eq_div, le_div_iff₀ hc]; linarith
    have h5 := mul_le_mul_of_nonneg_left this (show 0 ≤ 2 * t by linarith)
    have e : 2 * t * (1 / c * ‖minus W s‖ ^ 2) = 2 * t / c * ‖minus W s‖ ^ 2 := by field_simp
    linarith
  have hE : ledEnergy W t x s ≤ 2 * ‖φ‖ ^ 2 + B * ‖minus W s‖ ^ 2 := by rw [ledEnergy, hB, add_mul]; linarith
  have k1 : κ * (2 * ‖φ‖ ^ 2) ≤ p * ⟪φ, minus W φ⟫_ℝ := by
    have a : κ ≤ p * c / 2 := (min_le_right _ _).trans (min_le_left _ _)
    have b := mul_le_mul_of_nonneg_right a (show 0 ≤ 2 * ‖φ‖ ^ 2 by positivity)
    have d := mul_le_mul_of_nonneg_left hcφ hp0.le
    refine b.trans ((le_of_eq ?_).trans d); ring
  have k2 : κ * (B * ‖minus W s‖ ^ 2) ≤ 4 * t ^ 2 * ‖minus W s‖ ^ 2 := by
    have a : κ ≤ 4 * t ^ 2 / B := (min_le_right _ _).trans (min_le_right _ _)
    have b := mul_le_mul_of_nonneg_right a (show 0 ≤ B * ‖minus W s‖ ^ 2 by positivity)
    refine b.trans (le_of_eq ?_); field_simp
  have k3 := mul_le_mul_of_nonneg_left hE hκ0.le
  linarith

/-- a disturbance of the energy -/
theorem led_perturb {W : H →ₗ[ℝ] H} (h : Averaging W) {t : ℝ} (ht : 0 ≤ t) (x s e : H) {ε : ℝ} (hε : 0 < ε) :
    ledEnergy W t (x + W e) (s + e) ≤ (1 + ε) * ledEnergy W t x s + (1 + 1 / ε) * ((1 + 2 * t) * ‖e‖ ^ 2) := by
  have hle : ledEnergy W t (W e) e ≤ (1 + 2 * t) * ‖e‖ ^ 2 := by
    rw [ledEnergy]
    have h1 := pow_le_pow_left₀ (norm_nonneg _) (h.le e) 2
    have h2 : ⟪e, minus W e⟫_ℝ ≤ ‖e‖ ^ 2 := by
      have a := inner_W_le h e
      rw [minus_apply, inner_smul_right, inner_sub_right, real_inner_self_eq_norm_sq]
      have := (abs_le.1 a).1
      linarith
    have h3 := mul_le_mul_of_nonneg_left h2 (show 0 ≤ 2 * t by linarith)
    linarith
  have n1 : ‖x + W e‖ ^ 2 = ‖x‖ ^ 2 + 2 * ⟪x, W e⟫_ℝ + ‖W e‖ ^ 2 := norm_add_sq_real _ _
  have n2 : ⟪s + e, minus W (s + e)⟫_ℝ = ⟪s, minus W s⟫_ℝ + 2 * ⟪e, minus W s⟫_ℝ + ⟪e, minus W e⟫_ℝ := by
    rw [map_add, inner_add_left, inner_add_right, inner_add_right, ← minus_symm h s e, real_inner_comm e (minus W s)]; ring
  -- the cross terms
  have c1 := young (-(W e)) x ε hε
  rw [inner_neg_left, norm_neg, real_inner_comm] at c1
  have c2 : 2 * ⟪e, minus W s⟫_ℝ ≤ ε * ⟪s, minus W s⟫_ℝ + 1 / ε * ⟪e, minus W e⟫_ℝ := by
    have a := minus_nonneg h (ε • s - e)
    have b : ⟪ε • s - e, minus W (ε • s - e)⟫_ℝ = ε ^ 2 * ⟪s, minus W s⟫_ℝ - 2 * ε * ⟪e, minus W s⟫_ℝ + ⟪e, minus W e⟫_ℝ := by
      rw [map_sub, map_smul, inner_sub_left, inner_sub_right, inner_sub_right, inner_smul_left, inner_smul_left, inner_smul_right, inner_smul_right,
        ← minus_symm h s e, real_inner_comm e (minus W s)]
      simp only [conj_trivial]; ring
    rw [b] at a
    have d := mul_le_mul_of_nonneg_left a (show 0 ≤ 1 / ε by positivity)
    have e3 : 1 / ε * (ε ^ 2 * ⟪s, minus W s⟫_ℝ - 2 * ε * ⟪e, minus W s⟫_ℝ + ⟪e, minus W e⟫_ℝ) = ε * ⟪s, minus W s⟫_ℝ - 2 * ⟪e, minus W s⟫_ℝ + 1 / ε * ⟪e, minus W e⟫_ℝ := by
      field_simp
    rw [e3] at d
    linarith
  have c3 := mul_le_mul_of_nonneg_left c2 (show 0 ≤ 2 * t by linarith)
  have c4 := mul_le_mul_of_nonneg_left hle (show 0 ≤ 1 + 1 / ε by positivity)
  refine le_trans ?_ (add_le_add_right c4 _)
  rw [ledEnergy, ledEnergy, ledEnergy, n1, n2]
  have e4 : 1 / ε * ‖W e‖ ^ 2 + 2 * t * (1 / ε * ⟪e, minus W e⟫_ℝ) = 1 / ε * (‖W e‖ ^ 2 + 2 * t * ⟪e, minus W e⟫_ℝ) := by ring
  linarith

/-- `b` shrinks up to a disturbance `e` -/
theorem sqrt_gain {b b' κ q e : ℝ} (hb : 0 ≤ b) (hκ : 0 < κ) (hκ1 : κ ≤ 1) (hq : 0 ≤ q) (he : 0 ≤ e)
    (h : b' ≤ (1 + κ / 2) * ((1 - κ) * b) + (1 + 1 / (κ / 2)) * (q * e ^ 2)) :
    Real.sqrt b' ≤ Real.sqrt (1 - κ / 2) * Real.sqrt b + Real.sqrt ((1 + 1 / (κ / 2)) * q) * e := by
  have hp : 0 ≤ Real.sqrt (1 - κ / 2) * Real.sqrt b := by positivity
  have hr : 0 ≤ Real.sqrt ((1 + 1 / (κ / 2)) * q) * e := by positivity
  refine Real.sqrt_le_iff.2 ⟨by positivity, h.trans ?_⟩
  have e1 : (Real.sqrt (1 - κ / 2) * Real.sqrt b) ^ 2 = (1 - κ / 2) * b := by rw [mul_pow, Real.sq_sqrt (by linarith), Real.sq_sqrt hb]
  have e2 : (Real.sqrt ((1 + 1 / (κ / 2)) * q) * e) ^ 2 = (1 + 1 / (κ / 2)) * q * e ^ 2 := by rw [mul_pow, Real.sq_sqrt (by positivity)]
  rw [add_sq, e1, e2]
  have e3 : (1 + κ / 2) * ((1 - κ) * b) ≤ (1 - κ / 2) * b := by nlinarith [mul_nonneg (sq_nonneg κ) hb]
  nlinarith [mul_nonneg hp hr]

/-- **LED** converges linearly for all small step sizes if `t = τ β < 2 δ`. `E` is the error of the local steps. -/
theorem led_rate {W : H →ₗ[ℝ] H} (hA : Averaging W) {P : H →ₗ[ℝ] H} (hP : Proj P) (hE : Even P W) (L m δ c t T q : ℝ) (hL : 0 < L) (hm : 0 < m) (hc : 0 < c)
    (ht : 0 < t) (htδ : t < 2 * δ) (hT : 0 < T) (hq : 0 ≤ q) (hdiag : ∀ v, δ * ‖v‖ ^ 2 ≤ ⟪v, plus W v⟫_ℝ)
    (hgap : ∀ v, c * ⟪v, minus W v⟫_ℝ ≤ ‖minus W v‖ ^ 2) (hgap' : ∀ v, P v = 0 → c * ‖v‖ ^ 2 ≤ ⟪v, minus W v⟫_ℝ) :
    ∃ ρ0 : ℝ, 0 < ρ0 ∧ ∀ ρ, 0 < ρ → ρ < ρ0 → ∃ r : ℝ, 0 ≤ r ∧ r < 1 ∧ ∀ (g : H → H), GradLike g L m →
      ∀ xs ys ss : H, P xs = xs → P (g xs) = 0 → t • ys = -((ρ * T) • g xs) → (2 : ℝ) • minus W ss = ys → ∀ (X Y Φ E : Nat → H), Y 0 = 0 →
        (∀ k, Φ k = X k - (ρ * T) • g (X k) - t • Y k + E k) → (∀ k, X (k + 1) = W (Φ k)) → (∀ k, Y (k + 1) = Y k + (Φ k - W (Φ k))) →
        (∀ k, ‖E k‖ ≤ ρ * q * (ρ * ‖X k - xs‖ + ‖Y k - ys‖)) → ∃ C : ℝ, ∀ k, ‖X k - xs‖ ^ 2 ≤ C * r ^ k := by
  obtain ⟨κ, hκ0, hκ1, hshrink⟩ := led_shrink hA hc ht htδ hdiag hgap
  set s := Real.sqrt (1 - κ / 2) with hs
  have hs0 : 0 ≤ s := Real.sqrt_nonneg _
  have hs1 : s < 1 := by rw [hs, Real.sqrt_lt' one_pos, one_pow]; linarith
  set R := Real.sqrt ((1 + 1 / (κ / 2)) * (1 + 2 * t)) with hR
  have hR0 : 0 ≤ R := Real.sqrt_nonneg _
  -- ‖y‖ ≤ B b
  set B := 2 / Real.sqrt (2 * t) with hB
  have hB0 : 0 ≤ B := by positivity
  set K : ℝ := (T * L + q + q * B) * (1 + R) with hK
  have hK0 : 0 ≤ K := by positivity
  obtain ⟨ρ0, h0, h01, hgain⟩ := small_gain_seq (T * (m / 2)) K s (by positivity) hK0 hs0 hs1
  refine ⟨min ρ0 (1 / (T * L)), by positivity, fun ρ hρ hlt => ?_⟩
  have hρ1 : ρ ≤ 1 := ((hlt.trans_le (min_le_left _ _)).le).trans h01
  have hρL : ρ * T * L ≤ 1 := by
    have := hlt.le.trans (min_le_right _ _)
    rw [le_div_iff₀ (by positivity)] at this
    linarith
  have hρT : 0 < ρ * T := by positivity
  obtain ⟨r, hr0, hr1, hseq⟩ := hgain ρ hρ (hlt.trans_le (min_le_left _ _))
  refine ⟨r, hr0, hr1, ?_⟩
  intro g hg xs ys ss hxs hopt hys hss X Y Φ E hY0 hΦ hX hY hEb
  have hPm : ∀ v, P (minus W v) = 0 := by intro v; rw [minus_apply, map_smul, map_sub, hE.mean, sub_self, smul_zero]
  have hmP : ∀ v, minus W (P v) = 0 := by intro v; rw [minus_apply, hE.keeps, sub_self, smul_zero]
  have hLW : ∀ v, v - W v = (2 : ℝ) • minus W v := by intro v; rw [minus_apply]; module
  have hPY : ∀ k, P (Y k) = 0 := by
    intro k
    induction k with
    | zero => rw [hY0, map_zero]
    | succ k ih => rw [hY, map_add, ih, hLW, map_smul, hPm, smul_zero, add_zero]
  have hPys : P ys = 0 := by rw [← hss, map_smul, hPm, smul_zero]
  -- the disturbance of the disagreement
  let e : Nat → H := fun k => (E k - (ρ * T) • (g (X k) - g xs)) - P (E k - (ρ * T) • (g (X k) - g xs))
  let u : Nat → H := fun k => X k - P (X k)
  let S : Nat → H := fun k => Nat.rec (-ss) (fun j acc => acc + (Φ j - P (Φ j))) k
  have hS1 : ∀ k, S (k + 1) = S k + (Φ k - P (Φ k)) := fun k => rfl
  have hyS : ∀ k, Y k - ys = (2 : ℝ) • minus W (S k) := by
    intro k
    induction k with
    | zero =>
      show Y 0 - ys = (2 : ℝ) • minus W (-ss)
      rw [hY0, map_neg, smul_neg, hss, zero_sub]
    | succ k ih =>
      rw [hS1, map_add, map_sub, hmP, sub_zero, smul_add, ← ih, hY, hLW]; abel
  have hφ : ∀ k, Φ k - P (Φ k) = (u k - (2 * t) • minus W (S k)) + e k := by
    intro k
    have e1 : (2 * t) • minus W (S k) = t • Y k - t • ys := by rw [← smul_sub, hyS, smul_smul]; ring_nf
    have e2 : P (Φ k) = P (X k) - (ρ * T) • P (g (X k)) + P (E k) := by
      rw [hΦ, map_add, map_sub, map_sub, map_smul, map_smul, hPY, smul_zero, sub_zero]
    show _ = (X k - P (X k) - _) + ((E k - (ρ * T) • (g (X k) - g xs)) - P (E k - (ρ * T) • (g (X k) - g xs)))
    rw [e1, hys, e2, hΦ, map_sub, map_smul, map_sub, hopt]
    module
  have hWu : ∀ k, u (k + 1) = W (Φ k - P (Φ k)) := by
    intro k
    show X (k + 1) - P (X (k + 1)) = _
    rw [hX, hE.mean, map_sub, hE.keeps]
  let a : Nat → ℝ := fun k => ‖P (X k) - xs‖
  let b : Nat → ℝ := fun k => Real.sqrt (ledEnergy W t (u k) (S k))
  have ha0 : ∀ k, 0 ≤ a k := fun k => norm_nonneg _
  have hb0 : ∀ k, 0 ≤ b k := fun k => Real.sqrt_nonneg _
  have hub : ∀ k, ‖u k‖ ≤ b k := by
    intro k
    refine Real.le_sqrt_of_sq_le ?_
    rw [ledEnergy]
    have := mul_nonneg (show 0 ≤ 2 * t by linarith) (minus_nonneg hA (S k))
    linarith
  have hyb : ∀ k, ‖Y k - ys‖ ≤ B * b k := by
    intro k
    rw [hyS, norm_smul, Real.norm_of_nonneg (by norm_num : (0 : ℝ) ≤ 2), hB, div_mul_eq_mul_div, le_div_iff₀ (by positivity), mul_assoc]
    refine mul_le_mul_of_nonneg_left ?_ (by norm_num)
    refine Real.le_sqrt_of_sq_le ?_
    rw [mul_pow, Real.sq_sqrt (by linarith), ledEnergy]
    have h1 := positive_firm (minus W) (minus_symm hA) (minus_nonneg hA) 1 (fun v => by
      have := inner_W_le hA v
      rw [minus_apply, inner_smul_right, inner_sub_right, real_inner_self_eq_norm_sq]
      have := (abs_le.1 this).1
      linarith) (S k)
    have h2 := mul_le_mul_of_nonneg_left h1 (show 0 ≤ 2 * t by linarith)
    have h3 := sq_nonneg ‖u k‖
    linarith
  have hxd : ∀ k, ‖X k - xs‖ ≤ a k + b k := fun k => (dist_split (P := P) (X k) xs).trans (by have := hub k; show a k + ‖u k‖ ≤ _; linarith)
  have hEk : ∀ k, ‖E k‖ ≤ ρ ^ 2 * q * a k + ρ * (q + q * B) * b k := by
    intro k
    refine (hEb k).trans ?_
    have h1 := mul_le_mul_of_nonneg_left (hxd k) hρ.le
    have h2 := mul_le_mul_of_nonneg_left (add_le_add h1 (hyb k)) (show 0 ≤ ρ * q by positivity)
    have h3 : ρ * (ρ * q * b k) ≤ 1 * (ρ * q * b k) := mul_le_mul_of_nonneg_right hρ1 (mul_nonneg (by positivity) (hb0 k))
    have e1 : ρ * q * (ρ * (a k + b k) + B * b k) = ρ ^ 2 * q * a k + ρ * (ρ * q * b k) + ρ * (q * B) * b k := by ring
    have e2 : ρ * (q + q * B) * b k = ρ * q * b k + ρ * (q * B) * b k := by ring
    linarith
  have hKge : T * L + q + q * B ≤ K := by
    rw [hK]
    have : 0 ≤ (T * L + q + q * B) * R := by positivity
    linarith
  have hqB : 0 ≤ q * B := by positivity
  have hTL : 0 ≤ T * L := by positivity
  refine hseq a b (fun k => ‖X k - xs‖) 1 (by norm_num) ha0 hb0 (fun k => norm_nonneg _) (fun k => ?_) (fun k => ?_) (fun k => ?_)
  · rw [one_mul]; exact hxd k
  · have h1 := mean_step hP hg hρT hρL (e := E k) hxs hopt (p' := P (X (k + 1))) (x := X k) (by
      rw [hX, hE.mean, hΦ, map_add, map_sub, map_sub, map_smul, map_smul, hPY, smul_zero, sub_zero])
    have h2 : a (k + 1) ≤ (1 - ρ * T * (m / 2)) * a k + ρ * T * L * ‖u k‖ + ‖P (E k)‖ := h1
    have h3 := mul_le_mul_of_nonneg_left (hub k) (show 0 ≤ ρ * T * L by positivity)
    have h4 := (hP.norm_le (E k)).trans (hEk k)
    have h5 : ρ ^ 2 * q * a k ≤ ρ ^ 2 * K * a k := mul_le_mul_of_nonneg_right (mul_le_mul_of_nonneg_left (by linarith) (sq_nonneg _)) (ha0 k)
    have h6 : ρ * (T * L + q + q * B) * b k ≤ ρ * K * b k := mul_le_mul_of_nonneg_right (mul_le_mul_of_nonneg_left hKge hρ.le) (hb0 k)
    have e1 : ρ * (T * L + q + q * B) * b k = ρ * T * L * b k + ρ * (q + q * B) * b k := by ring
    have e2 : (1 - ρ * (T * (m / 2)) + ρ ^ 2 * K) * a k = (1 - ρ * T * (m / 2)) * a k + ρ ^ 2 * K * a k := by ring
    linarith
  · have h1 := hshrink (u k) (S k) _ rfl (hgap' _ (by
      show P (u k - (2 * t) • minus W (S k)) = 0
      rw [map_sub, map_smul, hPm, smul_zero, sub_zero]
      show P (X k - P (X k)) = 0
      rw [map_sub, hP.idem, sub_self]))
    have h2 := led_perturb hA ht.le (W (u k - (2 * t) • minus W (S k))) (S k + (u k - (2 * t) • minus W (S k))) (e k) (show 0 < κ / 2 by linarith)
    rw [← map_add, add_assoc, ← hφ k, ← hWu k, ← hS1 k] at h2
    have h3 : ledEnergy W t (u (k + 1)) (S (k + 1)) ≤ (1 + κ / 2) * ((1 - κ) * ledEnergy W t (u k) (S k)) + (1 + 1 / (κ / 2)) * ((1 + 2 * t) * ‖e k‖ ^ 2) :=
      h2.trans (add_le_add_left (mul_le_mul_of_nonneg_left h1 (by linarith)) _)
    have h4 : b (k + 1) ≤ s * b k + R * ‖e k‖ := sqrt_gain (led_energy_nonneg hA ht.le _ _) hκ0 hκ1 (by linarith) (norm_nonneg _) h3
    have h5 : ‖e k‖ ≤ ρ * (T * L + q + q * B) * (a k + b k) := by
      refine (hP.compl_le _).trans ((norm_sub_le _ _).trans ?_)
      have i1 : ‖(ρ * T) • (g (X k) - g xs)‖ ≤ ρ * T * (L * (a k + b k)) := by
        rw [norm_smul, Real.norm_of_nonneg hρT.le]
        exact mul_le_mul_of_nonneg_left ((hg.lip _ _).trans (mul_le_mul_of_nonneg_left (hxd k) hL.le)) hρT.le
      have i2 : ρ ^ 2 * q * a k ≤ ρ * q * a k := mul_le_mul_of_nonneg_right (mul_le_mul_of_nonneg_right (by nlinarith) hq) (ha0 k)
      have i3 : 0 ≤ ρ * (q * B) * a k := mul_nonneg (by positivity) (ha0 k)
      have i4 := hEk k
      have e1 : ρ * (T * L + q + q * B) * (a k + b k) = ρ * T * (L * (a k + b k)) + ρ * q * a k + ρ * (q * B) * a k + ρ * (q + q * B) * b k := by ring
      linarith
    have h6 := mul_le_mul_of_nonneg_left h5 hR0
    have h7 : 0 ≤ ρ * (T * L + q + q * B) * (a k + b k) := mul_nonneg (by positivity) (add_nonneg (ha0 k) (hb0 k))
    have e1 : ρ * K * (a k + b k) = ρ * (T * L + q + q * B) * (a k + b k) + R * (ρ * (T * L + q + q * B) * (a k + b k)) := by rw [hK]; ring
    show b (k + 1) ≤ _
    linarith

end abstract_
end Verif.Consensus
