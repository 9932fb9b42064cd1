import Verif.Props.Solver
import Verif.Props.CostCompose
/-! # C69-C72: accuracy of the centralised solvers -/
set_option linter.unusedSectionVars false
namespace Verif.Props
open Costs CostAlg Solver
open scoped InnerProductSpace

variable {σ ι : Type} {d : Nat}

/-- `f` and `g` are the value and gradient functions of the cost object, and its `m_smooth` and `m_cvx` are what they should be.
Every cost expression over sound atoms is described by its combined function, `C52_composition`. -/
def Described (c : Cost σ ι d) (f : Vec d → ℝ) (g : Vec d → Vec d) : Prop :=
  (∀ x, c.fn none x = .ok (f x)) ∧ (∀ x, c.grad none x = .ok (g x)) ∧ SmoothMeaning f g c.mSmooth ∧ ConvexMeaning f g c.mCvx

theorem described_of_atoms (c : Cost σ ι d) (ha : ∀ a ∈ atomsOf c, AtomSound a) (hq : ∀ A ∈ quadsOf c, ClearSign A) :
    ∃ f g, Described c f g := C52_composition c ha hq

theorem described_upper {c : Cost σ ι d} {f : Vec d → ℝ} {g : Vec d → Vec d} (h : Described c f g) {L : ℝ} (hL : c.mSmooth = .fin L) :
    Upper f g L := by
  have := h.2.2.1
  rw [hL] at this
  exact fun x y => descent_le this.2.1 this.2.2 x y

theorem described_lower {c : Cost σ ι d} {f : Vec d → ℝ} {g : Vec d → Vec d} (h : Described c f g) {m : ℝ} (hm : c.mCvx = .fin m) :
    0 ≤ m ∧ Lower f g m := by
  have := h.2.2.2
  rw [hm] at this
  exact this

/-- a convex differentiable function is least where its gradient vanishes -/
theorem lower_min {f : Vec d → ℝ} {g : Vec d → Vec d} {m : ℝ} (h : Lower f g m) {z : Vec d} (hz : g z = 0) (x : Vec d) :
    f z + m / 2 * ‖x - z‖ ^ 2 ≤ f x := by
  have := h z x
  rwa [hz, inner_zero_left, add_zero] at this

theorem min_grad {f : Vec d → ℝ} {g : Vec d → Vec d} {L : ℝ} (hL : Upper f g L) (hp : 0 < L) {z : Vec d} (hz : ∀ x, f z ≤ f x) : g z = 0 := by
  have h1 := gd_monotone hL hp z
  have h2 := hz (z - (1 / L) • g z)
  have h3 : 1 / (2 * L) * ‖g z‖ ^ 2 ≤ 0 := by linarith
  have h4 : ‖g z‖ ^ 2 ≤ 0 := by
    by_contra hc
    have : 0 < 1 / (2 * L) * ‖g z‖ ^ 2 := mul_pos (by positivity) (not_le.1 hc)
    linarith
  have h5 : ‖g z‖ = 0 := by
    have := le_antisymm h4 (sq_nonneg _)
    exact pow_eq_zero_iff two_ne_zero |>.1 this
  exact norm_eq_zero.1 h5

theorem gd_after {c : Cost σ ι d} {g : Vec d → Vec d} (hg : ∀ x, c.grad none x = .ok (g x)) (ip : Bool) (η : ℝ) (s0 : St Unit d) (n : Nat) :
    ∃ s, after (gdStep ip (fun _ => η) c) s0 n = .ok s ∧ s.x = gdSeq η g s0.x n := by
  induction n with
  | zero => exact ⟨s0, rfl, rfl⟩
  | succ n ih =>
    obtain ⟨s, h1, h2⟩ := ih
    rw [after, h1]
    simp only [gdStep, hg]
    exact ⟨_, rfl, by simp only [gdSeq, h2]⟩

theorem agd_after {c : Cost σ ι d} {g : Vec d → Vec d} (hg : ∀ x, c.grad none x = .ok (g x)) (η : ℝ) (β : Nat → ℝ) (x0 : Option (Vec d)) (n : Nat) :
    ∃ s, after (agdStep η β c) (init x0 id) n = .ok s ∧ (s.x, s.ext) = agdSeq η β g (x0.getD 0) n := by
  induction n with
  | zero => cases x0 <;> exact ⟨_, rfl, rfl⟩
  | succ n ih =>
    obtain ⟨s, h1, h2⟩ := ih
    rw [after, h1]
    simp only [agdStep, hg]
    refine ⟨_, rfl, ?_⟩
    rw [agdSeq, ← h2]

theorem init_x (x0 : Option (Vec d)) {T : Type} (ext : Vec d → T) : (init x0 ext).x = x0.getD 0 := by cases x0 <;> rfl

/-! ### C69: gradient descent -/

/-- **C69.** Gradient descent with its default step size on a convex cost with known constants, run for `n` steps: the value is within
`L ‖x0 - z‖² / (2 n)` of the value at any point `z`, and for strongly convex costs the distance to the minimiser shrinks by the factor
`(L - m) / (L + m)` in every step. -/
theorem C69_gradient_descent (c : Cost σ ι d) (f : Vec d → ℝ) (g : Vec d → Vec d) (h : Described c f g) (L m : ℝ)
    (hL : c.mSmooth = .fin L) (hm : c.mCvx = .fin m) (hp : 0 < L) (ip : Bool) (x0 : Option (Vec d)) (n : Nat) (hn : 1 ≤ n)
    (freq : ℝ) (hf : 0 < freq) (hf1 : freq ≤ 1) :
    ∃ η s, gdStepSize .none c.mSmooth c.mCvx = some η ∧ gradientDescent ip c η x0 n none none freq = .ok s ∧
      (m = 0 → ∀ z, f s.x - f z ≤ L * ‖x0.getD 0 - z‖ ^ 2 / (2 * n)) ∧
      (0 < m → ∀ z, (∀ x, f z ≤ f x) → ‖s.x - z‖ ≤ ((L - m) / (L + m)) ^ n * ‖x0.getD 0 - z‖) := by
  have hu := described_upper h hL
  obtain ⟨hm0, hl⟩ := described_lower h hm
  by_cases hmp : 0 < m
  · refine ⟨fun _ => 2 / (L + m), ?_⟩
    obtain ⟨s, h1, h2⟩ := gd_after h.2.1 ip (2 / (L + m)) (init x0 (fun _ => ())) n
    refine ⟨s, ?_, C59_no_tolerance _ (gdStep_keeps _ _ _) n hn freq hf hf1 _ s h1, fun e => by linarith, fun _ z hz => ?_⟩
    · rw [hL, hm, gdStepSize, if_pos hmp, if_neg (by linarith)]
      all_goals (intros; contradiction)
    · have := gd_linear_rate hu hl hmp hp.le (x0.getD 0) z (min_grad hu hp hz) n
      rw [h2, init_x]
      by_cases he : x0.getD 0 = z
      · rw [he, sub_self, norm_zero, mul_zero] at this
        rw [he, sub_self, norm_zero, mul_zero]
        exact this
      · rw [abs_of_nonneg (sub_nonneg.2 (hl.le_upper hu he))] at this
        exact this
  · have hz0 : m = 0 := le_antisymm (not_lt.1 hmp) hm0
    subst hz0
    refine ⟨fun _ => 1 / L, ?_⟩
    obtain ⟨s, h1, h2⟩ := gd_after h.2.1 ip (1 / L) (init x0 (fun _ => ())) n
    refine ⟨s, ?_, C59_no_tolerance _ (gdStep_keeps _ _ _) n hn freq hf hf1 _ s h1, fun _ z => ?_, fun e => by linarith⟩
    · rw [hL, hm, gdStepSize, if_neg hmp, if_neg (by linarith)]
      all_goals (intros; contradiction)
    · have := gd_rate hu hl hp (x0.getD 0) z n
      rw [h2, init_x]
      rw [le_div_iff₀ (by positivity)]
      have h3 : 0 ≤ L / 2 * ‖gdSeq (1 / L) g (x0.getD 0) n - z‖ ^ 2 := by positivity
      nlinarith [this, h3]

/-- **C69.** Every step of gradient descent with the default step of a convex smooth cost decreases the value by at least
`‖gradient‖² / (2 L)`. -/
theorem C69_monotone (c : Cost σ ι d) (f : Vec d → ℝ) (g : Vec d → Vec d) (h : Described c f g) (L : ℝ)
    (hL : c.mSmooth = .fin L) (hp : 0 < L) (ip : Bool) (k : Nat) (s : St Unit d) :
    ∃ s', gdStep ip (fun _ => 1 / L) c k s = .ok s' ∧ f s'.x ≤ f s.x - ‖g s.x‖ ^ 2 / (2 * L) := by
  have := gd_monotone (described_upper h hL) hp s.x
  refine ⟨_, by simp only [gdStep, h.2.1]; rfl, ?_⟩
  simp only
  convert this using 2
  ring

/-- **C69.** For gradient descent on a strongly convex cost the stopping tests mean what they say: if the last step moved the iterate by
at most `δ` (squared), the returned point is within `(L - m) / (2 m) · √δ` of the minimiser. -/
theorem C69_last_move (c : Cost σ ι d) (f : Vec d → ℝ) (g : Vec d → Vec d) (h : Described c f g) (L m : ℝ)
    (hL : c.mSmooth = .fin L) (hm : c.mCvx = .fin m) (hmp : 0 < m) (ip : Bool) (s0 s : St Unit d) (n : Nat) (δ : ℝ)
    (hs : after (gdStep ip (fun _ => 2 / (L + m)) c) s0 n = .ok s) (hδ : MovedBy (gdStep ip (fun _ => 2 / (L + m)) c) s0 n δ)
    (z : Vec d) (hz : ∀ x, f z ≤ f x) : ‖s.x - z‖ ≤ (L - m) / (2 * m) * Real.sqrt δ := by
  have hu := described_upper h hL
  obtain ⟨hm0, hl⟩ := described_lower h hm
  obtain ⟨a, b, hn, ha, hb, rfl⟩ := hδ
  obtain ⟨k, rfl⟩ : ∃ k, n = k + 1 := ⟨n - 1, by omega⟩
  rw [Nat.add_sub_cancel] at ha
  rw [hs] at hb
  cases hb
  rw [after, ha] at hs
  simp only [gdStep, h.2.1] at hs
  injection hs with hs
  have hx : s.x = a.x - (2 / (L + m)) • g a.x := by rw [← hs]
  have hL0 : 0 ≤ L := by have := h.2.2.1; rw [hL] at this; exact this.1
  rw [Real.sqrt_sq (norm_nonneg _)]
  by_cases hax : a.x = z
  · -- already there
    have hmv : s.x = z := by
      by_cases hL1 : 0 < L
      · rw [hx, hax, min_grad hu hL1 hz, smul_zero, sub_zero]
      · -- L = 0 : then the space is trivial
        have hL00 : L = 0 := le_antisymm (not_lt.1 hL1) hL0
        by_contra hne
        have := hl.le_upper hu hne
        linarith
    rw [hmv, hax]; simp
  · have hle := hl.le_upper hu hax
    have hLp : 0 < L := lt_of_lt_of_le hmp hle
    have hgz := min_grad hu hLp hz
    have h1 := gd_contract hu hl hmp hL0 a.x z hgz
    rw [← hx, abs_of_nonneg (by linarith)] at h1
    have h2 := strong_cocoercive hu hl hmp a.x z
    rw [hgz, sub_zero] at h2
    -- the gradient bounds the distance
    have h3 : m * ‖a.x - z‖ ≤ ‖g a.x‖ := by
      have h4 := real_inner_le_norm (g a.x) (a.x - z)
      have h5 : L * m * ‖a.x - z‖ ^ 2 + ‖g a.x‖ ^ 2 ≤ (L + m) * (‖g a.x‖ * ‖a.x - z‖) :=
        h2.trans (mul_le_mul_of_nonneg_left h4 (by linarith))
      have h6 : (‖g a.x‖ - m * ‖a.x - z‖) * (‖g a.x‖ - L * ‖a.x - z‖) ≤ 0 := by nlinarith
      by_contra hc
      have hc := not_le.1 hc
      have hpos : 0 < ‖a.x - z‖ := norm_pos_iff.2 (sub_ne_zero.2 hax)
      have h7 : ‖g a.x‖ - L * ‖a.x - z‖ < 0 := by nlinarith
      have h8 : ‖g a.x‖ - m * ‖a.x - z‖ < 0 := by linarith
      have := mul_pos_of_neg_of_neg h8 h7
      linarith
    have h9 : ‖s.x - a.x‖ = 2 / (L + m) * ‖g a.x‖ := by
      rw [hx, sub_sub_cancel_left, norm_neg, norm_smul, Real.norm_of_nonneg (by positivity)]
    rw [h9]
    refine h1.trans ?_
    have e : (L - m) / (2 * m) * (2 / (L + m) * ‖g a.x‖) = (L - m) / (L + m) * (‖g a.x‖ / m) := by
      field_simp
    rw [e]
    refine mul_le_mul_of_nonneg_left ?_ (div_nonneg (by linarith) (by linarith))
    rw [le_div_iff₀ hmp]
    linarith

/-! ### C70: accelerated gradient descent -/

/-- **C70.** Accelerated gradient descent with its defaults, run for `n` steps: value within `2 L ‖x0 - z‖² / (n + 1)²` of the minimum
(convex), within `(1 - √(m / L))ⁿ (f x0 - f z + m/2 ‖x0 - z‖²)` (strongly convex). -/
theorem C70_accelerated (c : Cost σ ι d) (f : Vec d → ℝ) (g : Vec d → Vec d) (h : Described c f g) (L m : ℝ)
    (hL : c.mSmooth = .fin L) (hm : c.mCvx = .fin m) (hp : 0 < L) (x0 : Option (Vec d)) (n : Nat) (hn : 1 ≤ n) :
    ∃ η β, agdStepSize .none c.mSmooth = some η ∧ agdMomentum .none c.mSmooth c.mCvx = some β ∧
      ∃ s, after (agdStep η β c) (init x0 id) n = .ok s ∧
      (m = 0 → ∀ z, (∀ x, f z ≤ f x) → f s.x - f z ≤ 2 * L * ‖x0.getD 0 - z‖ ^ 2 / (n + 1) ^ 2) ∧
      (0 < m → ∀ z, (∀ x, f z ≤ f x) → f s.x - f z ≤
        (1 - Real.sqrt (m / L)) ^ n * (f (x0.getD 0) - f z + m / 2 * ‖x0.getD 0 - z‖ ^ 2)) := by
  have hu := described_upper h hL
  obtain ⟨hm0, hl⟩ := described_lower h hm
  have hη : agdStepSize .none c.mSmooth = some (1 / L) := by
    rw [hL, agdStepSize, if_neg hp.ne']
    all_goals (intros; contradiction)
  by_cases hmp : 0 < m
  · refine ⟨1 / L, fun _ => (Real.sqrt L - Real.sqrt m) / (Real.sqrt L + Real.sqrt m), hη, ?_, ?_⟩
    · rw [hm, hL, agdMomentum, if_pos hmp]
      all_goals (intros; contradiction)
    · obtain ⟨s, h1, h2⟩ := agd_after h.2.1 (1 / L) (fun _ => (Real.sqrt L - Real.sqrt m) / (Real.sqrt L + Real.sqrt m)) x0 n
      refine ⟨s, h1, fun e => by linarith, fun _ z hz => ?_⟩
      have hx : s.x = (agdSeq (1 / L) (fun _ => (Real.sqrt L - Real.sqrt m) / (Real.sqrt L + Real.sqrt m)) g (x0.getD 0) n).1 := by rw [← h2]
      by_cases hle : m ≤ L
      · have := agd_strong_rate hu hl hmp hle (x0.getD 0) z n
        rw [← hx] at this
        rwa [Real.sqrt_div' m hp.le]
      · -- the space is trivial
        have htriv : ∀ a b : Vec d, a = b := fun a b => by
          by_contra hne; exact hle (hl.le_upper hu hne)
        rw [htriv s.x z, htriv (x0.getD 0) z]
        simp
  · have hz0 : m = 0 := le_antisymm (not_lt.1 hmp) hm0
    subst hz0
    refine ⟨1 / L, fun k => (k : ℝ) / (k + 3), hη, ?_, ?_⟩
    · rw [hm, hL, agdMomentum, if_neg hmp]
      all_goals (intros; contradiction)
    · obtain ⟨s, h1, h2⟩ := agd_after h.2.1 (1 / L) (fun k => (k : ℝ) / (k + 3)) x0 n
      refine ⟨s, h1, fun _ z hz => ?_, fun e => by linarith⟩
      have hx : s.x = (agdSeq (1 / L) (fun k => (k : ℝ) / (k + 3)) g (x0.getD 0) n).1 := by rw [← h2]
      rw [hx]
      exact agd_rate hu hl hp (x0.getD 0) z hz n hn

/-! ### C71: solve -/

/-- costs that `solve` treats iteratively: no quadratic, no sum of linear regressions only -/
def Iterative (linReg : Cost σ ι d → Option (List (Vec d × ℝ))) : Cost σ ι d → Prop
  | .quad _ _ _ _ => False
  | .sum c cs => ∃ e ∈ c :: cs, linReg e = none
  | _ => True

theorem solve_iterative (linReg : Cost σ ι d → Option (List (Vec d × ℝ))) (lstsq : Mat d → Vec d → Vec d) (c : Cost σ ι d)
    (hi : Iterative linReg c) (maxIter : Int) (stopTol maxTol : Option ℝ) :
    Solver.solve linReg lstsq c maxIter stopTol maxTol = solveIter c maxIter stopTol maxTol := by
  unfold Solver.solve
  cases c with
  | quad => exact hi.elim
  | sum c0 cs =>
    simp only
    rw [if_neg]
    obtain ⟨e, he, hn⟩ := hi
    intro hall
    rw [List.all_eq_true] at hall
    have := hall e he
    rw [hn] at this
    simp at this
  | _ => rfl

/-- **C71.** `solve(cost, max_iter=n)` of a smooth convex cost with positive smoothness constant returns a point whose value is within
the accelerated rate of the minimum. -/
theorem C71_solve (linReg : Cost σ ι d → Option (List (Vec d × ℝ))) (lstsq : Mat d → Vec d → Vec d) (c : Cost σ ι d)
    (hi : Iterative linReg c) (f : Vec d → ℝ) (g : Vec d → Vec d) (h : Described c f g) (L m : ℝ)
    (hL : c.mSmooth = .fin L) (hm : c.mCvx = .fin m) (hp : 0 < L) (n : Nat) (hn : 1 ≤ n) :
    ∃ x, Solver.solve linReg lstsq c n none none = .result (.ok x) ∧
      (m = 0 → ∀ z, (∀ y, f z ≤ f y) → f x - f z ≤ 2 * L * ‖z‖ ^ 2 / (n + 1) ^ 2) ∧
      (0 < m → ∀ z, (∀ y, f z ≤ f y) → f x - f z ≤ (1 - Real.sqrt (m / L)) ^ n * (f 0 - f z + m / 2 * ‖z‖ ^ 2)) := by
  obtain ⟨η, β, h1, h2, s, h3, h4, h5⟩ := C70_accelerated c f g h L m hL hm hp none n hn
  have hr : acceleratedGradientDescent c η β none n none none 0.01 = .ok s :=
    C59_no_tolerance _ (agdStep_keeps _ _ _) n hn 0.01 (by norm_num) (by norm_num) _ s h3
  refine ⟨s.x, ?_, fun e z hz => ?_, fun e z hz => ?_⟩
  · rw [solve_iterative linReg lstsq c hi, solveIter, if_neg (by rw [hL]; simp only [finVal]; exact fun h => hp.ne' h.2),
      if_pos (by rw [hL, hm]; exact ⟨rfl, hp⟩), h1, h2]
    simp only [hr]
  · have := h4 e z hz
    simpa [norm_sub_rev] using this
  · have := h5 e z hz
    simpa [norm_sub_rev] using this

/-- **C71.** A cost that reports `m_smooth = 0` and a known convexity constant is refused with ValueError - for instance a zero cost,
which every point minimises. -/
theorem C71_constant_refused (linReg : Cost σ ι d → Option (List (Vec d × ℝ))) (lstsq : Mat d → Vec d → Vec d) (c : Cost σ ι d)
    (hi : Iterative linReg c) (m : ℝ) (hL : c.mSmooth = .fin 0) (hm : c.mCvx = .fin m) (maxIter : Int) (stopTol maxTol : Option ℝ) :
    Solver.solve linReg lstsq c maxIter stopTol maxTol = .result (.error .valueError) := by
  rw [solve_iterative linReg lstsq c hi, solveIter, if_pos (by rw [hL, hm]; exact ⟨rfl, rfl⟩)]

example (linReg : Cost σ ι d → Option (List (Vec d × ℝ))) (s : σ) :
    Iterative linReg (.zero s) ∧ (Cost.zero s : Cost σ ι d).mSmooth = .fin 0 ∧ (Cost.zero s : Cost σ ι d).mCvx = .fin 0 :=
  ⟨trivial, rfl, rfl⟩

end Verif.Props
