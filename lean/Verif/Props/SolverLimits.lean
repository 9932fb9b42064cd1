import Verif.Props.SolverRates
/-! # C71, C72: limits of the stopping rule, and the accelerated-gradient proximal -/
set_option linter.unusedSectionVars false
namespace Verif.Props
open Costs CostAlg Solver
open scoped InnerProductSpace

variable {σ ι : Type} {d : Nat}

/-! ### C71: small moves do not mean convergence -/

/-- `diag(7, 6, 0)` -/
def ridgeMat : Mat 3 := Matrix.diagonal ![7, 6, 0]

/-- the second unit vector -/
def unit2 : Vec 3 := vec ![0, 1, 0]

theorem ridge_sym : symPart ridgeMat = ridgeMat := by
  rw [symPart, ridgeMat, Matrix.diagonal_transpose, ← two_smul ℝ, smul_smul]
  norm_num

theorem ridge_app (v : Vec 3) : app ridgeMat v = vec ![7 * v 0, 6 * v 1, 0] := by
  ext i
  rw [app_apply, ridgeMat]
  fin_cases i <;> simp [Matrix.diagonal_apply, Fin.sum_univ_three, vec]

theorem ridge_smooth : quadSmooth ridgeMat = 7 := by
  apply le_antisymm
  · refine C52_quadratic_smooth_tight ridgeMat 0 (by norm_num) 7 fun x y => ?_
    have e : quadGrad ridgeMat 0 x - quadGrad ridgeMat 0 y = vec ![7 * (x - y) 0, 6 * (x - y) 1, 0] := by
      rw [quadGrad, quadGrad, add_sub_add_right_eq_sub, ← app_sub, ridge_sym, ridge_app]
    rw [e]
    set v := x - y
    refine le_of_sq_le_sq ?_ (by positivity)
    rw [mul_pow, EuclideanSpace.norm_sq_eq, EuclideanSpace.norm_sq_eq, Fin.sum_univ_three, Fin.sum_univ_three]
    simp only [vec, Matrix.cons_val_zero, Matrix.cons_val_one, Matrix.cons_val_two, Matrix.tail_cons, Matrix.head_cons, Real.norm_eq_abs, sq_abs]
    simp
    nlinarith [sq_nonneg (v 1), sq_nonneg (v 2)]
  · have h := norm_app_le (symPart_herm ridgeMat) (vec ![1, 0, 0])
    have e : app (symPart ridgeMat) (vec ![1, 0, 0]) = (7 : ℝ) • vec ![1, 0, 0] := by
      rw [ridge_sym, ridge_app]
      ext i
      fin_cases i <;> simp [vec]
    have e1 : ‖(vec ![1, 0, 0] : Vec 3)‖ = 1 := by
      have : ‖(vec ![1, 0, 0] : Vec 3)‖ ^ 2 = 1 := by
        rw [EuclideanSpace.norm_sq_eq, Fin.sum_univ_three]; simp [vec]
      nlinarith [norm_nonneg (vec ![1, 0, 0] : Vec 3)]
    rw [e, norm_smul, e1] at h
    simpa [quadSmooth] using h

theorem ridge_minEig : minEig (symPart ridgeMat) (symPart_herm ridgeMat) = 0 := by
    apply le_antisymm
    · have h := minEig_mul_le (symPart_herm ridgeMat) (vec ![0, 0, 1])
      have e : app (symPart ridgeMat) (vec ![0, 0, 1]) = 0 := by
        rw [ridge_sym, ridge_app]
        ext i
        fin_cases i <;> simp [vec]
      rw [e, inner_zero_right] at h
      have e1 : ‖(vec ![0, 0, 1] : Vec 3)‖ ^ 2 = 1 := by
        rw [EuclideanSpace.norm_sq_eq, Fin.sum_univ_three]; simp [vec]
      rw [e1, mul_one] at h
      exact h
    · refine le_ciInf fun i => ?_
      have h := inner_app_herm (symPart_herm ridgeMat) ((symPart_herm ridgeMat).eigenvectorBasis i) ((symPart_herm ridgeMat).eigenvectorBasis i)
      set v := (symPart_herm ridgeMat).eigenvectorBasis i with hv
      have h1 : ⟪v, app (symPart ridgeMat) v⟫_ℝ = (symPart_herm ridgeMat).eigenvalues i := by
        rw [hv, app_eigen, inner_smul_right, real_inner_self_eq_norm_sq, (symPart_herm ridgeMat).eigenvectorBasis.norm_eq_one]
        simp
      have h2 : 0 ≤ ⟪v, app (symPart ridgeMat) v⟫_ℝ := by
        rw [ridge_sym, ridge_app, ← dot_eq_inner, dot, Fin.sum_univ_three]
        simp only [vec, Matrix.cons_val_zero, Matrix.cons_val_one, Matrix.cons_val_two, Matrix.tail_cons, Matrix.head_cons]
        simp
        nlinarith [sq_nonneg (v 0), sq_nonneg (v 1)]
      rw [← h1]; exact h2
theorem ridge_cvx : quadCvx ridgeMat = .fin 0 := by
  rw [quadCvx, ridge_minEig, cvxOf, if_neg (by norm_num), if_pos (by norm_num)]

/-- `1.0 * QuadraticCost(diag(7, 6, 0), (0, -6 t, 0))`, least on the line `x₁ = 0, x₂ = t` -/
noncomputable def ridge (t : ℝ) : Cost Unit Unit 3 := .scaled (.quad () ridgeMat (-(6 * t) • unit2) 0) 1

theorem ridge_grad (t a : ℝ) : (ridge t).grad none (a • unit2) = .ok ((6 * (a - t)) • unit2) := by
  rw [ridge, Cost.grad, Cost.grad]
  change (Except.ok ((1 : ℝ) • quadGrad ridgeMat (-(6 * t) • unit2) (a • unit2)) : Py (Vec 3)) = _
  rw [one_smul, quadGrad, ridge_sym, app_smul, ridge_app]
  congr 1
  ext i
  fin_cases i <;> simp [vec, unit2]
  ring

theorem ridge_min (t : ℝ) (z : Vec 3) (hz : ∀ v w, (ridge t).fn none z = .ok v → (ridge t).fn none (t • unit2) = .ok w → v ≤ w) : z 1 = t := by
  have e : ∀ x : Vec 3, (ridge t).fn none x = .ok (7 / 2 * x 0 ^ 2 + 3 * (x 1 - t) ^ 2 - 3 * t ^ 2) := by
    intro x
    rw [ridge, Cost.fn, Cost.fn]
    change (Except.ok ((1 : ℝ) * quadFn ridgeMat (-(6 * t) • unit2) 0 x) : Py ℝ) = _
    rw [one_mul, quadFn, ridge_app, dot, dot, Fin.sum_univ_three, Fin.sum_univ_three]
    congr 1
    simp [vec, unit2]
    ring
  have := hz _ _ (e z) (e _)
  simp [unit2, vec] at this
  have h2 : (z 1 - t) ^ 2 ≤ 0 := by nlinarith [sq_nonneg (z 0)]
  have h3 : z 1 - t = 0 := by
    have := le_antisymm h2 (sq_nonneg _)
    exact pow_eq_zero_iff two_ne_zero |>.1 this
  linarith

/-- the iterates stay on the second axis -/
theorem ridge_after (t : ℝ) (β : Nat → ℝ) (n : Nat) (s s' : St (Vec 3) 3) (a b : ℝ)
    (hs : after (agdStep (1 / 7) β (ridge t)) (init none id) n = .ok s) (hx : s.x = a • unit2) (hy : s.ext = b • unit2)
    (hs' : after (agdStep (1 / 7) β (ridge t)) (init none id) (n + 1) = .ok s') :
    s'.x = (b - 6 / 7 * (b - t)) • unit2 ∧
      s'.ext = ((b - 6 / 7 * (b - t)) + β n * ((b - 6 / 7 * (b - t)) - a)) • unit2 := by
  rw [after, hs] at hs'
  simp only [agdStep] at hs'
  rw [hy, ridge_grad] at hs'
  simp only at hs'
  injection hs' with hs'
  rw [← hs', hx]
  constructor
  · simp only
    module
  · simp only
    module

theorem ridge_iterates (t : ℝ) : ∃ s1 s2 s3 s4 : St (Vec 3) 3,
    (∀ n s, after (agdStep (1 / 7) (fun k => (k : ℝ) / (k + 3)) (ridge t)) (init none id) n = .ok s → 1 ≤ n → n ≤ 4 →
      s = s1 ∨ s = s2 ∨ s = s3 ∨ s = s4) ∧
    after (agdStep (1 / 7) (fun k => (k : ℝ) / (k + 3)) (ridge t)) (init none id) 3 = .ok s3 ∧
    after (agdStep (1 / 7) (fun k => (k : ℝ) / (k + 3)) (ridge t)) (init none id) 4 = .ok s4 ∧
    s1.x = (6 / 7 * t) • unit2 ∧ s2.x = (48 / 49 * t) • unit2 ∧ s3.x = (687 / 686 * t) • unit2 ∧ s4.x = (687 / 686 * t) • unit2 := by
  set st := agdStep (1 / 7) (fun k => (k : ℝ) / (k + 3)) (ridge t) with hst
  have hok : ∀ (n : Nat) (s : St (Vec 3) 3) (a b : ℝ), after st (init none id) n = .ok s → s.x = a • unit2 → s.ext = b • unit2 → ∃ s', after st (init none id) (n + 1) = .ok s' := by
    intro n s a b hs hx hy
    rw [after, hs]
    simp only [hst, agdStep]
    rw [hy, ridge_grad]
    exact ⟨_, rfl⟩
  have h0 : after st (init none id) 0 = .ok (init none id) := rfl
  have hx0 : (init none id : St (Vec 3) 3).x = (0 : ℝ) • unit2 := by rw [zero_smul]; rfl
  have hy0 : (init none id : St (Vec 3) 3).ext = (0 : ℝ) • unit2 := by rw [zero_smul]; rfl
  obtain ⟨s1, h1⟩ := hok 0 _ _ _ h0 hx0 hy0
  obtain ⟨x1, y1⟩ := ridge_after t _ 0 _ s1 _ _ h0 hx0 hy0 h1
  obtain ⟨s2, h2⟩ := hok 1 _ _ _ h1 x1 y1
  obtain ⟨x2, y2⟩ := ridge_after t _ 1 _ s2 _ _ h1 x1 y1 h2
  obtain ⟨s3, h3⟩ := hok 2 _ _ _ h2 x2 y2
  obtain ⟨x3, y3⟩ := ridge_after t _ 2 _ s3 _ _ h2 x2 y2 h3
  obtain ⟨s4, h4⟩ := hok 3 _ _ _ h3 x3 y3
  obtain ⟨x4, y4⟩ := ridge_after t _ 3 _ s4 _ _ h3 x3 y3 h4
  refine ⟨s1, s2, s3, s4, ?_, h3, h4, ?_, ?_, ?_, ?_⟩
  · intro n s hn a b
    have : n = 1 ∨ n = 2 ∨ n = 3 ∨ n = 4 := by omega
    rcases this with rfl | rfl | rfl | rfl
    · rw [h1] at hn; cases hn; simp
    · rw [h2] at hn; cases hn; simp
    · rw [h3] at hn; cases hn; simp
    · rw [h4] at hn; cases hn; simp
  · rw [x1]; congr 1; ring
  · rw [x2]; congr 1; push_cast; ring
  · rw [x3]; congr 1; push_cast; ring
  · rw [x4]; congr 1; push_cast; ring

/-- **C71 (refutation).** The tolerances of `solve` are no accuracy guarantee: however small `stop_tol` and `max_tol` are, for a suitable
smooth convex cost `solve` returns normally, after at most four steps of the hundred, with a point further than any given distance `B`
from every minimiser: the momentum makes two consecutive iterates coincide. -/
theorem C71_tolerance_no_guarantee (linReg : Cost Unit Unit 3 → Option (List (Vec 3 × ℝ))) (lstsq : Mat 3 → Vec 3 → Vec 3)
    (ε B : ℝ) (hε : 0 < ε) (hB : 0 < B) :
    ∃ (c : Cost Unit Unit 3) (x : Vec 3), Solver.solve linReg lstsq c 100 (some ε) (some ε) = .result (.ok x) ∧
      c.mSmooth = .fin 7 ∧ c.mCvx = .fin 0 ∧
      ∀ z, (∀ y v w, c.fn none z = .ok v → c.fn none y = .ok w → v ≤ w) → B ≤ ‖x - z‖ := by
  obtain ⟨s1, s2, s3, s4, hall, h3, h4, x1, x2, x3, x4⟩ := ridge_iterates (686 * B)
  have hL : (ridge (686 * B)).mSmooth = .fin 7 := by
    rw [ridge, Cost.mSmooth, Cost.mSmooth, ridge_smooth, scaledSmooth, if_neg one_ne_zero, Fl.smul]; simp
  have hM : (ridge (686 * B)).mCvx = .fin 0 := by
    rw [ridge, Cost.mCvx, Cost.mCvx, ridge_cvx, scaledCvx, if_pos one_pos, Fl.smul]; simp
  set st := agdStep (1 / 7) (fun k => (k : ℝ) / (k + 3)) (ridge (686 * B)) with hst
  have hce : max 1 ⌊(0.01 : ℝ) * (((100 : Int)) : ℝ)⌋₊ = 1 := by norm_num
  obtain ⟨n, g1, g2, g3, g4⟩ := C59_run st (agdStep_keeps _ _ _) 100 (some ε) (some ε) 0.01
    ⟨by norm_num, by rintro t ⟨⟩; exact hε, by rintro t ⟨⟩; exact hε, by norm_num, by norm_num⟩ (init none id)
  rw [hce] at g3 g4
  have hstop4 : StopsAt st (init none id) (some ε) 1 4 :=
    ⟨ε, 0, rfl, by norm_num, ⟨s3, s4, by norm_num, h3, h4, by rw [x3, x4]; simp⟩, hε.le⟩
  have hn : n ≤ 4 := by
    by_contra hc
    exact g3 4 (by norm_num) (by omega) hstop4
  have hpre : ∀ k, k ≤ 4 → ∃ s, after st (init none id) k = .ok s := by
    intro k hk
    by_contra hc
    push Not at hc
    have : ∀ j, k ≤ j → ∀ s, after st (init none id) j ≠ .ok s := by
      intro j hj
      induction j, hj using Nat.le_induction with
      | base => exact hc
      | succ j _ ih =>
        intro s h
        rw [after] at h
        cases h2 : after st (init none id) j with
        | error e => rw [h2] at h; cases h
        | ok s' => exact ih s' h2
    exact this 4 hk s4 h4
  rcases g4 with ⟨e, a, -⟩ | ⟨s, δ, a, mv, b, c⟩
  · obtain ⟨s, hs⟩ := hpre n hn
    rw [hs] at a; cases a
  · have hb : StopsAt st (init none id) (some ε) 1 n := by
      rcases b with b | b
      · omega
      · exact b
    obtain ⟨t, δ', ht, -, mv', hd⟩ := hb
    cases ht
    have hδ : δ = δ' := by
      obtain ⟨p, q, -, hp, hq, rfl⟩ := mv
      obtain ⟨p', q', -, hp', hq', rfl⟩ := mv'
      rw [hp] at hp'; rw [hq] at hq'; cases hp'; cases hq'; rfl
    have hrun : acceleratedGradientDescent (ridge (686 * B)) (1 / 7) (fun k => (k : ℝ) / (k + 3)) none 100 (some ε) (some ε) 0.01 = .ok s := by
      rcases c with ⟨t, ht, h, -⟩ | ⟨-, c⟩
      · cases ht; exact absurd (hδ ▸ hd) (not_le.2 h)
      · exact c
    refine ⟨ridge (686 * B), s.x, ?_, hL, hM, ?_⟩
    · rw [solve_iterative linReg lstsq _ (by exact trivial), solveIter, if_neg (by rw [hL]; simp [finVal]),
        if_pos (by rw [hL, hM]; exact ⟨rfl, by norm_num [finVal]⟩)]
      have e1 : agdStepSize .none (ridge (686 * B)).mSmooth = some (1 / 7) := by
        rw [hL, agdStepSize, if_neg (by norm_num)]
        all_goals (intros; contradiction)
      have e2 : agdMomentum .none (ridge (686 * B)).mSmooth (ridge (686 * B)).mCvx = some (fun k : Nat => (k : ℝ) / (k + 3)) := by
        rw [hL, hM, agdMomentum, if_neg (by norm_num)]
        all_goals (intros; contradiction)
      rw [e1, e2]
      simp only [hrun]
    · intro z hz
      have hz1 := ridge_min (686 * B) z (fun v w hv hw => hz _ v w hv hw)
      have hcoord : B ≤ |s.x 1 - z 1| := by
        rw [hz1]
        rcases hall n s a g1 hn with rfl | rfl | rfl | rfl
        · rw [x1, abs_sub_comm]; refine le_trans ?_ (le_abs_self _); simp [unit2, vec]; linarith
        · rw [x2, abs_sub_comm]; refine le_trans ?_ (le_abs_self _); simp [unit2, vec]; linarith
        · rw [x3]; refine le_trans ?_ (le_abs_self _); simp [unit2, vec]; linarith
        · rw [x4]; refine le_trans ?_ (le_abs_self _); simp [unit2, vec]; linarith
      refine hcoord.trans ?_
      have := EuclideanSpace.norm_sq_eq (s.x - z)
      have h1 : |s.x 1 - z 1| ^ 2 ≤ ‖s.x - z‖ ^ 2 := by
        rw [this]
        have := Finset.single_le_sum (f := fun i => ‖(s.x - z) i‖ ^ 2) (fun i _ => sq_nonneg _) (Finset.mem_univ (1 : Fin 3))
        simpa using this
      exact le_of_sq_le_sq h1 (norm_nonneg _)

/-! ### C72: the proximal of sums -/

section prox
variable [DecidableEq σ]

/-- the quadratic term added by `proximal_solver` -/
noncomputable def proxTerm (np : σ) (y : Vec d) (ρ : ℝ) : Cost σ ι d := .quad np ((1 / ρ) • (1 : Mat d)) (-((1 / ρ) • y)) 0

theorem proxTerm_value (y : Vec d) (ρ : ℝ) (hρ : 0 < ρ) (w : Vec d) :
    quadFn ((1 / ρ) • (1 : Mat d)) (-((1 / ρ) • y)) 0 w = ‖w - y‖ ^ 2 / (2 * ρ) - ‖y‖ ^ 2 / (2 * ρ) := by
  rw [quadFn, smul_app, one_app, dot_eq_inner, dot_eq_inner, inner_smul_right, inner_neg_left, inner_smul_left, norm_sub_sq_real,
    real_inner_self_eq_norm_sq, real_inner_comm w y]
  simp only [conj_trivial]
  field_simp
  ring

/-- **C72.** `proximal_solver(cost, y, penalty, max_iter)` - and with it the `proximal` of sums and of logistic regression - for a cost
over sound atoms whose proximal problem has finite constants `L > 0` and `m`: it returns a point `x` after `n` steps, `n ≤ max_iter`,
whose proximal objective is within the accelerated rate for `n` of the value at the proximal point `z`; `n < max_iter` only if the last
step moved the iterate by at most `1e-10` (squared) and its number is checked. -/
theorem C72_proximal_solver (np : σ) (c p : Cost σ ι d) (f : Vec d → ℝ) (hf : ∀ x, c.fn none x = .ok (f x)) (y : Vec d) (ρ : ℝ) (hρ : 0 < ρ)
    (hadd : Cost.add (proxTerm np y ρ) c = .ok p) (ha : ∀ a ∈ atomsOf c, AtomSound a) (hq : ∀ A ∈ quadsOf p, ClearSign A)
    (L m : ℝ) (hL : p.mSmooth = .fin L) (hm : p.mCvx = .fin m) (hp : 0 < L) (maxIter : Int) (h1 : 1 ≤ maxIter) :
    ∃ (x : Vec d) (n : Nat), proximalSolver np c y ρ maxIter = .result (.ok x) ∧ 1 ≤ n ∧ (n : Int) ≤ maxIter ∧
      (∀ z, IsProx f y ρ z →
        (m = 0 → proxObjective f y ρ x - proxObjective f y ρ z ≤ 2 * L * ‖y - z‖ ^ 2 / (n + 1) ^ 2) ∧
        (0 < m → proxObjective f y ρ x - proxObjective f y ρ z ≤
          (1 - Real.sqrt (m / L)) ^ n * (proxObjective f y ρ y - proxObjective f y ρ z + m / 2 * ‖y - z‖ ^ 2))) ∧
      ((n : Int) < maxIter → ∃ η β, StopsAt (agdStep η β p) (init (some y) id) (some 1e-10) (max 1 ⌊(0.01 : ℝ) * (maxIter : ℝ)⌋₊) n) := by
  have hat : ∀ a ∈ atomsOf p, AtomSound a := by
    intro a h
    rw [atoms_add hadd] at h
    exact ha a (by simpa [proxTerm, atomsOf] using h)
  obtain ⟨F, G, hD⟩ := described_of_atoms p hat hq
  have hF : ∀ w, F w = proxObjective f y ρ w - ‖y‖ ^ 2 / (2 * ρ) := by
    intro w
    have h2 := ev_add (fnEv none w) (fnEv_linear none w) hadd
    have h3 := hD.1 w
    rw [Cost.fn_eq, h2] at h3
    have h4 := hf w
    rw [Cost.fn_eq] at h4
    have h5 : c.ev (fnEv none w) = some (f w) := by
      cases hc : c.ev (fnEv none w) with
      | none => rw [hc] at h4; cases h4
      | some v => rw [hc] at h4; cases h4; rfl
    have h6 : (proxTerm np y ρ : Cost σ ι d).ev (fnEv none w) = some (quadFn ((1 / ρ) • (1 : Mat d)) (-((1 / ρ) • y)) 0 w) := rfl
    rw [h5, h6, addO_some] at h3
    have h7 : (Except.ok (quadFn ((1 / ρ) • (1 : Mat d)) (-((1 / ρ) • y)) 0 w + f w) : Py ℝ) = .ok (F w) := h3
    injection h7 with h7
    rw [← h7, proxTerm_value y ρ hρ, proxObjective]
    ring
  have hparams : ∃ η β, agdStepSize .none p.mSmooth = some η ∧ agdMomentum .none p.mSmooth p.mCvx = some β ∧
      ∀ n, 1 ≤ n → ∃ s, after (agdStep η β p) (init (some y) id) n = .ok s ∧
      (m = 0 → ∀ z, (∀ x, F z ≤ F x) → F s.x - F z ≤ 2 * L * ‖y - z‖ ^ 2 / (n + 1) ^ 2) ∧
      (0 < m → ∀ z, (∀ x, F z ≤ F x) → F s.x - F z ≤ (1 - Real.sqrt (m / L)) ^ n * (F y - F z + m / 2 * ‖y - z‖ ^ 2)) := by
    obtain ⟨η, β, e1, e2, -⟩ := C70_accelerated p F G hD L m hL hm hp (some y) 1 le_rfl
    refine ⟨η, β, e1, e2, fun n hn => ?_⟩
    obtain ⟨η', β', e1', e2', hs⟩ := C70_accelerated p F G hD L m hL hm hp (some y) n hn
    rw [e1] at e1'; rw [e2] at e2'
    cases e1'; cases e2'
    exact hs
  obtain ⟨η, β, e1, e2, hall⟩ := hparams
  obtain ⟨n, g1, g2, -, g4⟩ := C59_run (agdStep η β p) (agdStep_keeps _ _ _) maxIter (some 1e-10) none 0.01
    ⟨h1, by rintro t ⟨⟩; norm_num, by simp, by norm_num, by norm_num⟩ (init (some y) id)
  obtain ⟨s, hs, b1, b2⟩ := hall n g1
  rcases g4 with ⟨e, a, -⟩ | ⟨s', δ, a, -, hstop, c4⟩
  · rw [hs] at a; cases a
  · rw [hs] at a; cases a
    have hrun : acceleratedGradientDescent p η β (some y) maxIter (some 1e-10) none 0.01 = .ok s := by
      rcases c4 with ⟨t, ht, _⟩ | ⟨-, c4⟩
      · cases ht
      · exact c4
    refine ⟨s.x, n, ?_, g1, g2, fun z hz => ?_, fun hlt => ⟨η, β, ?_⟩⟩
    · unfold proximalSolver
      rw [if_neg (not_le.2 hρ)]
      have hadd' : Cost.add (.quad np ((1 / ρ) • (1 : Mat d)) (-((1 / ρ) • y)) 0) c = .ok p := hadd
      rw [hadd']
      rw [hL] at e1 e2
      rw [hm] at e2
      simp only
      rw [hL, hm]
      simp only
      rw [e1, e2]
      simp only [hrun]
    · have hz' : ∀ x, F z ≤ F x := by
        intro x
        rw [hF, hF]
        by_cases hxz : x = z
        · rw [hxz]
        · have := hz x hxz
          simp only [proxObjective]
          linarith
      have k1 : F s.x - F z = proxObjective f y ρ s.x - proxObjective f y ρ z := by rw [hF, hF]; ring
      have k2 : F y - F z = proxObjective f y ρ y - proxObjective f y ρ z := by rw [hF, hF]; ring
      rw [← k1, ← k2]
      exact ⟨fun e => b1 e z hz', fun e => b2 e z hz'⟩
    · rcases hstop with h | h
      · omega
      · exact h

/-- **C72.** Refused: non-positive penalties and costs that do not live on NumPy/CPU (ValueError: the added quadratic always does),
unbounded or unknown constants (NotImplementedError). -/
theorem C72_refused (np : σ) (c : Cost σ ι d) (y : Vec d) (ρ : ℝ) (maxIter : Int) :
    (ρ ≤ 0 → proximalSolver np c y ρ maxIter = .result (.error .valueError)) ∧
    (c.sig ≠ np → proximalSolver np c y ρ maxIter = .result (.error .valueError)) ∧
    (0 < ρ → ∀ p, Cost.add (proxTerm np y ρ) c = .ok p → (p.mSmooth = .inf ∨ p.mSmooth = .nan ∨ p.mCvx = .nan) →
      proximalSolver np c y ρ maxIter = .result (.error .notImplemented)) := by
  refine ⟨fun h => ?_, fun h => ?_, fun hρ p hadd h => ?_⟩
  · unfold proximalSolver; rw [if_pos h]
  · unfold proximalSolver
    split
    · rfl
    · have hv : validate np c.sig = .error .valueError := by
        rcases validate_cases np c.sig with ⟨_, e⟩ | ⟨e, _⟩
        · exact absurd e.symm h
        · exact e
      have : Cost.add (.quad np ((1 / ρ) • (1 : Mat d)) (-((1 / ρ) • y)) 0) c = .error .valueError := by
        cases c <;> simp only [Cost.add] <;> (first | (simp only [Cost.sig] at hv; rw [hv]; rfl) | (rw [Cost.sig, hv]; rfl))
      rw [this]
  · unfold proximalSolver
    rw [if_neg (not_le.2 hρ)]
    have hadd' : Cost.add (.quad np ((1 / ρ) • (1 : Mat d)) (-((1 / ρ) • y)) 0) c = .ok p := hadd
    rw [hadd']
    simp only
    rcases h with h | h | h
    · rw [h]
    · rw [h]
    · rw [h]
      cases p.mSmooth <;> rfl

theorem smooth_smul_one (a : ℝ) (ha : 0 ≤ a) (hd : 0 < d) : quadSmooth (a • (1 : Mat d)) = a := by
  have hs : ∀ v : Vec d, app (symPart (a • (1 : Mat d))) v = a • v := by
    intro v
    rw [symPart_smul_one]
    ext i
    simp [app_apply, Matrix.one_apply]
  apply le_antisymm
  · refine C52_quadratic_smooth_tight _ 0 hd a fun x y => ?_
    rw [quadGrad, quadGrad, add_sub_add_right_eq_sub, ← app_sub, hs, norm_smul, Real.norm_eq_abs, abs_of_nonneg ha]
  · have h := norm_app_le (symPart_herm (a • (1 : Mat d))) (EuclideanSpace.single (⟨0, hd⟩ : Fin d) (1 : ℝ))
    rw [hs, norm_smul, Real.norm_eq_abs, abs_of_nonneg ha] at h
    simpa [quadSmooth] using h

/-- an L2-regularizer in two dimensions meets the hypotheses of `C72_proximal_solver` -/
example (y : Vec 2) : ∃ (p : Cost Nat Unit 2) (f : Vec 2 → ℝ), (∀ x, (Cost.reg (.one (l2Atom 2))).fn none x = .ok (f x)) ∧
    Cost.add (proxTerm 2 y 1) (.reg (.one (l2Atom 2))) = .ok p ∧ (∀ a ∈ atomsOf (Cost.reg (.one (l2Atom 2))), AtomSound a) ∧
    (∀ A ∈ quadsOf p, ClearSign A) ∧ p.mSmooth = .fin 2 ∧ p.mCvx = .fin 2 := by
  refine ⟨.sum (proxTerm 2 y 1) [.reg (.one (l2Atom 2))], l2Fn, fun x => rfl, ?_, ?_, ?_, ?_, ?_⟩
  · rfl
  · intro a h
    simp [atomsOf, regAtoms] at h
    rw [h]; exact l2Atom_sound 2
  · intro A h
    simp [quadsOf, quadsOfs, proxTerm] at h
    subst h
    have e : minEig (symPart (1 : Mat 2)) (symPart_herm (1 : Mat 2)) = 1 := by
      have h2 : symPart (1 : Mat 2) = (1 : ℝ) • (1 : Mat 2) := by
        have := symPart_smul_one (d := 2) 1
        rw [one_smul] at this ⊢
        exact this
      have hh : ((1 : ℝ) • (1 : Mat 2)).IsHermitian := by rw [← h2]; exact symPart_herm _
      rw [minEig_congr h2 _ hh, minEig_smul_one 1 (by norm_num) hh]
    rw [ClearSign, e]
    norm_num
  · simp only [Cost.mSmooth, Cost.mSmooths, total_eq, proxTerm, Reg.mSmooth, List.foldr_cons, List.foldr_nil]
    rw [smooth_smul_one _ (by norm_num) (by norm_num)]
    simp [l2Atom, Fl.add]; norm_num
  · simp only [Cost.mCvx, Cost.mCvxs, total_eq, proxTerm, Reg.mCvx, List.foldr_cons, List.foldr_nil]
    rw [quadCvx_smul_one _ (by norm_num), cvxOf, if_pos (by norm_num)]
    simp [l2Atom, Fl.add]; norm_num

end prox

/-- `ridge 1` meets the hypotheses of C69-C71: it is described, with `m_smooth = 7`, `m_cvx = 0` -/
example : (∃ f g, Described (ridge 1) f g) ∧ (ridge 1).mSmooth = .fin 7 ∧ (ridge 1).mCvx = .fin 0 := by
  refine ⟨described_of_atoms _ (by simp [ridge, atomsOf]) ?_, ?_, ?_⟩
  · intro A h
    simp [ridge, quadsOf] at h
    subst h
    rw [ClearSign, ridge_minEig]
    norm_num
  · simp [ridge, Cost.mSmooth, ridge_smooth, scaledSmooth, Fl.smul]
  · simp [ridge, Cost.mCvx, ridge_cvx, scaledCvx, Fl.smul]

end Verif.Props
