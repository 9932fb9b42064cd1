import Verif.Model.Elbow
import Mathlib.Tactic.Ring
import Mathlib.Tactic.Linarith
import Mathlib.Tactic.FieldSimp
import Mathlib.Tactic.Positivity
import Mathlib.Tactic.NormNum
import Mathlib.Tactic.IntervalCases
/-! # C74: convergence rates from elbow curves -/
set_option linter.unusedSectionVars false
namespace Verif.Props
open Verif Verif.Elbow Verif.Metrics

/-! ### specification -/

/-- the elbow curve with slope `s`, intercept `c` and breakpoint `b` -/
def curve (s c : ℝ) (b : Nat) (x : Nat) : ℝ := if x ≤ b then s * x + c else s * b + c

/-- sum of squared errors of an elbow curve on the data `y` -/
def elbowErr (y : List ℝ) (s c : ℝ) (b : Nat) : ℝ := ∑ i ∈ Finset.range y.length, (curve s c b i - y.getD i 0) ^ 2

/-- a least-squares elbow curve with breakpoint `b`, and the only one -/
def BestAt (y : List ℝ) (b : Nat) (s c : ℝ) : Prop :=
  ∀ s' c', elbowErr y s c b ≤ elbowErr y s' c' b ∧ (elbowErr y s' c' b = elbowErr y s c b → s' = s ∧ c' = c)

/-- data lying on an elbow curve -/
def onCurve (s c : ℝ) (b m : Nat) : List ℝ := (List.range m).map (curve s c b)

/-! ### the analytical fit -/

theorem ramp_le (b i : Nat) (h : i ≤ b) : ramp b i = i := by rw [ramp, if_pos (by omega)]
theorem ramp_gt (b i : Nat) (h : b ≤ i) : ramp b i = b := by
  rw [ramp]; split
  · have : i = b := by omega
    rw [this]
  · rfl

theorem curve_ramp (s c : ℝ) (b i : Nat) : curve s c b i = ramp b i * s + c := by
  rw [curve, ramp]
  by_cases h : i ≤ b
  · rw [if_pos h, if_pos (by omega)]; ring
  · rw [if_neg h, if_neg (by omega)]; ring

theorem sum_ramp_low (b : Nat) : ∑ i ∈ Finset.range (b + 1), ramp b i = (b : ℝ) * (b + 1) / 2 := by
  have : ∀ n : Nat, n ≤ b + 1 → ∑ i ∈ Finset.range n, ramp b i = (n : ℝ) * (n - 1) / 2 := by
    intro n
    induction n with
    | zero => intro _; simp
    | succ n ih =>
      intro h
      rw [Finset.sum_range_succ, ih (by omega), ramp_le b n (by omega)]
      push_cast; ring
  rw [this (b + 1) le_rfl]; push_cast; ring

theorem sum_ramp_sq_low (b : Nat) : ∑ i ∈ Finset.range (b + 1), ramp b i ^ 2 = (b : ℝ) * (b + 1) * (2 * b + 1) / 6 := by
  have : ∀ n : Nat, n ≤ b + 1 → ∑ i ∈ Finset.range n, ramp b i ^ 2 = ((n : ℝ) - 1) * n * (2 * n - 1) / 6 := by
    intro n
    induction n with
    | zero => intro _; simp
    | succ n ih =>
      intro h
      rw [Finset.sum_range_succ, ih (by omega), ramp_le b n (by omega)]
      push_cast; ring
  rw [this (b + 1) le_rfl]; push_cast; ring

theorem sum_ramp (m b : Nat) (h : b + 1 ≤ m) : ∑ i ∈ Finset.range m, ramp b i = s01 m b := by
  obtain ⟨k, rfl⟩ := Nat.exists_eq_add_of_le h
  induction k with
  | zero => rw [Nat.add_zero, sum_ramp_low, s01]; push_cast; ring
  | succ k ih =>
    rw [← Nat.add_assoc, Finset.sum_range_succ, ih (by omega), ramp_gt b _ (by omega), s01, s01]
    push_cast; ring

theorem sum_ramp_sq (m b : Nat) (h : b + 1 ≤ m) : ∑ i ∈ Finset.range m, ramp b i ^ 2 = s00 m b := by
  obtain ⟨k, rfl⟩ := Nat.exists_eq_add_of_le h
  induction k with
  | zero => rw [Nat.add_zero, sum_ramp_sq_low, s00]; push_cast; ring
  | succ k ih =>
    rw [← Nat.add_assoc, Finset.sum_range_succ, ih (by omega), ramp_gt b _ (by omega), s00, s00]
    push_cast; ring

/-- `Σ (u·a_i + v)²` -/
theorem sum_affine_sq (m b : Nat) (h : b + 1 ≤ m) (u v : ℝ) :
    ∑ i ∈ Finset.range m, (ramp b i * u + v) ^ 2 = u ^ 2 * s00 m b + 2 * u * v * s01 m b + v ^ 2 * m := by
  have : ∀ i, (ramp b i * u + v) ^ 2 = u ^ 2 * ramp b i ^ 2 + 2 * u * v * ramp b i + v ^ 2 := fun i => by ring
  simp only [this, Finset.sum_add_distrib, ← Finset.mul_sum, sum_ramp m b h, sum_ramp_sq m b h, Finset.sum_const, Finset.card_range, nsmul_eq_mul]
  ring

theorem det_pos (m b : Nat) (hb : 1 ≤ b) (h : b + 1 ≤ m) : 0 < det m b := by
  have hm : (0 : ℝ) < m := by exact_mod_cast (by omega : 0 < m)
  have key := sum_affine_sq m b h (m : ℝ) (-(s01 m b))
  have e : (m : ℝ) ^ 2 * s00 m b + 2 * m * -(s01 m b) * s01 m b + (-(s01 m b)) ^ 2 * m = m * det m b := by rw [det]; ring
  rw [e] at key
  have h0 : 0 ≤ (m : ℝ) * det m b := by rw [← key]; exact Finset.sum_nonneg fun i _ => sq_nonneg _
  rcases lt_or_eq_of_le (nonneg_of_mul_nonneg_right h0 hm) with hp | hz
  · exact hp
  · exfalso
    rw [← hz, mul_zero] at key
    have hall := (Finset.sum_eq_zero_iff_of_nonneg (fun i _ => sq_nonneg _)).1 key
    have a0 := hall 0 (by simp; omega)
    have a1 := hall 1 (by simp; omega)
    rw [ramp_le b 0 (by omega)] at a0
    rw [ramp_le b 1 hb] at a1
    have b0 : s01 m b = 0 := by
      have := pow_eq_zero_iff (two_ne_zero) |>.1 a0
      push_cast at this; linarith
    have b1 := pow_eq_zero_iff (two_ne_zero) |>.1 a1
    push_cast at b1
    linarith

/-- Pythagoras for the regression -/
theorem fit_pythagoras (y : List ℝ) (b : Nat) (hb : 1 ≤ b) (h : b + 1 ≤ y.length) (f : Fit) (hf : fitAt y b = .ok f) (s c : ℝ) :
    elbowErr y s c b = elbowErr y f.slope f.intercept b +
      ((s - f.slope) ^ 2 * s00 y.length b + 2 * (s - f.slope) * (c - f.intercept) * s01 y.length b + (c - f.intercept) ^ 2 * y.length) := by
  have hd := (det_pos y.length b hb h).ne'
  set m := y.length with hm
  set ry := ∑ i ∈ Finset.range m, ramp b i * y.getD i 0 with hry
  set sy := ∑ i ∈ Finset.range m, y.getD i 0 with hsy
  have hs : f.slope = (m * ry + -s01 m b * sy) / det m b := by
    simp only [fitAt, if_neg (show ¬ y.length < b + 1 by omega)] at hf
    cases hf; rfl
  have hc : f.intercept = (-s01 m b * ry + s00 m b * sy) / det m b := by
    simp only [fitAt, if_neg (show ¬ y.length < b + 1 by omega)] at hf
    cases hf; rfl
  have n1 : f.slope * s00 m b + f.intercept * s01 m b = ry := by
    rw [hs, hc]; field_simp; rw [det]; ring
  have n2 : f.slope * s01 m b + f.intercept * m = sy := by
    rw [hs, hc]; field_simp; rw [det]; ring
  have expand : ∀ s c : ℝ, elbowErr y s c b = (s ^ 2 * s00 m b + 2 * s * c * s01 m b + c ^ 2 * m) - 2 * (s * ry + c * sy) + ∑ i ∈ Finset.range m, y.getD i 0 ^ 2 := by
    intro s c
    rw [elbowErr, ← sum_affine_sq m b h s c, hry, hsy, Finset.mul_sum, Finset.mul_sum, ← Finset.sum_add_distrib, Finset.mul_sum, ← Finset.sum_sub_distrib,
      ← Finset.sum_add_distrib]
    apply Finset.sum_congr rfl
    intro i _
    rw [curve_ramp]; ring
  rw [expand, expand, ← n1, ← n2]
  ring

theorem quad_nonneg (m b : Nat) (h : b + 1 ≤ m) (u v : ℝ) : 0 ≤ u ^ 2 * s00 m b + 2 * u * v * s01 m b + v ^ 2 * m := by
  rw [← sum_affine_sq m b h]; exact Finset.sum_nonneg fun i _ => sq_nonneg _

theorem quad_zero (m b : Nat) (hb : 1 ≤ b) (h : b + 1 ≤ m) (u v : ℝ) (hz : u ^ 2 * s00 m b + 2 * u * v * s01 m b + v ^ 2 * m = 0) : u = 0 ∧ v = 0 := by
  rw [← sum_affine_sq m b h] at hz
  have hall := (Finset.sum_eq_zero_iff_of_nonneg (fun i _ => sq_nonneg _)).1 hz
  have a0 := pow_eq_zero_iff (two_ne_zero) |>.1 (hall 0 (by simp; omega))
  have a1 := pow_eq_zero_iff (two_ne_zero) |>.1 (hall 1 (by simp; omega))
  rw [ramp_le b 0 (by omega)] at a0
  rw [ramp_le b 1 hb] at a1
  push_cast at a0 a1
  constructor <;> linarith

/-- **C74.** For every breakpoint strictly inside the data the closed formula gives the unique least-squares elbow curve, together with the
2-norm of its residual; a breakpoint beyond the data raises ValueError. -/
theorem C74_least_squares (y : List ℝ) (b : Nat) (hb : 1 ≤ b) :
    (b + 1 ≤ y.length → ∃ f, fitAt y b = .ok f ∧ BestAt y b f.slope f.intercept ∧ f.res = Real.sqrt (elbowErr y f.slope f.intercept b)) ∧
    (y.length < b + 1 → fitAt y b = .error .valueError) := by
  constructor
  · intro h
    have hok : ∃ f, fitAt y b = .ok f := ⟨_, by simp only [fitAt, if_neg (show ¬ y.length < b + 1 by omega)]; rfl⟩
    obtain ⟨f, hf⟩ := hok
    refine ⟨f, hf, ?_, ?_⟩
    · intro s' c'
      have := fit_pythagoras y b hb h f hf s' c'
      refine ⟨by have := quad_nonneg y.length b h (s' - f.slope) (c' - f.intercept); linarith, ?_⟩
      intro he
      obtain ⟨h1, h2⟩ := quad_zero y.length b hb h (s' - f.slope) (c' - f.intercept) (by linarith)
      exact ⟨by linarith, by linarith⟩
    · have : f.res = Real.sqrt (∑ i ∈ Finset.range y.length, (ramp b i * f.slope + f.intercept - y.getD i 0) ^ 2) := by
        simp only [fitAt, if_neg (show ¬ y.length < b + 1 by omega)] at hf
        cases hf; rfl
      rw [this, elbowErr]
      congr 1
      apply Finset.sum_congr rfl
      intro i _
      rw [curve_ramp]
  · intro h
    simp only [fitAt, if_pos h]

theorem BestAt.unique {y : List ℝ} {b : Nat} {s c s' c' : ℝ} (h : BestAt y b s c) (h' : BestAt y b s' c') : s' = s ∧ c' = c := by
  have h1 := (h s' c').1
  have h2 := (h' s c).1
  exact (h s' c').2 (le_antisymm h2 h1)

/-! ### the grid search -/

theorem argmin_spec (r : Nat → ℝ) (n : Nat) : argmin r n ≤ n ∧ (∀ i ≤ n, r (argmin r n) ≤ r i) := by
  induction n with
  | zero => exact ⟨le_rfl, fun i hi => by rw [Nat.le_zero.1 hi]; exact le_rfl⟩
  | succ n ih =>
    obtain ⟨h1, h2⟩ := ih
    rw [argmin]
    by_cases h : r (n + 1) < r (argmin r n)
    · rw [if_pos h]
      refine ⟨le_rfl, fun i hi => ?_⟩
      rcases Nat.lt_or_ge n i with hlt | hge
      · have : i = n + 1 := by omega
        rw [this]
      · exact h.le.trans (h2 i hge)
    · rw [if_neg h]
      refine ⟨by omega, fun i hi => ?_⟩
      rcases Nat.lt_or_ge n i with hlt | hge
      · have : i = n + 1 := by omega
        rw [this]; exact not_lt.1 h
      · exact h2 i hge

theorem gridAt_zero (num : Nat) (b1 b2 : Int) : gridAt num b1 b2 0 = b1 := by simp [gridAt]

theorem gridAt_last (num : Nat) (hn : 2 ≤ num) (b1 b2 : Int) : gridAt num b1 b2 (num - 1) = b2 := by
  rw [gridAt]
  have : ((num - 1 : Nat) : Int) = (num : Int) - 1 := by omega
  rw [this, Int.mul_ediv_cancel_left _ (by omega)]; ring

theorem gridAt_mono (num : Nat) (hn : 2 ≤ num) (b1 b2 : Int) (h : b1 ≤ b2) (i j : Nat) (hij : i ≤ j) : gridAt num b1 b2 i ≤ gridAt num b1 b2 j := by
  rw [gridAt, gridAt]
  have : ((i : Int) * (b2 - b1)) ≤ (j : Int) * (b2 - b1) := Int.mul_le_mul_of_nonneg_right (by exact_mod_cast hij) (by omega)
  have := Int.ediv_le_ediv (show (0 : Int) < (num : Int) - 1 by omega) this
  omega

theorem gridAt_bounds (num : Nat) (hn : 2 ≤ num) (b1 b2 : Int) (h : b1 ≤ b2) (i : Nat) (hi : i ≤ num - 1) :
    b1 ≤ gridAt num b1 b2 i ∧ gridAt num b1 b2 i ≤ b2 := by
  have a := gridAt_mono num hn b1 b2 h 0 i (by omega)
  have b := gridAt_mono num hn b1 b2 h i (num - 1) hi
  rw [gridAt_zero] at a
  rw [gridAt_last num hn] at b
  exact ⟨a, b⟩

theorem mapM_range_ok {β : Type} (f : Nat → Py β) (n : Nat) (g : Nat → β) (h : ∀ i < n, f i = .ok (g i)) :
    (List.range n).mapM f = .ok ((List.range n).map g) := by
  have : ∀ l : List Nat, (∀ i ∈ l, f i = .ok (g i)) → l.mapM f = .ok (l.map g) := by
    intro l
    induction l with
    | nil => intro _; rfl
    | cons a t ih =>
      intro H
      rw [List.mapM_cons, H a (by simp), ih (fun i hi => H i (by simp [hi]))]
      rfl
  exact this _ (fun i hi => h i (List.mem_range.1 hi))

/-- the fit at a valid breakpoint -/
noncomputable def theFit (y : List ℝ) (b : Nat) : Fit :=
  match fitAt y b with
  | .ok f => f
  | .error _ => ⟨0, 0, 0⟩

theorem theFit_spec (y : List ℝ) (b : Nat) (hb : 1 ≤ b) (h : b + 1 ≤ y.length) :
    fitAt y b = .ok (theFit y b) ∧ BestAt y b (theFit y b).slope (theFit y b).intercept ∧
    (theFit y b).res = Real.sqrt (elbowErr y (theFit y b).slope (theFit y b).intercept b) := by
  obtain ⟨f, hf, h1, h2⟩ := (C74_least_squares y b hb).1 h
  have : theFit y b = f := by rw [theFit, hf]
  rw [this]; exact ⟨hf, h1, h2⟩

theorem fits_ok (y : List ℝ) (num : Nat) (hn : 2 ≤ num) (b1 b2 : Int) (h1 : 1 ≤ b1) (h : b1 ≤ b2) (h2 : b2 ≤ (y.length : Int) - 1) :
    fits y num b1 b2 = .ok ((List.range num).map fun i => theFit y (gridAt num b1 b2 i).toNat) := by
  apply mapM_range_ok
  intro i hi
  obtain ⟨a, b⟩ := gridAt_bounds num hn b1 b2 h i (by omega)
  exact (theFit_spec y _ (by omega) (by omega)).1

/-- the index chosen in a grid -/
noncomputable def chosen (y : List ℝ) (num : Nat) (b1 b2 : Int) : Nat := argmin (fun i => (theFit y (gridAt num b1 b2 i).toNat).res) (num - 1)

theorem argmin_congr (r r' : Nat → ℝ) (n : Nat) (h : ∀ i ≤ n, r i = r' i) : argmin r n = argmin r' n := by
  induction n with
  | zero => rfl
  | succ n ih =>
    rw [argmin, argmin, ih (fun i hi => h i (by omega)), h (n + 1) le_rfl, h _ ((argmin_spec r' n).1.trans (by omega))]

theorem search_succ (y : List ℝ) (tol : ℝ) (num : Nat) (hn : 2 ≤ num) (t : Nat) (b1 b2 : Int) (best : Option ℝ) (h1 : 1 ≤ b1) (h : b1 ≤ b2)
    (h2 : b2 ≤ (y.length : Int) - 1) :
    search y tol num (t + 1) b1 b2 best =
      (open Classical in
      if t = 0 ∨ stops best (theFit y (gridAt num b1 b2 (chosen y num b1 b2)).toNat).res tol then
        .ok ((theFit y (gridAt num b1 b2 (chosen y num b1 b2)).toNat).intercept, (theFit y (gridAt num b1 b2 (chosen y num b1 b2)).toNat).slope,
          gridAt num b1 b2 (chosen y num b1 b2) - 1)
      else search y tol num t (gridAt num b1 b2 (chosen y num b1 b2 - 1)) (gridAt num b1 b2 (min (num - 1) (chosen y num b1 b2 + 1)))
        (some (theFit y (gridAt num b1 b2 (chosen y num b1 b2)).toNat).res)) := by
  have hget : ∀ i ≤ num - 1, (((List.range num).map fun i => theFit y (gridAt num b1 b2 i).toNat).getD i ⟨0, 0, 0⟩) = theFit y (gridAt num b1 b2 i).toNat := by
    intro i hi
    rw [List.getD_eq_getElem?_getD, List.getElem?_map, List.getElem?_range (by omega)]
    rfl
  have hk : argmin (fun i => (((List.range num).map fun i => theFit y (gridAt num b1 b2 i).toNat).getD i ⟨0, 0, 0⟩).res) (num - 1) = chosen y num b1 b2 :=
    argmin_congr _ _ _ (fun i hi => by simp only [hget i hi])
  have hc : chosen y num b1 b2 ≤ num - 1 := (argmin_spec _ _).1
  have hf := hget _ hc
  rw [← hk] at hf
  rw [search, fits_ok y num hn b1 b2 h1 h h2]
  dsimp only
  rw [hk] at hf
  split
  · rename_i hc1
    rw [hk, hf] at hc1
    rw [if_pos hc1, hk, hf]
  · rename_i hc1
    rw [hk, hf] at hc1
    rw [if_neg hc1, hk, hf]

theorem search_result (y : List ℝ) (tol : ℝ) (num : Nat) (hn : 2 ≤ num) (t : Nat) (b1 b2 : Int) (best : Option ℝ) (h1 : 1 ≤ b1) (h : b1 ≤ b2)
    (h2 : b2 ≤ (y.length : Int) - 1) :
    ∃ (b : Nat) (s c : ℝ), search y tol num (t + 1) b1 b2 best = .ok (c, s, (b : Int) - 1) ∧ 1 ≤ b ∧ b + 1 ≤ y.length ∧ BestAt y b s c := by
  induction t generalizing b1 b2 best with
  | zero =>
    rw [search_succ y tol num hn 0 b1 b2 best h1 h h2, if_pos (Or.inl rfl)]
    obtain ⟨a, b⟩ := gridAt_bounds num hn b1 b2 h (chosen y num b1 b2) (argmin_spec _ _).1
    refine ⟨(gridAt num b1 b2 (chosen y num b1 b2)).toNat, _, _, ?_, by omega, by omega, (theFit_spec y _ (by omega) (by omega)).2.1⟩
    rw [Int.toNat_of_nonneg (by omega)]
  | succ t ih =>
    rw [search_succ y tol num hn (t + 1) b1 b2 best h1 h h2]
    have hc : chosen y num b1 b2 ≤ num - 1 := (argmin_spec _ _).1
    split
    · obtain ⟨a, b⟩ := gridAt_bounds num hn b1 b2 h (chosen y num b1 b2) hc
      refine ⟨(gridAt num b1 b2 (chosen y num b1 b2)).toNat, _, _, ?_, by omega, by omega, (theFit_spec y _ (by omega) (by omega)).2.1⟩
      rw [Int.toNat_of_nonneg (by omega)]
    · obtain ⟨a1, a2⟩ := gridAt_bounds num hn b1 b2 h (chosen y num b1 b2 - 1) (by omega)
      obtain ⟨a3, a4⟩ := gridAt_bounds num hn b1 b2 h (min (num - 1) (chosen y num b1 b2 + 1)) (by omega)
      have a5 := gridAt_mono num hn b1 b2 h (chosen y num b1 b2 - 1) (min (num - 1) (chosen y num b1 b2 + 1)) (by omega)
      exact ih _ _ _ (by omega) a5 (by omega)

/-- **C74.** With at least two finite values the fit succeeds for all valid arguments, and its slope and intercept are those of the
least-squares elbow curve for some breakpoint `b` inside the data; the returned breakpoint is `b - 1`. -/
theorem C74_result (y : List Val) (maxTrials num : Int) (tol : ℝ) (h1 : 1 ≤ maxTrials) (h2 : 0 ≤ tol) (h3 : 2 ≤ num) (h4 : 2 ≤ (finite y).length) :
    ∃ (b : Nat) (s c : ℝ), fitElbow y maxTrials tol num = .ok (c, s, (b : Int) - 1) ∧ 1 ≤ b ∧ b + 1 ≤ (finite y).length ∧ BestAt (finite y) b s c := by
  have hle : (finite y).length ≤ y.length := List.length_filterMap_le _ _
  have e : fitElbow y maxTrials tol num = search (finite y) tol num.toNat maxTrials.toNat 1 (((finite y).length : Int) - 1) none := by
    rw [fitElbow, if_neg (by omega), if_neg (by omega), if_neg (not_lt.2 h2), if_neg (by omega)]
  rw [e]
  obtain ⟨t, ht⟩ : ∃ t, maxTrials.toNat = t + 1 := ⟨maxTrials.toNat - 1, by omega⟩
  rw [ht]
  exact search_result (finite y) tol num.toNat (by omega) t 1 _ none (by omega) (by omega) (by omega)

/-- **C74.** In all other cases it raises ValueError: invalid arguments, or fewer than two finite values. -/
theorem C74_errors (y : List Val) (maxTrials num : Int) (tol : ℝ) (h : maxTrials < 1 ∨ tol < 0 ∨ num < 2 ∨ (finite y).length < 2) :
    fitElbow y maxTrials tol num = .error .valueError := by
  rw [fitElbow]
  by_cases c1 : y.length < 2
  · rw [if_pos c1]
  rw [if_neg c1]
  by_cases c2 : maxTrials < 1
  · rw [if_pos c2]
  rw [if_neg c2]
  by_cases c3 : tol < 0
  · rw [if_pos c3]
  rw [if_neg c3]
  by_cases c4 : num < 2
  · rw [if_pos c4]
  rw [if_neg c4]
  have hlen : (finite y).length < 2 := by tauto
  obtain ⟨t, ht⟩ : ∃ t, maxTrials.toNat = t + 1 := ⟨maxTrials.toNat - 1, by omega⟩
  obtain ⟨n, hn⟩ : ∃ n, num.toNat = n + 1 := ⟨num.toNat - 1, by omega⟩
  simp only
  rw [ht, search, fits, hn, List.range_succ_eq_map, List.mapM_cons, gridAt_zero]
  have : fitAt (finite y) (1 : Int).toNat = .error .valueError := (C74_least_squares (finite y) 1 le_rfl).2 (by omega)
  rw [this]
  rfl

/-! ### what the search finds -/

theorem onCurve_length (s c : ℝ) (b m : Nat) : (onCurve s c b m).length = m := by simp [onCurve]

theorem onCurve_getD (s c : ℝ) (b m i : Nat) (h : i < m) : (onCurve s c b m).getD i 0 = curve s c b i := by
  rw [onCurve, List.getD_eq_getElem?_getD, List.getElem?_map, List.getElem?_range h]; rfl

theorem elbowErr_nonneg (y : List ℝ) (s c : ℝ) (b : Nat) : 0 ≤ elbowErr y s c b := Finset.sum_nonneg fun _ _ => sq_nonneg _

theorem elbowErr_self (s c : ℝ) (b m : Nat) : elbowErr (onCurve s c b m) s c b = 0 := by
  apply Finset.sum_eq_zero
  intro i hi
  rw [onCurve_length, Finset.mem_range] at hi
  rw [onCurve_getD s c b m i hi, sub_self]; norm_num

/-- curves without error pass through all the points -/
theorem elbowErr_zero {s c s' c' : ℝ} {b b' m : Nat} (h : elbowErr (onCurve s c b m) s' c' b' = 0) (i : Nat) (hi : i < m) : curve s' c' b' i = curve s c b i := by
  have := (Finset.sum_eq_zero_iff_of_nonneg (fun i _ => sq_nonneg _)).1 h i (by rw [onCurve_length, Finset.mem_range]; exact hi)
  rw [onCurve_getD s c b m i hi] at this
  have := pow_eq_zero_iff (two_ne_zero) |>.1 this
  linarith

/-- two elbow curves through the same points have the same slope and intercept, and the same breakpoint unless they are flat -/
theorem curve_unique {s c s' c' : ℝ} {b b' m : Nat} (hb : 1 ≤ b) (hb' : 1 ≤ b') (h1 : b + 1 ≤ m) (h2 : b' + 1 ≤ m)
    (h : ∀ i < m, curve s' c' b' i = curve s c b i) : s' = s ∧ c' = c ∧ (s ≠ 0 → b' = b) := by
  have e0 := h 0 (by omega)
  have e1 := h 1 (by omega)
  simp only [curve, Nat.zero_le, if_true, if_pos hb, if_pos hb'] at e0 e1
  push_cast at e0 e1
  have hc : c' = c := by linarith
  have hs : s' = s := by linarith
  refine ⟨hs, hc, fun hne => ?_⟩
  subst hs; subst hc
  by_contra hbb
  have em := h (m - 1) (by omega)
  rw [curve_ramp, curve_ramp, ramp_gt b' _ (by omega), ramp_gt b _ (by omega)] at em
  have : ((b' : ℝ) - b) * s' = 0 := by linarith
  rcases mul_eq_zero.1 this with h0 | h0
  · exact hbb (by exact_mod_cast sub_eq_zero.1 h0)
  · exact hne h0

theorem res_le_of {y : List ℝ} {b b' : Nat} (hb : 1 ≤ b) (h : b + 1 ≤ y.length) (hb' : 1 ≤ b') (h' : b' + 1 ≤ y.length)
    (hr : (theFit y b).res ≤ (theFit y b').res) : elbowErr y (theFit y b).slope (theFit y b).intercept b ≤ elbowErr y (theFit y b').slope (theFit y b').intercept b' := by
  rw [(theFit_spec y b hb h).2.2, (theFit_spec y b' hb' h').2.2] at hr
  exact (Real.sqrt_le_sqrt_iff (elbowErr_nonneg _ _ _ _)).1 hr

/-- the grid point chosen fits at least as well as every other one -/
theorem chosen_best (y : List ℝ) (num : Nat) (hn : 2 ≤ num) (b1 b2 : Int) (h1 : 1 ≤ b1) (h : b1 ≤ b2) (h2 : b2 ≤ (y.length : Int) - 1) (i : Nat) (hi : i ≤ num - 1)
    (s c : ℝ) :
    elbowErr y (theFit y (gridAt num b1 b2 (chosen y num b1 b2)).toNat).slope (theFit y (gridAt num b1 b2 (chosen y num b1 b2)).toNat).intercept
      (gridAt num b1 b2 (chosen y num b1 b2)).toNat ≤ elbowErr y s c (gridAt num b1 b2 i).toNat := by
  have hsp := argmin_spec (fun i => (theFit y (gridAt num b1 b2 i).toNat).res) (num - 1)
  obtain ⟨a1, a2⟩ := gridAt_bounds num hn b1 b2 h (chosen y num b1 b2) hsp.1
  obtain ⟨a3, a4⟩ := gridAt_bounds num hn b1 b2 h i hi
  refine (res_le_of (b := (gridAt num b1 b2 (chosen y num b1 b2)).toNat) (by omega) (by omega) (by omega) (by omega) (hsp.2 i hi)).trans ?_
  exact ((theFit_spec y (gridAt num b1 b2 i).toNat (by omega) (by omega)).2.1 s c).1

/-- a property of grid points that the chosen one always has, and that is passed on to the next grid, holds of the result -/
theorem search_invariant (y : List ℝ) (tol : ℝ) (num : Nat) (hn : 2 ≤ num) (Good : Nat → Prop) (Inv : Int → Int → Prop)
    (hchosen : ∀ b1 b2 : Int, 1 ≤ b1 → b1 ≤ b2 → b2 ≤ (y.length : Int) - 1 → Inv b1 b2 → Good (gridAt num b1 b2 (chosen y num b1 b2)).toNat)
    (hnext : ∀ b1 b2 : Int, 1 ≤ b1 → b1 ≤ b2 → b2 ≤ (y.length : Int) - 1 → Inv b1 b2 →
      Inv (gridAt num b1 b2 (chosen y num b1 b2 - 1)) (gridAt num b1 b2 (min (num - 1) (chosen y num b1 b2 + 1))))
    (t : Nat) (b1 b2 : Int) (best : Option ℝ) (h1 : 1 ≤ b1) (h : b1 ≤ b2) (h2 : b2 ≤ (y.length : Int) - 1) (hi : Inv b1 b2) :
    ∃ b : Nat, search y tol num (t + 1) b1 b2 best = .ok ((theFit y b).intercept, (theFit y b).slope, (b : Int) - 1) ∧ 1 ≤ b ∧ b + 1 ≤ y.length ∧ Good b := by
  induction t generalizing b1 b2 best with
  | zero =>
    rw [search_succ y tol num hn 0 b1 b2 best h1 h h2, if_pos (Or.inl rfl)]
    obtain ⟨a, b⟩ := gridAt_bounds num hn b1 b2 h (chosen y num b1 b2) (argmin_spec _ _).1
    refine ⟨(gridAt num b1 b2 (chosen y num b1 b2)).toNat, ?_, by omega, by omega, hchosen b1 b2 h1 h h2 hi⟩
    rw [Int.toNat_of_nonneg (by omega)]
  | succ t ih =>
    rw [search_succ y tol num hn (t + 1) b1 b2 best h1 h h2]
    have hc : chosen y num b1 b2 ≤ num - 1 := (argmin_spec _ _).1
    split
    · obtain ⟨a, b⟩ := gridAt_bounds num hn b1 b2 h (chosen y num b1 b2) hc
      refine ⟨(gridAt num b1 b2 (chosen y num b1 b2)).toNat, ?_, by omega, by omega, hchosen b1 b2 h1 h h2 hi⟩
      rw [Int.toNat_of_nonneg (by omega)]
    · obtain ⟨a1, a2⟩ := gridAt_bounds num hn b1 b2 h (chosen y num b1 b2 - 1) (by omega)
      obtain ⟨a3, a4⟩ := gridAt_bounds num hn b1 b2 h (min (num - 1) (chosen y num b1 b2 + 1)) (by omega)
      have a5 := gridAt_mono num hn b1 b2 h (chosen y num b1 b2 - 1) (min (num - 1) (chosen y num b1 b2 + 1)) (by omega)
      exact ih _ _ _ (by omega) a5 (by omega) (hnext b1 b2 h1 h h2 hi)

theorem fitElbow_search (y : List Val) (maxTrials num : Int) (tol : ℝ) (h1 : 1 ≤ maxTrials) (h2 : 0 ≤ tol) (h3 : 2 ≤ num) (h4 : 2 ≤ (finite y).length) :
    ∃ t, fitElbow y maxTrials tol num = search (finite y) tol num.toNat (t + 1) 1 (((finite y).length : Int) - 1) none := by
  have hle : (finite y).length ≤ y.length := List.length_filterMap_le _ _
  refine ⟨maxTrials.toNat - 1, ?_⟩
  rw [fitElbow, if_neg (by omega), if_neg (by omega), if_neg (not_lt.2 h2), if_neg (by omega)]
  simp only
  congr 1; omega

/-- **C74.** Data on a straight line are fitted exactly, whatever the grid: the slope and intercept of the line are returned. -/
theorem C74_line (y : List Val) (maxTrials num : Int) (tol s c : ℝ) (h1 : 1 ≤ maxTrials) (h2 : 0 ≤ tol) (h3 : 2 ≤ num) (m : Nat) (hm : 2 ≤ m)
    (hy : finite y = (List.range m).map fun i : Nat => s * (i : ℝ) + c) : ∃ b, fitElbow y maxTrials tol num = .ok (c, s, b) := by
  have hy' : finite y = onCurve s c (m - 1) m := by
    rw [hy, onCurve]
    apply List.map_congr_left
    intro i hi
    rw [List.mem_range] at hi
    rw [curve, if_pos (by omega)]
  have hl : (finite y).length = m := by rw [hy', onCurve_length]
  obtain ⟨t, ht⟩ := fitElbow_search y maxTrials num tol h1 h2 h3 (by omega)
  rw [ht]
  have key : ∀ b, 1 ≤ b → b + 1 ≤ m → (s = 0 ∨ b = m - 1) → elbowErr (finite y) s c b = 0 := by
    intro b hb1 hb2 hor
    rcases hor with h0 | h0
    · rw [hy']
      apply Finset.sum_eq_zero
      intro i hi
      rw [onCurve_length, Finset.mem_range] at hi
      rw [onCurve_getD _ _ _ _ i hi, curve_ramp, curve_ramp, h0]; ring
    · rw [h0, hy', elbowErr_self]
  have good : ∀ b1 b2 : Int, 1 ≤ b1 → b1 ≤ b2 → b2 ≤ ((finite y).length : Int) - 1 → (s = 0 ∨ b2 = (m : Int) - 1) →
      (theFit (finite y) (gridAt num.toNat b1 b2 (chosen (finite y) num.toNat b1 b2)).toNat).slope = s ∧
      (theFit (finite y) (gridAt num.toNat b1 b2 (chosen (finite y) num.toNat b1 b2)).toNat).intercept = c ∧
      (s = 0 ∨ gridAt num.toNat b1 b2 (chosen (finite y) num.toNat b1 b2) = (m : Int) - 1) := by
    intro b1 b2 g1 g2 g3 hor
    have hc : chosen (finite y) num.toNat b1 b2 ≤ num.toNat - 1 := (argmin_spec _ _).1
    obtain ⟨a1, a2⟩ := gridAt_bounds num.toNat (by omega) b1 b2 g2 _ hc
    have hb := chosen_best (finite y) num.toNat (by omega) b1 b2 g1 g2 g3 (num.toNat - 1) le_rfl s c
    rw [gridAt_last num.toNat (by omega), key b2.toNat (by omega) (by omega) (hor.imp id (fun h => by omega))] at hb
    have hz := le_antisymm hb (elbowErr_nonneg _ _ _ _)
    have hz' := fun i hi => elbowErr_zero (s := s) (c := c) (b := m - 1) (m := m) (by rw [← hy']; exact hz) i hi
    obtain ⟨e1, e2, e3⟩ := curve_unique (b := m - 1) (b' := (gridAt num.toNat b1 b2 (chosen (finite y) num.toNat b1 b2)).toNat) (m := m) (by omega) (by omega) (by omega)
      (by omega) hz'
    refine ⟨e1, e2, ?_⟩
    by_cases h0 : s = 0
    · exact Or.inl h0
    · right
      have := e3 h0
      omega
  obtain ⟨b, hb, -, -, g⟩ := search_invariant (finite y) tol num.toNat (by omega) (fun b => (theFit (finite y) b).slope = s ∧ (theFit (finite y) b).intercept = c)
    (fun _ b2 => s = 0 ∨ b2 = (m : Int) - 1) (fun b1 b2 g1 g2 g3 hor => ⟨(good b1 b2 g1 g2 g3 hor).1, (good b1 b2 g1 g2 g3 hor).2.1⟩)
    (fun b1 b2 g1 g2 g3 hor => by
      rcases (good b1 b2 g1 g2 g3 hor).2.2 with h0 | h0
      · exact Or.inl h0
      · right
        have hc : chosen (finite y) num.toNat b1 b2 ≤ num.toNat - 1 := (argmin_spec _ _).1
        have := gridAt_mono num.toNat (by omega) b1 b2 g2 (chosen (finite y) num.toNat b1 b2) (min (num.toNat - 1) (chosen (finite y) num.toNat b1 b2 + 1)) (by omega)
        have := (gridAt_bounds num.toNat (by omega) b1 b2 g2 (min (num.toNat - 1) (chosen (finite y) num.toNat b1 b2 + 1)) (by omega)).2
        omega)
    t 1 (((finite y).length : Int) - 1) none (by omega) (by omega) (by omega) (Or.inr (by omega))
  exact ⟨_, by rw [hb, g.1, g.2]⟩

/-- the fit sees only the finite entries -/
theorem C74_discards (y y' : List Val) (maxTrials num : Int) (tol : ℝ) (h : finite y = finite y') (h1 : 2 ≤ y.length) (h2 : 2 ≤ y'.length) :
    fitElbow y maxTrials tol num = fitElbow y' maxTrials tol num := by
  rw [fitElbow, fitElbow, h, if_neg (show ¬ y.length < 2 by omega), if_neg (show ¬ y'.length < 2 by omega)]

/-- the trajectory of an error that shrinks by the factor `q` in every iteration -/
noncomputable def geometric (C q : ℝ) (m : Nat) : List Val := (List.range m).map fun k => Val.fin (C * q ^ k)

theorem log10_pos (r : ℝ) (h : 0 < r) : log10 (.fin r) = .fin (Real.logb 10 r) := by simp only [log10, if_pos h]

theorem logb_geom (C q : ℝ) (hC : 0 < C) (hq : 0 < q) (k : Nat) : Real.logb 10 (C * q ^ k) = Real.logb 10 q * k + Real.logb 10 C := by
  rw [Real.logb_mul hC.ne' (pow_pos hq k).ne', Real.logb_pow]; ring

theorem finite_fins (l : List ℝ) : finite (l.map Val.fin) = l := by
  induction l with
  | nil => rfl
  | cons a t ih => rw [List.map_cons, finite, List.filterMap_cons]; simp only; rw [← finite, ih]

theorem finite_append (l l' : List Val) : finite (l ++ l') = finite l ++ finite l' := List.filterMap_append

theorem finite_nonfinite (l : List Val) (h : ∀ v ∈ l, ∀ r : ℝ, v ≠ .fin r) : finite l = [] := by
  rw [finite, List.filterMap_eq_nil_iff]
  intro v hv
  cases v with
  | fin r => exact absurd rfl (h _ hv r)
  | posInf => rfl
  | negInf => rfl
  | nan => rfl

theorem ten_pow_logb (q : ℝ) (hq : 0 < q) : (10 : ℝ) ^ Real.logb 10 q = q := Real.rpow_logb (by norm_num) (by norm_num) hq

/-- values whose logarithm is not a finite number -/
def Unloggable (v : Val) : Prop := ∀ r : ℝ, v = .fin r → r ≤ 0

theorem log10_unloggable (v : Val) (h : Unloggable v) (r : ℝ) : log10 v ≠ .fin r := by
  cases v with
  | fin a =>
    have := h a rfl
    rw [log10, if_neg (by linarith)]
    split <;> simp
  | posInf => simp [log10]
  | negInf => simp [log10]
  | nan => simp [log10]

/-- **C74.** The measured rate of an exactly geometric error is its ratio, also when it is followed by values that cannot be
drawn on a logarithmic scale (errors that became zero, infinite or NaN). -/
theorem C74_geometric (C q : ℝ) (hC : 0 < C) (hq : 0 < q) (m : Nat) (hm : 2 ≤ m) (tail : List Val) (ht : ∀ v ∈ tail, Unloggable v) :
    convergenceRate (geometric C q m ++ tail) = .ok q := by
  have e : (geometric C q m).map log10 = ((List.range m).map fun i : Nat => Real.logb 10 q * (i : ℝ) + Real.logb 10 C).map Val.fin := by
    rw [geometric, List.map_map, List.map_map]
    apply List.map_congr_left
    intro i _
    simp only [Function.comp]
    rw [log10_pos _ (mul_pos hC (pow_pos hq i)), logb_geom C q hC hq]
  have hfin : finite ((geometric C q m ++ tail).map log10) = (List.range m).map fun i : Nat => Real.logb 10 q * (i : ℝ) + Real.logb 10 C := by
    rw [List.map_append, finite_append, e, finite_fins, finite_nonfinite, List.append_nil]
    intro v hv r
    obtain ⟨w, hw, rfl⟩ := List.mem_map.1 hv
    exact log10_unloggable w (ht w hw) r
  obtain ⟨b, hb⟩ := C74_line ((geometric C q m ++ tail).map log10) 10 10 (1 / 100000) (Real.logb 10 q) (Real.logb 10 C) (by norm_num) (by norm_num) (by norm_num) m hm hfin
  rw [convergenceRate, hb]
  simp only
  rw [ten_pow_logb q hq]

/-- **C74, limitation.** A value that cannot be drawn in the middle of the trajectory closes the gap: the error `C, ?, C q²`
has rate `q`, and the rate `q²` is reported. -/
theorem C74_gap_distorts (C q : ℝ) (hC : 0 < C) (hq : 0 < q) (v : Val) (hv : Unloggable v) :
    convergenceRate [.fin C, v, .fin (C * q ^ 2)] = .ok (q ^ 2) := by
  rw [← C74_geometric C (q ^ 2) hC (pow_pos hq 2) 2 le_rfl [] (by simp), List.append_nil]
  have : finite ([.fin C, v, .fin (C * q ^ 2)].map log10) = finite ((geometric C (q ^ 2) 2).map log10) := by
    have g : geometric C (q ^ 2) 2 = [.fin C, .fin (C * q ^ 2)] := by
      rw [geometric, show List.range 2 = [0, 1] from rfl]; simp
    rw [g]
    have n := log10_unloggable v hv
    rw [show [Val.fin C, v, .fin (C * q ^ 2)].map log10 = [log10 (.fin C)] ++ [log10 v] ++ [log10 (.fin (C * q ^ 2))] from rfl, finite_append, finite_append,
      finite_nonfinite [log10 v] (by simpa using n), List.append_nil, ← finite_append]
    rfl
  rw [convergenceRate, convergenceRate, C74_discards _ _ _ _ _ this (by simp) (by simp [geometric])]

/-! ### searching the breakpoint -/

theorem gridAt_hits (num : Nat) (hn : 2 ≤ num) (b1 b2 : Int) (h : b1 ≤ b2) (hr : b2 - b1 ≤ (num : Int) - 1) (b : Int) (hb1 : b1 ≤ b) (hb2 : b ≤ b2) :
    ∃ i ≤ num - 1, gridAt num b1 b2 i = b := by
  by_contra hno
  push Not at hno
  have low : ∀ i ≤ num - 1, gridAt num b1 b2 i < b := by
    intro i
    induction i with
    | zero => intro hi; have := hno 0 hi; rw [gridAt_zero] at this ⊢; omega
    | succ i ih =>
      intro hi
      have a := ih (by omega)
      have n := hno (i + 1) hi
      have step : gridAt num b1 b2 (i + 1) ≤ gridAt num b1 b2 i + 1 := by
        rw [gridAt, gridAt]
        have hp : (0 : Int) < (num : Int) - 1 := by omega
        have e : (((i + 1 : Nat) : Int) * (b2 - b1)) ≤ (i : Int) * (b2 - b1) + ((num : Int) - 1) * 1 := by push_cast; linarith
        have := Int.ediv_le_ediv hp e
        rw [Int.add_mul_ediv_left _ _ (by omega)] at this
        omega
      omega
  have := low (num - 1) le_rfl
  rw [gridAt_last num hn] at this
  omega

/-- **C74.** If the grid has room for every breakpoint, the result is the best elbow curve over all breakpoints. -/
theorem C74_full_grid (y : List Val) (maxTrials num : Int) (tol : ℝ) (h1 : 1 ≤ maxTrials) (h2 : 0 ≤ tol) (h3 : 2 ≤ num) (h4 : 2 ≤ (finite y).length)
    (hfull : ((finite y).length : Int) - 1 ≤ num) :
    ∃ (b : Nat) (s c : ℝ), fitElbow y maxTrials tol num = .ok (c, s, (b : Int) - 1) ∧ 1 ≤ b ∧ b + 1 ≤ (finite y).length ∧
      ∀ (b' : Nat) (s' c' : ℝ), 1 ≤ b' → b' + 1 ≤ (finite y).length → elbowErr (finite y) s c b ≤ elbowErr (finite y) s' c' b' := by
  obtain ⟨t, ht⟩ := fitElbow_search y maxTrials num tol h1 h2 h3 h4
  rw [ht]
  let Opt : Nat → Prop := fun b => 1 ≤ b ∧ b + 1 ≤ (finite y).length ∧ ∀ (b' : Nat) (s' c' : ℝ), 1 ≤ b' → b' + 1 ≤ (finite y).length →
    elbowErr (finite y) (theFit (finite y) b).slope (theFit (finite y) b).intercept b ≤ elbowErr (finite y) s' c' b'
  have hn : 2 ≤ num.toNat := by omega
  have keep : ∀ b1 b2 : Int, 1 ≤ b1 → b1 ≤ b2 → b2 ≤ ((finite y).length : Int) - 1 →
      ((b1 = 1 ∧ b2 = ((finite y).length : Int) - 1) ∨ ∃ b : Nat, b1 ≤ b ∧ (b : Int) ≤ b2 ∧ Opt b) → Opt (gridAt num.toNat b1 b2 (chosen (finite y) num.toNat b1 b2)).toNat := by
    intro b1 b2 g1 g2 g3 hor
    have hc : chosen (finite y) num.toNat b1 b2 ≤ num.toNat - 1 := (argmin_spec _ _).1
    obtain ⟨a1, a2⟩ := gridAt_bounds num.toNat hn b1 b2 g2 _ hc
    refine ⟨by omega, by omega, fun b' s' c' hb1 hb2 => ?_⟩
    rcases hor with ⟨e1, e2⟩ | ⟨b, p1, p2, po⟩
    · obtain ⟨i, hi, he⟩ := gridAt_hits num.toNat hn b1 b2 g2 (by omega) b' (by omega) (by omega)
      have := chosen_best (finite y) num.toNat hn b1 b2 g1 g2 g3 i hi s' c'
      rwa [he, Int.toNat_natCast] at this
    · obtain ⟨i, hi, he⟩ := gridAt_hits num.toNat hn b1 b2 g2 (by omega) b p1 p2
      have := chosen_best (finite y) num.toNat hn b1 b2 g1 g2 g3 i hi (theFit (finite y) b).slope (theFit (finite y) b).intercept
      rw [he, Int.toNat_natCast] at this
      exact this.trans (po.2.2 b' s' c' hb1 hb2)
  obtain ⟨b, hb, p1, p2, po⟩ := search_invariant (finite y) tol num.toNat hn Opt
    (fun b1 b2 => (b1 = 1 ∧ b2 = ((finite y).length : Int) - 1) ∨ ∃ b : Nat, b1 ≤ b ∧ (b : Int) ≤ b2 ∧ Opt b) keep
    (fun b1 b2 g1 g2 g3 hor => by
      right
      have hc : chosen (finite y) num.toNat b1 b2 ≤ num.toNat - 1 := (argmin_spec _ _).1
      have m1 := gridAt_mono num.toNat hn b1 b2 g2 (chosen (finite y) num.toNat b1 b2 - 1) (chosen (finite y) num.toNat b1 b2) (by omega)
      have m2 := gridAt_mono num.toNat hn b1 b2 g2 (chosen (finite y) num.toNat b1 b2) (min (num.toNat - 1) (chosen (finite y) num.toNat b1 b2 + 1)) (by omega)
      have := (gridAt_bounds num.toNat hn b1 b2 g2 _ hc).1
      exact ⟨_, by omega, by omega, keep b1 b2 g1 g2 g3 hor⟩)
    t 1 (((finite y).length : Int) - 1) none (by omega) (by omega) (by omega) (Or.inl ⟨rfl, rfl⟩)
  exact ⟨b, _, _, hb, p1, p2, po.2.2⟩

/-- **C74.** On data that are an elbow curve, a grid with room for every breakpoint finds the slope and the intercept; the returned
breakpoint is one less than the breakpoint of the data. -/
theorem C74_elbow (y : List Val) (maxTrials num : Int) (tol s c : ℝ) (b m : Nat) (h1 : 1 ≤ maxTrials) (h2 : 0 ≤ tol) (h3 : 2 ≤ num) (hs : s ≠ 0)
    (hb : 1 ≤ b) (hm : b + 1 ≤ m) (hfull : (m : Int) - 1 ≤ num) (hy : finite y = onCurve s c b m) :
    fitElbow y maxTrials tol num = .ok (c, s, (b : Int) - 1) := by
  have hl : (finite y).length = m := by rw [hy, onCurve_length]
  obtain ⟨b', s', c', e, p1, p2, po⟩ := C74_full_grid y maxTrials num tol h1 h2 h3 (by omega) (by omega)
  have hz := le_antisymm (po b s c hb (by omega)) (by rw [hy, elbowErr_self]; exact elbowErr_nonneg _ _ _ _)
  rw [hy, elbowErr_self] at hz
  obtain ⟨e1, e2, e3⟩ := curve_unique (b := b) (b' := b') (m := m) hb p1 hm (by omega) (fun i hi => elbowErr_zero hz i hi)
  rw [e, e1, e2, e3 hs]

/-- **C74, refutation.** The documented curve with the returned breakpoint does not fit these data. -/
theorem C74_breakpoint_off (s c : ℝ) (b m : Nat) (hs : s ≠ 0) (hb : 1 ≤ b) (hm : b + 1 ≤ m) : 0 < elbowErr (onCurve s c b m) s c (b - 1) := by
  refine lt_of_le_of_ne (elbowErr_nonneg _ _ _ _) (fun h => ?_)
  have := elbowErr_zero h.symm b (by omega)
  rw [curve_ramp, curve_ramp, ramp_le b b le_rfl, ramp_gt (b - 1) b (by omega)] at this
  have hcast : ((b - 1 : Nat) : ℝ) = (b : ℝ) - 1 := by rw [Nat.cast_sub hb]; norm_num
  rw [hcast] at this
  exact hs (by linarith)

/-! ### fits at a wrong breakpoint -/

theorem cov_double (m : Nat) (f g : Nat → ℝ) :
    ∑ i ∈ Finset.range m, ∑ j ∈ Finset.range m, (f i - f j) * (g i - g j) =
      2 * (m * (∑ i ∈ Finset.range m, f i * g i) - (∑ i ∈ Finset.range m, f i) * ∑ i ∈ Finset.range m, g i) := by
  have e : ∀ i j, (f i - f j) * (g i - g j) = f i * g i - f i * g j - f j * g i + f j * g j := fun i j => by ring
  simp only [e, Finset.sum_add_distrib, Finset.sum_sub_distrib, ← Finset.mul_sum, ← Finset.sum_mul, Finset.sum_const, Finset.card_range, nsmul_eq_mul]
  have e2 : ∑ x ∈ Finset.range m, f x * (m * g x) = m * ∑ x ∈ Finset.range m, f x * g x := by
    rw [Finset.mul_sum]; exact Finset.sum_congr rfl fun i _ => by ring
  have e3 : ∑ x ∈ Finset.range m, m * (f x * g x) = m * ∑ x ∈ Finset.range m, f x * g x := (Finset.mul_sum _ _ _).symm
  first | linarith | (rw [e2]; ring) | (rw [e3]; ring)

/-- strictly positive covariance of sequences that move together -/
theorem cov_pos (m : Nat) (f g : Nat → ℝ) (h : ∀ i j, 0 ≤ (f i - f j) * (g i - g j)) (p q : Nat) (hp : p < m) (hq : q < m) (hpq : 0 < (f p - f q) * (g p - g q)) :
    (∑ i ∈ Finset.range m, f i) * (∑ i ∈ Finset.range m, g i) < m * ∑ i ∈ Finset.range m, f i * g i := by
  have : 0 < ∑ i ∈ Finset.range m, ∑ j ∈ Finset.range m, (f i - f j) * (g i - g j) := by
    apply Finset.sum_pos' (fun i _ => Finset.sum_nonneg fun j _ => h i j)
    exact ⟨p, Finset.mem_range.2 hp, Finset.sum_pos' (fun j _ => h p j) ⟨q, Finset.mem_range.2 hq, hpq⟩⟩
  rw [cov_double] at this
  linarith

theorem ramp_eq_min (b i : Nat) : ramp b i = ((min i b : Nat) : ℝ) := by
  rcases Nat.le_total i b with h | h
  · rw [ramp_le b i h, min_eq_left h]
  · rw [ramp_gt b i h, min_eq_right h]

/-- ramps with different ends move together with their difference -/
theorem ramp_monovary (b b' : Nat) (h : b' ≤ b) (i j : Nat) : 0 ≤ (ramp b' i - ramp b' j) * ((ramp b i - ramp b' i) - (ramp b j - ramp b' j)) := by
  simp only [ramp_eq_min]
  have key : ∀ i j : Nat, i ≤ j → ((min i b' : Nat) : ℝ) ≤ ((min j b' : Nat) : ℝ) ∧
      ((min i b : Nat) : ℝ) - ((min i b' : Nat) : ℝ) ≤ ((min j b : Nat) : ℝ) - ((min j b' : Nat) : ℝ) := by
    intro i j hij
    constructor
    · exact_mod_cast (by omega : min i b' ≤ min j b')
    · have : min i b + min j b' ≤ min j b + min i b' := by omega
      have : ((min i b : Nat) : ℝ) + ((min j b' : Nat) : ℝ) ≤ ((min j b : Nat) : ℝ) + ((min i b' : Nat) : ℝ) := by exact_mod_cast this
      linarith
  rcases Nat.le_total i j with hij | hij
  · obtain ⟨a, b⟩ := key i j hij
    exact mul_nonneg_of_nonpos_of_nonpos (by linarith) (by linarith)
  · obtain ⟨a, b⟩ := key j i hij
    exact mul_nonneg (by linarith) (by linarith)

/-- the slope fitted at `b'` to a curve with breakpoint `b` -/
theorem slope_gap (s c : ℝ) (b b' m : Nat) (hb' : 1 ≤ b') (hm' : b' + 1 ≤ m) (f : Fit) (hf : fitAt (onCurve s c b m) b' = .ok f) :
    (f.slope - s) * det m b' = s * (m * (∑ i ∈ Finset.range m, ramp b' i * (ramp b i - ramp b' i)) -
      (∑ i ∈ Finset.range m, ramp b' i) * ∑ i ∈ Finset.range m, (ramp b i - ramp b' i)) := by
  have hd := (det_pos m b' hb' hm').ne'
  have hl := onCurve_length s c b m
  simp only [fitAt, hl, if_neg (show ¬ m < b' + 1 by omega)] at hf
  have e1 : ∑ i ∈ Finset.range m, ramp b' i * (onCurve s c b m).getD i 0 = s * (∑ i ∈ Finset.range m, ramp b' i * (ramp b i - ramp b' i)) + s * s00 m b' + c * s01 m b' := by
    rw [← sum_ramp m b' hm', ← sum_ramp_sq m b' hm', Finset.mul_sum, Finset.mul_sum, Finset.mul_sum, ← Finset.sum_add_distrib, ← Finset.sum_add_distrib]
    apply Finset.sum_congr rfl
    intro i hi
    rw [onCurve_getD _ _ _ _ i (Finset.mem_range.1 hi), curve_ramp]; ring
  have e2 : ∑ i ∈ Finset.range m, (onCurve s c b m).getD i 0 = s * (∑ i ∈ Finset.range m, (ramp b i - ramp b' i)) + s * s01 m b' + c * m := by
    have : c * (m : ℝ) = ∑ _i ∈ Finset.range m, c := by simp [mul_comm]
    rw [this, ← sum_ramp m b' hm', Finset.mul_sum, Finset.mul_sum, ← Finset.sum_add_distrib, ← Finset.sum_add_distrib]
    apply Finset.sum_congr rfl
    intro i hi
    rw [onCurve_getD _ _ _ _ i (Finset.mem_range.1 hi), curve_ramp]; ring
  have hs : f.slope * det m b' = m * (∑ i ∈ Finset.range m, ramp b' i * (onCurve s c b m).getD i 0) + -s01 m b' * ∑ i ∈ Finset.range m, (onCurve s c b m).getD i 0 := by
    cases hf
    simp only
    field_simp
  rw [sub_mul, hs, e1, e2, sum_ramp m b' hm', det]
  ring

/-- **C74.** A fit with the wrong breakpoint has the wrong slope. -/
theorem C74_wrong_breakpoint (s c : ℝ) (b b' m : Nat) (hs : s ≠ 0) (hb : 1 ≤ b) (hm : b + 1 ≤ m) (hb' : 1 ≤ b') (hm' : b' + 1 ≤ m) (hne : b' ≠ b) (f : Fit)
    (hf : fitAt (onCurve s c b m) b' = .ok f) : f.slope ≠ s := by
  intro he
  have key := slope_gap s c b b' m hb' hm' f hf
  rw [he, sub_self, zero_mul] at key
  have hz := (mul_eq_zero.1 key.symm).resolve_left hs
  have ends : ∀ x : Nat, ramp x 0 = 0 := fun x => by rw [ramp_le x 0 (by omega)]; norm_num
  have hlast : ramp b' (m - 1) = b' := ramp_gt b' _ (by omega)
  have hlast' : ramp b (m - 1) = b := ramp_gt b _ (by omega)
  have hpos : (0 : ℝ) < b' := by exact_mod_cast hb'
  rcases Nat.lt_or_ge b' b with hlt | hge
  · have hlt' : (b' : ℝ) < b := by exact_mod_cast hlt
    have := cov_pos m (ramp b') (fun i => ramp b i - ramp b' i) (ramp_monovary b b' (by omega)) (m - 1) 0 (by omega) (by omega)
      (by rw [ends, ends, hlast, hlast']; simp only [sub_zero]; exact mul_pos hpos (by linarith))
    linarith
  · have hlt : b < b' := by omega
    have hlt' : (b : ℝ) < b' := by exact_mod_cast hlt
    have hpos' : (0 : ℝ) < b := by exact_mod_cast hb
    have hmono : ∀ i j, 0 ≤ (ramp b' i - ramp b' j) * ((ramp b' i - ramp b i) - (ramp b' j - ramp b j)) := by
      intro i j
      have hz := ramp_monovary b' b (by omega) i j
      have e : (ramp b' i - ramp b' j) * ((ramp b' i - ramp b i) - (ramp b' j - ramp b j)) =
          (ramp b i - ramp b j) * ((ramp b' i - ramp b i) - (ramp b' j - ramp b j)) + ((ramp b' i - ramp b i) - (ramp b' j - ramp b j)) ^ 2 := by ring
      rw [e]
      exact add_nonneg hz (sq_nonneg _)
    have := cov_pos m (ramp b') (fun i => ramp b' i - ramp b i) hmono (m - 1) 0 (by omega) (by omega)
      (by rw [ends, ends, hlast, hlast']; simp only [sub_zero]; exact mul_pos hpos (by linarith))
    have f1 : ∑ i ∈ Finset.range m, ramp b' i * (ramp b i - ramp b' i) = -∑ i ∈ Finset.range m, ramp b' i * (ramp b' i - ramp b i) := by
      rw [← Finset.sum_neg_distrib]; exact Finset.sum_congr rfl fun i _ => by ring
    have f2 : ∑ i ∈ Finset.range m, (ramp b i - ramp b' i) = -∑ i ∈ Finset.range m, (ramp b' i - ramp b i) := by
      rw [← Finset.sum_neg_distrib]; exact Finset.sum_congr rfl fun i _ => by ring
    rw [f1, f2] at hz
    linarith

/-- an error that shrinks by the factor `q` in each of the first `b` iterations and then stays where it is -/
noncomputable def levelling (C q : ℝ) (b m : Nat) : List Val := (List.range m).map fun k => Val.fin (C * q ^ (min k b))

theorem finite_levelling (C q : ℝ) (hC : 0 < C) (hq : 0 < q) (b m : Nat) :
    finite ((levelling C q b m).map log10) = onCurve (Real.logb 10 q) (Real.logb 10 C) b m := by
  have e : (levelling C q b m).map log10 = (onCurve (Real.logb 10 q) (Real.logb 10 C) b m).map Val.fin := by
    rw [levelling, onCurve, List.map_map, List.map_map]
    apply List.map_congr_left
    intro i _
    simp only [Function.comp]
    rw [log10_pos _ (mul_pos hC (pow_pos hq _)), logb_geom C q hC hq, curve_ramp, ramp_eq_min]
    congr 1; ring
  rw [e, finite_fins]

theorem logb_ne_zero (q : ℝ) (hq : 0 < q) (h1 : q ≠ 1) : Real.logb 10 q ≠ 0 := by
  rw [Ne, Real.logb_eq_zero]
  push Not
  exact ⟨by norm_num, by norm_num, by norm_num, hq.ne', h1, by linarith⟩

/-- **C74.** With the default arguments, the rate of an error that levels off is measured exactly on trajectories of at most 11 values. -/
theorem C74_levelling_short (C q : ℝ) (hC : 0 < C) (hq : 0 < q) (h1 : q ≠ 1) (b m : Nat) (hb : 1 ≤ b) (hm : b + 1 ≤ m) (hshort : m ≤ 11) :
    convergenceRate (levelling C q b m) = .ok q := by
  rw [convergenceRate, C74_elbow _ 10 10 (1 / 100000) (Real.logb 10 q) (Real.logb 10 C) b m (by norm_num) (by norm_num) (by norm_num)
    (logb_ne_zero q hq h1) hb hm (by omega) (finite_levelling C q hC hq b m)]
  simp only
  rw [ten_pow_logb q hq]

/-- **C74, refutation.** On longer ones it is not: the first grid finds the breakpoint exactly, the refined grid misses it, and the
worse fit of the refined grid is returned — for every factor `q ≠ 1`. -/
theorem C74_refined_grid_misses (C q : ℝ) (hC : 0 < C) (hq : 0 < q) (h1 : q ≠ 1) :
    ∃ r, convergenceRate (levelling C q 10 83) = .ok r ∧ r ≠ q := by
  set s := Real.logb 10 q with hs
  set c := Real.logb 10 C with hc
  have hs0 : s ≠ 0 := logb_ne_zero q hq h1
  have hfin := finite_levelling C q hC hq 10 83
  rw [← hs, ← hc] at hfin
  set y := onCurve s c 10 83 with hy
  have hl : y.length = 83 := onCurve_length _ _ _ _
  have e : fitElbow ((levelling C q 10 83).map log10) 10 (1 / 100000) 10 = search y (1 / 100000) 10 10 1 82 none := by
    rw [fitElbow, if_neg (by simp [levelling]), if_neg (by norm_num), if_neg (by norm_num), if_neg (by norm_num)]
    simp only
    rw [hfin, hl]; rfl
  -- the exact fit is at breakpoint 10, and only there
  have zero10 : ∀ b : Nat, 1 ≤ b → b + 1 ≤ 83 → elbowErr y (theFit y b).slope (theFit y b).intercept b ≤ 0 → b = 10 := by
    intro b p1 p2 hz
    exact (curve_unique (by norm_num) p1 (by norm_num) p2 (fun i hi => elbowErr_zero (le_antisymm hz (elbowErr_nonneg _ _ _ _)) i hi)).2.2 hs0
  -- first grid
  have k1 : chosen y 10 1 82 = 1 := by
    have hcb : chosen y 10 1 82 ≤ 9 := (argmin_spec _ _).1
    have hb := chosen_best y 10 (by norm_num) 1 82 (by norm_num) (by norm_num) (by rw [hl]; norm_num) 1 (by norm_num) s c
    have h10 : (gridAt 10 1 82 1).toNat = 10 := by decide
    rw [h10, hy, elbowErr_self, ← hy] at hb
    obtain ⟨a1, a2⟩ := gridAt_bounds 10 (by norm_num) 1 82 (by norm_num) (chosen y 10 1 82) hcb
    have := zero10 _ (by omega) (by omega) hb
    generalize chosen y 10 1 82 = k at this hcb
    interval_cases k <;> first | rfl | (exfalso; revert this; decide)
  have r1 : (theFit y 10).res = 0 := by
    rw [(theFit_spec y 10 (by norm_num) (by rw [hl]; norm_num)).2.2]
    have : elbowErr y (theFit y 10).slope (theFit y 10).intercept 10 ≤ 0 := by
      refine (((theFit_spec y 10 (by norm_num) (by rw [hl]; norm_num)).2.1) s c).1.trans ?_
      rw [hy, elbowErr_self]
    rw [le_antisymm this (elbowErr_nonneg _ _ _ _), Real.sqrt_zero]
  have step1 : search y (1 / 100000) 10 10 1 82 none = search y (1 / 100000) 10 9 1 19 (some 0) := by
    rw [search_succ y (1 / 100000) 10 (by norm_num) 9 1 82 none (by norm_num) (by norm_num) (by rw [hl]; norm_num), if_neg (by simp [stops]), k1]
    have h10 : (gridAt 10 1 82 1).toNat = 10 := by decide
    rw [h10, r1]; rfl
  have hcb : chosen y 10 1 19 ≤ 9 := (argmin_spec _ _).1
  obtain ⟨a1, a2⟩ := gridAt_bounds 10 (by norm_num) 1 19 (by norm_num) (chosen y 10 1 19) hcb
  have hne : (gridAt 10 1 19 (chosen y 10 1 19)).toNat ≠ 10 := by
    generalize chosen y 10 1 19 = k at hcb
    interval_cases k <;> decide
  obtain ⟨hok, -, hres⟩ := theFit_spec y (gridAt 10 1 19 (chosen y 10 1 19)).toNat (by omega) (by omega)
  have step2 : search y (1 / 100000) 10 9 1 19 (some 0) =
      .ok ((theFit y (gridAt 10 1 19 (chosen y 10 1 19)).toNat).intercept, (theFit y (gridAt 10 1 19 (chosen y 10 1 19)).toNat).slope,
        gridAt 10 1 19 (chosen y 10 1 19) - 1) := by
    rw [search_succ y (1 / 100000) 10 (by norm_num) 8 1 19 (some 0) (by norm_num) (by norm_num) (by rw [hl]; norm_num)]
    refine if_pos (Or.inr ?_)
    rw [stops, hres]
    have := Real.sqrt_nonneg (elbowErr y (theFit y (gridAt 10 1 19 (chosen y 10 1 19)).toNat).slope (theFit y (gridAt 10 1 19 (chosen y 10 1 19)).toNat).intercept
      (gridAt 10 1 19 (chosen y 10 1 19)).toNat)
    linarith
  rw [convergenceRate, e, step1, step2]
  refine ⟨_, rfl, ?_⟩
  have hw := C74_wrong_breakpoint s c 10 _ 83 hs0 (by norm_num) (by norm_num) (by omega) (by omega) hne _ hok
  simp only
  intro heq
  apply hw
  have h10 := ten_pow_logb q hq
  rw [← hs] at h10
  rw [← h10] at heq
  have := congrArg (Real.logb 10) heq
  rwa [Real.logb_rpow (by norm_num) (by norm_num), Real.logb_rpow (by norm_num) (by norm_num)] at this

/-! ### the hypotheses can be met -/

example : convergenceRate (geometric 3 (1 / 2) 50 ++ [.fin 0, .nan]) = .ok (1 / 2) :=
  C74_geometric 3 (1 / 2) (by norm_num) (by norm_num) 50 (by norm_num) _ (by
    intro v hv r hr
    simp only [List.mem_cons, List.not_mem_nil, or_false] at hv
    rcases hv with h | h <;> rw [h] at hr
    · cases hr; exact le_rfl
    · cases hr)

example : convergenceRate (levelling 1 (9 / 10) 4 11) = .ok (9 / 10) := C74_levelling_short 1 (9 / 10) (by norm_num) (by norm_num) (by norm_num) 4 11 (by norm_num) (by norm_num) (by norm_num)

example : ∃ r, convergenceRate (levelling 1 (9 / 10) 10 83) = .ok r ∧ r ≠ 9 / 10 := C74_refined_grid_misses 1 (9 / 10) (by norm_num) (by norm_num) (by norm_num)

example : fitElbow ((onCurve (-2) 1 3 7).map Val.fin) 1 0 6 = .ok (1, -2, 2) :=
  C74_elbow _ 1 6 0 (-2) 1 3 7 (by norm_num) le_rfl (by norm_num) (by norm_num) (by norm_num) (by norm_num) (by norm_num) (finite_fins _)

example : fitElbow [.fin 1, .nan, .posInf] 10 (1 / 100000) 10 = .error .valueError := C74_errors _ _ _ _ (Or.inr (Or.inr (Or.inr (by simp [finite]))))

end Verif.Props
