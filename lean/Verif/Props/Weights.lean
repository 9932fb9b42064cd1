import Verif.Model.Weights
import Mathlib.Algebra.BigOperators.Group.List.Basic
import Mathlib.Algebra.Order.BigOperators.Group.List
import Mathlib.Data.List.Nodup
import Mathlib.Data.List.Perm.Lattice
import Mathlib.Data.List.Dedup
import Mathlib.Tactic.Ring
import Mathlib.Tactic.Linarith
import Mathlib.Tactic.Positivity
import Mathlib.Tactic.FieldSimp
import Mathlib.Tactic.NormNum
/-! # C12 Metropolis weights are symmetric and doubly stochastic; C13 self-loops break it -/
set_option linter.unusedSectionVars false
namespace Verif.Props
open Verif
variable {A : Type} [DecidableEq A]

/-- Metropolis weight of an edge, from the literature: `1 / (1 + max(d_i, d_j))` -/
noncomputable def metro (n : Net A) (i j : A) : ℝ := 1 / (1 + max (degree n i : ℝ) (degree n j : ℝ))

theorem fillRow_apply (n : Net A) (i : A) (l : List A) (W : A → A → ℝ) (x y : A) :
    fillRow n i W l x y = if x = i ∧ y ∈ l then metro n i y else W x y := by
  induction l generalizing W with
  | nil => simp [fillRow]
  | cons j t ih =>
    simp only [fillRow]
    rw [ih]
    by_cases hx : x = i
    · subst hx
      by_cases hy : y ∈ t
      · simp [hy]
      · by_cases hj : y = j
        · subst hj; simp [hy, setEntry, metro]
        · simp [hy, hj, setEntry]
    · simp [hx, setEntry]

theorem fillRows_apply (n : Net A) (l : List A) (W : A → A → ℝ) (x y : A) :
    fillRows n W l x y = if x ∈ l ∧ y ∈ n.nbrs x then metro n x y else W x y := by
  induction l generalizing W with
  | nil => simp [fillRows]
  | cons i t ih =>
    simp only [fillRows]
    rw [ih, fillRow_apply]
    by_cases hy : y ∈ n.nbrs x
    · by_cases hx : x ∈ t
      · simp [hx, hy]
      · by_cases hi : x = i
        · subst hi; simp [hx, hy]
        · simp [hx, hi]
    · by_cases hi : x = i
      · subst hi; simp [hy]
      · simp [hy, hi]

theorem fillDiag_apply (n : Net A) (l : List A) (hl : l.Nodup) (W : A → A → ℝ) (x y : A) :
    fillDiag n W l x y = if x ∈ l ∧ y = x then 1 - rowSum n W x else W x y := by
  induction l generalizing W with
  | nil => simp [fillDiag]
  | cons i t ih =>
    rw [List.nodup_cons] at hl
    simp only [fillDiag]
    rw [ih hl.2]
    by_cases hx : x ∈ t
    · have hne : x ≠ i := fun e => hl.1 (e ▸ hx)
      have hr : rowSum n (setEntry W i i (1 - rowSum n W i)) x = rowSum n W x := by
        unfold rowSum
        congr 1
        apply List.map_congr_left
        intro j _
        simp [setEntry, hne]
      by_cases hy : y = x
      · simp [hx, hy, hr]
      · simp [hx, hy, setEntry, hne]
    · by_cases hi : x = i
      · subst hi
        by_cases hy : y = x
        · subst hy; simp [hx, setEntry]
        · simp [hx, hy, setEntry]
      · simp [hx, hi, setEntry]

/-- sum over neighbours -/
noncomputable def nbrSum (n : Net A) (i : A) : ℝ := ((n.nbrs i).map (metro n i)).sum

theorem sum_indicator (l s : List A) (hl : l.Nodup) (hs : s.Nodup) (hsub : ∀ a ∈ s, a ∈ l) (f : A → ℝ) :
    (l.map (fun j => if j ∈ s then f j else 0)).sum = (s.map f).sum := by
  have h1 : (l.map (fun j => if j ∈ s then f j else 0)).sum = ((l.filter (fun j => decide (j ∈ s))).map f).sum := by
    clear hl hsub
    induction l with
    | nil => rfl
    | cons a t ih =>
      by_cases ha : a ∈ s
      · simp [ha, ih]
      · simp [ha, ih]
  rw [h1]
  have hp : (l.filter (fun j => decide (j ∈ s))).Perm s := by
    rw [List.perm_ext_iff_of_nodup (hl.filter _) hs]
    intro a
    simp only [List.mem_filter, decide_eq_true_eq]
    exact ⟨fun h => h.2, fun h => ⟨hsub a h, h⟩⟩
  exact (hp.map f).sum_eq

theorem rowSum_fill (n : Net A) (hw : n.WF) (i : A) (hi : i ∈ n.nodes) :
    rowSum n (fillRows n (fun _ _ => 0) n.nodes) i = nbrSum n i := by
  unfold rowSum nbrSum
  rw [← sum_indicator n.nodes (n.nbrs i) hw.nodup (hw.nbrs_nodup i) (hw.nbrs_mem i) (metro n i)]
  congr 1
  apply List.map_congr_left
  intro j _
  rw [fillRows_apply]
  simp [hi]

/-- closed form of the computed matrix -/
theorem weights_apply (n : Net A) (hw : n.WF) (x y : A) (hx : x ∈ n.nodes) :
    weights n x y = if y = x then 1 - nbrSum n x else if y ∈ n.nbrs x then metro n x y else 0 := by
  unfold weights
  rw [fillDiag_apply n _ hw.nodup, rowSum_fill n hw x hx, fillRows_apply]
  simp [hx]

/-- row sum of the computed matrix, with or without a self-loop -/
theorem row_sum_general (n : Net A) (hw : n.WF) (i : A) (hi : i ∈ n.nodes) :
    (n.nodes.map (fun j => weights n i j)).sum = 1 - (if i ∈ n.nbrs i then metro n i i else 0) := by
  have hW : ∀ j, weights n i j = (if j ∈ n.nbrs i then metro n i j else 0) +
      (if j ∈ [i] then (1 - nbrSum n i - (if i ∈ n.nbrs i then metro n i i else 0)) else 0) := by
    intro j
    rw [weights_apply n hw i j hi]
    by_cases hj : j = i
    · subst hj; simp
    · simp [hj]
  have : (n.nodes.map (fun j => weights n i j)).sum =
      (n.nodes.map (fun j => if j ∈ n.nbrs i then metro n i j else 0)).sum +
      (n.nodes.map (fun j => if j ∈ [i] then (1 - nbrSum n i - (if i ∈ n.nbrs i then metro n i i else 0)) else 0)).sum := by
    rw [← List.sum_map_add]
    congr 1
    apply List.map_congr_left
    intro j _
    exact hW j
  rw [this, sum_indicator n.nodes (n.nbrs i) hw.nodup (hw.nbrs_nodup i) (hw.nbrs_mem i) (metro n i),
    sum_indicator n.nodes [i] hw.nodup (by simp) (by simpa using hi)]
  simp [nbrSum]
  ring

theorem metro_symm (n : Net A) (i j : A) : metro n i j = metro n j i := by
  unfold metro; rw [max_comm]

theorem metro_pos (n : Net A) (i j : A) : 0 < metro n i j := by
  unfold metro
  have : (0 : ℝ) ≤ max (degree n i : ℝ) (degree n j : ℝ) := le_max_of_le_left (Nat.cast_nonneg _)
  positivity

theorem metro_le (n : Net A) (i j : A) : metro n i j ≤ 1 / (1 + (degree n i : ℝ)) := by
  unfold metro
  have h0 : (0 : ℝ) ≤ (degree n i : ℝ) := Nat.cast_nonneg _
  have h1 : (degree n i : ℝ) ≤ max (degree n i : ℝ) (degree n j : ℝ) := le_max_left _ _
  exact one_div_le_one_div_of_le (by linarith) (by linarith)

theorem nbrSum_lt_one (n : Net A) (i : A) : nbrSum n i < 1 := by
  have hle : nbrSum n i ≤ ((n.nbrs i).length : ℝ) * (1 / (1 + (degree n i : ℝ))) := by
    unfold nbrSum
    have : ∀ l : List A, (l.map (metro n i)).sum ≤ (l.length : ℝ) * (1 / (1 + (degree n i : ℝ))) := by
      intro l
      induction l with
      | nil => simp
      | cons a t ih =>
        simp only [List.map_cons, List.sum_cons, List.length_cons]
        push_cast
        have := metro_le n i a
        linarith
    exact this _
  have hd : ((n.nbrs i).length : ℝ) ≤ (degree n i : ℝ) := by
    unfold degree; push_cast; split <;> simp
  have h0 : (0 : ℝ) ≤ ((n.nbrs i).length : ℝ) := Nat.cast_nonneg _
  have hpos : (0 : ℝ) < 1 + (degree n i : ℝ) := by linarith
  have : ((n.nbrs i).length : ℝ) * (1 / (1 + (degree n i : ℝ))) < 1 := by
    rw [mul_one_div, div_lt_one hpos]; linarith
  linarith

/-- a simple graph: no self-loops -/
def Loopless (n : Net A) : Prop := ∀ a, a ∉ n.nbrs a

/-- Symmetry. -/
theorem C12_symmetric (n : Net A) (hw : n.WF) (i j : A) (hi : i ∈ n.nodes) (hj : j ∈ n.nodes) :
    weights n i j = weights n j i := by
  rw [weights_apply n hw i j hi, weights_apply n hw j i hj]
  by_cases h : j = i
  · subst h; rfl
  · have h' : ¬ i = j := fun e => h e.symm
    rw [if_neg h, if_neg h']
    by_cases hn : j ∈ n.nbrs i
    · rw [if_pos hn, if_pos (hw.symm i j hn), metro_symm]
    · rw [if_neg hn, if_neg (fun hh => hn (hw.symm j i hh))]

/-- Non-negative entries, strictly positive diagonal. -/
theorem C12_nonneg (n : Net A) (hw : n.WF) (i j : A) (hi : i ∈ n.nodes) :
    0 ≤ weights n i j ∧ 0 < weights n i i := by
  have hd := nbrSum_lt_one n i
  constructor
  · rw [weights_apply n hw i j hi]
    split
    · linarith
    · split
      · exact le_of_lt (metro_pos n i j)
      · exact le_refl _
  · rw [weights_apply n hw i i hi, if_pos rfl]; linarith

/-- Zero between distinct non-neighbours, and exactly the Metropolis weight between neighbours. -/
theorem C12_support (n : Net A) (hw : n.WF) (i j : A) (hi : i ∈ n.nodes) (hij : i ≠ j) :
    (j ∉ n.nbrs i → weights n i j = 0) ∧
    (j ∈ n.nbrs i → weights n i j = 1 / (1 + max (degree n i : ℝ) (degree n j : ℝ)) ∧ 0 < weights n i j) := by
  rw [weights_apply n hw i j hi, if_neg (fun e => hij e.symm)]
  constructor
  · intro h; rw [if_neg h]
  · intro h; rw [if_pos h]; exact ⟨rfl, metro_pos n i j⟩

/-- Every row and every column sums to 1 (simple graphs). -/
theorem C12_doubly_stochastic (n : Net A) (hw : n.WF) (hs : Loopless n) (i : A) (hi : i ∈ n.nodes) :
    (n.nodes.map (fun j => weights n i j)).sum = 1 ∧ (n.nodes.map (fun j => weights n j i)).sum = 1 := by
  have hrow : (n.nodes.map (fun j => weights n i j)).sum = 1 := by
    rw [row_sum_general n hw i hi, if_neg (hs i)]; ring
  refine ⟨hrow, ?_⟩
  rw [← hrow]
  congr 1
  apply List.map_congr_left
  intro j hj
  exact C12_symmetric n hw j i hj hi

/-- C13: at every agent with a self-loop the row sums to `1 - 1/(1 + degree)`, strictly less than 1. -/
theorem C13_self_loop_not_stochastic (n : Net A) (hw : n.WF) (i : A) (hi : i ∈ n.nodes) (hloop : i ∈ n.nbrs i) :
    (n.nodes.map (fun j => weights n i j)).sum = 1 - 1 / (1 + (degree n i : ℝ)) ∧
    (n.nodes.map (fun j => weights n i j)).sum < 1 := by
  rw [row_sum_general n hw i hi, if_pos hloop]
  have : metro n i i = 1 / (1 + (degree n i : ℝ)) := by unfold metro; rw [max_self]
  rw [this]
  have h0 : (0 : ℝ) ≤ (degree n i : ℝ) := Nat.cast_nonneg _
  exact ⟨rfl, by have : (0 : ℝ) < 1 / (1 + (degree n i : ℝ)) := by positivity
                 linarith⟩

/-! ## Non-vacuity: the path 0 - 1 - 2, and the same path with a loop at 1 -/

/-- path on three agents -/
def path3 : Net Nat := ⟨[0, 1, 2], fun a => if a = 0 then [1] else if a = 1 then [0, 2] else if a = 2 then [1] else [], [0, 1, 2]⟩

theorem path3_wf : path3.WF := by
  refine ⟨by decide, ?_, ?_, ?_, fun a h => h, by decide⟩
  · intro a; simp only [path3]; split
    · simp
    · split
      · simp
      · split <;> simp
  · intro a b; simp only [path3]; split
    · simp; intro h; simp [h]
    · split
      · simp; rintro (h | h) <;> simp [h]
      · split
        · simp; intro h; simp [h]
        · simp
  · intro a b; simp only [path3]
    by_cases h0 : a = 0
    · subst h0; simp; intro h; subst h; simp
    · by_cases h1 : a = 1
      · subst h1; simp; rintro (h | h) <;> subst h <;> simp
      · by_cases h2 : a = 2
        · subst h2; simp; intro h; subst h; simp
        · simp [h0, h1, h2]

theorem path3_loopless : Loopless path3 := by
  intro a; simp only [path3]
  by_cases h0 : a = 0
  · subst h0; simp
  · by_cases h1 : a = 1
    · subst h1; simp
    · by_cases h2 : a = 2
      · subst h2; simp
      · simp [h0, h1, h2]

example : weights path3 0 1 = 1 / 3 := by
  have := (C12_support path3 path3_wf 0 1 (by decide) (by decide)).2 (by decide)
  rw [this.1]
  norm_num [degree, path3]

/-- one agent with a loop -/
def loop1 : Net Nat := ⟨[0], fun a => if a = 0 then [0] else [], [0]⟩

theorem loop1_wf : loop1.WF := by
  refine ⟨by decide, ?_, ?_, ?_, fun a h => h, by decide⟩
  · intro a; simp only [loop1]; split <;> simp
  · intro a b; simp only [loop1]; split <;> simp
  · intro a b; simp only [loop1]; split
    · simp_all
    · simp

example : (loop1.nodes.map (fun j => weights loop1 0 j)).sum = 2 / 3 := by
  rw [(C13_self_loop_not_stochastic loop1 loop1_wf 0 (by decide) (by decide)).1]
  norm_num [degree, loop1]

end Verif.Props
