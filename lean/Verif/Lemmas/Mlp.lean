import Verif.Model.Mlp
import Mathlib.Analysis.Calculus.Deriv.Add
import Mathlib.Analysis.Calculus.Deriv.Mul
import Mathlib.Analysis.Calculus.Deriv.Comp
import Mathlib.Analysis.SpecialFunctions.Trigonometric.Deriv
import Mathlib.Data.List.GetD
import Mathlib.Tactic.Linarith
import Mathlib.Tactic.Ring
set_option linter.unusedSectionVars false
/-!
# Feed-forward networks: shapes, values, the chain rule
-/
namespace Verif
namespace Mlp
open Torch

theorem getD_range_map {f : Nat → ℝ} {n i : Nat} : ((List.range n).map f).getD i 0 = if i < n then f i else 0 := by
  split
  · rename_i h
    rw [List.getD_eq_getElem _ _ (by simpa using h)]; simp
  · rename_i h
    exact List.getD_eq_default _ _ (by simpa using h)

theorem affine_length (a b : Nat) (w c x : List ℝ) : (affine a b w c x).length = b := by simp [affine]

/-- the number an activation argument stands for: the identity for `None` and unknown names -/
noncomputable def actOn (o : Option String) (v : ℝ) : ℝ :=
  if o = some "relu" then max v 0 else if o = some "tanh" then Real.tanh v else if o = some "sigmoid" then Real.sigmoid v else v

theorem actLayers_cases (o : Option String) : (actLayers o = [] ∧ actOn o = fun v => v) ∨ ∃ f, actLayers o = [.act f] ∧ actOn o = f.on := by
  cases o with
  | none => left; exact ⟨rfl, by funext v; simp [actOn]⟩
  | some s =>
    by_cases h1 : s = "relu"
    · subst h1; right; exact ⟨.relu, by simp [actLayers], by funext v; simp [actOn, Act.on]⟩
    by_cases h2 : s = "tanh"
    · subst h2; right; exact ⟨.tanh, by simp [actLayers], by funext v; simp [actOn, Act.on]⟩
    by_cases h3 : s = "sigmoid"
    · subst h3; right; exact ⟨.sigmoid, by simp [actLayers], by funext v; simp [actOn, Act.on]⟩
    left
    exact ⟨by simp [actLayers, h1, h2, h3], by funext v; simp [actOn, h1, h2, h3]⟩

theorem forward_acts (o : Option String) (ls : List Layer) (θ : List (List ℝ)) (x : List ℝ) :
    forward (actLayers o ++ ls) θ x = forward ls θ (x.map (actOn o)) := by
  rcases actLayers_cases o with ⟨h1, h2⟩ | ⟨f, h1, h2⟩
  · rw [h1, h2]; simp
  · rw [h1, h2]; simp [forward]

theorem sizes_acts (o : Option String) (ls : List Layer) : paramSizes (actLayers o ++ ls) = paramSizes ls := by
  rcases actLayers_cases o with ⟨h1, _⟩ | ⟨f, h1, _⟩
  · rw [h1]; rfl
  · rw [h1]; rfl

/-- the network as nested formulas -/
noncomputable def mlp (σ τ : ℝ → ℝ) (output : Nat) : Nat → List Nat → List (List ℝ) → List ℝ → List ℝ
  | prev, [], w :: c :: _, x => (affine prev output w c x).map τ
  | prev, h :: hs, w :: c :: θ, x => mlp σ τ output h hs θ ((affine prev h w c x).map σ)
  | _, _, _, _ => []

theorem sizes_from (o1 o2 : Option String) (output : Nat) (prev : Nat) (hs : List Nat) :
    paramSizes (layersFrom output o1 o2 prev hs) = match hs with
      | [] => [output * prev, output]
      | h :: t => h * prev :: h :: paramSizes (layersFrom output o1 o2 h t) := by
  cases hs with
  | nil =>
    have := sizes_acts o2 []
    rw [List.append_nil] at this
    simp [layersFrom, paramSizes, this]
  | cons h t =>
    show paramSizes ((Layer.linear prev h :: actLayers o1) ++ layersFrom output o1 o2 h t) = _
    rw [List.cons_append, paramSizes, sizes_acts]

theorem two_tensors {θ : List (List ℝ)} {m m' : Nat} {l : List Nat} (h : θ.map List.length = m :: m' :: l) :
    ∃ w c θ', θ = w :: c :: θ' ∧ w.length = m ∧ c.length = m' ∧ θ'.map List.length = l := by
  match θ, h with
  | w :: c :: θ', h =>
    simp only [List.map_cons, List.cons.injEq] at h
    exact ⟨w, c, θ', rfl, h.1, h.2.1, h.2.2⟩

theorem forward_from (o1 o2 : Option String) (output : Nat) : ∀ (hs : List Nat) (prev : Nat) (θ : List (List ℝ)) (x : List ℝ),
    θ.map List.length = paramSizes (layersFrom output o1 o2 prev hs) →
    forward (layersFrom output o1 o2 prev hs) θ x = if x.length = prev then .ok (mlp (actOn o1) (actOn o2) output prev hs θ x) else .error .runtimeError := by
  intro hs
  induction hs with
  | nil =>
    intro prev θ x hθ
    rw [sizes_from] at hθ
    obtain ⟨w, c, θ', rfl, _, _, _⟩ := two_tensors hθ
    show (if x.length = prev then forward (actLayers o2) θ' (affine prev output w c x) else _) = _
    have := forward_acts o2 [] θ' (affine prev output w c x)
    rw [List.append_nil] at this
    rw [this]; rfl
  | cons h t ih =>
    intro prev θ x hθ
    rw [sizes_from] at hθ
    obtain ⟨w, c, θ', rfl, _, _, hθ'⟩ := two_tensors hθ
    show forward ((Layer.linear prev h :: actLayers o1) ++ layersFrom output o1 o2 h t) (w :: c :: θ') x = _
    have e : ((affine prev h w c x).map (actOn o1)).length = h := by rw [List.length_map, affine_length]
    rw [List.cons_append, forward, forward_acts, ih h θ' _ hθ', if_pos e]
    rfl

theorem mlp_length (σ τ : ℝ → ℝ) (o1 o2 : Option String) (output : Nat) : ∀ (hs : List Nat) (prev : Nat) (θ : List (List ℝ)) (x : List ℝ),
    θ.map List.length = paramSizes (layersFrom output o1 o2 prev hs) → (mlp σ τ output prev hs θ x).length = output := by
  intro hs
  induction hs with
  | nil =>
    intro prev θ x hθ
    rw [sizes_from] at hθ
    obtain ⟨w, c, θ', rfl, _, _, _⟩ := two_tensors hθ
    simp [mlp, affine_length]
  | cons h t ih =>
    intro prev θ x hθ
    rw [sizes_from] at hθ
    obtain ⟨w, c, θ', rfl, _, _, hθ'⟩ := two_tensors hθ
    exact ih h θ' _ hθ'

/-! ### the chain rule along curves -/

/-- a curve of lists of constant length with entrywise derivatives `d` at `t0` -/
def HasD (t0 : ℝ) (c : ℝ → List ℝ) (d : List ℝ) : Prop :=
  (∀ t, (c t).length = d.length) ∧ ∀ i : Nat, HasDerivAt (fun t => (c t).getD i 0) (d.getD i 0) t0

/-- the same for lists of tensors -/
inductive Curves (t0 : ℝ) : (ℝ → List (List ℝ)) → List (List ℝ) → Prop where
  | nil : Curves t0 (fun _ => []) []
  | cons {w : ℝ → List ℝ} {dw : List ℝ} {θ : ℝ → List (List ℝ)} {dθ : List (List ℝ)} : HasD t0 w dw → Curves t0 θ dθ →
      Curves t0 (fun t => w t :: θ t) (dw :: dθ)

/-- `Σ_i u_i v_i` -/
noncomputable def dotL (u v : List ℝ) : ℝ := ∑ i ∈ Finset.range v.length, u.getD i 0 * v.getD i 0

/-- the same over several tensors -/
noncomputable def dots : List (List ℝ) → List (List ℝ) → ℝ
  | g :: gs, d :: ds => dotL g d + dots gs ds
  | _, _ => 0

/-- the sizes of consecutive layers fit, and the network takes rows of `n` entries -/
def Chained : Nat → List Layer → Prop
  | _, [] => True
  | n, .linear a b :: ls => n = a ∧ Chained b ls
  | n, .act _ :: ls => Chained n ls

theorem chained_acts (o : Option String) (n : Nat) (ls : List Layer) : Chained n (actLayers o ++ ls) ↔ Chained n ls := by
  rcases actLayers_cases o with ⟨h1, _⟩ | ⟨f, h1, _⟩
  · rw [h1]; rfl
  · rw [h1]; rfl

theorem chained_from (o1 o2 : Option String) (output : Nat) : ∀ (hs : List Nat) (prev : Nat), Chained prev (layersFrom output o1 o2 prev hs) := by
  intro hs
  induction hs with
  | nil =>
    intro prev
    refine ⟨rfl, ?_⟩
    have := chained_acts o2 output []
    rw [List.append_nil] at this
    exact this.2 trivial
  | cons h t ih =>
    intro prev
    show Chained prev ((Layer.linear prev h :: actLayers o1) ++ layersFrom output o1 o2 h t)
    rw [List.cons_append]
    exact ⟨rfl, (chained_acts o1 h _).2 (ih h)⟩

/-- no rectifier of the network is evaluated at its kink -/
def OffKinks : List Layer → List (List ℝ) → List ℝ → Prop
  | [], _, _ => True
  | .linear a b :: ls, w :: c :: θ, x => OffKinks ls θ (affine a b w c x)
  | .linear _ _ :: _, _, _ => True
  | .act f :: ls, θ, x => (f = .relu → ∀ v ∈ x, v ≠ 0) ∧ OffKinks ls θ (x.map f.on)

theorem act_slope (f : Act) (v : ℝ) (h : f = .relu → v ≠ 0) : HasDerivAt f.on (f.slope v) v := by
  cases f with
  | relu =>
    have hv := h rfl
    rcases lt_or_gt_of_ne hv with h1 | h1
    · have e : (Act.slope .relu v) = 0 := if_neg (by linarith)
      rw [e]
      refine (hasDerivAt_const v (0 : ℝ)).congr_of_eventuallyEq ?_
      filter_upwards [Iio_mem_nhds h1] with t ht
      exact max_eq_right (le_of_lt ht)
    · have e : (Act.slope .relu v) = 1 := if_pos h1
      rw [e]
      refine (hasDerivAt_id v).congr_of_eventuallyEq ?_
      filter_upwards [Ioi_mem_nhds h1] with t ht
      exact max_eq_left (le_of_lt ht)
  | tanh =>
    have h1 := (Real.hasDerivAt_sinh v).div (Real.hasDerivAt_cosh v) (Real.cosh_pos v).ne'
    have e : (fun y => Real.sinh y / Real.cosh y) = Act.on .tanh := by
      funext y; exact (Real.tanh_eq_sinh_div_cosh y).symm
    have h2 : HasDerivAt (Act.on .tanh) ((Real.cosh v * Real.cosh v - Real.sinh v * Real.sinh v) / Real.cosh v ^ 2) v := by
      rw [← e]; exact h1
    convert h2 using 1
    show 1 - Real.tanh v ^ 2 = _
    rw [Real.tanh_eq_sinh_div_cosh]
    have := (Real.cosh_pos v).ne'
    field_simp
  | sigmoid => exact Real.hasDerivAt_sigmoid v

theorem affine_curve {t0 : ℝ} {a b : Nat} {w c x : ℝ → List ℝ} {dw dc dx : List ℝ} (hw : HasD t0 w dw) (hc : HasD t0 c dc) (hx : HasD t0 x dx) :
    HasD t0 (fun t => affine a b (w t) (c t) (x t))
      ((List.range b).map fun r => (∑ j ∈ Finset.range a, (dw.getD (r * a + j) 0 * (x t0).getD j 0 + (w t0).getD (r * a + j) 0 * dx.getD j 0)) + dc.getD r 0) := by
  refine ⟨fun t => by simp [affine], fun i => ?_⟩
  rw [getD_range_map]
  have e : (fun t => (affine a b (w t) (c t) (x t)).getD i 0) =
      fun t => if i < b then (∑ j ∈ Finset.range a, (w t).getD (i * a + j) 0 * (x t).getD j 0) + (c t).getD i 0 else 0 := by
    funext t; unfold affine; rw [getD_range_map]
  rw [e]
  split
  · refine HasDerivAt.add ?_ (hc.2 i)
    refine HasDerivAt.fun_sum fun j _ => ?_
    exact (hw.2 _).mul (hx.2 _)
  · exact hasDerivAt_const _ _

theorem map_curve {t0 : ℝ} {x : ℝ → List ℝ} {dx : List ℝ} (hx : HasD t0 x dx) (f : Act) (hf : f = .relu → ∀ v ∈ x t0, v ≠ 0) :
    HasD t0 (fun t => (x t).map f.on) ((List.range dx.length).map fun i => f.slope ((x t0).getD i 0) * dx.getD i 0) := by
  refine ⟨fun t => by simp [hx.1 t], fun i => ?_⟩
  rw [getD_range_map]
  have e : (fun t => ((x t).map f.on).getD i 0) = fun t => if i < dx.length then f.on ((x t).getD i 0) else 0 := by
    funext t
    split
    · rename_i h
      have h' : i < (x t).length := by rw [hx.1 t]; exact h
      rw [List.getD_eq_getElem _ _ (by simpa using h'), List.getElem_map, List.getD_eq_getElem _ _ h']
    · rename_i h
      exact List.getD_eq_default _ _ (by rw [List.length_map, hx.1 t]; omega)
  rw [e]
  split
  · rename_i h
    have h' : i < (x t0).length := by rw [hx.1 t0]; exact h
    have hv : f = .relu → (x t0).getD i 0 ≠ 0 := by
      intro hr
      rw [List.getD_eq_getElem _ _ h']
      exact hf hr _ (List.getElem_mem h')
    have h3 := act_slope f ((x t0).getD i 0) hv
    exact HasDerivAt.comp t0 (h₂ := f.on) h3 (hx.2 i)
  · exact hasDerivAt_const _ _

/-- the loss's derivatives at `out` with respect to the outputs are `δ` -/
def LossSlope (L : List ℝ → ℝ) (out δ : List ℝ) : Prop :=
  ∀ (t0 : ℝ) (o : ℝ → List ℝ) (d : List ℝ), HasD t0 o d → o t0 = out → HasDerivAt (fun t => L (o t)) (dotL δ d) t0

theorem sum_rows (a b : Nat) (F : Nat → ℝ) : ∑ i ∈ Finset.range (b * a), F i = ∑ r ∈ Finset.range b, ∑ j ∈ Finset.range a, F (r * a + j) := by
  induction b with
  | zero => simp
  | succ b ih => rw [Nat.succ_mul, Finset.sum_range_add, ih, Finset.sum_range_succ]

/-- the output of `forward`, if it succeeds -/
def outputOf : Py (List ℝ) → List ℝ
  | .ok o => o
  | .error _ => []

theorem chain_rule (L : List ℝ → ℝ) (δ : List ℝ) (t0 : ℝ) : ∀ (ls : List Layer) (n : Nat) (θ : ℝ → List (List ℝ)) (dθ : List (List ℝ)) (x : ℝ → List ℝ) (dx : List ℝ),
    Chained n ls → dx.length = n → dθ.map List.length = paramSizes ls → Curves t0 θ dθ → HasD t0 x dx → OffKinks ls (θ t0) (x t0) →
    LossSlope L (outputOf (forward ls (θ t0) (x t0))) δ →
    HasDerivAt (fun t => L (outputOf (forward ls (θ t) (x t)))) (dots (back ls (θ t0) (x t0) δ).1 dθ + dotL (back ls (θ t0) (x t0) δ).2 dx) t0 := by
  intro ls
  induction ls with
  | nil =>
    intro n θ dθ x dx _ _ hθ _ hx _ hL
    have : dθ = [] := by simpa [paramSizes] using hθ
    subst this
    have := hL t0 x dx hx rfl
    simpa [forward, outputOf, back, dots] using this
  | cons l ls ih =>
    intro n θ dθ x dx hch hn hθ hc hx hk hL
    cases l with
    | linear a b =>
      obtain ⟨rfl, hch⟩ := hch
      obtain ⟨dw, dc, dθ', rfl, hdw, hdc, hdθ⟩ := two_tensors hθ
      cases hc with | @cons w _ _ _ hw hc =>
      cases hc with | @cons c _ θ' _ hcc hc =>
      have hxl : ∀ t, (x t).length = n := fun t => (hx.1 t).trans hn
      have e : (fun t => L (outputOf (forward (.linear n b :: ls) (w t :: c t :: θ' t) (x t)))) =
          fun t => L (outputOf (forward ls (θ' t) (affine n b (w t) (c t) (x t)))) := by
        funext t; rw [forward, if_pos (hxl t)]
      rw [e]
      have hL' : LossSlope L (outputOf (forward ls (θ' t0) (affine n b (w t0) (c t0) (x t0)))) δ := by
        rw [forward, if_pos (hxl t0)] at hL; exact hL
      have h1 := ih b θ' dθ' (fun t => affine n b (w t) (c t) (x t)) _ hch (by simp) hdθ hc (affine_curve (a := n) (b := b) hw hcc hx) hk hL'
      refine h1.congr_deriv ?_
      simp only [back, dots]
      obtain ⟨q, hq⟩ : ∃ q, q = back ls (θ' t0) (affine n b (w t0) (c t0) (x t0)) δ := ⟨_, rfl⟩
      rw [← hq]
      have d1 : dotL q.2 ((List.range b).map fun r => (∑ j ∈ Finset.range n, (dw.getD (r * n + j) 0 * (x t0).getD j 0 + (w t0).getD (r * n + j) 0 * dx.getD j 0)) + dc.getD r 0)
          = (∑ r ∈ Finset.range b, ∑ j ∈ Finset.range n, q.2.getD r 0 * (x t0).getD j 0 * dw.getD (r * n + j) 0) +
            (∑ r ∈ Finset.range b, q.2.getD r 0 * dc.getD r 0) +
            (∑ j ∈ Finset.range n, (∑ r ∈ Finset.range b, q.2.getD r 0 * (w t0).getD (r * n + j) 0) * dx.getD j 0) := by
        unfold dotL
        rw [List.length_map, List.length_range]
        have e3 : (∑ j ∈ Finset.range n, (∑ r ∈ Finset.range b, q.2.getD r 0 * (w t0).getD (r * n + j) 0) * dx.getD j 0)
            = ∑ r ∈ Finset.range b, ∑ j ∈ Finset.range n, q.2.getD r 0 * (w t0).getD (r * n + j) 0 * dx.getD j 0 := by
          rw [Finset.sum_comm]
          refine Finset.sum_congr rfl fun j _ => ?_
          rw [Finset.sum_mul]
        rw [e3, ← Finset.sum_add_distrib, ← Finset.sum_add_distrib]
        refine Finset.sum_congr rfl fun r hr => ?_
        rw [getD_range_map, if_pos (Finset.mem_range.1 hr), mul_add, Finset.mul_sum]
        have : ∀ u v z : ℝ, u = v → u + z = v + z := fun u v z h => by rw [h]
        rw [add_right_comm]
        refine this _ _ _ ?_
        rw [← Finset.sum_add_distrib]
        refine Finset.sum_congr rfl fun j _ => ?_
        ring
      have d2 : dotL ((List.range (b * n)).map fun i => q.2.getD (i / n) 0 * (x t0).getD (i % n) 0) dw
          = ∑ r ∈ Finset.range b, ∑ j ∈ Finset.range n, q.2.getD r 0 * (x t0).getD j 0 * dw.getD (r * n + j) 0 := by
        unfold dotL
        rw [hdw, sum_rows]
        refine Finset.sum_congr rfl fun r hr => Finset.sum_congr rfl fun j hj => ?_
        have hr' := Finset.mem_range.1 hr
        have hj' := Finset.mem_range.1 hj
        have hlt : r * n + j < b * n := by nlinarith
        rw [getD_range_map, if_pos hlt]
        have e1 : (r * n + j) / n = r := by
          rw [Nat.mul_comm, Nat.mul_add_div (by omega), Nat.div_eq_of_lt hj', Nat.add_zero]
        have e2 : (r * n + j) % n = j := by
          rw [Nat.mul_comm, Nat.mul_add_mod, Nat.mod_eq_of_lt hj']
        rw [e1, e2]
      have d3 : dotL ((List.range b).map fun r => q.2.getD r 0) dc = ∑ r ∈ Finset.range b, q.2.getD r 0 * dc.getD r 0 := by
        unfold dotL
        rw [hdc]
        exact Finset.sum_congr rfl fun r hr => by rw [getD_range_map, if_pos (Finset.mem_range.1 hr)]
      have d4 : dotL ((List.range n).map fun j => ∑ r ∈ Finset.range b, q.2.getD r 0 * (w t0).getD (r * n + j) 0) dx
          = ∑ j ∈ Finset.range n, (∑ r ∈ Finset.range b, q.2.getD r 0 * (w t0).getD (r * n + j) 0) * dx.getD j 0 := by
        unfold dotL
        rw [hn]
        exact Finset.sum_congr rfl fun r hr => by rw [getD_range_map, if_pos (Finset.mem_range.1 hr)]
      rw [d1, d2, d3, d4]
      ring
    | act f =>
      have e : (fun t => L (outputOf (forward (.act f :: ls) (θ t) (x t)))) = fun t => L (outputOf (forward ls (θ t) ((x t).map f.on))) := rfl
      rw [e]
      have h1 := ih n θ dθ (fun t => (x t).map f.on) _ hch (by simp [hn]) hθ hc (map_curve hx f hk.1) hk.2 hL
      refine h1.congr_deriv ?_
      simp only [back]
      congr 1
      unfold dotL
      rw [List.length_map, List.length_range]
      refine Finset.sum_congr rfl fun i hi => ?_
      have hi' := Finset.mem_range.1 hi
      rw [getD_range_map, if_pos hi', getD_range_map, if_pos (by rw [hx.1 t0]; exact hi')]
      ring

theorem curves_split {t0 : ℝ} : ∀ (sizes : List Nat) (y : ℝ → List ℝ) (dy : List ℝ), HasD t0 y dy → dy.length = sizes.sum →
    Curves t0 (fun t => splitBy sizes (y t)) (splitBy sizes dy) := by
  intro sizes
  induction sizes with
  | nil => intro y dy _ _; exact .nil
  | cons s ss ih =>
    intro y dy hy hl
    rw [List.sum_cons] at hl
    have htake : ∀ (l : List ℝ) (i : Nat), (l.take s).getD i 0 = if i < s then l.getD i 0 else 0 := by
      intro l i
      simp only [List.getD_eq_getElem?_getD, List.getElem?_take]
      split <;> simp
    have hdrop : ∀ (l : List ℝ) (i : Nat), (l.drop s).getD i 0 = l.getD (s + i) 0 := by
      intro l i
      simp [List.getD_eq_getElem?_getD, List.getElem?_drop]
    refine .cons (w := fun t => (y t).take s) (θ := fun t => splitBy ss ((y t).drop s)) ⟨fun t => by simp [hy.1 t], fun i => ?_⟩
      (ih (fun t => (y t).drop s) (dy.drop s) ⟨fun t => by simp [hy.1 t], fun i => ?_⟩ (by simp; omega))
    · simp only [htake]
      split
      · exact hy.2 i
      · exact hasDerivAt_const _ _
    · simp only [hdrop]
      exact hy.2 (s + i)

theorem set_curve (y : List ℝ) (k : Nat) (hk : k < y.length) (t0 : ℝ) : HasD t0 (fun t => y.set k t) ((List.replicate y.length 0).set k 1) := by
  refine ⟨fun t => by simp, fun i => ?_⟩
  by_cases h : i = k
  · subst h
    have e : (fun t : ℝ => (y.set i t).getD i 0) = fun t => t := by
      funext t; simp [List.getD_eq_getElem?_getD, hk]
    rw [e]
    have e2 : ((List.replicate y.length (0 : ℝ)).set i 1).getD i 0 = 1 := by simp [List.getD_eq_getElem?_getD, hk]
    rw [e2]
    exact hasDerivAt_id _
  · have e : (fun t : ℝ => (y.set k t).getD i 0) = fun _ => y.getD i 0 := by
      funext t; simp [List.getD_eq_getElem?_getD, List.getElem?_set_ne (Ne.symm h)]
    rw [e]
    have e2 : ((List.replicate y.length (0 : ℝ)).set k 1).getD i 0 = 0 := by
      rw [List.getD_eq_getElem?_getD, List.getElem?_set_ne (Ne.symm h), List.getElem?_replicate]
      split <;> rfl
    rw [e2]
    exact hasDerivAt_const _ _

theorem split_lengths : ∀ (sizes : List Nat) (y : List ℝ), y.length = sizes.sum → (splitBy sizes y).map List.length = sizes := by
  intro sizes
  induction sizes with
  | nil => intro y _; rfl
  | cons s ss ih =>
    intro y hl
    rw [List.sum_cons] at hl
    simp only [splitBy, List.map_cons, List.length_take]
    rw [ih _ (by simp; omega), Nat.min_eq_left (by omega)]

theorem getD_append (u v : List ℝ) (i : Nat) : (u ++ v).getD i 0 = if i < u.length then u.getD i 0 else v.getD (i - u.length) 0 := by
  simp only [List.getD_eq_getElem?_getD, List.getElem?_append]
  split <;> rfl

theorem dots_unit : ∀ (gs : List (List ℝ)) (k : Nat), k < (gs.map List.length).sum →
    dots gs (splitBy (gs.map List.length) ((List.replicate (gs.map List.length).sum 0).set k 1)) = gs.flatten.getD k 0 := by
  have hz : ∀ (gs : List (List ℝ)) (n : Nat), dots gs (splitBy (gs.map List.length) (List.replicate n 0)) = 0 := by
    intro gs
    induction gs with
    | nil => intro n; rfl
    | cons g gs ih =>
      intro n
      simp only [List.map_cons, splitBy, dots, List.drop_replicate, ih, add_zero, List.take_replicate]
      unfold dotL
      refine Finset.sum_eq_zero fun i _ => ?_
      rw [List.getD_eq_getElem?_getD (l := List.replicate _ _), List.getElem?_replicate]
      split <;> simp
  intro gs
  induction gs with
  | nil => intro k hk; simp at hk
  | cons g gs ih =>
    intro k hk
    simp only [List.map_cons, List.sum_cons] at hk
    simp only [List.map_cons, List.sum_cons, splitBy, dots, List.flatten_cons]
    rw [getD_append]
    by_cases h : k < g.length
    · rw [if_pos h, List.drop_set_of_lt h, List.drop_replicate, hz, add_zero, List.take_set, List.take_replicate]
      unfold dotL
      rw [List.length_set, List.length_replicate, Nat.min_eq_left (by omega)]
      rw [Finset.sum_eq_single k]
      · simp [List.getD_eq_getElem?_getD, h]
      · intro i hi hik
        rw [List.getD_eq_getElem?_getD (l := List.set _ _ _), List.getElem?_set_ne (Ne.symm hik), List.getElem?_replicate]
        split <;> simp
      · intro hh; exact absurd (Finset.mem_range.2 h) hh
    · rw [if_neg h, List.drop_set, if_neg (by omega), List.drop_replicate, List.take_set, List.take_replicate]
      have e : g.length + (gs.map List.length).sum - g.length = (gs.map List.length).sum := by omega
      rw [e, ih (k - g.length) (by omega)]
      have : dotL g ((List.replicate (min g.length (g.length + (gs.map List.length).sum)) 0).set k 1) = 0 := by
        rw [List.set_eq_of_length_le (by simp; omega)]
        unfold dotL
        refine Finset.sum_eq_zero fun i _ => ?_
        rw [List.getD_eq_getElem?_getD (l := List.replicate _ _), List.getElem?_replicate]
        split <;> simp
      rw [this, zero_add]

theorem back_sizes : ∀ (ls : List Layer) (θ : List (List ℝ)) (x δ : List ℝ), θ.length = (paramSizes ls).length →
    (back ls θ x δ).1.map List.length = paramSizes ls := by
  intro ls
  induction ls with
  | nil => intro θ x δ _; rfl
  | cons l ls ih =>
    intro θ x δ hθ
    cases l with
    | linear a b =>
      match θ, hθ with
      | w :: c :: θ', hθ =>
        simp only [paramSizes, List.length_cons] at hθ
        simp only [back, List.map_cons, paramSizes, List.length_map, List.length_range]
        rw [ih θ' _ δ (by omega)]
    | act f => exact ih θ _ δ hθ

theorem split_length (sizes : List Nat) (y : List ℝ) : (splitBy sizes y).length = sizes.length := by
  induction sizes generalizing y with
  | nil => rfl
  | cons s ss ih => rw [splitBy, List.length_cons, ih, List.length_cons]

theorem length_of_sizes {θ : List (List ℝ)} {l : List Nat} (h : θ.map List.length = l) : θ.length = l.length := by rw [← h, List.length_map]

end Mlp
end Verif
