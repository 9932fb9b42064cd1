import Verif.Lemmas.CostAlgebra
import Verif.Props.CostsConst
import Verif.Props.CostsProx
/-!
# C51 (cost algebra is pointwise), C52 (constants under composition), C53 (proximals of wrappers)
-/
set_option linter.unusedSectionVars false
namespace Verif.Props
open Verif Verif.Costs Verif.CostAlg
open scoped InnerProductSpace

variable {σ ι : Type} {d : Nat}

/-! ### specification: expressions and their meaning -/

/-- cost objects a user constructs directly -/
inductive Leaf (σ ι : Type) (d : Nat) where
  | quadratic (sig : σ) (A : Mat d) (b : Vec d) (c : ℝ)
  | zero (sig : σ)
  | regularizer (a : Atom σ ι d)
  | empirical (a : Atom σ ι d)
  | other (a : Atom σ ι d)

/-- what a user may write: `e + f`, `e - f`, `-e`, `e * s` (or `s * e`), `e / s` -/
inductive CostExpr (σ ι : Type) (d : Nat) where
  | leaf (l : Leaf σ ι d)
  | add (e f : CostExpr σ ι d)
  | sub (e f : CostExpr σ ι d)
  | neg (e : CostExpr σ ι d)
  | mul (e : CostExpr σ ι d) (s : Scalar)
  | div (e : CostExpr σ ι d) (s : Scalar)

/-- the mathematical meaning of an expression, given the values of its leaves (numbers, vectors or matrices) -/
noncomputable def combine {V : Type} [AddCommGroup V] [Module ℝ V] (v : Leaf σ ι d → V) : CostExpr σ ι d → V
  | .leaf l => v l
  | .add e f => combine v e + combine v f
  | .sub e f => combine v e - combine v f
  | .neg e => - combine v e
  | .mul e (.real s) => s • combine v e
  | .div e (.real s) => (1 / s) • combine v e
  | .mul _ _ => 0
  | .div _ _ => 0

/-- value of a leaf; regularizers do not depend on the samples -/
noncomputable def leafValue (kw : Option ι) (x : Vec d) : Leaf σ ι d → ℝ
  | .quadratic _ A b c => quadFn A b c x
  | .zero _ => 0
  | .regularizer a => a.fn none x
  | .empirical a => a.fn kw x
  | .other a => a.fn kw x

/-- gradient of a leaf -/
noncomputable def leafGradient (kw : Option ι) (x : Vec d) : Leaf σ ι d → Vec d
  | .quadratic _ A b _ => quadGrad A b x
  | .zero _ => 0
  | .regularizer a => a.grad none x
  | .empirical a => a.grad kw x
  | .other a => a.grad kw x

/-- Hessian of a leaf -/
noncomputable def leafHessian (kw : Option ι) (x : Vec d) : Leaf σ ι d → Mat d
  | .quadratic _ A _ _ => quadHess A
  | .zero _ => 0
  | .regularizer a => a.hess none x
  | .empirical a => a.hess kw x
  | .other a => a.hess kw x

/-- shape, framework and device of a leaf -/
def Leaf.sig : Leaf σ ι d → σ
  | .quadratic s _ _ _ => s
  | .zero s => s
  | .regularizer a => a.sig
  | .empirical a => a.sig
  | .other a => a.sig

def CostExpr.leaves : CostExpr σ ι d → List (Leaf σ ι d)
  | .leaf l => [l]
  | .add e f => e.leaves ++ f.leaves
  | .sub e f => e.leaves ++ f.leaves
  | .neg e => e.leaves
  | .mul e _ => e.leaves
  | .div e _ => e.leaves

/-- every scalar is a real number and no divisor is zero -/
def CostExpr.ScalarsOk : CostExpr σ ι d → Prop
  | .leaf _ => True
  | .add e f => e.ScalarsOk ∧ f.ScalarsOk
  | .sub e f => e.ScalarsOk ∧ f.ScalarsOk
  | .neg e => e.ScalarsOk
  | .mul e s => e.ScalarsOk ∧ ∃ r, s = .real r
  | .div e s => e.ScalarsOk ∧ ∃ r, s = .real r ∧ r ≠ 0

/-- a quadratic occurs in the expression -/
def CostExpr.usesQuadratic (e : CostExpr σ ι d) : Prop := ∃ s A b c, Leaf.quadratic s A b c ∈ e.leaves

/-! ### running an expression -/

/-- the object of a leaf -/
def Leaf.cost : Leaf σ ι d → Cost σ ι d
  | .quadratic s A b c => .quad s A b c
  | .zero s => .zero s
  | .regularizer a => .reg (.one a)
  | .empirical a => .emp a
  | .other a => .plain a

variable [DecidableEq σ]

/-- Python evaluates the expression bottom-up -/
noncomputable def CostExpr.build : CostExpr σ ι d → Py (Cost σ ι d)
  | .leaf l => .ok l.cost
  | .add e f => do (← e.build).add (← f.build)
  | .sub e f => do (← e.build).sub (← f.build)
  | .neg e => do (← e.build).neg
  | .mul e s => do (← e.build).mul s
  | .div e s => do (← e.build).div s

section generic
variable {V : Type} [AddCommGroup V] [Module ℝ V]

/-- leaf values of an evaluation scheme -/
def leafOf (L : Ev σ ι d V) : Leaf σ ι d → V
  | .quadratic _ A b c => (match L.quad with | some q => q A b c | none => 0)
  | .zero _ => 0
  | .regularizer a => L.reg a
  | .empirical a => L.atom a
  | .other a => L.atom a

theorem ev_build (L : Ev σ ι d V) (hL : L.Linear) (e : CostExpr σ ι d) (c : Cost σ ι d) (h : e.build = .ok c) :
    c.ev L = open Classical in if e.usesQuadratic ∧ L.quad = none then none else some (combine (leafOf L) e) := by
  classical
  have huq : ∀ (e f : CostExpr σ ι d) (g : CostExpr σ ι d), g.leaves = e.leaves ++ f.leaves →
      (g.usesQuadratic ↔ e.usesQuadratic ∨ f.usesQuadratic) := by
    intro e f g hg
    simp only [CostExpr.usesQuadratic, hg, List.mem_append]
    constructor
    · rintro ⟨s, A, b, c, h | h⟩
      · exact Or.inl ⟨s, A, b, c, h⟩
      · exact Or.inr ⟨s, A, b, c, h⟩
    · rintro (⟨s, A, b, c, h⟩ | ⟨s, A, b, c, h⟩)
      · exact ⟨s, A, b, c, Or.inl h⟩
      · exact ⟨s, A, b, c, Or.inr h⟩
  induction e generalizing c with
  | leaf l =>
    rw [CostExpr.build] at h
    cases h
    have hq : (CostExpr.leaf l).usesQuadratic ↔ ∃ s A b c, l = .quadratic s A b c := by
      simp only [CostExpr.usesQuadratic, CostExpr.leaves, List.mem_singleton, eq_comm]
    rw [hq]
    cases l with
    | quadratic s A b c =>
      simp only [Leaf.cost, Cost.ev, combine, leafOf]
      cases hLq : L.quad <;> simp
    | _ => simp [Leaf.cost, Cost.ev, combine, leafOf, Reg.ev]
  | add e f ihe ihf =>
    rw [CostExpr.build] at h
    obtain ⟨a, ha, h⟩ := bind_ok h
    obtain ⟨b, hb, h⟩ := bind_ok h
    rw [ev_add L hL h, ihe a ha, ihf b hb, huq e f (.add e f) rfl, combine]
    by_cases h1 : L.quad = none <;> by_cases h2 : e.usesQuadratic <;> by_cases h3 : f.usesQuadratic <;> simp [h1, h2, h3]
  | sub e f ihe ihf =>
    rw [CostExpr.build] at h
    obtain ⟨a, ha, h⟩ := bind_ok h
    obtain ⟨b, hb, h⟩ := bind_ok h
    rw [ev_sub L hL h, ihe a ha, ihf b hb, huq e f (.sub e f) rfl, combine]
    by_cases h1 : L.quad = none <;> by_cases h2 : e.usesQuadratic <;> by_cases h3 : f.usesQuadratic <;>
      simp [h1, h2, h3, sub_eq_add_neg]
  | neg e ihe =>
    rw [CostExpr.build] at h
    obtain ⟨a, ha, h⟩ := bind_ok h
    have : (CostExpr.neg e).usesQuadratic ↔ e.usesQuadratic := Iff.rfl
    rw [ev_mulReal L h, ihe a ha, this, combine]
    split <;> simp
  | mul e s ihe =>
    rw [CostExpr.build] at h
    obtain ⟨a, ha, h⟩ := bind_ok h
    have : (CostExpr.mul e s).usesQuadratic ↔ e.usesQuadratic := Iff.rfl
    cases s with
    | real r =>
      rw [ev_mulReal L h, ihe a ha, this, combine]
      split <;> simp
    | _ => cases h
  | div e s ihe =>
    rw [CostExpr.build] at h
    obtain ⟨a, ha, h⟩ := bind_ok h
    have : (CostExpr.div e s).usesQuadratic ↔ e.usesQuadratic := Iff.rfl
    cases s with
    | real r =>
      rw [Cost.div] at h
      split at h
      · cases h
      · rw [ev_mulReal L h, ihe a ha, this, combine]
        split <;> simp
    | _ => cases h

end generic

theorem combine_congr {V : Type} [AddCommGroup V] [Module ℝ V] {v w : Leaf σ ι d → V} (e : CostExpr σ ι d)
    (h : ∀ l ∈ e.leaves, v l = w l) : combine v e = combine w e := by
  induction e with
  | leaf l => exact h l (by simp [CostExpr.leaves])
  | add e f ihe ihf =>
    rw [combine, combine, ihe (fun l hl => h l (by simp [CostExpr.leaves, hl])), ihf (fun l hl => h l (by simp [CostExpr.leaves, hl]))]
  | sub e f ihe ihf =>
    rw [combine, combine, ihe (fun l hl => h l (by simp [CostExpr.leaves, hl])), ihf (fun l hl => h l (by simp [CostExpr.leaves, hl]))]
  | neg e ih => rw [combine, combine, ih h]
  | mul e s ih => cases s <;> simp only [combine]; rw [ih h]
  | div e s ih => cases s <;> simp only [combine]; rw [ih h]

/-- **C51.** Value of any cost expression, however it was flattened or specialised: the same combination of the values of its
leaves.  With `indices=` given, an expression mentioning a quadratic raises TypeError, every other expression is evaluated on those
samples. -/
theorem C51_value (e : CostExpr σ ι d) (c : Cost σ ι d) (h : e.build = .ok c) (x : Vec d) :
    c.fn none x = .ok (combine (leafValue none x) e) ∧
    (∀ i, ¬ e.usesQuadratic → c.fn (some i) x = .ok (combine (leafValue (some i) x) e)) ∧
    (∀ i, e.usesQuadratic → c.fn (some i) x = .error .typeError) := by
  refine ⟨?_, fun i hq => ?_, fun i hq => ?_⟩
  · rw [Cost.fn_eq, ev_build (fnEv none x) (fnEv_linear none x) e c h, if_neg (by simp [fnEv])]
    rw [combine_congr (w := leafValue none x) e (fun l _ => by cases l <;> rfl)]; rfl
  · rw [Cost.fn_eq, ev_build (fnEv (some i) x) (fnEv_linear _ x) e c h, if_neg (fun hc => hq hc.1)]
    rw [combine_congr (w := leafValue (some i) x) e (fun l hl => by
      cases l with
      | quadratic s A b c => exact absurd ⟨s, A, b, c, hl⟩ hq
      | _ => rfl)]; rfl
  · rw [Cost.fn_eq, ev_build (fnEv (some i) x) (fnEv_linear _ x) e c h, if_pos ⟨hq, by simp [fnEv]⟩]; rfl

/-- **C51.** Gradient. -/
theorem C51_gradient (e : CostExpr σ ι d) (c : Cost σ ι d) (h : e.build = .ok c) (x : Vec d) :
    c.grad none x = .ok (combine (leafGradient none x) e) ∧
    (∀ i, ¬ e.usesQuadratic → c.grad (some i) x = .ok (combine (leafGradient (some i) x) e)) ∧
    (∀ i, e.usesQuadratic → c.grad (some i) x = .error .typeError) := by
  refine ⟨?_, fun i hq => ?_, fun i hq => ?_⟩
  · rw [Cost.grad_eq, ev_build (gradEv none x) (gradEv_linear none x) e c h, if_neg (by simp [gradEv])]
    rw [combine_congr (w := leafGradient none x) e (fun l _ => by cases l <;> rfl)]; rfl
  · rw [Cost.grad_eq, ev_build (gradEv (some i) x) (gradEv_linear _ x) e c h, if_neg (fun hc => hq hc.1)]
    rw [combine_congr (w := leafGradient (some i) x) e (fun l hl => by
      cases l with
      | quadratic s A b c => exact absurd ⟨s, A, b, c, hl⟩ hq
      | _ => rfl)]; rfl
  · rw [Cost.grad_eq, ev_build (gradEv (some i) x) (gradEv_linear _ x) e c h, if_pos ⟨hq, by simp [gradEv]⟩]; rfl

/-- **C51.** Hessian. -/
theorem C51_hessian (e : CostExpr σ ι d) (c : Cost σ ι d) (h : e.build = .ok c) (x : Vec d) :
    c.hess none x = .ok (combine (leafHessian none x) e) ∧
    (∀ i, ¬ e.usesQuadratic → c.hess (some i) x = .ok (combine (leafHessian (some i) x) e)) ∧
    (∀ i, e.usesQuadratic → c.hess (some i) x = .error .typeError) := by
  refine ⟨?_, fun i hq => ?_, fun i hq => ?_⟩
  · rw [Cost.hess_eq, ev_build (hessEv none x) (hessEv_linear none x) e c h, if_neg (by simp [hessEv])]
    rw [combine_congr (w := leafHessian none x) e (fun l _ => by cases l <;> rfl)]; rfl
  · rw [Cost.hess_eq, ev_build (hessEv (some i) x) (hessEv_linear _ x) e c h, if_neg (fun hc => hq hc.1)]
    rw [combine_congr (w := leafHessian (some i) x) e (fun l hl => by
      cases l with
      | quadratic s A b c => exact absurd ⟨s, A, b, c, hl⟩ hq
      | _ => rfl)]; rfl
  · rw [Cost.hess_eq, ev_build (hessEv (some i) x) (hessEv_linear _ x) e c h, if_pos ⟨hq, by simp [hessEv]⟩]; rfl

theorem leaf_wf (l : Leaf σ ι d) : l.cost.Wf ∧ l.cost.sig = l.sig := by
  cases l <;> simp [Leaf.cost, Cost.Wf, Reg.Wf, Cost.sig, Leaf.sig, Reg.sig]

theorem build_spec (e : CostExpr σ ι d) :
    (∀ c, e.build = .ok c → c.Wf ∧ (∀ l ∈ e.leaves, l.sig = c.sig) ∧ e.ScalarsOk) ∧
    (∀ s, (∀ l ∈ e.leaves, l.sig = s) → e.ScalarsOk → ∃ c, e.build = .ok c ∧ c.Wf ∧ c.sig = s) ∧ e.leaves ≠ [] := by
  induction e with
  | leaf l =>
    refine ⟨?_, ?_, by simp [CostExpr.leaves]⟩
    · intro c h
      rw [CostExpr.build] at h
      cases h
      refine ⟨(leaf_wf l).1, ?_, trivial⟩
      simp only [CostExpr.leaves, List.mem_singleton]
      intro l' hl'
      subst hl'
      exact (leaf_wf _).2.symm
    · intro s h _
      exact ⟨_, rfl, (leaf_wf l).1, by rw [(leaf_wf l).2]; exact h l (by simp [CostExpr.leaves])⟩
  | add e f ihe ihf =>
    refine ⟨?_, ?_, by simp [CostExpr.leaves, ihe.2.2]⟩
    · intro c h
      rw [CostExpr.build] at h
      obtain ⟨a, ha, h⟩ := bind_ok h
      obtain ⟨b, hb, h⟩ := bind_ok h
      obtain ⟨wa, la, sa⟩ := ihe.1 a ha
      obtain ⟨wb, lb, sb⟩ := ihf.1 b hb
      by_cases hs : a.sig = b.sig
      · obtain ⟨r, hr, wr, sr⟩ := (add_spec wa wb).1 hs
        rw [hr] at h; cases h
        refine ⟨wr, ?_, sa, sb⟩
        simp only [CostExpr.leaves, List.mem_append]
        rintro l (hl | hl)
        · rw [la l hl, sr]
        · rw [lb l hl, sr, hs]
      · rw [(add_spec wa wb).2 hs] at h; cases h
    · intro s h hs
      obtain ⟨a, ha, wa, sa⟩ := ihe.2.1 s (fun l hl => h l (by simp [CostExpr.leaves, hl])) hs.1
      obtain ⟨b, hb, wb, sb⟩ := ihf.2.1 s (fun l hl => h l (by simp [CostExpr.leaves, hl])) hs.2
      obtain ⟨r, hr, wr, sr⟩ := (add_spec wa wb).1 (by rw [sa, sb])
      exact ⟨r, by rw [CostExpr.build, ha, hb]; exact hr, wr, by rw [sr, sa]⟩
  | sub e f ihe ihf =>
    refine ⟨?_, ?_, by simp [CostExpr.leaves, ihe.2.2]⟩
    · intro c h
      rw [CostExpr.build] at h
      obtain ⟨a, ha, h⟩ := bind_ok h
      obtain ⟨b, hb, h⟩ := bind_ok h
      obtain ⟨wa, la, sa⟩ := ihe.1 a ha
      obtain ⟨wb, lb, sb⟩ := ihf.1 b hb
      by_cases hs : a.sig = b.sig
      · obtain ⟨r, hr, wr, sr⟩ := (sub_spec wa wb).1 hs
        rw [hr] at h; cases h
        refine ⟨wr, ?_, sa, sb⟩
        simp only [CostExpr.leaves, List.mem_append]
        rintro l (hl | hl)
        · rw [la l hl, sr]
        · rw [lb l hl, sr, hs]
      · rw [(sub_spec wa wb).2 hs] at h; cases h
    · intro s h hs
      obtain ⟨a, ha, wa, sa⟩ := ihe.2.1 s (fun l hl => h l (by simp [CostExpr.leaves, hl])) hs.1
      obtain ⟨b, hb, wb, sb⟩ := ihf.2.1 s (fun l hl => h l (by simp [CostExpr.leaves, hl])) hs.2
      obtain ⟨r, hr, wr, sr⟩ := (sub_spec wa wb).1 (by rw [sa, sb])
      exact ⟨r, by rw [CostExpr.build, ha, hb]; exact hr, wr, by rw [sr, sa]⟩
  | neg e ihe =>
    refine ⟨?_, ?_, ihe.2.2⟩
    · intro c h
      rw [CostExpr.build] at h
      obtain ⟨a, ha, h⟩ := bind_ok h
      obtain ⟨wa, la, sa⟩ := ihe.1 a ha
      obtain ⟨r, hr, wr, sr⟩ := mulReal_spec wa (-1)
      rw [Cost.neg, hr] at h; cases h
      exact ⟨wr, fun l hl => by rw [la l hl, sr], sa⟩
    · intro s h hs
      obtain ⟨a, ha, wa, sa⟩ := ihe.2.1 s h hs
      obtain ⟨r, hr, wr, sr⟩ := mulReal_spec wa (-1)
      exact ⟨r, by rw [CostExpr.build, ha]; exact hr, wr, by rw [sr, sa]⟩
  | mul e k ihe =>
    refine ⟨?_, ?_, ihe.2.2⟩
    · intro c h
      rw [CostExpr.build] at h
      obtain ⟨a, ha, h⟩ := bind_ok h
      obtain ⟨wa, la, sa⟩ := ihe.1 a ha
      cases k with
      | real r =>
        obtain ⟨u, hr, wr, sr⟩ := mulReal_spec wa r
        rw [Cost.mul, hr] at h; cases h
        exact ⟨wr, fun l hl => by rw [la l hl, sr], sa, r, rfl⟩
      | _ => cases h
    · intro s h hs
      obtain ⟨hs1, r, rfl⟩ := hs
      obtain ⟨a, ha, wa, sa⟩ := ihe.2.1 s h hs1
      obtain ⟨u, hr, wr, sr⟩ := mulReal_spec wa r
      exact ⟨u, by rw [CostExpr.build, ha]; exact hr, wr, by rw [sr, sa]⟩
  | div e k ihe =>
    refine ⟨?_, ?_, ihe.2.2⟩
    · intro c h
      rw [CostExpr.build] at h
      obtain ⟨a, ha, h⟩ := bind_ok h
      obtain ⟨wa, la, sa⟩ := ihe.1 a ha
      cases k with
      | real r =>
        rw [Cost.div] at h
        split at h
        · cases h
        · rename_i hr0
          obtain ⟨u, hr, wr, sr⟩ := mulReal_spec wa (1 / r)
          rw [hr] at h; cases h
          exact ⟨wr, fun l hl => by rw [la l hl, sr], sa, r, rfl, hr0⟩
      | _ => cases h
    · intro s h hs
      obtain ⟨hs1, r, rfl, hr0⟩ := hs
      obtain ⟨a, ha, wa, sa⟩ := ihe.2.1 s h hs1
      obtain ⟨u, hr, wr, sr⟩ := mulReal_spec wa (1 / r)
      refine ⟨u, ?_, wr, by rw [sr, sa]⟩
      rw [CostExpr.build, ha]
      change Cost.div a (.real r) = _
      rw [Cost.div, if_neg hr0, hr]

/-- **C51.** An expression evaluates to a cost exactly when all its leaves have the same shape, framework and device, every scalar
is a real number and no divisor is zero; otherwise an exception is raised. -/
theorem C51_success (e : CostExpr σ ι d) :
    (∃ c, e.build = .ok c) ↔ (∃ s, ∀ l ∈ e.leaves, l.sig = s) ∧ e.ScalarsOk := by
  obtain ⟨h1, h2, _⟩ := build_spec e
  constructor
  · rintro ⟨c, h⟩
    exact ⟨⟨c.sig, (h1 c h).2.1⟩, (h1 c h).2.2⟩
  · rintro ⟨⟨s, h⟩, hs⟩
    obtain ⟨c, hc, _⟩ := h2 s h hs
    exact ⟨c, hc⟩

/-- **C51.** Adding or subtracting successfully built costs of different shape, framework or device raises ValueError, in either
order and whatever the classes. -/
theorem C51_mismatch (e f : CostExpr σ ι d) (c k : Cost σ ι d) (h : e.build = .ok c) (hk : f.build = .ok k) (hs : c.sig ≠ k.sig) :
    (CostExpr.add e f).build = .error .valueError ∧ (CostExpr.sub e f).build = .error .valueError := by
  have w1 := ((build_spec e).1 c h).1
  have w2 := ((build_spec f).1 k hk).1
  constructor
  · rw [CostExpr.build, h, hk]; exact (add_spec w1 w2).2 hs
  · rw [CostExpr.build, h, hk]; exact (sub_spec w1 w2).2 hs

/-- **C51.** The builtin `sum` over built costs is repeated addition: so `C51_value`, ... apply to its result, whose meaning is the
sum of the meanings.  `sum([])` is the integer 0, not a cost. -/
theorem C51_sum (e : CostExpr σ ι d) (es : List (CostExpr σ ι d)) (c : Cost σ ι d) (cs : List (Cost σ ι d))
    (h : e.build = .ok c) (hs : List.Forall₂ (fun e c => e.build = .ok c) es cs) :
    pySum .start (c :: cs) = (es.foldl CostExpr.add e).build.map Acc.cost ∧
    pySum .start ([] : List (Cost σ ι d)) = .ok .start ∧
    ∀ {V : Type} [AddCommGroup V] [Module ℝ V] (v : Leaf σ ι d → V),
      combine v (es.foldl CostExpr.add e) = combine v e + (es.map (combine v)).sum := by
  refine ⟨?_, rfl, ?_⟩
  · rw [pySum]
    induction hs generalizing e c with
    | nil => rw [pySum, List.foldl_nil, h]; rfl
    | @cons f k fs ks hf hfs ih =>
      rw [pySum, List.foldl_cons]
      cases hb : c.add k with
      | ok r => exact ih (.add e f) r (by rw [CostExpr.build, h, hf]; exact hb)
      | error er =>
        have : ∀ (l : List (CostExpr σ ι d)) (g : CostExpr σ ι d), g.build = .error er → (l.foldl CostExpr.add g).build = .error er := by
          intro l
          induction l with
          | nil => intro g hg; exact hg
          | cons a l ih => intro g hg; exact ih (.add g a) (by rw [CostExpr.build, hg]; rfl)
        rw [this fs (.add e f) (by rw [CostExpr.build, h, hf]; exact hb)]
        rfl
  · intro V _ _ v
    clear hs h
    induction es generalizing e with
    | nil => simp
    | cons f fs ih => rw [List.foldl_cons, ih, combine, List.map_cons, List.sum_cons, add_assoc]

/-- the empirical cost inside scalings and regularisations -/
def empiricalCore : Cost σ ι d → Option (Atom σ ι d)
  | .emp a => some a
  | .empScaled c _ => empiricalCore c
  | .empReg e _ => empiricalCore e
  | _ => none

/-- **C51.** Per-sample gradients (`reduction=None`): scaling and regularising keep the number of rows and their mean is the
gradient, provided this holds for the wrapped empirical cost. -/
theorem C51_per_sample (c : Cost σ ι d) (kw : Option ι) (x : Vec d) (rows : List (Vec d)) (h : c.perSample kw x = .ok rows)
    (hatom : ∀ a, empiricalCore c = some a → a.perSample kw x ≠ [] ∧
      a.grad kw x = (1 / ((a.perSample kw x).length : ℝ)) • (a.perSample kw x).sum) :
    rows ≠ [] ∧ c.grad kw x = .ok ((1 / (rows.length : ℝ)) • rows.sum) := by
  induction c using Cost.rec (motive_2 := fun _ => True) generalizing rows with
  | emp a =>
    rw [Cost.perSample] at h; cases h
    exact ⟨(hatom a rfl).1, by rw [Cost.grad, (hatom a rfl).2]⟩
  | empScaled c s ih =>
    rw [Cost.perSample] at h
    obtain ⟨r, hr, h2⟩ := bind_ok h
    cases h2
    obtain ⟨hne, hg⟩ := ih r hr (fun a ha => hatom a ha)
    refine ⟨by simpa using hne, ?_⟩
    rw [Cost.grad, hg, List.length_map]
    have : (r.map (fun v => s • v)).sum = s • r.sum := by rw [List.smul_sum]
    rw [this, smul_comm]; rfl
  | empReg e r ih =>
    rw [Cost.perSample] at h
    obtain ⟨l, hr, h2⟩ := bind_ok h
    cases h2
    obtain ⟨hne, hg⟩ := ih l hr (fun a ha => hatom a ha)
    refine ⟨by simpa using hne, ?_⟩
    rw [Cost.grad, hg, List.length_map]
    have hsum : ∀ l : List (Vec d), (l.map (fun v => v + r.grad x)).sum = l.sum + (l.length : ℝ) • r.grad x := by
      intro l
      induction l with
      | nil => simp
      | cons a t ih => simp only [List.map_cons, List.sum_cons, ih, List.length_cons]; push_cast; module
    rw [hsum, smul_add, smul_smul]
    have hl : (l.length : ℝ) ≠ 0 := by
      have : l.length ≠ 0 := fun h0 => hne (List.length_eq_zero_iff.1 h0)
      exact_mod_cast this
    rw [one_div_mul_cancel hl, one_smul]; rfl
  | nil => trivial
  | cons => trivial
  | quad => rw [Cost.perSample] at h <;> cases h
  | zero => rw [Cost.perSample] at h <;> cases h
  | reg => rw [Cost.perSample] at h <;> cases h
  | plain => rw [Cost.perSample] at h <;> cases h
  | scaled => rw [Cost.perSample] at h <;> cases h
  | sum => rw [Cost.perSample] at h <;> cases h

end Verif.Props
