import Verif.Model.CostAlgebra
import Verif.Lemmas.Costs
/-! # One evaluation scheme for value, gradient and Hessian -/
set_option linter.unusedSectionVars false
namespace Verif.CostAlg
open Costs

variable {σ ι : Type} {d : Nat} {V : Type} [AddCommGroup V] [Module ℝ V]

/-- how the leaves of a cost are evaluated; `quad = none`: a quadratic raises TypeError -/
structure Ev (σ ι : Type) (d : Nat) (V : Type) where
  quad : Option (Mat d → Vec d → ℝ → V)
  reg : Atom σ ι d → V
  atom : Atom σ ι d → V

def addO (a b : Option V) : Option V := Option.map₂ (· + ·) a b
def smulO (s : ℝ) (a : Option V) : Option V := a.map (fun v => s • v)

@[simp] theorem addO_some (a b : V) : addO (some a) (some b) = some (a + b) := rfl
@[simp] theorem addO_none_left (b : Option V) : addO none b = none := by cases b <;> rfl
@[simp] theorem addO_none_right (b : Option V) : addO b none = none := by cases b <;> rfl
@[simp] theorem smulO_some (s : ℝ) (a : V) : smulO s (some a) = some (s • a) := rfl
@[simp] theorem smulO_none (s : ℝ) : smulO s (none : Option V) = none := rfl
theorem addO_zero (a : Option V) : addO a (some 0) = a := by cases a <;> simp
theorem zero_addO (a : Option V) : addO (some 0) a = a := by cases a <;> simp
theorem addO_assoc (a b c : Option V) : addO (addO a b) c = addO a (addO b c) := by
  cases a <;> cases b <;> cases c <;> simp [add_assoc]

variable (L : Ev σ ι d V)

def Reg.ev : Reg σ ι d → V
  | .one a => L.reg a
  | .comp _ ts => (ts.map (fun t => t.2 • L.reg t.1)).sum

mutual
def Cost.ev : Cost σ ι d → Option V
  | .quad _ A b c => L.quad.map (fun q => q A b c)
  | .zero _ => some 0
  | .reg r => some (r.ev L)
  | .emp a => some (L.atom a)
  | .empScaled c s => smulO s (c.ev)
  | .empReg e r => addO e.ev (some (r.ev L))
  | .plain a => some (L.atom a)
  | .scaled c s => smulO s c.ev
  | .sum c cs => addO c.ev (Cost.evs cs)
def Cost.evs : List (Cost σ ι d) → Option V
  | [] => some 0
  | c :: cs => addO c.ev (Cost.evs cs)
end

/-- an optional value as the outcome of a call -/
def toPy {α : Type} : Option α → Py α
  | some v => .ok v
  | none => .error .typeError

theorem toPy_bind_add (a b : Option V) : (do .ok ((← toPy a) + (← toPy b)) : Py V) = toPy (addO a b) := by
  cases a <;> cases b <;> rfl
theorem toPy_bind_smul (s : ℝ) (a : Option V) : (do .ok (s • (← toPy a)) : Py V) = toPy (smulO s a) := by
  cases a <;> rfl
theorem toPy_bind_addr (a : Option V) (v : V) : (do .ok ((← toPy a) + v) : Py V) = toPy (addO a (some v)) := by
  cases a <;> rfl

noncomputable def fnEv (kw : Option ι) (x : Vec d) : Ev σ ι d ℝ :=
  ⟨if kw.isSome then none else some (fun A b c => quadFn A b c x), fun a => a.fn none x, fun a => a.fn kw x⟩
noncomputable def gradEv (kw : Option ι) (x : Vec d) : Ev σ ι d (Vec d) :=
  ⟨if kw.isSome then none else some (fun A b _ => quadGrad A b x), fun a => a.grad none x, fun a => a.grad kw x⟩
noncomputable def hessEv (kw : Option ι) (x : Vec d) : Ev σ ι d (Mat d) :=
  ⟨if kw.isSome then none else some (fun A _ _ => quadHess A), fun a => a.hess none x, fun a => a.hess kw x⟩

theorem Reg.fn_eq (kw : Option ι) (x : Vec d) (r : Reg σ ι d) : r.fn x = r.ev (fnEv kw x) := by
  cases r <;> simp [Reg.fn, Reg.ev, fnEv]
theorem Reg.grad_eq (kw : Option ι) (x : Vec d) (r : Reg σ ι d) : r.grad x = r.ev (gradEv kw x) := by
  cases r <;> simp [Reg.grad, Reg.ev, gradEv]
theorem Reg.hess_eq (kw : Option ι) (x : Vec d) (r : Reg σ ι d) : r.hess x = r.ev (hessEv kw x) := by
  cases r <;> simp [Reg.hess, Reg.ev, hessEv]

mutual
theorem Cost.fn_eq (kw : Option ι) (x : Vec d) (c : Cost σ ι d) : c.fn kw x = toPy (c.ev (fnEv kw x)) := by
  cases c with
  | quad s A b c =>
    rw [Cost.fn, Cost.ev, fnEv]
    by_cases h : kw.isSome = true
    · rw [if_pos h, if_pos h]; rfl
    · rw [if_neg h, if_neg h]; rfl
  | zero s => rw [Cost.fn, Cost.ev]; rfl
  | reg r => rw [Cost.fn, Cost.ev, Reg.fn_eq kw]; rfl
  | emp a => rw [Cost.fn, Cost.ev]; rfl
  | empScaled c s => rw [Cost.fn, Cost.ev, Cost.fn_eq kw x c]; exact toPy_bind_smul s _
  | empReg e r => rw [Cost.fn, Cost.ev, Cost.fn_eq kw x e, Reg.fn_eq kw]; exact toPy_bind_addr _ _
  | plain a => rw [Cost.fn, Cost.ev]; rfl
  | scaled c s => rw [Cost.fn, Cost.ev, Cost.fn_eq kw x c]; exact toPy_bind_smul s _
  | sum c cs => rw [Cost.fn, Cost.ev, Cost.fn_eq kw x c, Cost.fnSum_eq kw x cs]; exact toPy_bind_add _ _
theorem Cost.fnSum_eq (kw : Option ι) (x : Vec d) (cs : List (Cost σ ι d)) : Cost.fnSum kw x cs = toPy (Cost.evs (fnEv kw x) cs) := by
  cases cs with
  | nil => rw [Cost.fnSum, Cost.evs]; rfl
  | cons c cs => rw [Cost.fnSum, Cost.evs, Cost.fn_eq kw x c, Cost.fnSum_eq kw x cs]; exact toPy_bind_add _ _
end

mutual
theorem Cost.grad_eq (kw : Option ι) (x : Vec d) (c : Cost σ ι d) : c.grad kw x = toPy (c.ev (gradEv kw x)) := by
  cases c with
  | quad s A b c =>
    rw [Cost.grad, Cost.ev, gradEv]
    by_cases h : kw.isSome = true
    · rw [if_pos h, if_pos h]; rfl
    · rw [if_neg h, if_neg h]; rfl
  | zero s => rw [Cost.grad, Cost.ev]; rfl
  | reg r => rw [Cost.grad, Cost.ev, Reg.grad_eq kw]; rfl
  | emp a => rw [Cost.grad, Cost.ev]; rfl
  | empScaled c s => rw [Cost.grad, Cost.ev, Cost.grad_eq kw x c]; exact toPy_bind_smul s _
  | empReg e r => rw [Cost.grad, Cost.ev, Cost.grad_eq kw x e, Reg.grad_eq kw]; exact toPy_bind_addr _ _
  | plain a => rw [Cost.grad, Cost.ev]; rfl
  | scaled c s => rw [Cost.grad, Cost.ev, Cost.grad_eq kw x c]; exact toPy_bind_smul s _
  | sum c cs => rw [Cost.grad, Cost.ev, Cost.grad_eq kw x c, Cost.gradSum_eq kw x cs]; exact toPy_bind_add _ _
theorem Cost.gradSum_eq (kw : Option ι) (x : Vec d) (cs : List (Cost σ ι d)) : Cost.gradSum kw x cs = toPy (Cost.evs (gradEv kw x) cs) := by
  cases cs with
  | nil => rw [Cost.gradSum, Cost.evs]; rfl
  | cons c cs => rw [Cost.gradSum, Cost.evs, Cost.grad_eq kw x c, Cost.gradSum_eq kw x cs]; exact toPy_bind_add _ _
end

mutual
theorem Cost.hess_eq (kw : Option ι) (x : Vec d) (c : Cost σ ι d) : c.hess kw x = toPy (c.ev (hessEv kw x)) := by
  cases c with
  | quad s A b c =>
    rw [Cost.hess, Cost.ev, hessEv]
    by_cases h : kw.isSome = true
    · rw [if_pos h, if_pos h]; rfl
    · rw [if_neg h, if_neg h]; rfl
  | zero s => rw [Cost.hess, Cost.ev]; rfl
  | reg r => rw [Cost.hess, Cost.ev, Reg.hess_eq kw]; rfl
  | emp a => rw [Cost.hess, Cost.ev]; rfl
  | empScaled c s => rw [Cost.hess, Cost.ev, Cost.hess_eq kw x c]; exact toPy_bind_smul s _
  | empReg e r => rw [Cost.hess, Cost.ev, Cost.hess_eq kw x e, Reg.hess_eq kw]; exact toPy_bind_addr _ _
  | plain a => rw [Cost.hess, Cost.ev]; rfl
  | scaled c s => rw [Cost.hess, Cost.ev, Cost.hess_eq kw x c]; exact toPy_bind_smul s _
  | sum c cs => rw [Cost.hess, Cost.ev, Cost.hess_eq kw x c, Cost.hessSum_eq kw x cs]; exact toPy_bind_add _ _
theorem Cost.hessSum_eq (kw : Option ι) (x : Vec d) (cs : List (Cost σ ι d)) : Cost.hessSum kw x cs = toPy (Cost.evs (hessEv kw x) cs) := by
  cases cs with
  | nil => rw [Cost.hessSum, Cost.evs]; rfl
  | cons c cs => rw [Cost.hessSum, Cost.evs, Cost.hess_eq kw x c, Cost.hessSum_eq kw x cs]; exact toPy_bind_add _ _
end

/-- evaluation of quadratics is linear in the parameters -/
structure Ev.Linear (L : Ev σ ι d V) : Prop where
  add : ∀ q, L.quad = some q → ∀ A b c A' b' c', q (A + A') (b + b') (c + c') = q A b c + q A' b' c'
  neg : ∀ q, L.quad = some q → ∀ A b c, q (-A) (-b) (-c) = (-1 : ℝ) • q A b c

theorem dot_add_left (x y z : Vec d) : dot (x + y) z = dot x z + dot y z := by
  simp only [dot_eq_inner, inner_add_left]
theorem dot_add_right (x y z : Vec d) : dot x (y + z) = dot x y + dot x z := by
  simp only [dot_eq_inner, inner_add_right]
theorem dot_neg_left (x y : Vec d) : dot (-x) y = - dot x y := by
  simp only [dot_eq_inner, inner_neg_left]
theorem dot_neg_right (x y : Vec d) : dot x (-y) = - dot x y := by
  simp only [dot_eq_inner, inner_neg_right]

theorem fnEv_linear (kw : Option ι) (x : Vec d) : (fnEv (σ := σ) kw x).Linear := by
  constructor
  · intro q h A b c A' b' c'
    simp only [fnEv] at h
    split at h
    · cases h
    · cases h
      simp only [quadFn, add_app, dot_add_left, dot_add_right]
      ring
  · intro q h A b c
    simp only [fnEv] at h
    split at h
    · cases h
    · cases h
      simp only [quadFn, neg_app, dot_neg_left, dot_neg_right, smul_eq_mul]
      ring

theorem symPart_add (A B : Mat d) : symPart (A + B) = symPart A + symPart B := by
  simp only [symPart, Matrix.transpose_add, ← smul_add]
  congr 1
  abel
theorem symPart_neg (A : Mat d) : symPart (-A) = (-1 : ℝ) • symPart A := by
  simp only [symPart, Matrix.transpose_neg]
  module

theorem gradEv_linear (kw : Option ι) (x : Vec d) : (gradEv (σ := σ) kw x).Linear := by
  constructor
  · intro q h A b c A' b' c'
    simp only [gradEv] at h
    split at h
    · cases h
    · cases h
      simp only [quadGrad, symPart_add, add_app]
      abel
  · intro q h A b c
    simp only [gradEv] at h
    split at h
    · cases h
    · cases h
      simp only [quadGrad, symPart_neg, smul_app]
      module

theorem hessEv_linear (kw : Option ι) (x : Vec d) : (hessEv (σ := σ) kw x).Linear := by
  constructor
  · intro q h A b c A' b' c'
    simp only [hessEv] at h
    split at h
    · cases h
    · cases h
      simp only [quadHess, symPart_add]
  · intro q h A b c
    simp only [hessEv] at h
    split at h
    · cases h
    · cases h
      simp only [quadHess, symPart_neg]

/-! ### operators are homomorphisms -/

section ops
variable [DecidableEq σ]

theorem validate_ok {s t : σ} (h : validate s t = .ok ()) : s = t := by
  unfold validate at h
  split at h
  · assumption
  · cases h
theorem validate_self (s : σ) : validate s s = .ok () := by simp [validate]
theorem validate_iff {s t : σ} : validate s t = .ok () ↔ s = t := ⟨validate_ok, fun h => h ▸ validate_self _⟩
theorem validate_cases (s t : σ) : (validate s t = .ok () ∧ s = t) ∨ (validate s t = .error .valueError ∧ s ≠ t) := by
  unfold validate; split <;> simp_all

theorem bind_unit {α : Type} {a : Py Unit} {f : Unit → Py α} {r : α} (h : (a >>= f) = .ok r) : a = .ok () ∧ f () = .ok r := by
  cases a with
  | error e => cases h
  | ok u => exact ⟨rfl, h⟩
theorem bind_ok {α β : Type} {a : Py β} {f : β → Py α} {r : α} (h : (a >>= f) = .ok r) : ∃ b, a = .ok b ∧ f b = .ok r := by
  cases a with
  | error e => cases h
  | ok u => exact ⟨u, rfl, h⟩

theorem evs_append (l m : List (Cost σ ι d)) : Cost.evs L (l ++ m) = addO (Cost.evs L l) (Cost.evs L m) := by
  induction l with
  | nil => rw [List.nil_append, Cost.evs, zero_addO]
  | cons c l ih => rw [List.cons_append, Cost.evs, Cost.evs, ih, addO_assoc]

theorem evs_items (c : Cost σ ι d) : Cost.evs L c.items = c.ev L := by
  cases c <;> simp only [Cost.items, Cost.evs, addO_zero]
  rw [Cost.ev]

theorem ev_mkSum {c e r : Cost σ ι d} (h : mkSum c e = .ok r) : r.ev L = addO (c.ev L) (e.ev L) := by
  unfold mkSum at h
  split at h
  · cases h
  · rename_i first rest heq
    obtain ⟨_, h2⟩ := bind_unit h
    cases h2
    rw [← evs_items L c, ← evs_items L e, ← evs_append, heq, Cost.ev, Cost.evs]

theorem ev_terms (w : ℝ) (r : Reg σ ι d) : ((r.terms w).map (fun t => t.2 • L.reg t.1)).sum = w • r.ev L := by
  cases r with
  | one a => simp [Reg.terms, Reg.ev]
  | comp s ts =>
    simp only [Reg.terms, Reg.ev, List.map_map]
    rw [List.smul_sum, List.map_map]
    congr 1
    refine List.map_congr_left fun t _ => ?_
    simp [smul_smul]

theorem ev_compTerms {s : σ} {rs : List (Reg σ ι d × ℝ)} {ts : List (Atom σ ι d × ℝ)} (h : compTerms s rs = .ok ts) :
    (ts.map (fun t => t.2 • L.reg t.1)).sum = (rs.map (fun t => t.2 • t.1.ev L)).sum := by
  induction rs generalizing ts with
  | nil => rw [compTerms] at h; cases h; rfl
  | cons p rs ih =>
    obtain ⟨r, w⟩ := p
    rw [compTerms] at h
    obtain ⟨_, h2⟩ := bind_unit h
    obtain ⟨ts', h3, h4⟩ := bind_ok h2
    cases h4
    rw [List.map_append, List.sum_append, ev_terms, ih h3, List.map_cons, List.sum_cons]

theorem ev_mkComp {rs : List (Reg σ ι d × ℝ)} {r : Reg σ ι d} (h : mkComp rs = .ok r) :
    r.ev L = (rs.map (fun t => t.2 • t.1.ev L)).sum := by
  cases rs with
  | nil => cases h
  | cons p rs =>
    obtain ⟨q, w⟩ := p
    rw [mkComp] at h
    obtain ⟨ts, h3, h4⟩ := bind_ok h
    cases h4
    rw [Reg.ev, ev_compTerms L h3]

theorem ev_regAdd {r q u : Reg σ ι d} (h : r.add q = .ok u) : u.ev L = r.ev L + q.ev L := by
  unfold Reg.add at h
  obtain ⟨_, h2⟩ := bind_unit h
  rw [ev_mkComp L h2]
  simp

theorem ev_mkScaled (s : ℝ) (c : Cost σ ι d) : (mkScaled s c).ev L = smulO s (c.ev L) := by
  cases c with
  | scaled c t =>
    simp only [mkScaled, Cost.ev]
    cases c.ev L <;> simp [smul_smul]
  | _ => simp only [mkScaled, Cost.ev]

theorem ev_mkEmpScaled (s : ℝ) (c : Cost σ ι d) : (mkEmpScaled s c).ev L = smulO s (c.ev L) := by
  cases c with
  | empScaled c t =>
    simp only [mkEmpScaled, Cost.ev]
    cases c.ev L <;> simp [smul_smul]
  | _ => simp only [mkEmpScaled, Cost.ev]

theorem ev_mkEmpReg {e r : Cost σ ι d} {q : Reg σ ι d} (h : mkEmpReg e q = .ok r) : r.ev L = addO (e.ev L) (some (q.ev L)) := by
  unfold mkEmpReg at h
  obtain ⟨_, h2⟩ := bind_unit h
  cases h2
  rw [Cost.ev]

theorem ev_add (hL : L.Linear) {c e r : Cost σ ι d} (h : c.add e = .ok r) : r.ev L = addO (c.ev L) (e.ev L) := by
  unfold Cost.add at h
  split at h
  · obtain ⟨_, h2⟩ := bind_unit h
    cases h2
    simp only [Cost.ev]
    cases hq : L.quad with
    | none => rfl
    | some q => simp [hL.add q hq]
  · obtain ⟨_, h2⟩ := bind_unit h
    cases h2
    simp only [Cost.ev, addO_zero]
  · obtain ⟨_, h2⟩ := bind_unit h
    cases h2
    rw [Cost.ev.eq_2, zero_addO]
  · obtain ⟨u, h3, h4⟩ := bind_ok h
    cases h4
    simp only [Cost.ev, ev_regAdd L h3, addO_some]
  · obtain ⟨_, h2⟩ := bind_unit h
    rw [ev_mkEmpReg L h2]; simp only [Cost.ev]
  · obtain ⟨_, h2⟩ := bind_unit h
    rw [ev_mkEmpReg L h2]; simp only [Cost.ev]
  · obtain ⟨u, h3, h4⟩ := bind_ok h
    rw [ev_mkEmpReg L h4, ev_regAdd L h3]
    simp only [Cost.ev]
    rw [addO_assoc, addO_some]
  · exact ev_mkSum L h
  · obtain ⟨_, h2⟩ := bind_unit h
    exact ev_mkSum L h2

theorem ev_mulReal {s : ℝ} {c r : Cost σ ι d} (h : c.mulReal s = .ok r) : r.ev L = smulO s (c.ev L) := by
  unfold Cost.mulReal at h
  split at h
  · obtain ⟨u, h3, h4⟩ := bind_ok h
    cases h4
    simp only [Cost.ev, ev_mkComp L h3]
    simp
  · cases h; exact ev_mkEmpScaled L s _
  · cases h; exact ev_mkEmpScaled L s _
  · cases h; exact ev_mkEmpScaled L s _
  · cases h; exact ev_mkScaled L s _

theorem ev_sub (hL : L.Linear) {c e r : Cost σ ι d} (h : c.sub e = .ok r) : r.ev L = addO (c.ev L) (smulO (-1) (e.ev L)) := by
  unfold Cost.sub at h
  obtain ⟨_, h2⟩ := bind_unit h
  split at h2
  · rw [ev_add L hL h2]
    simp only [Cost.ev]
    cases hq : L.quad with
    | none => rfl
    | some q => simp [hL.neg q hq]
  · obtain ⟨u, h3, h4⟩ := bind_ok h2
    cases h4
    simp only [Cost.ev, ev_mkComp L h3]
    simp
  · obtain ⟨u, h3, h4⟩ := bind_ok h2
    rw [ev_add L hL h4, ev_mulReal L h3]

/-! ### when do the operators succeed -/

theorem validateAll_iff (s : σ) (l : List (Cost σ ι d)) : validateAll s l = .ok () ↔ ∀ c ∈ l, s = c.sig := by
  induction l with
  | nil => simp [validateAll]
  | cons c l ih =>
    rw [validateAll]
    rcases validate_cases s c.sig with ⟨h, h'⟩ | ⟨h, h'⟩
    · rw [h, List.forall_mem_cons, ← ih]
      constructor
      · intro e; exact ⟨h', e⟩
      · intro e; exact e.2
    · rw [h, List.forall_mem_cons]
      constructor
      · intro e; cases e
      · intro e; exact absurd e.1 h'

/-- every part has the signature of the whole: invariant of constructed costs -/
def Reg.Wf : Reg σ ι d → Prop
  | .one _ => True
  | .comp s ts => ∀ t ∈ ts, t.1.sig = s

mutual
def Cost.Wf : Cost σ ι d → Prop
  | .quad _ _ _ _ => True
  | .zero _ => True
  | .reg r => r.Wf
  | .emp _ => True
  | .empScaled c _ => c.Wf
  | .empReg e r => e.Wf ∧ r.Wf ∧ r.sig = e.sig
  | .plain _ => True
  | .scaled c _ => c.Wf
  | .sum c cs => c.Wf ∧ Cost.Wfs c.sig cs
def Cost.Wfs (s : σ) : List (Cost σ ι d) → Prop
  | [] => True
  | c :: cs => c.sig = s ∧ c.Wf ∧ Cost.Wfs s cs
end

theorem Wfs_iff (s : σ) (l : List (Cost σ ι d)) : Cost.Wfs s l ↔ ∀ c ∈ l, c.sig = s ∧ c.Wf := by
  induction l with
  | nil => simp [Cost.Wfs]
  | cons c l ih => rw [Cost.Wfs, ih, List.forall_mem_cons, and_assoc]

theorem items_wf {c : Cost σ ι d} (h : c.Wf) : ∀ e ∈ c.items, e.sig = c.sig ∧ e.Wf := by
  cases c with
  | sum c cs =>
    simp only [Cost.Wf] at h
    rw [Wfs_iff] at h
    simp only [Cost.items, Cost.sig, List.mem_cons]
    rintro e (rfl | he)
    · exact ⟨rfl, h.1⟩
    · exact h.2 e he
  | _ => intro e he; simp only [Cost.items, List.mem_singleton] at he; subst he; exact ⟨rfl, h⟩

theorem items_ne (c : Cost σ ι d) : c.items ≠ [] := by cases c <;> simp [Cost.items]

theorem items_head (c : Cost σ ι d) {f : Cost σ ι d} {r : List (Cost σ ι d)} (h : c.items = f :: r) : f.sig = c.sig := by
  cases c <;> simp only [Cost.items, List.cons.injEq] at h <;> obtain ⟨rfl, _⟩ := h <;> rfl

theorem mkSum_spec {c e : Cost σ ι d} (hc : c.Wf) (he : e.Wf) :
    (c.sig = e.sig → ∃ r, mkSum c e = .ok r ∧ r.Wf ∧ r.sig = c.sig) ∧ (c.sig ≠ e.sig → mkSum c e = .error .valueError) := by
  obtain ⟨f, fr, hf⟩ : ∃ f fr, c.items = f :: fr := by
    cases h : c.items with
    | nil => exact absurd h (items_ne c)
    | cons f fr => exact ⟨f, fr, rfl⟩
  have hfs := items_head c hf
  have hval : (validateAll f.sig (fr ++ e.items) = .ok () ∧ c.sig = e.sig) ∨
      (validateAll f.sig (fr ++ e.items) = .error .valueError ∧ c.sig ≠ e.sig) := by
    by_cases hce : c.sig = e.sig
    · left
      refine ⟨?_, hce⟩
      rw [validateAll_iff]
      intro u hu
      rcases List.mem_append.1 hu with hu | hu
      · rw [hfs]; exact ((items_wf hc u (by rw [hf]; simp [hu])).1).symm
      · rw [hfs, hce]; exact ((items_wf he u hu).1).symm
    · right
      refine ⟨?_, hce⟩
      have hbad : validateAll f.sig (fr ++ e.items) ≠ .ok () := by
        rw [Ne, validateAll_iff]
        intro hall
        obtain ⟨g, gr, hg⟩ : ∃ g gr, e.items = g :: gr := by
          cases h : e.items with
          | nil => exact absurd h (items_ne e)
          | cons g gr => exact ⟨g, gr, rfl⟩
        have := hall g (by rw [hg]; simp)
        rw [hfs, items_head e hg] at this
        exact hce this
      have herr : ∀ (s : σ) (l : List (Cost σ ι d)), validateAll s l = .ok () ∨ validateAll s l = .error .valueError := by
        intro s l
        induction l with
        | nil => left; rfl
        | cons u l ih =>
          rw [validateAll]
          rcases validate_cases s u.sig with ⟨h, _⟩ | ⟨h, _⟩
          · rw [h]; exact ih
          · rw [h]; right; rfl
      exact (herr _ _).resolve_left hbad
  unfold mkSum
  rw [hf, List.cons_append]
  simp only
  constructor
  · intro hce
    rcases hval with ⟨h, _⟩ | ⟨_, h⟩
    · rw [h]
      refine ⟨_, rfl, ?_, ?_⟩
      · simp only [Cost.Wf]
        refine ⟨(items_wf hc f (by rw [hf]; simp)).2, ?_⟩
        rw [Wfs_iff]
        intro u hu
        rcases List.mem_append.1 hu with hu | hu
        · have := items_wf hc u (by rw [hf]; simp [hu])
          exact ⟨by rw [this.1, hfs], this.2⟩
        · have := items_wf he u hu
          exact ⟨by rw [this.1, hfs, hce], this.2⟩
      · simp only [Cost.sig]; exact hfs
    · exact absurd hce h
  · intro hce
    rcases hval with ⟨_, h⟩ | ⟨h, _⟩
    · exact absurd h hce
    · rw [h]; rfl

theorem terms_wf {r : Reg σ ι d} (h : r.Wf) (w : ℝ) : ∀ t ∈ r.terms w, t.1.sig = r.sig := by
  cases r with
  | one a => intro t ht; simp only [Reg.terms, List.mem_singleton] at ht; subst ht; rfl
  | comp s ts =>
    intro t ht
    simp only [Reg.terms, List.mem_map] at ht
    obtain ⟨t', ht', rfl⟩ := ht
    exact h t' ht'

theorem mkComp_one {r : Reg σ ι d} (hr : r.Wf) (w : ℝ) : ∃ u, mkComp [(r, w)] = .ok u ∧ u.Wf ∧ u.sig = r.sig := by
  refine ⟨.comp r.sig (r.terms w), ?_, ?_, rfl⟩
  · rw [mkComp, compTerms, validate_self]
    simp [compTerms, bind, Except.bind]
  · exact terms_wf hr w

theorem mkComp_two {r q : Reg σ ι d} (hr : r.Wf) (hq : q.Wf) (h : r.sig = q.sig) (w v : ℝ) :
    ∃ u, mkComp [(r, w), (q, v)] = .ok u ∧ u.Wf ∧ u.sig = r.sig := by
  refine ⟨.comp r.sig (r.terms w ++ q.terms v), ?_, ?_, rfl⟩
  · rw [mkComp, compTerms, compTerms, validate_self, h, validate_self]
    simp [compTerms, bind, Except.bind]
  · intro t ht
    rcases List.mem_append.1 ht with ht | ht
    · exact terms_wf hr w t ht
    · rw [h]; exact terms_wf hq v t ht

theorem regAdd_spec {r q : Reg σ ι d} (hr : r.Wf) (hq : q.Wf) :
    (r.sig = q.sig → ∃ u, r.add q = .ok u ∧ u.Wf ∧ u.sig = r.sig) ∧ (r.sig ≠ q.sig → r.add q = .error .valueError) := by
  unfold Reg.add
  constructor
  · intro h
    rw [validate_iff.2 h]
    exact mkComp_two hr hq h 1 1
  · intro h
    rcases validate_cases r.sig q.sig with ⟨_, h'⟩ | ⟨h', _⟩
    · exact absurd h' h
    · rw [h']; rfl

theorem mulReal_spec {c : Cost σ ι d} (hc : c.Wf) (s : ℝ) : ∃ r, c.mulReal s = .ok r ∧ r.Wf ∧ r.sig = c.sig := by
  cases c with
  | reg r =>
    obtain ⟨u, h1, h2, h3⟩ := mkComp_one hc s
    exact ⟨.reg u, by rw [Cost.mulReal, h1]; rfl, h2, h3⟩
  | _ => exact ⟨_, rfl, hc, rfl⟩

theorem add_spec {c e : Cost σ ι d} (hc : c.Wf) (he : e.Wf) :
    (c.sig = e.sig → ∃ r, c.add e = .ok r ∧ r.Wf ∧ r.sig = c.sig) ∧ (c.sig ≠ e.sig → c.add e = .error .valueError) := by
  have hs := mkSum_spec hc he
  unfold Cost.add
  split
  · -- quad + quad
    rename_i s A b k s' A' b' k'
    simp only [Cost.sig]
    constructor
    · rintro rfl; rw [validate_self]; exact ⟨_, rfl, trivial, rfl⟩
    · intro h
      rcases validate_cases s s' with ⟨_, h'⟩ | ⟨h', _⟩
      · exact absurd h' h
      · rw [h']; rfl
  · rename_i s s'
    simp only [Cost.sig]
    constructor
    · rintro rfl; rw [validate_self]; exact ⟨_, rfl, trivial, rfl⟩
    · intro h
      rcases validate_cases s s' with ⟨_, h'⟩ | ⟨h', _⟩
      · exact absurd h' h
      · rw [h']; rfl
  · rename_i s hz
    constructor
    · intro h
      have : validate s e.sig = .ok () := validate_iff.2 h
      rw [this]; exact ⟨_, rfl, he, h.symm⟩
    · intro h
      rcases validate_cases s e.sig with ⟨_, h'⟩ | ⟨h', _⟩
      · exact absurd h' h
      · rw [h']; rfl
  · rename_i r q
    have := regAdd_spec (r := r) (q := q) hc he
    constructor
    · intro h
      obtain ⟨u, h1, h2, h3⟩ := this.1 h
      rw [h1]; exact ⟨.reg u, rfl, h2, h3⟩
    · intro h
      rw [this.2 h]; rfl
  · rename_i a q
    constructor
    · intro h
      have hv : validate a.sig q.sig = .ok () := validate_iff.2 h
      rw [hv]
      refine ⟨.empReg (.emp a) q, ?_, ⟨trivial, he, h.symm⟩, rfl⟩
      change mkEmpReg (.emp a) q = _
      have hv' : validate (Cost.emp a).sig q.sig = .ok () := hv
      rw [mkEmpReg, hv']; rfl
    · intro h
      rcases validate_cases a.sig q.sig with ⟨_, h'⟩ | ⟨h', _⟩
      · exact absurd h' h
      · rw [h']; rfl
  · rename_i k s q
    constructor
    · intro h
      have hv : validate k.sig q.sig = .ok () := validate_iff.2 h
      rw [hv]
      refine ⟨.empReg (.empScaled k s) q, ?_, ⟨hc, he, h.symm⟩, rfl⟩
      change mkEmpReg (.empScaled k s) q = _
      have hv' : validate (Cost.empScaled k s).sig q.sig = .ok () := hv
      rw [mkEmpReg, hv']; rfl
    · intro h
      rcases validate_cases k.sig q.sig with ⟨_, h'⟩ | ⟨h', _⟩
      · exact absurd h' h
      · rw [h']; rfl
  · rename_i k r q
    simp only [Cost.Wf] at hc
    have := regAdd_spec (r := r) (q := q) hc.2.1 he
    constructor
    · intro h
      have h' : r.sig = q.sig := by rw [hc.2.2]; exact h
      obtain ⟨u, h1, h2, h3⟩ := this.1 h'
      rw [h1]
      refine ⟨.empReg k u, ?_, ⟨hc.1, h2, by rw [h3, hc.2.2]⟩, rfl⟩
      change mkEmpReg k u = _
      rw [mkEmpReg, h3, hc.2.2, validate_self]; rfl
    · intro h
      have h' : r.sig ≠ q.sig := by rw [hc.2.2]; exact h
      rw [this.2 h']; rfl
  · exact hs
  · constructor
    · intro h
      rw [validate_iff.2 h]; exact hs.1 h
    · intro h
      rcases validate_cases c.sig e.sig with ⟨_, h'⟩ | ⟨h', _⟩
      · exact absurd h' h
      · rw [h']; rfl

theorem sub_spec {c e : Cost σ ι d} (hc : c.Wf) (he : e.Wf) :
    (c.sig = e.sig → ∃ r, c.sub e = .ok r ∧ r.Wf ∧ r.sig = c.sig) ∧ (c.sig ≠ e.sig → c.sub e = .error .valueError) := by
  unfold Cost.sub
  constructor
  · intro h
    rw [validate_iff.2 h]
    change ∃ r, (match c, e with
      | .quad s A b c, .quad _ A' b' c' => Cost.add (.quad s A b c) (.quad s (-A') (-b') (-c'))
      | .reg r, .reg q => do .ok (.reg (← mkComp [(r, 1), (q, -1)]))
      | c, o => do Cost.add c (← o.neg)) = .ok r ∧ _
    split
    · rename_i s A b k s' A' b' k'
      refine ⟨.quad s (A + -A') (b + -b') (k + -k'), ?_, trivial, rfl⟩
      rw [Cost.add, validate_self]; rfl
    · rename_i r q
      obtain ⟨u, h1, h2, h3⟩ := mkComp_two (r := r) (q := q) hc he h 1 (-1)
      rw [h1]; exact ⟨.reg u, rfl, h2, h3⟩
    · obtain ⟨u, h1, h2, h3⟩ := mulReal_spec he (-1)
      rw [Cost.neg, h1]
      exact (add_spec hc h2).1 (by rw [h3]; exact h)
  · intro h
    rcases validate_cases c.sig e.sig with ⟨_, h'⟩ | ⟨h', _⟩
    · exact absurd h' h
    · rw [h']; rfl

end ops

end Verif.CostAlg
