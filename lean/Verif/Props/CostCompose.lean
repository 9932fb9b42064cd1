import Verif.Props.CostAlgebra
/-!
# C52 (constants under composition), C53 (proximals of wrappers)
-/
set_option linter.unusedSectionVars false
namespace Verif.Props
open Verif Verif.Costs Verif.CostAlg
open scoped InnerProductSpace

variable {σ ι : Type} {d : Nat}

/-! ### a concrete expression -/

/-- a user-defined linear cost `k ⟨1, x⟩` (one coordinate), used in examples -/
noncomputable def toyAtom (k : ℝ) : Atom Nat Unit 1 :=
  ⟨1, fun _ x => k * x 0, fun _ _ => vec fun _ => k, fun _ _ => [vec fun _ => k], fun _ _ => 0, .fin 0, .fin 0, fun x _ => .ok x⟩

noncomputable def toyExpr : CostExpr Nat Unit 1 :=
  .sub (.div (.add (.leaf (.empirical (toyAtom 1))) (.mul (.leaf (.regularizer (toyAtom 2))) (.real 2))) (.real 3))
    (.neg (.leaf (.quadratic 1 1 0 0)))

/-- the hypotheses of the C51 theorems are met by `(emp + 2 reg) / 3 - (-quad)` -/
example : ∃ c, toyExpr.build = .ok c := by
  rw [C51_success]
  refine ⟨⟨1, ?_⟩, ?_⟩
  · intro l hl
    simp only [toyExpr, CostExpr.leaves, List.mem_append, List.mem_singleton] at hl
    rcases hl with (rfl | rfl) | rfl <;> rfl
  · exact ⟨⟨⟨trivial, trivial, _, rfl⟩, _, rfl, by norm_num⟩, trivial⟩

example (c : Cost Nat Unit 1) (h : toyExpr.build = .ok c) (x : Vec 1) :
    c.fn none x = .ok ((1 / 3) * (1 * x 0 + 2 * (2 * x 0)) - -(quadFn 1 0 0 x)) := by
  rw [(C51_value toyExpr c h x).1]
  rfl

/-! ### constants: building blocks -/

theorem smooth_add {f₁ f₂ : Vec d → ℝ} {g₁ g₂ : Vec d → Vec d} {m₁ m₂ : Fl} (h₁ : SmoothMeaning f₁ g₁ m₁) (h₂ : SmoothMeaning f₂ g₂ m₂) :
    SmoothMeaning (fun x => f₁ x + f₂ x) (fun x => g₁ x + g₂ x) (Fl.add m₁ m₂) := by
  cases m₁ with
  | nan => cases m₂ <;> trivial
  | inf =>
    cases m₂ with
    | nan => trivial
    | inf => exact fun x => HasGradientAt.add' (h₁ x) (h₂ x)
    | fin b => exact fun x => HasGradientAt.add' (h₁ x) (h₂.2.1 x)
  | fin a =>
    cases m₂ with
    | nan => trivial
    | inf => exact fun x => HasGradientAt.add' (h₁.2.1 x) (h₂ x)
    | fin b =>
      refine ⟨add_nonneg h₁.1 h₂.1, fun x => HasGradientAt.add' (h₁.2.1 x) (h₂.2.1 x), fun x y => ?_⟩
      have e : g₁ x + g₂ x - (g₁ y + g₂ y) = (g₁ x - g₁ y) + (g₂ x - g₂ y) := by abel
      rw [e, add_mul]
      exact le_trans (norm_add_le _ _) (add_le_add (h₁.2.2 x y) (h₂.2.2 x y))

theorem convex_add {f₁ f₂ : Vec d → ℝ} {g₁ g₂ : Vec d → Vec d} {m₁ m₂ : Fl} (h₁ : ConvexMeaning f₁ g₁ m₁) (h₂ : ConvexMeaning f₂ g₂ m₂) :
    ConvexMeaning (fun x => f₁ x + f₂ x) (fun x => g₁ x + g₂ x) (Fl.add m₁ m₂) := by
  cases m₁ with
  | nan => cases m₂ <;> trivial
  | inf => exact h₁.elim
  | fin a =>
    cases m₂ with
    | nan => trivial
    | inf => exact h₂.elim
    | fin b =>
      refine ⟨add_nonneg h₁.1 h₂.1, fun x y => ?_⟩
      have e1 := h₁.2 x y
      have e2 := h₂.2 x y
      rw [inner_add_left]
      have e3 : (a + b) / 2 * ‖y - x‖ ^ 2 = a / 2 * ‖y - x‖ ^ 2 + b / 2 * ‖y - x‖ ^ 2 := by ring
      linarith

theorem smooth_zero : SmoothMeaning (fun _ : Vec d => (0 : ℝ)) (fun _ => 0) (.fin 0) :=
  ⟨le_rfl, fun x => hasGradientAt_const 0 x, fun x y => by simp⟩
theorem convex_zero : ConvexMeaning (fun _ : Vec d => (0 : ℝ)) (fun _ => 0) (.fin 0) :=
  ⟨le_rfl, fun x y => by simp⟩

theorem smooth_smul {f : Vec d → ℝ} {g : Vec d → Vec d} {m : Fl} (s : ℝ) (h : SmoothMeaning f g m) :
    SmoothMeaning (fun x => s * f x) (fun x => s • g x) (Fl.smul |s| m) := by
  cases m with
  | nan => trivial
  | inf =>
    unfold Fl.smul
    simp only
    split
    · trivial
    · exact fun x => HasGradientAt.cmul' s (h x)
  | fin L =>
    refine ⟨mul_nonneg (abs_nonneg s) h.1, fun x => HasGradientAt.cmul' s (h.2.1 x), fun x y => ?_⟩
    rw [← smul_sub, norm_smul, Real.norm_eq_abs, mul_assoc]
    exact mul_le_mul_of_nonneg_left (h.2.2 x y) (abs_nonneg s)

theorem convex_smul {f : Vec d → ℝ} {g : Vec d → Vec d} {m : Fl} (s : ℝ) (hs : 0 ≤ s) (h : ConvexMeaning f g m) :
    ConvexMeaning (fun x => s * f x) (fun x => s • g x) (Fl.smul s m) := by
  cases m with
  | nan => trivial
  | inf => exact h.elim
  | fin a =>
    refine ⟨mul_nonneg hs h.1, fun x y => ?_⟩
    have := mul_le_mul_of_nonneg_left (h.2 x y) hs
    rw [inner_smul_left, conj_trivial]
    calc _ = s * (f x + ⟪g x, y - x⟫_ℝ + a / 2 * ‖y - x‖ ^ 2) := by ring
      _ ≤ _ := this

theorem add_nan_left (m : Fl) : Fl.add .nan m = .nan := by cases m <;> rfl
theorem add_nan_right (m : Fl) : Fl.add m .nan = .nan := by cases m <;> rfl

theorem total_eq (l : List Fl) : Fl.total l = l.foldr Fl.add (.fin 0) := by
  have key : ∀ l : List Fl, l.any Fl.isNan = true → l.foldr Fl.add (.fin 0) = .nan := by
    intro l
    induction l with
    | nil => intro h; simp at h
    | cons a t ih =>
      intro h
      rw [List.any_cons, Bool.or_eq_true] at h
      rcases h with h | h
      · cases a with
        | nan => rw [List.foldr_cons, add_nan_left]
        | _ => cases h
      · rw [List.foldr_cons, ih h, add_nan_right]
  unfold Fl.total
  split
  · rename_i h; rw [key l h]
  · rfl

theorem scaled_smooth {f : Vec d → ℝ} {g : Vec d → Vec d} {m : Fl} (s : ℝ) (h : SmoothMeaning f g m) :
    SmoothMeaning (fun x => s * f x) (fun x => s • g x) (scaledSmooth s m) := by
  unfold scaledSmooth
  split
  · rename_i h0
    subst h0
    simpa using smooth_zero
  · exact smooth_smul s h

theorem scaled_convex {f : Vec d → ℝ} {g : Vec d → Vec d} {m : Fl} (s : ℝ) (h : ConvexMeaning f g m) :
    ConvexMeaning (fun x => s * f x) (fun x => s • g x) (scaledCvx s m) := by
  unfold scaledCvx
  split
  · rename_i h0; exact convex_smul s h0.le h
  · split
    · rename_i h0
      subst h0
      simpa using convex_zero
    · trivial

/-! ### soundness of the reported constants -/

/-- the constants of an atom mean what the documentation says -/
def AtomSound (a : Atom σ ι d) : Prop :=
  SmoothMeaning (a.fn none) (a.grad none) a.mSmooth ∧ ConvexMeaning (a.fn none) (a.grad none) a.mCvx

/-- the atoms of a regularizer -/
def regAtoms : Reg σ ι d → List (Atom σ ι d)
  | .one a => [a]
  | .comp _ ts => ts.map Prod.fst

mutual
/-- every atom a cost object holds -/
def atomsOf : Cost σ ι d → List (Atom σ ι d)
  | .quad _ _ _ _ => []
  | .zero _ => []
  | .reg r => regAtoms r
  | .emp a => [a]
  | .empScaled c _ => atomsOf c
  | .empReg e r => atomsOf e ++ regAtoms r
  | .plain a => [a]
  | .scaled c _ => atomsOf c
  | .sum c cs => atomsOf c ++ atomsOfs cs
def atomsOfs : List (Cost σ ι d) → List (Atom σ ι d)
  | [] => []
  | c :: cs => atomsOf c ++ atomsOfs cs
end

mutual
/-- the matrices of the quadratics a cost object holds -/
def quadsOf : Cost σ ι d → List (Mat d)
  | .quad _ A _ _ => [A]
  | .zero _ => []
  | .reg _ => []
  | .emp _ => []
  | .empScaled c _ => quadsOf c
  | .empReg e _ => quadsOf e
  | .plain _ => []
  | .scaled c _ => quadsOf c
  | .sum c cs => quadsOf c ++ quadsOfs cs
def quadsOfs : List (Cost σ ι d) → List (Mat d)
  | [] => []
  | c :: cs => quadsOf c ++ quadsOfs cs
end

/-- the smallest eigenvalue of the symmetric part is not a negative number of rounding-error size -/
def ClearSign (A : Mat d) : Prop :=
  ¬ (-1e-12 ≤ minEig (symPart A) (symPart_herm A) ∧ minEig (symPart A) (symPart_herm A) < 0)

/-- both constants reported by `c` are sound for the value and gradient `c` computes -/
def ReportsSound (c : Cost σ ι d) : Prop :=
  ∃ (f : Vec d → ℝ) (g : Vec d → Vec d), (∀ x, c.fn none x = .ok (f x)) ∧ (∀ x, c.grad none x = .ok (g x)) ∧
    SmoothMeaning f g c.mSmooth ∧ ConvexMeaning f g c.mCvx

theorem reg_sound (r : Reg σ ι d) (h : ∀ a ∈ regAtoms r, AtomSound a) :
    SmoothMeaning (fun x => r.fn x) (fun x => r.grad x) r.mSmooth ∧ ConvexMeaning (fun x => r.fn x) (fun x => r.grad x) r.mCvx := by
  cases r with
  | one a => exact h a (by simp [regAtoms])
  | comp s ts =>
    have hs : ∀ ts : List (Atom σ ι d × ℝ), (∀ t ∈ ts, AtomSound t.1) →
        SmoothMeaning (fun x => (ts.map (fun t => t.2 * t.1.fn none x)).sum) (fun x => (ts.map (fun t => t.2 • t.1.grad none x)).sum)
          ((ts.map (fun t => Fl.smul |t.2| t.1.mSmooth)).foldr Fl.add (.fin 0)) := by
      intro ts
      induction ts with
      | nil => intro _; simpa using smooth_zero
      | cons t ts ih =>
        intro hall
        simp only [List.map_cons, List.sum_cons, List.foldr_cons]
        exact smooth_add (smooth_smul t.2 (hall t (by simp)).1) (ih (fun u hu => hall u (by simp [hu])))
    have hc : ∀ ts : List (Atom σ ι d × ℝ), (∀ t ∈ ts, AtomSound t.1) → (∀ t ∈ ts, 0 ≤ t.2) →
        ConvexMeaning (fun x => (ts.map (fun t => t.2 * t.1.fn none x)).sum) (fun x => (ts.map (fun t => t.2 • t.1.grad none x)).sum)
          ((ts.map (fun t => Fl.smul t.2 t.1.mCvx)).foldr Fl.add (.fin 0)) := by
      intro ts
      induction ts with
      | nil => intro _ _; simpa using convex_zero
      | cons t ts ih =>
        intro hall hw
        simp only [List.map_cons, List.sum_cons, List.foldr_cons]
        exact convex_add (convex_smul t.2 (hw t (by simp)) (hall t (by simp)).2)
          (ih (fun u hu => hall u (by simp [hu])) (fun u hu => hw u (by simp [hu])))
    have hall : ∀ t ∈ ts, AtomSound t.1 := fun t ht => h t.1 (by simp only [regAtoms, List.mem_map]; exact ⟨t, ht, rfl⟩)
    constructor
    · simp only [Reg.mSmooth, total_eq]
      exact hs ts hall
    · simp only [Reg.mCvx, total_eq]
      split
      · trivial
      · rename_i hn
        refine hc ts hall fun t ht => ?_
        by_contra hneg
        apply hn
        rw [List.any_eq_true]
        exact ⟨t, ht, by simpa using hneg⟩

theorem reportsSound_smul {c : Cost σ ι d} {s : ℝ} {r : Cost σ ι d} (h : ReportsSound c)
    (hf : ∀ x, r.fn none x = do .ok (s * (← c.fn none x))) (hg : ∀ x, r.grad none x = do .ok (s • (← c.grad none x)))
    (h1 : r.mSmooth = scaledSmooth s c.mSmooth) (h2 : r.mCvx = scaledCvx s c.mCvx) : ReportsSound r := by
  obtain ⟨f, g, hf', hg', hs, hc⟩ := h
  refine ⟨fun x => s * f x, fun x => s • g x, fun x => ?_, fun x => ?_, ?_, ?_⟩
  · rw [hf, hf']; rfl
  · rw [hg, hg']; rfl
  · rw [h1]; exact scaled_smooth s hs
  · rw [h2]; exact scaled_convex s hc

mutual
theorem sound_cost (c : Cost σ ι d) (ha : ∀ a ∈ atomsOf c, AtomSound a) (hq : ∀ A ∈ quadsOf c, ClearSign A) : ReportsSound c := by
  cases c with
  | quad s A b k =>
    exact ⟨quadFn A b k, quadGrad A b, fun x => by rw [Cost.fn]; rfl, fun x => by rw [Cost.grad]; rfl,
      C52_quadratic_smooth A b k, C52_quadratic_convex A b k (hq A (by simp [quadsOf]))⟩
  | zero s => exact ⟨fun _ => 0, fun _ => 0, fun x => by rw [Cost.fn], fun x => by rw [Cost.grad], smooth_zero, convex_zero⟩
  | reg r =>
    have := reg_sound r ha
    exact ⟨_, _, fun x => by rw [Cost.fn], fun x => by rw [Cost.grad], this.1, this.2⟩
  | emp a =>
    have := ha a (by simp [atomsOf])
    exact ⟨_, _, fun x => by rw [Cost.fn], fun x => by rw [Cost.grad], this.1, this.2⟩
  | plain a =>
    have := ha a (by simp [atomsOf])
    exact ⟨_, _, fun x => by rw [Cost.fn], fun x => by rw [Cost.grad], this.1, this.2⟩
  | empScaled c s =>
    exact reportsSound_smul (sound_cost c ha hq) (fun x => by rw [Cost.fn]) (fun x => by rw [Cost.grad]) rfl rfl
  | scaled c s =>
    exact reportsSound_smul (sound_cost c ha hq) (fun x => by rw [Cost.fn]) (fun x => by rw [Cost.grad]) rfl rfl
  | empReg e r =>
    obtain ⟨f, g, hf, hg, hs, hc⟩ := sound_cost e (fun a h => ha a (by simp [atomsOf, h])) hq
    have hr := reg_sound r (fun a h => ha a (by simp [atomsOf, h]))
    refine ⟨fun x => f x + r.fn x, fun x => g x + r.grad x, fun x => by rw [Cost.fn, hf]; rfl, fun x => by rw [Cost.grad, hg]; rfl, ?_, ?_⟩
    · have := smooth_add hs (smooth_add hr.1 smooth_zero)
      simp only [Cost.mSmooth, total_eq, List.foldr_cons, List.foldr_nil]
      simpa using this
    · have := convex_add hc (convex_add hr.2 convex_zero)
      simp only [Cost.mCvx, total_eq, List.foldr_cons, List.foldr_nil]
      simpa using this
  | sum c cs =>
    obtain ⟨f, g, hf, hg, hs, hc⟩ := sound_cost c (fun a h => ha a (by simp [atomsOf, h])) (fun A h => hq A (by simp [quadsOf, h]))
    obtain ⟨f', g', hf', hg', hs', hc'⟩ := sound_costs cs (fun a h => ha a (by simp [atomsOf, h])) (fun A h => hq A (by simp [quadsOf, h]))
    refine ⟨fun x => f x + f' x, fun x => g x + g' x, fun x => by rw [Cost.fn, hf, hf']; rfl, fun x => by rw [Cost.grad, hg, hg']; rfl, ?_, ?_⟩
    · simp only [Cost.mSmooth, total_eq, List.foldr_cons]; exact smooth_add hs hs'
    · simp only [Cost.mCvx, total_eq, List.foldr_cons]; exact convex_add hc hc'
theorem sound_costs (cs : List (Cost σ ι d)) (ha : ∀ a ∈ atomsOfs cs, AtomSound a) (hq : ∀ A ∈ quadsOfs cs, ClearSign A) :
    ∃ (f : Vec d → ℝ) (g : Vec d → Vec d), (∀ x, Cost.fnSum none x cs = .ok (f x)) ∧ (∀ x, Cost.gradSum none x cs = .ok (g x)) ∧
      SmoothMeaning f g ((Cost.mSmooths cs).foldr Fl.add (.fin 0)) ∧ ConvexMeaning f g ((Cost.mCvxs cs).foldr Fl.add (.fin 0)) := by
  cases cs with
  | nil => exact ⟨fun _ => 0, fun _ => 0, fun x => by rw [Cost.fnSum], fun x => by rw [Cost.gradSum], smooth_zero, convex_zero⟩
  | cons c cs =>
    obtain ⟨f, g, hf, hg, hs, hc⟩ := sound_cost c (fun a h => ha a (by simp [atomsOfs, h])) (fun A h => hq A (by simp [quadsOfs, h]))
    obtain ⟨f', g', hf', hg', hs', hc'⟩ := sound_costs cs (fun a h => ha a (by simp [atomsOfs, h])) (fun A h => hq A (by simp [quadsOfs, h]))
    refine ⟨fun x => f x + f' x, fun x => g x + g' x, fun x => by rw [Cost.fnSum, hf, hf']; rfl,
      fun x => by rw [Cost.gradSum, hg, hg']; rfl, ?_, ?_⟩
    · simp only [Cost.mSmooths, List.foldr_cons]; exact smooth_add hs hs'
    · simp only [Cost.mCvxs, List.foldr_cons]; exact convex_add hc hc'
end

/-- **C52.** Every composed cost object - any nesting of sums, scalings, composite regularizers and regularised empirical costs -
reports sound smoothness and convexity constants whenever its atoms do (and no quadratic inside it has a negative smallest
eigenvalue of rounding-error size, see `C52_quadratic_tolerance`). -/
theorem C52_composition (c : Cost σ ι d) (ha : ∀ a ∈ atomsOf c, AtomSound a) (hq : ∀ A ∈ quadsOf c, ClearSign A) :
    ∃ (f : Vec d → ℝ) (g : Vec d → Vec d), (∀ x, c.fn none x = .ok (f x)) ∧ (∀ x, c.grad none x = .ok (g x)) ∧
      SmoothMeaning f g c.mSmooth ∧ ConvexMeaning f g c.mCvx := sound_cost c ha hq

/-! ### the atoms of a built cost are those of the expression -/

section build
variable [DecidableEq σ]

theorem atomsOfs_append (l m : List (Cost σ ι d)) : atomsOfs (l ++ m) = atomsOfs l ++ atomsOfs m := by
  induction l with
  | nil => rfl
  | cons c l ih => rw [List.cons_append, atomsOfs, atomsOfs, ih, List.append_assoc]

theorem atomsOfs_items (c : Cost σ ι d) : atomsOfs c.items = atomsOf c := by
  cases c <;> simp only [Cost.items, atomsOfs, List.append_nil]
  rw [atomsOf]

theorem atoms_mkSum {c e r : Cost σ ι d} (h : mkSum c e = .ok r) : atomsOf r = atomsOf c ++ atomsOf e := by
  unfold mkSum at h
  split at h
  · cases h
  · rename_i first rest heq
    obtain ⟨_, h2⟩ := bind_unit h
    cases h2
    rw [← atomsOfs_items c, ← atomsOfs_items e, ← atomsOfs_append, heq, atomsOf, atomsOfs]

theorem atoms_compTerms {s : σ} {rs : List (Reg σ ι d × ℝ)} {ts : List (Atom σ ι d × ℝ)} (h : compTerms s rs = .ok ts) :
    ts.map Prod.fst = rs.flatMap (fun t => regAtoms t.1) := by
  induction rs generalizing ts with
  | nil => rw [compTerms] at h; cases h; rfl
  | cons p rs ih =>
    obtain ⟨r, w⟩ := p
    rw [compTerms] at h
    obtain ⟨_, h2⟩ := bind_unit h
    obtain ⟨ts', h3, h4⟩ := bind_ok h2
    cases h4
    rw [List.map_append, ih h3, List.flatMap_cons]
    congr 1
    cases r <;> simp [Reg.terms, regAtoms]

theorem atoms_mkComp {rs : List (Reg σ ι d × ℝ)} {r : Reg σ ι d} (h : mkComp rs = .ok r) :
    regAtoms r = rs.flatMap (fun t => regAtoms t.1) := by
  cases rs with
  | nil => cases h
  | cons p rs =>
    obtain ⟨q, w⟩ := p
    rw [mkComp] at h
    obtain ⟨ts, h3, h4⟩ := bind_ok h
    cases h4
    rw [regAtoms, atoms_compTerms h3]

theorem atoms_regAdd {r q u : Reg σ ι d} (h : r.add q = .ok u) : regAtoms u = regAtoms r ++ regAtoms q := by
  unfold Reg.add at h
  obtain ⟨_, h2⟩ := bind_unit h
  rw [atoms_mkComp h2]
  simp

theorem atoms_mkEmpReg {e r : Cost σ ι d} {q : Reg σ ι d} (h : mkEmpReg e q = .ok r) : atomsOf r = atomsOf e ++ regAtoms q := by
  unfold mkEmpReg at h
  obtain ⟨_, h2⟩ := bind_unit h
  cases h2
  rw [atomsOf]

theorem atoms_add {c e r : Cost σ ι d} (h : c.add e = .ok r) : atomsOf r = atomsOf c ++ atomsOf e := by
  unfold Cost.add at h
  split at h
  · obtain ⟨_, h2⟩ := bind_unit h
    cases h2; rfl
  · obtain ⟨_, h2⟩ := bind_unit h
    cases h2; rfl
  · obtain ⟨_, h2⟩ := bind_unit h
    cases h2; rw [atomsOf.eq_2, List.nil_append]
  · obtain ⟨u, h3, h4⟩ := bind_ok h
    cases h4
    simp only [atomsOf, atoms_regAdd h3]
  · obtain ⟨_, h2⟩ := bind_unit h
    rw [atoms_mkEmpReg h2]; simp only [atomsOf]
  · obtain ⟨_, h2⟩ := bind_unit h
    rw [atoms_mkEmpReg h2]; simp only [atomsOf]
  · obtain ⟨u, h3, h4⟩ := bind_ok h
    rw [atoms_mkEmpReg h4, atoms_regAdd h3]; simp only [atomsOf, List.append_assoc]
  · exact atoms_mkSum h
  · obtain ⟨_, h2⟩ := bind_unit h
    exact atoms_mkSum h2

theorem atoms_mulReal {s : ℝ} {c r : Cost σ ι d} (h : c.mulReal s = .ok r) : atomsOf r = atomsOf c := by
  unfold Cost.mulReal at h
  split at h
  · obtain ⟨u, h3, h4⟩ := bind_ok h
    cases h4
    simp only [atomsOf, atoms_mkComp h3]
    simp
  · cases h; simp only [mkEmpScaled, atomsOf]
  · cases h; simp only [mkEmpScaled, atomsOf]
  · cases h; simp only [mkEmpScaled, atomsOf]
  · cases h
    unfold mkScaled
    split <;> simp only [atomsOf]

theorem atoms_sub {c e r : Cost σ ι d} (h : c.sub e = .ok r) : atomsOf r = atomsOf c ++ atomsOf e := by
  unfold Cost.sub at h
  obtain ⟨_, h2⟩ := bind_unit h
  split at h2
  · rw [atoms_add h2]; rfl
  · obtain ⟨u, h3, h4⟩ := bind_ok h2
    cases h4
    simp only [atomsOf, atoms_mkComp h3]
    simp
  · obtain ⟨u, h3, h4⟩ := bind_ok h2
    rw [atoms_add h4, atoms_mulReal h3]

/-- the atoms of a leaf -/
def leafAtoms : Leaf σ ι d → List (Atom σ ι d)
  | .quadratic _ _ _ _ => []
  | .zero _ => []
  | .regularizer a => [a]
  | .empirical a => [a]
  | .other a => [a]

theorem atoms_build (e : CostExpr σ ι d) (c : Cost σ ι d) (h : e.build = .ok c) : atomsOf c = e.leaves.flatMap leafAtoms := by
  induction e generalizing c with
  | leaf l =>
    rw [CostExpr.build] at h; cases h
    cases l <;> simp [Leaf.cost, atomsOf, CostExpr.leaves, leafAtoms, regAtoms]
  | add e f ihe ihf =>
    rw [CostExpr.build] at h
    obtain ⟨a, ha, h⟩ := bind_ok h
    obtain ⟨b, hb, h⟩ := bind_ok h
    rw [atoms_add h, ihe a ha, ihf b hb, CostExpr.leaves, List.flatMap_append]
  | sub e f ihe ihf =>
    rw [CostExpr.build] at h
    obtain ⟨a, ha, h⟩ := bind_ok h
    obtain ⟨b, hb, h⟩ := bind_ok h
    rw [atoms_sub h, ihe a ha, ihf b hb, CostExpr.leaves, List.flatMap_append]
  | neg e ihe =>
    rw [CostExpr.build] at h
    obtain ⟨a, ha, h⟩ := bind_ok h
    rw [atoms_mulReal h, ihe a ha, CostExpr.leaves]
  | mul e s ihe =>
    rw [CostExpr.build] at h
    obtain ⟨a, ha, h⟩ := bind_ok h
    cases s with
    | real r => rw [atoms_mulReal h, ihe a ha, CostExpr.leaves]
    | _ => cases h
  | div e s ihe =>
    rw [CostExpr.build] at h
    obtain ⟨a, ha, h⟩ := bind_ok h
    cases s with
    | real r =>
      rw [Cost.div] at h
      split at h
      · cases h
      · rw [atoms_mulReal h, ihe a ha, CostExpr.leaves]
    | _ => cases h

/-- **C52.** The same for expressions: the constants of the result are sound for the combined function of the expression, if the
constants of the leaves are. -/
theorem C52_expression (e : CostExpr σ ι d) (c : Cost σ ι d) (h : e.build = .ok c)
    (ha : ∀ l ∈ e.leaves, ∀ a ∈ leafAtoms l, AtomSound a) (hq : ∀ A ∈ quadsOf c, ClearSign A) :
    SmoothMeaning (fun x => combine (leafValue none x) e) (fun x => combine (leafGradient none x) e) c.mSmooth ∧
    ConvexMeaning (fun x => combine (leafValue none x) e) (fun x => combine (leafGradient none x) e) c.mCvx := by
  obtain ⟨f, g, hf, hg, hs, hc⟩ := sound_cost c (fun a hmem => by
    rw [atoms_build e c h, List.mem_flatMap] at hmem
    obtain ⟨l, hl, hal⟩ := hmem
    exact ha l hl a hal) hq
  have ef : f = fun x => combine (leafValue none x) e := by
    funext x
    have := hf x
    rw [(C51_value e c h x).1] at this
    injection this with this
    exact this.symm
  have eg : g = fun x => combine (leafGradient none x) e := by
    funext x
    have := hg x
    rw [(C51_gradient e c h x).1] at this
    injection this with this
    exact this.symm
  subst ef eg
  exact ⟨hs, hc⟩

/-- the library's L2 regularizer as an atom -/
noncomputable def l2Atom (d : Nat) : Atom Nat Unit d :=
  ⟨d, fun _ x => l2Fn x, fun _ x => l2Grad x, fun _ _ => [], fun _ _ => 1, .fin 1, .fin 1, l2Prox⟩

theorem l2Atom_sound (d : Nat) : AtomSound (l2Atom d) := ⟨C52_l2_smooth, C52_l2_convex⟩

/-- **C52 (the constants are bounds, not optimal).** `L2 - L2` is the zero function, but reports `m_smooth = 2` and an unknown
`m_cvx`. -/
theorem C52_not_tight : ∃ c, (CostExpr.sub (.leaf (.regularizer (l2Atom d))) (.leaf (.regularizer (l2Atom d)))).build = .ok c ∧
    (∀ x, c.fn none x = .ok 0) ∧ c.mSmooth = .fin 2 ∧ c.mCvx = .nan := by
  refine ⟨.reg (.comp d [(l2Atom d, 1), (l2Atom d, -1)]), ?_, ?_, ?_, ?_⟩
  · simp only [CostExpr.build, Leaf.cost]
    change Cost.sub (.reg (.one (l2Atom d))) (.reg (.one (l2Atom d))) = _
    rw [Cost.sub, validate_self]
    change (do .ok (.reg (← mkComp [(Reg.one (l2Atom d), (1 : ℝ)), (Reg.one (l2Atom d), -1)])) : Py (Cost Nat Unit d)) = _
    rw [mkComp, compTerms, compTerms, validate_self]
    rfl
  · intro x; rw [Cost.fn]; simp [Reg.fn]
  · simp only [Cost.mSmooth, Reg.mSmooth, total_eq, List.map_cons, List.map_nil, List.foldr_cons, List.foldr_nil, l2Atom, Fl.smul, Fl.add]
    norm_num
  · simp [Cost.mCvx, Reg.mCvx]

end build

/-! ### C53: proximals of wrappers -/

theorem isProx_scale {f : Vec d → ℝ} {x z : Vec d} {ρ s : ℝ} (hρ : 0 < ρ) (hs : 0 < s) (h : IsProx f x (ρ * s) z) :
    IsProx (fun y => s * f y) x ρ z := by
  intro y hy
  have h1 := mul_lt_mul_of_pos_left (h y hy) hs
  have e : ∀ w : Vec d, s * (f w + ‖w - x‖ ^ 2 / (2 * (ρ * s))) = s * f w + ‖w - x‖ ^ 2 / (2 * ρ) := by
    intro w; field_simp
  rw [e, e] at h1
  exact h1

theorem isProx_zero (x : Vec d) {ρ : ℝ} (hρ : 0 < ρ) : IsProx (fun _ => (0 : ℝ)) x ρ x :=
  isProx_of_subgrad hρ (fun y => by simp)

/-- the proximal of an atom is exact wherever it returns -/
def AtomProxExact (a : Atom σ ι d) : Prop := ∀ x ρ z, 0 < ρ → a.prox x ρ = .ok z → IsProx (a.fn none) x ρ z

theorem reg_prox (r : Reg σ ι d) (ha : ∀ a ∈ regAtoms r, AtomProxExact a) (x : Vec d) (ρ : ℝ) (z : Vec d) (hρ : 0 < ρ)
    (h : r.prox x ρ = .ok z) : IsProx (fun y => r.fn y) x ρ z := by
  cases r with
  | one a => exact ha a (by simp [regAtoms]) x ρ z hρ h
  | comp s ts =>
    rw [Reg.prox, if_neg (not_le.2 hρ)] at h
    unfold compProx at h
    split at h
    · rename_i t
      split at h
      · rename_i hw
        have := isProx_scale hρ hw (ha t.1 (by simp [regAtoms]) x (ρ * t.2) z (mul_pos hρ hw) h)
        simpa [Reg.fn] using this
      · cases h
    · cases h

/-- **C53.** `proximal` of any cost object that is not a sum: whenever it returns a point, the point is the unique minimiser of the
proximal objective of the cost's own value function - scalings rescale the penalty, composites of one positive term likewise,
zero costs and zero scalings return `x`.  Quadratics must be convex. -/
theorem C53_wrappers (solver : Cost σ ι d → Vec d → ℝ → Py (Vec d)) (c : Cost σ ι d)
    (hns : ∀ k ks, solver (.sum k ks) = fun _ _ => .error .notImplemented)
    (ha : ∀ a ∈ atomsOf c, AtomProxExact a) (hq : ∀ A ∈ quadsOf c, ∀ v, 0 ≤ dot v (app A v))
    (x z : Vec d) (ρ : ℝ) (hρ : 0 < ρ) (h : c.prox solver x ρ = .ok z) :
    ∃ f : Vec d → ℝ, (∀ y, c.fn none y = .ok (f y)) ∧ IsProx f x ρ z := by
  have hsc : ∀ (c' : Cost σ ι d) (s : ℝ) (r : Cost σ ι d),
      (∀ ρ, 0 < ρ → ∀ z, c'.prox solver x ρ = .ok z → ∃ f : Vec d → ℝ, (∀ y, c'.fn none y = .ok (f y)) ∧ IsProx f x ρ z) →
      (∀ y, ∃ v, c'.fn none y = .ok v) →
      (∀ y, r.fn none y = do .ok (s * (← c'.fn none y))) →
      ∀ ρ, 0 < ρ → ∀ z, ((open Classical in if ρ ≤ 0 then .error .valueError else if s < 0 then .error .valueError else if s = 0 then .ok x
        else c'.prox solver x (ρ * s)) : Py (Vec d)) = .ok z → ∃ f : Vec d → ℝ, (∀ y, r.fn none y = .ok (f y)) ∧ IsProx f x ρ z := by
    intro c' s r ih hval hr ρ hρ z h
    rw [if_neg (not_le.2 hρ)] at h
    split at h
    · cases h
    · rename_i hneg
      split at h
      · rename_i h0
        cases h
        subst h0
        refine ⟨fun _ => 0, fun y => ?_, isProx_zero _ hρ⟩
        obtain ⟨v, hv⟩ := hval y
        rw [hr, hv]
        change Except.ok (0 * v) = _
        rw [zero_mul]
      · rename_i h0
        have hs : 0 < s := lt_of_le_of_ne (not_lt.1 hneg) (Ne.symm h0)
        obtain ⟨f, hf, hp⟩ := ih (ρ * s) (mul_pos hρ hs) z h
        exact ⟨fun y => s * f y, fun y => by rw [hr, hf]; rfl, isProx_scale hρ hs hp⟩
  have hval : ∀ (c' : Cost σ ι d) (y : Vec d), ∃ v, c'.fn none y = .ok v := by
    intro c' y
    rw [Cost.fn_eq]
    have : ∀ c' : Cost σ ι d, ∃ v, c'.ev (fnEv none y) = some v := by
      intro c'
      refine Cost.rec (motive_1 := fun c => ∃ v, c.ev (fnEv none y) = some v)
        (motive_2 := fun l => ∃ v, Cost.evs (fnEv none y) l = some v) ?_ ?_ ?_ ?_ ?_ ?_ ?_ ?_ ?_ ?_ ?_ c'
      · intro s A b k; exact ⟨quadFn A b k y, rfl⟩
      · intro s; exact ⟨0, rfl⟩
      · intro r; exact ⟨_, by rw [Cost.ev]⟩
      · intro a; exact ⟨_, by rw [Cost.ev]⟩
      · rintro c s ⟨v, hv⟩; exact ⟨s • v, by rw [Cost.ev, hv]; rfl⟩
      · rintro c r ⟨v, hv⟩; exact ⟨_, by rw [Cost.ev, hv]; rfl⟩
      · intro a; exact ⟨_, by rw [Cost.ev]⟩
      · rintro c s ⟨v, hv⟩; exact ⟨s • v, by rw [Cost.ev, hv]; rfl⟩
      · rintro c cs ⟨v, hv⟩ ⟨w, hw⟩; exact ⟨v + w, by rw [Cost.ev, hv, hw]; rfl⟩
      · exact ⟨0, by rw [Cost.evs]⟩
      · rintro c cs ⟨v, hv⟩ ⟨w, hw⟩; exact ⟨v + w, by rw [Cost.evs, hv, hw]; rfl⟩
    obtain ⟨v, hv⟩ := this c'
    exact ⟨v, by rw [hv]; rfl⟩
  induction c using Cost.rec (motive_2 := fun _ => True) generalizing ρ z with
  | quad s A b k =>
    rw [Cost.prox] at h
    obtain ⟨w, hw, hp⟩ := C53_quadratic A b k (hq A (by simp [quadsOf])) x ρ hρ
    rw [hw] at h
    cases h
    exact ⟨_, fun y => by rw [Cost.fn]; rfl, hp⟩
  | zero s =>
    rw [Cost.prox, if_neg (not_le.2 hρ)] at h
    cases h
    exact ⟨fun _ => 0, fun y => by rw [Cost.fn], isProx_zero _ hρ⟩
  | reg r =>
    rw [Cost.prox] at h
    exact ⟨fun y => r.fn y, fun y => by rw [Cost.fn], reg_prox r ha x ρ z hρ h⟩
  | emp a =>
    rw [Cost.prox] at h
    exact ⟨_, fun y => by rw [Cost.fn], ha a (by simp [atomsOf]) x ρ z hρ h⟩
  | plain a =>
    rw [Cost.prox] at h
    exact ⟨_, fun y => by rw [Cost.fn], ha a (by simp [atomsOf]) x ρ z hρ h⟩
  | empScaled c s ih =>
    rw [Cost.prox] at h
    exact hsc c s (.empScaled c s) (fun ρ hρ z h => ih ha hq z ρ hρ h) (hval c) (fun y => by rw [Cost.fn]) ρ hρ z h
  | scaled c s ih =>
    rw [Cost.prox] at h
    exact hsc c s (.scaled c s) (fun ρ hρ z h => ih ha hq z ρ hρ h) (hval c) (fun y => by rw [Cost.fn]) ρ hρ z h
  | empReg e r ih => rw [Cost.prox] at h; cases h
  | sum c cs => rw [Cost.prox, hns] at h; cases h
  | nil => trivial
  | cons => trivial

/-- **C53.** The wrappers reject what has no proximal: non-positive penalties and negative scalings (ValueError), regularised
empirical costs, sums of regularizers and non-positive composites (NotImplementedError). -/
theorem C53_wrappers_reject (solver : Cost σ ι d → Vec d → ℝ → Py (Vec d)) (c : Cost σ ι d) (r : Reg σ ι d) (sg : σ)
    (ts : List (Atom σ ι d × ℝ)) (x : Vec d) (ρ s : ℝ) :
    (ρ ≤ 0 ∨ s < 0 → (Cost.scaled c s).prox solver x ρ = .error .valueError ∧ (Cost.empScaled c s).prox solver x ρ = .error .valueError) ∧
    (ρ ≤ 0 → (Cost.zero sg : Cost σ ι d).prox solver x ρ = .error .valueError ∧
      (Cost.reg (.comp sg ts)).prox solver x ρ = .error .valueError) ∧
    (Cost.empReg c r).prox solver x ρ = .error .notImplemented ∧
    (0 < ρ → (ts.length ≠ 1 ∨ ∃ t ∈ ts, t.2 ≤ 0) → (Cost.reg (.comp sg ts)).prox solver x ρ = .error .notImplemented) := by
  refine ⟨?_, ?_, by rw [Cost.prox], ?_⟩
  · rintro (h | h)
    · rw [Cost.prox, Cost.prox, if_pos h]; exact ⟨rfl, rfl⟩
    · rw [Cost.prox, Cost.prox, if_pos h]; simp
  · intro h
    rw [Cost.prox, Cost.prox, Reg.prox, if_pos h, if_pos h]; exact ⟨rfl, rfl⟩
  · intro hρ h
    rw [Cost.prox, Reg.prox, if_neg (not_le.2 hρ)]
    match ts, h with
    | [], _ => rfl
    | [t], h =>
      have ht : t.2 ≤ 0 := by
        rcases h with h | ⟨u, hu, h⟩
        · simp at h
        · simp only [List.mem_singleton] at hu; subst hu; exact h
      exact if_neg (not_lt.2 ht)
    | t :: u :: ts, _ => rfl

/-- the hypotheses of `C53_wrappers` are met by `L2 / 2` -/
example (x : Vec 2) : ∃ z, (Cost.reg (.comp 2 [(l2Atom 2, 1 / 2)]) : Cost Nat Unit 2).prox (fun _ _ _ => .error .notImplemented) x 3 = .ok z ∧
    AtomProxExact (l2Atom 2) := by
  obtain ⟨z, hz, _⟩ := C53_l2 x (3 * (1 / 2)) (by norm_num)
  refine ⟨z, ?_, ?_⟩
  · rw [Cost.prox, Reg.prox, if_neg (by norm_num)]
    rw [compProx, if_pos (by norm_num)]
    exact hz
  · intro y ρ w hρ h
    obtain ⟨w', hw', hp⟩ := C53_l2 y ρ hρ
    have h2 : l2Prox y ρ = .ok w := h
    rw [hw'] at h2
    cases h2
    exact hp

end Verif.Props
