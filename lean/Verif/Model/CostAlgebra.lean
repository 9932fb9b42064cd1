import Verif.Model.Costs
/-!
# Cost arithmetic (decent_bench/costs: operators and wrapper classes)

`σ` is the signature compared by `_validate_cost_operation`: shape, framework and device.  `ι` is what a caller may pass as
`indices=`.  Points are vectors of `ℝ^d`; operators refuse operands of different shape, so all costs of one expression share `d`.
Scalars are real numbers (no NaN or infinite scalars).
-/
namespace Verif
namespace CostAlg
open Costs

/-- a cost object with its own `function`, `gradient`, ... as seen by the wrappers.  The first argument of the evaluation functions
is the `indices=` keyword: `none` when it is not passed (an empirical cost then uses "batch"; the model takes a cost whose batch is
the whole data set, so that a call is deterministic). -/
structure Atom (σ ι : Type) (d : Nat) where
  sig : σ
  fn : Option ι → Vec d → ℝ
  grad : Option ι → Vec d → Vec d
  perSample : Option ι → Vec d → List (Vec d)
  hess : Option ι → Vec d → Mat d
  mSmooth : Fl
  mCvx : Fl
  prox : Vec d → ℝ → Py (Vec d)

/-- BaseRegularizerCost objects (_regularizer_costs.py 22-110): one of the concrete classes, or a `_CompositeRegularizerCost`
(113-145), whose `_terms` hold only concrete regularizers -/
inductive Reg (σ ι : Type) (d : Nat) where
  | one (a : Atom σ ι d)
  | comp (sig : σ) (terms : List (Atom σ ι d × ℝ))

/-- Cost objects, by class: QuadraticCost, ZeroCost, BaseRegularizerCost, a concrete EmpiricalRiskCost, _EmpiricalScaledCost,
EmpiricalRegularizedCost, any other Cost subclass that does not override the operators, ScaledCost, SumCost (never empty) -/
inductive Cost (σ ι : Type) (d : Nat) where
  | quad (sig : σ) (A : Mat d) (b : Vec d) (c : ℝ)
  | zero (sig : σ)
  | reg (r : Reg σ ι d)
  | emp (a : Atom σ ι d)
  | empScaled (cost : Cost σ ι d) (scalar : ℝ)
  | empReg (empirical : Cost σ ι d) (regularizer : Reg σ ι d)
  | plain (a : Atom σ ι d)
  | scaled (cost : Cost σ ι d) (scalar : ℝ)
  | sum (first : Cost σ ι d) (rest : List (Cost σ ι d))

variable {σ ι : Type} {d : Nat}

/-- `shape`, `framework`, `device` of a regularizer (49-59, 128) -/
def Reg.sig : Reg σ ι d → σ
  | .one a => a.sig
  | .comp s _ => s

/-- `shape`, `framework`, `device` (_sum_cost.py 42-52, _scaled_cost.py 36-46, _empirical_scaled_cost.py 42-52,
_empirical_regularized_cost.py 43-53) -/
def Cost.sig : Cost σ ι d → σ
  | .quad s _ _ _ => s
  | .zero s => s
  | .reg r => r.sig
  | .emp a => a.sig
  | .empScaled c _ => c.sig
  | .empReg e _ => e.sig
  | .plain a => a.sig
  | .scaled c _ => c.sig
  | .sum c _ => c.sig

/-! ### evaluation -/

/-- `function` of a regularizer (composite: _regularizer_costs.py 159-160); concrete regularizers ignore keyword arguments -/
def Reg.fn (x : Vec d) : Reg σ ι d → ℝ
  | .one a => a.fn none x
  | .comp _ ts => (ts.map (fun t => t.2 * t.1.fn none x)).sum

/-- `gradient` of a regularizer (composite: 162-166) -/
noncomputable def Reg.grad (x : Vec d) : Reg σ ι d → Vec d
  | .one a => a.grad none x
  | .comp _ ts => (ts.map (fun t => t.2 • t.1.grad none x)).sum

/-- `hessian` of a regularizer (composite: 168-172) -/
noncomputable def Reg.hess (x : Vec d) : Reg σ ι d → Mat d
  | .one a => a.hess none x
  | .comp _ ts => (ts.map (fun t => t.2 • t.1.hess none x)).sum

mutual
/-- `function(x, **kwargs)`.  QuadraticCost takes no keyword argument (_quadratic_cost.py 97-104); EmpiricalRegularizedCost does not
forward them to the regularizer (85-86); SumCost 88-90; ScaledCost 62-63; _EmpiricalScaledCost 88-89; ZeroCost 56-58. -/
noncomputable def Cost.fn (kw : Option ι) (x : Vec d) : Cost σ ι d → Py ℝ
  | .quad _ A b c => if kw.isSome then .error .typeError else .ok (quadFn A b c x)
  | .zero _ => .ok 0
  | .reg r => .ok (r.fn x)
  | .emp a => .ok (a.fn kw x)
  | .empScaled c s => do .ok (s * (← c.fn kw x))
  | .empReg e r => do .ok ((← e.fn kw x) + r.fn x)
  | .plain a => .ok (a.fn kw x)
  | .scaled c s => do .ok (s * (← c.fn kw x))
  | .sum c cs => do .ok ((← c.fn kw x) + (← Cost.fnSum kw x cs))
/-- the generator summed by SumCost.function -/
noncomputable def Cost.fnSum (kw : Option ι) (x : Vec d) : List (Cost σ ι d) → Py ℝ
  | [] => .ok 0
  | c :: cs => do .ok ((← c.fn kw x) + (← Cost.fnSum kw x cs))
end

mutual
/-- `gradient(x, **kwargs)`: SumCost 92-94; ScaledCost 65-66; _EmpiricalScaledCost 91-98; EmpiricalRegularizedCost 88-113 with
`reduction="mean"`; ZeroCost 60-62 -/
noncomputable def Cost.grad (kw : Option ι) (x : Vec d) : Cost σ ι d → Py (Vec d)
  | .quad _ A b _ => if kw.isSome then .error .typeError else .ok (quadGrad A b x)
  | .zero _ => .ok 0
  | .reg r => .ok (r.grad x)
  | .emp a => .ok (a.grad kw x)
  | .empScaled c s => do .ok (s • (← c.grad kw x))
  | .empReg e r => do .ok ((← e.grad kw x) + r.grad x)
  | .plain a => .ok (a.grad kw x)
  | .scaled c s => do .ok (s • (← c.grad kw x))
  | .sum c cs => do .ok ((← c.grad kw x) + (← Cost.gradSum kw x cs))
/-- the stacked gradients summed by SumCost.gradient -/
noncomputable def Cost.gradSum (kw : Option ι) (x : Vec d) : List (Cost σ ι d) → Py (Vec d)
  | [] => .ok 0
  | c :: cs => do .ok ((← c.grad kw x) + (← Cost.gradSum kw x cs))
end

mutual
/-- `hessian(x, **kwargs)`: SumCost 96-98; ScaledCost 68-69; _EmpiricalScaledCost 100-101; EmpiricalRegularizedCost 115-116;
ZeroCost 64-66 -/
noncomputable def Cost.hess (kw : Option ι) (x : Vec d) : Cost σ ι d → Py (Mat d)
  | .quad _ A _ _ => if kw.isSome then .error .typeError else .ok (quadHess A)
  | .zero _ => .ok 0
  | .reg r => .ok (r.hess x)
  | .emp a => .ok (a.hess kw x)
  | .empScaled c s => do .ok (s • (← c.hess kw x))
  | .empReg e r => do .ok ((← e.hess kw x) + r.hess x)
  | .plain a => .ok (a.hess kw x)
  | .scaled c s => do .ok (s • (← c.hess kw x))
  | .sum c cs => do .ok ((← c.hess kw x) + (← Cost.hessSum kw x cs))
/-- the stacked Hessians summed by SumCost.hessian -/
noncomputable def Cost.hessSum (kw : Option ι) (x : Vec d) : List (Cost σ ι d) → Py (Mat d)
  | [] => .ok 0
  | c :: cs => do .ok ((← c.hess kw x) + (← Cost.hessSum kw x cs))
end

/-- `gradient(x, reduction=None)` of an empirical cost: one row per sample (_EmpiricalScaledCost 91-98,
EmpiricalRegularizedCost 107-111); other classes do not accept `reduction` (TypeError) -/
noncomputable def Cost.perSample (kw : Option ι) (x : Vec d) : Cost σ ι d → Py (List (Vec d))
  | .emp a => .ok (a.perSample kw x)
  | .empScaled c s => do .ok ((← c.perSample kw x).map (fun v => s • v))
  | .empReg e r => do .ok ((← e.perSample kw x).map (fun v => v + r.grad x))
  | _ => .error .typeError

/-! ### constants -/

/-- float addition -/
noncomputable def Fl.add : Fl → Fl → Fl
  | .nan, _ => .nan
  | _, .nan => .nan
  | .inf, _ => .inf
  | _, .inf => .inf
  | .fin a, .fin b => .fin (a + b)

/-- multiplication of a float by a number `s ≥ 0` (`0 * inf` is NaN) -/
noncomputable def Fl.smul (s : ℝ) : Fl → Fl
  | .nan => .nan
  | .inf => open Classical in if s = 0 then .nan else .inf
  | .fin a => .fin (s * a)

/-- `np.isnan` -/
def Fl.isNan : Fl → Bool
  | .nan => true
  | _ => false

/-- `np.nan if any(np.isnan(v) for v in vals) else sum(vals)` -/
noncomputable def Fl.total (vals : List Fl) : Fl :=
  if vals.any Fl.isNan then .nan else vals.foldr Fl.add (.fin 0)

/-- `m_smooth` of a regularizer (composite: _regularizer_costs.py 147-150) -/
noncomputable def Reg.mSmooth : Reg σ ι d → Fl
  | .one a => a.mSmooth
  | .comp _ ts => Fl.total (ts.map (fun t => Fl.smul |t.2| t.1.mSmooth))

/-- `m_cvx` of a regularizer (composite: 152-157) -/
noncomputable def Reg.mCvx : Reg σ ι d → Fl
  | .one a => a.mCvx
  | .comp _ ts =>
    open Classical in
    if ts.any (fun t => decide (t.2 < 0)) then .nan else Fl.total (ts.map (fun t => Fl.smul t.2 t.1.mCvx))

/-- `m_smooth` of ScaledCost (48-52) and _EmpiricalScaledCost (70-74) -/
noncomputable def scaledSmooth (s : ℝ) (m : Fl) : Fl :=
  open Classical in
  if s = 0 then .fin 0 else Fl.smul |s| m

/-- `m_cvx` of ScaledCost (54-60) and _EmpiricalScaledCost (76-82) -/
noncomputable def scaledCvx (s : ℝ) (m : Fl) : Fl :=
  open Classical in
  if s > 0 then Fl.smul s m else if s = 0 then .fin 0 else .nan

mutual
/-- `m_smooth`: SumCost 54-69, EmpiricalRegularizedCost 71-74, ZeroCost 44-46 -/
noncomputable def Cost.mSmooth : Cost σ ι d → Fl
  | .quad _ A _ _ => .fin (quadSmooth A)
  | .zero _ => .fin 0
  | .reg r => r.mSmooth
  | .emp a => a.mSmooth
  | .empScaled c s => scaledSmooth s c.mSmooth
  | .empReg e r => Fl.total [e.mSmooth, r.mSmooth]
  | .plain a => a.mSmooth
  | .scaled c s => scaledSmooth s c.mSmooth
  | .sum c cs => Fl.total (c.mSmooth :: Cost.mSmooths cs)
/-- the list comprehension of SumCost.m_smooth (68) -/
noncomputable def Cost.mSmooths : List (Cost σ ι d) → List Fl
  | [] => []
  | c :: cs => c.mSmooth :: Cost.mSmooths cs
end

mutual
/-- `m_cvx`: SumCost 71-86, EmpiricalRegularizedCost 76-79, ZeroCost 48-50 -/
noncomputable def Cost.mCvx : Cost σ ι d → Fl
  | .quad _ A _ _ => quadCvx A
  | .zero _ => .fin 0
  | .reg r => r.mCvx
  | .emp a => a.mCvx
  | .empScaled c s => scaledCvx s c.mCvx
  | .empReg e r => Fl.total [e.mCvx, r.mCvx]
  | .plain a => a.mCvx
  | .scaled c s => scaledCvx s c.mCvx
  | .sum c cs => Fl.total (c.mCvx :: Cost.mCvxs cs)
/-- the list comprehension of SumCost.m_cvx (85) -/
noncomputable def Cost.mCvxs : List (Cost σ ι d) → List Fl
  | [] => []
  | c :: cs => c.mCvx :: Cost.mCvxs cs
end

/-! ### proximal -/

/-- the single-term case of a composite's `proximal` (_regularizer_costs.py 182-196): exactly one term with a positive weight -/
noncomputable def compProx (x : Vec d) (penalty : ℝ) (ts : List (Atom σ ι d × ℝ)) : Py (Vec d) :=
  match ts with
  | [t] => open Classical in if 0 < t.2 then t.1.prox x (penalty * t.2) else .error .notImplemented
  | _ => .error .notImplemented

/-- `proximal` of a regularizer (composite: _regularizer_costs.py 174-196) -/
noncomputable def Reg.prox (x : Vec d) (penalty : ℝ) : Reg σ ι d → Py (Vec d)
  | .one a => a.prox x penalty
  | .comp _ ts => open Classical in if penalty ≤ 0 then .error .valueError else compProx x penalty ts

/-- `proximal(x, penalty)`: ScaledCost 71-78, _EmpiricalScaledCost 103-110, EmpiricalRegularizedCost 118-133, ZeroCost 68-82,
QuadraticCost 125-142.  `solver` is `ca.proximal_solver`, used by SumCost (100-119). -/
noncomputable def Cost.prox (solver : Cost σ ι d → Vec d → ℝ → Py (Vec d)) (x : Vec d) (penalty : ℝ) : Cost σ ι d → Py (Vec d)
  | .quad _ A b _ =>
    match quadProx A b x penalty with
    | some z => .ok z
    | none => .error .linAlgError
  | .zero _ => open Classical in if penalty ≤ 0 then .error .valueError else .ok x
  | .reg r => r.prox x penalty
  | .emp a => a.prox x penalty
  | .empScaled c s =>
    open Classical in
    if penalty ≤ 0 then .error .valueError else if s < 0 then .error .valueError else if s = 0 then .ok x
    else c.prox solver x (penalty * s)
  | .empReg _ _ => .error .notImplemented
  | .plain a => a.prox x penalty
  | .scaled c s =>
    open Classical in
    if penalty ≤ 0 then .error .valueError else if s < 0 then .error .valueError else if s = 0 then .ok x
    else c.prox solver x (penalty * s)
  | .sum c cs => solver (.sum c cs) x penalty

/-! ### operators -/

section ops
variable [DecidableEq σ]

/-- `_validate_cost_operation` between two costs (_cost.py 16-39) -/
def validate (s t : σ) : Py Unit := if s = t then .ok () else .error .valueError

/-- the objects a SumCost takes over from one summand (_sum_cost.py 31-36) -/
def Cost.items : Cost σ ι d → List (Cost σ ι d)
  | .sum c cs => c :: cs
  | c => [c]

/-- validation loop of SumCost (38-40) -/
def validateAll (s : σ) : List (Cost σ ι d) → Py Unit
  | [] => .ok ()
  | c :: cs => do validate s c.sig; validateAll s cs

/-- SumCost([self, other]) (27-40) -/
def mkSum (self other : Cost σ ι d) : Py (Cost σ ι d) :=
  match self.items ++ other.items with
  | [] => .error .valueError
  | first :: rest => do
    validateAll first.sig rest
    .ok (.sum first rest)

/-- the `_terms` of a regularizer inside a composite, with weight `w` (_regularizer_costs.py 141-145) -/
noncomputable def Reg.terms (w : ℝ) : Reg σ ι d → List (Atom σ ι d × ℝ)
  | .one a => [(a, w)]
  | .comp _ ts => ts.map (fun t => (t.1, w * t.2))

/-- the loop of `_CompositeRegularizerCost.__init__` (137-145) -/
noncomputable def compTerms (s : σ) : List (Reg σ ι d × ℝ) → Py (List (Atom σ ι d × ℝ))
  | [] => .ok []
  | (r, w) :: rs => do
    validate s r.sig
    .ok (r.terms w ++ (← compTerms s rs))

/-- `_CompositeRegularizerCost(regularizers, weights)` (125-145) -/
noncomputable def mkComp : List (Reg σ ι d × ℝ) → Py (Reg σ ι d)
  | [] => .error .valueError
  | (r, w) :: rs => do .ok (.comp r.sig (← compTerms r.sig ((r, w) :: rs)))

/-- `BaseRegularizerCost.__add__` for two regularizers (67-72) -/
noncomputable def Reg.add (r q : Reg σ ι d) : Py (Reg σ ι d) := do
  validate r.sig q.sig
  mkComp [(r, 1), (q, 1)]

/-- ScaledCost(cost, scalar) (26-34) -/
noncomputable def mkScaled (s : ℝ) : Cost σ ι d → Cost σ ι d
  | .scaled c t => .scaled c (s * t)
  | c => .scaled c s

/-- _EmpiricalScaledCost(cost, scalar) (32-40) -/
noncomputable def mkEmpScaled (s : ℝ) : Cost σ ι d → Cost σ ι d
  | .empScaled c t => .empScaled c (s * t)
  | c => .empScaled c s

/-- EmpiricalRegularizedCost(empirical_cost, regularizer) (37-41) -/
def mkEmpReg (e : Cost σ ι d) (r : Reg σ ι d) : Py (Cost σ ι d) := do
  validate e.sig r.sig
  .ok (.empReg e r)

/-- `self + other`: Cost.__add__ (_cost.py 157-171), QuadraticCost 144-154, ZeroCost 84-90, BaseRegularizerCost 67-72,
EmpiricalRiskCost 132-143, EmpiricalRegularizedCost 141-144, ScaledCost 80-82, SumCost 121-123 -/
noncomputable def Cost.add (self other : Cost σ ι d) : Py (Cost σ ι d) :=
  match self, other with
  | .quad s A b c, .quad s' A' b' c' => do
    validate s s'
    .ok (.quad s (A + A') (b + b') (c + c'))
  | .zero s, .zero s' => do
    validate s s'
    .ok (.zero s)
  | .zero s, o => do
    validate s o.sig
    .ok o
  | .reg r, .reg q => do .ok (.reg (← r.add q))
  | .emp a, .reg q => do
    validate a.sig q.sig
    mkEmpReg (.emp a) q
  | .empScaled c s, .reg q => do
    validate c.sig q.sig
    mkEmpReg (.empScaled c s) q
  | .empReg e r, .reg q => do mkEmpReg e (← r.add q)
  | .sum c cs, o => mkSum (.sum c cs) o
  | c, o => do
    validate c.sig o.sig
    mkSum c o

/-- an operand of `*` or `/`: a real number, a bool, or another object -/
inductive Scalar where
  | real (r : ℝ)
  | bool (b : Bool)
  | other

/-- multiplication by a number: Cost.__mul__ (_cost.py 173-185), BaseRegularizerCost 74-84, EmpiricalRiskCost 99-111 -/
noncomputable def Cost.mulReal (s : ℝ) : Cost σ ι d → Py (Cost σ ι d)
  | .reg r => do .ok (.reg (← mkComp [(r, s)]))
  | .emp a => .ok (mkEmpScaled s (.emp a))
  | .empScaled c t => .ok (mkEmpScaled s (.empScaled c t))
  | .empReg e r => .ok (mkEmpScaled s (.empReg e r))
  | c => .ok (mkScaled s c)

/-- `self * other`, `other * self` (_cost.py 173-189) -/
noncomputable def Cost.mul (self : Cost σ ι d) : Scalar → Py (Cost σ ι d)
  | .real s => self.mulReal s
  | _ => .error .typeError

/-- `self / other` (_cost.py 191-204, _regularizer_costs.py 86-99, _empirical_risk_cost.py 113-126) -/
noncomputable def Cost.div (self : Cost σ ι d) : Scalar → Py (Cost σ ι d)
  | .real s => open Classical in if s = 0 then .error .zeroDivision else self.mulReal (1 / s)
  | _ => .error .typeError

/-- `-self` (_cost.py 216-218) -/
noncomputable def Cost.neg (self : Cost σ ι d) : Py (Cost σ ι d) := self.mulReal (-1)

/-- `self - other`: Cost.__sub__ (_cost.py 220-223), QuadraticCost 156-171, BaseRegularizerCost 105-110 -/
noncomputable def Cost.sub (self other : Cost σ ι d) : Py (Cost σ ι d) := do
  validate self.sig other.sig
  match self, other with
  | .quad s A b c, .quad _ A' b' c' => Cost.add (.quad s A b c) (.quad s (-A') (-b') (-c'))
  | .reg r, .reg q => do .ok (.reg (← mkComp [(r, 1), (q, -1)]))
  | c, o => do Cost.add c (← o.neg)

/-- what the builtin `sum` accumulates: the start value 0 or a cost -/
inductive Acc (σ ι : Type) (d : Nat) where
  | start
  | cost (c : Cost σ ι d)

/-- the builtin `sum(costs)`: starts with the integer 0, whose addition goes to `Cost.__radd__` (_cost.py 225-237) -/
noncomputable def pySum : Acc σ ι d → List (Cost σ ι d) → Py (Acc σ ι d)
  | acc, [] => .ok acc
  | .start, c :: cs => pySum (.cost c) cs
  | .cost a, c :: cs => do pySum (.cost (← a.add c)) cs

end ops

end CostAlg
end Verif
