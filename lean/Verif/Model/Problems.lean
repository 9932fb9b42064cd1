import Verif.Model.Solver
import Verif.Model.Partition
import Verif.Model.Batch
/-!
# Ready-made problems (decent_bench/benchmark/_utils.py, the synthetic data sets)

`create_quadratic_problem`, `create_regression_problem`, `create_classification_problem` for the NumPy cost classes.  The random
generators are an abstract state `Ω`.  scikit-learn's `make_regression` / `make_classification` are parameters: with an integer
`random_state` they are functions of that integer and of the number of samples (their other arguments are fixed in each of the two
callers), without one they draw from the generator state.  Numbers are reals; the PyTorch variants, logging and dtypes are not modelled.
-/
namespace Verif
namespace Problems
open Costs CostAlg Solver Part Batch

variable {Ω σ ι : Type} {d : Nat}

/-! ### quadratic problems -/

/-- `iop.uniform(shape=(size, size))` and `iop.normal(shape=(size,), std=10)` (_rng.py 259-344) -/
structure Draws (Ω : Type) (d : Nat) where
  uniform : Ω → Mat d × Ω
  normal : Ω → Vec d × Ω

/-- the documented range of `iop.uniform`: `[0, 1)` -/
def Draws.Lawful (g : Draws Ω d) : Prop := ∀ ω i j, 0 ≤ (g.uniform ω).1 i j ∧ (g.uniform ω).1 i j < 1

/-- `(A_i + iop.transpose(A_i)) / 2 + size * iop.eye_like(A_i)` (_utils.py 245) -/
noncomputable def quadMatrix (U : Mat d) : Mat d := (1 / 2 : ℝ) • (U + U.transpose) + (d : ℝ) • (1 : Mat d)

/-- the loop of _utils.py 243-246 -/
noncomputable def quadData (g : Draws Ω d) : Nat → Ω → List (Mat d × Vec d) × Ω
  | 0, ω => ([], ω)
  | n + 1, ω =>
    let u := g.uniform ω
    let v := g.normal u.2
    let r := quadData g n v.2
    ((quadMatrix u.1, v.1) :: r.1, r.2)

/-- `reduce(add, costs)` from the second element on -/
noncomputable def addAll [DecidableEq σ] : Cost σ ι d → List (Cost σ ι d) → Py (Cost σ ι d)
  | acc, [] => .ok acc
  | acc, c :: cs =>
    match acc.add c with
    | .error e => .error e
    | .ok s => addAll s cs

/-- `functools.reduce(operator.add, costs)`: TypeError on an empty list -/
noncomputable def reduceAdd [DecidableEq σ] : List (Cost σ ι d) → Py (Cost σ ι d)
  | [] => .error .typeError
  | c :: cs => addAll c cs

/-- SOLVE_MAX_ITER, SOLVE_STOP_TOL, SOLVE_MAX_TOL (_utils.py 20-22) -/
def solveMaxIter : Int := 10000
noncomputable def solveStopTol : ℝ := 1e-20
noncomputable def solveMaxTol : ℝ := 1e-16

/-- a LinearRegressionCost on the data set `S`, evaluated on the whole data set (`indices="all"`, or the default when the batch size
is the number of samples).  Its proximal plays no role here and is left out. -/
noncomputable def linAtom (np : σ) (S : List (Vec d × ℝ)) : Atom σ ι d where
  sig := np
  fn := fun _ => linFn S
  grad := fun _ => linGrad S
  perSample := fun _ => linPerSample S
  hess := fun _ _ => linHess S
  mSmooth := .fin (linSmooth S)
  mCvx := linCvx S
  prox := fun _ _ => .error .notImplemented

/-- `isinstance(c, LinearRegressionCost)` (centralized_algorithms.py 62), with the data set of the object.  Two data sets that give the
same functions are not told apart. -/
noncomputable def linData (np : σ) (c : Cost σ ι d) : Option (List (Vec d × ℝ)) :=
  open Classical in if h : ∃ S, c = .emp (linAtom np S) then some h.choose else none

/-- `ca.solve(cost, max_iter=SOLVE_MAX_ITER, stop_tol=SOLVE_STOP_TOL, max_tol=SOLVE_MAX_TOL)` -/
noncomputable def solveIt (np : σ) (lstsq : Mat d → Vec d → Vec d) (c : Cost σ ι d) : Out (Vec d) :=
  Solver.solve (linData np) lstsq c solveMaxIter (some solveStopTol) (some solveMaxTol)

/-- what a builder returns -/
structure Built (σ ι Y : Type) (d : Nat) where
  costs : List (Cost σ ι d)
  xOptimal : Option (Vec d)
  test : List (Vec d × Y)

/-- `create_quadratic_problem(size=d, n_agents=n)` (_utils.py 225-260); it returns no test data -/
noncomputable def createQuadratic [DecidableEq σ] (np : σ) (lstsq : Mat d → Vec d → Vec d) (g : Draws Ω d) (n : Int) (ω : Ω) :
    Out (Built σ ι Unit d × Ω) :=
  let r := quadData g n.toNat ω
  let costs : List (Cost σ ι d) := r.1.map (fun p => .quad np p.1 p.2 0)
  match reduceAdd costs with
  | .error e => .result (.error e)
  | .ok s =>
    match solveIt np lstsq s with
    | .nonFinite => .nonFinite
    | .result (.error e) => .result (.error e)
    | .result (.ok x) => .result (.ok (⟨costs, some x, []⟩, r.2))

/-! ### data sets -/

/-- where data come from: the generator used for shuffling, the global seed `iop.get_seed()`, and scikit-learn's generator with and
without `random_state` (_synthetic_regression_handler.py 80-92, _synthetic_classification_handler.py 80-91) -/
structure Source (Ω Y : Type) (d : Nat) where
  rng : Rng Ω
  seed : Option Int
  seeded : Int → Nat → List (Vec d × Y)
  fresh : Nat → Ω → List (Vec d × Y) × Ω

/-- as many samples as asked for -/
structure Source.Lawful {Y : Type} (src : Source Ω Y d) : Prop where
  rng : src.rng.Lawful
  seeded : ∀ s n, (src.seeded s n).length = n
  fresh : ∀ n ω, (src.fresh n ω).1.length = n

variable {Y : Type}

/-- `_raw_data` of a handler with `n_samples = n` (regression 80-92, classification 80-91) -/
def Source.raw (src : Source Ω Y d) (n : Nat) (ω : Ω) : List (Vec d × Y) × Ω :=
  match src.seed with
  | some s => (src.seeded s n, ω)
  | none => src.fresh n ω

/-- `dataset.split(partitions=split_iid(dataset, n_partitions=n))` with `n_samples = 10 * n` (_utils.py 58-76, 158-175): the indices
are shuffled first, the data generated when `split` asks for them.  A negative length is a ValueError of `len`, like the one for
non-positive `n_partitions`. -/
def localData [Inhabited Y] (src : Source Ω Y d) (n : Int) (ω : Ω) : Py ((List (List (Vec d × Y)) × List (Vec d × Y)) × Ω) :=
  match splitIid src.rng (n * 10).toNat n .none ω with
  | .error e => .error e
  | .ok (parts, ω1) =>
    let data := src.raw (n * 10).toNat ω1
    match splitData (n * 10).toNat (fun i => data.1.getD i (0, default)) (parts.map (fun p => p.map (fun i : Nat => Idx.int (i : Int)))) with
    | .error e => .error e
    | .ok locals => .ok ((locals, data.1), data.2)

/-! ### the costs -/

/-- `batch_size`: an integer, "all", or another string -/
inductive BatchSize where
  | all
  | size (b : Int)
  | other

/-- the checks of both cost classes (_linear_regression_cost.py 64-78, _logistic_regression_cost.py 76-90): an empty data set is an
IndexError, then the batch size -/
def checkBatch (len : Nat) (b : BatchSize) : Py Unit :=
  if len = 0 then .error .indexError
  else
    match b with
    | .all => .ok ()
    | .other => .error .valueError
    | .size k => if k ≤ 0 ∨ k > (len : Int) then .error .valueError else .ok ()

/-- `LinearRegressionCost(dataset, batch_size)` -/
noncomputable def mkLinear (np : σ) (b : BatchSize) (S : List (Vec d × ℝ)) : Py (Cost σ ι d) :=
  match checkBatch S.length b with
  | .error e => .error e
  | .ok _ => .ok (.emp (linAtom np S))

/-- the data set with labels replaced by 0 and 1 (_logistic_regression_cost.py 327-328, 336-337) -/
noncomputable def relabel (l0 l1 : ℚ) (S : List (Vec d × ℚ)) : List (Vec d × ℝ) := S.map (fun s => (s.1, ((relabelOne l0 l1 s.2 : ℚ) : ℝ)))

/-- a LogisticRegressionCost on the relabelled data set, evaluated on the whole of it; the proximal is left out -/
noncomputable def logAtom (np : σ) (S : List (Vec d × ℝ)) : Atom σ ι d where
  sig := np
  fn := fun _ => logFn S
  grad := fun _ => logGrad S
  perSample := fun _ => logPerSample S
  hess := fun _ => logHess S
  mSmooth := .fin (logSmooth S)
  mCvx := .fin 0
  prox := fun _ _ => .error .notImplemented

/-- `LogisticRegressionCost(dataset, batch_size)` (_logistic_regression_cost.py 62-97); `order labels` is the iteration order of the set
of the labels -/
noncomputable def mkLogistic (np : σ) (order : List ℚ → List ℚ) (b : BatchSize) (S : List (Vec d × ℚ)) : Py (Cost σ ι d) :=
  match checkBatch S.length b with
  | .error e => .error e
  | .ok _ =>
    match labelMapping (order (S.map (fun s => s.2))) with
    | .error e => .error e
    | .ok (l0, l1) => .ok (.emp (logAtom np (relabel l0 l1 S)))

/-- a set of labels iterates over each of them once; CPython's order for the set of the integers 0 and 1 is ascending -/
structure OrderLawful (order : List ℚ → List ℚ) : Prop where
  nodup : ∀ l, (order l).Nodup
  mem : ∀ l y, y ∈ order l ↔ y ∈ l
  binary : ∀ l, (∀ y ∈ l, y = 0 ∨ y = 1) → 0 ∈ l → 1 ∈ l → order l = [0, 1]

/-! ### the builders -/

/-- the objective handed to `solve` for regression is `reduce(add, costs)` (_utils.py 207-214).  With a single agent that is the cost
itself, and a batch smaller than its 10 samples makes the solver's gradients random: not modelled. -/
noncomputable def solveRegression [DecidableEq σ] (np : σ) (lstsq : Mat d → Vec d → Vec d) (n : Int) (b : BatchSize)
    (costs : List (Cost σ ι d)) : Out (Vec d) :=
  match n, b with
  | 1, .size 10 => match reduceAdd costs with
    | .error e => .result (.error e)
    | .ok s => solveIt np lstsq s
  | 1, .size _ => .nonFinite
  | _, _ => match reduceAdd costs with
    | .error e => .result (.error e)
    | .ok s => solveIt np lstsq s

/-- `create_regression_problem(LinearRegressionCost, n_agents=n, batch_size=b, compute_x_optimal=wantX)` (_utils.py 125-222); the test
data are generated last, by a second handler with 100 samples -/
noncomputable def createRegression [DecidableEq σ] (np : σ) (lstsq : Mat d → Vec d → Vec d) (src : Source Ω ℝ d) (n : Int)
    (b : BatchSize) (wantX : Bool) (ω : Ω) : Out (Built σ ι ℝ d × Ω) :=
  match localData src n ω with
  | .error e => .result (.error e)
  | .ok ((locals, _), ω2) =>
    match locals.mapM (mkLinear (ι := ι) np b) with
    | .error e => .result (.error e)
    | .ok costs =>
      let test := src.raw 100 ω2
      if wantX then
        match solveRegression np lstsq n b costs with
        | .nonFinite => .nonFinite
        | .result (.error e) => .result (.error e)
        | .result (.ok x) => .result (.ok (⟨costs, some x, test.1⟩, test.2))
      else .result (.ok (⟨costs, none, test.1⟩, test.2))

/-- `create_classification_problem(LogisticRegressionCost, ...)` (_utils.py 25-122): the objective of `solve` is one cost over all the
data (106-114) -/
noncomputable def createClassification (np : σ) (lstsq : Mat d → Vec d → Vec d) (order : List ℚ → List ℚ)
    (src : Source Ω ℚ d) (n : Int) (b : BatchSize) (wantX : Bool) (ω : Ω) : Out (Built σ ι ℚ d × Ω) :=
  match localData src n ω with
  | .error e => .result (.error e)
  | .ok ((locals, data), ω2) =>
    match locals.mapM (mkLogistic (ι := ι) np order b) with
    | .error e => .result (.error e)
    | .ok costs =>
      let test := src.raw 100 ω2
      if wantX then
        match mkLogistic (ι := ι) np order .all data with
        | .error e => .result (.error e)
        | .ok whole =>
          match solveIt np lstsq whole with
          | .nonFinite => .nonFinite
          | .result (.error e) => .result (.error e)
          | .result (.ok x) => .result (.ok (⟨costs, some x, test.1⟩, test.2))
      else .result (.ok (⟨costs, none, test.1⟩, test.2))

end Problems
end Verif
