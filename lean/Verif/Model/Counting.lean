/-!
# Call counting  (decent_bench/agents.py 74-77, 206-245, 269-293)

Client code is a program over cost evaluations, `no_count` blocks, exceptions and `try/except`.
-/
namespace Verif.Counting

/-- the four counted methods -/
inductive Method where
  | function | gradient | hessian | proximal
  deriving DecidableEq, Repr

/-- Programs calling costs. `eval c m inner n`: a call of method `m` on cost object `c`, whose implementation runs
`inner` (e.g. a proximal calling gradients) and leaves `len(batch_used) = n`. -/
inductive Prog (K A : Type) where
  | skip
  | raise
  | seq (p q : Prog K A)
  | eval (c : K) (m : Method) (inner : Prog K A) (batchUsed : Nat)
  | noCount (agents : List A) (body : Prog K A)
  | tryExcept (body handler : Prog K A)

/-- counting state of all agents: `_no_count_depth` and the four `_n_*_calls` -/
structure State (A : Type) where
  depth : A → Int
  count : A → Method → Nat

variable {K A : Type} [DecidableEq K] [DecidableEq A]

/-- Agent construction rebinds `cost.function` etc. to the new agent's counting wrapper (agents.py 74-77): the agent
constructed last with cost `c` owns its calls. `ctor` lists constructions `(agent, cost)` in order. -/
def owner (ctor : List (A × K)) (c : K) : Option A :=
  (ctor.foldl (fun acc p => if p.2 = c then some p.1 else acc) none)

/-- increment of a counter -/
def addCount (s : State A) (a : A) (m : Method) (n : Nat) : State A :=
  { s with count := fun b m' => if b = a ∧ m' = m then s.count b m' + n else s.count b m' }

/-- `agent._no_count_depth += d` for every agent of the sequence (agents.py 288-289, 292-293) -/
def addDepth (s : State A) (agents : List A) (d : Int) : State A :=
  agents.foldl (fun s a => { s with depth := fun b => if b = a then s.depth b + d else s.depth b }) s

/-- Execution; the Boolean says that an exception is propagating.
`_call_counting_*` (agents.py 206-245): evaluate first; if depth > 0 do not count; count `len(batch_used)` for an
empirical-risk cost (`emp c`) and 1 otherwise. `no_count` (269-293): increment, run, decrement in `finally`. -/
def exec (own : K → Option A) (emp : K → Bool) : Prog K A → State A → State A × Bool
  | .skip, s => (s, false)
  | .raise, s => (s, true)
  | .seq p q, s =>
    let (s1, r) := exec own emp p s
    if r then (s1, true) else exec own emp q s1
  | .eval c m inner n, s =>
    let (s1, r) := exec own emp inner s
    if r then (s1, true)
    else match own c with
      | none => (s1, false)
      | some a =>
        if s1.depth a > 0 then (s1, false)
        else (addCount s1 a m (if emp c then n else 1), false)
  | .noCount agents body, s =>
    let (s1, r) := exec own emp body (addDepth s agents 1)
    (addDepth s1 agents (-1), r)
  | .tryExcept body handler, s =>
    let (s1, r) := exec own emp body s
    if r then exec own emp handler s1 else (s1, false)

end Verif.Counting
