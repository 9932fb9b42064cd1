import Verif.Model.Py
import Verif.Model.Sort
import Verif.Model.Checkpoint
/-!
# Benchmark driver  (decent_bench/benchmark/_benchmark.py, parts of utils/checkpoint_manager.py)

Trial seeds, resume bookkeeping, the order of results, loading of saved results, and compaction of agent-keyed dictionaries.
-/
namespace Verif.Bench
open Verif

/-! ## seeds -/

/-- `_derive_trial_seed` (_benchmark.py 533-538); `draw` is the `random.randint` used when no base seed is set -/
def trialSeed (base : Option Int) (draw : Int) (alg trial : Nat) : Int :=
  (base.getD draw + 0x9E3779B9 * ((alg : Int) + 1) + 0x85EBCA6B * ((trial : Int) + 1)) % 2 ^ 32

/-! ## resume bookkeeping -/

/-- `metadata.json`: `n_trials`, and `increased_trials`, `increased_iterations` of `benchmark_metadata` (0 when absent) -/
structure Meta where
  nTrials : Int
  incTrials : Int
  incIters : Int
  deriving DecidableEq

/-- what a resumed benchmark runs: number of trials, iterations of an algorithm, and whether completion marks are removed -/
structure Plan where
  nTrials : Int
  iterations : Int
  unmark : Bool
  deriving DecidableEq

/-- `resume_benchmark` (_benchmark.py 125-185) for an algorithm saved with `iters0` iterations -/
def resume (md : Meta) (iters0 incI incT : Int) : Py (Meta × Plan) :=
  if incI < 0 then .error .valueError
  else if incT < 0 then .error .valueError
  else
    let totalT := incT + md.incTrials
    let n := md.nTrials + totalT
    let md := if incT ≠ 0 then { md with incTrials := totalT } else md
    let totalI := incI + md.incIters
    if incI ≠ 0 then .ok ({ md with incIters := totalI }, ⟨n, iters0 + totalI, true⟩)
    else .ok (md, ⟨n, iters0, false⟩)

/-- `metadata.json` after `initialize` (checkpoint_manager.py 199-219) -/
def Meta.fresh (n : Int) : Meta := ⟨n, 0, 0⟩

/-- a history of resume calls `(increase_iterations, increase_trials)`: metadata and the plan of the last call -/
def resumes (iters0 : Int) : List (Int × Int) → Meta → Option Plan → Py (Meta × Option Plan)
  | [], md, p => .ok (md, p)
  | c :: t, md, _ =>
    match resume md iters0 c.1 c.2 with
    | .error e => .error e
    | .ok r => resumes iters0 t r.1 (some r.2)

/-- `unmark_trial_complete` (checkpoint_manager.py, called from _benchmark.py 174-175) for the trial's directory -/
def reopen {S : Type} (p : Plan) (d : Ckpt.Dir S) : Ckpt.Dir S := if p.unmark then { d with complete := none } else d

/-- a history of `resume_benchmark(increase_iterations=inc)` calls, each killed after `c` file operations of the trial
(the first call, with `inc = 0`, stands for `benchmark`); unmarking and the metadata update are not interrupted here -/
def resumeKills {S : Type} (m : Ckpt.Manager) (t : Ckpt.Trial S) (iters0 : Int) :
    List (Int × Nat) → Meta × Ckpt.Dir S → Py (Meta × Ckpt.Dir S)
  | [], s => .ok s
  | (inc, c) :: l, s =>
    match resume s.1 iters0 inc 0 with
    | .error e => .error e
    | .ok r =>
      match Ckpt.session m t r.2.iterations.toNat (reopen r.2 s.2) with
      | .error e => .error e
      | .ok o => resumeKills m t iters0 l (r.1, Ckpt.applyAll (o.ops.take c) (reopen r.2 s.2))

/-! ## results -/

variable {R : Type}

/-- trials still to be run (_benchmark.py 457-460) -/
def toRun (n : Nat) (isDone : Nat → Bool) : List Nat := (List.range n).filter (fun t => !isDone t)

/-- `_run_trials` for one algorithm (_benchmark.py 452-528): loaded results of completed trials, then the results of the
trials run now, `finished` listing them in the order in which the processes ended -/
def results (n : Nat) (isDone : Nat → Bool) (loaded : Nat → R) (finished : List (Nat × R)) : List R :=
  ((List.range n).filter isDone).map loaded ++
    (pySorted (fun a b => decide (a.1 ≤ b.1)) finished).map Prod.snd

/-- the loading loop of one algorithm (checkpoint_manager.py 650-663): `none` when a name mismatch discards it -/
def loadTrials (name : String) (load : Nat → Py (String × R)) : List Nat → Py (Option (List R))
  | [] => .ok (some [])
  | t :: ts =>
    match load t with
    | .error e => .error e
    | .ok (nm, r) =>
      if nm ≠ name then .ok none
      else
        match loadTrials name load ts with
        | .error e => .error e
        | .ok none => .ok none
        | .ok (some rs) => .ok (some (r :: rs))

/-- `load_benchmark_result` (checkpoint_manager.py 619-668): `n` is `metadata["n_trials"]`; algorithms as (index, name) -/
def loadAll (n : Nat) (isDone : Nat → Nat → Bool) (load : Nat → Nat → Py (String × R)) :
    List (Nat × String) → Py (List (String × List R))
  | [] => .ok []
  | (i, name) :: algs =>
    let completed := (List.range n).filter (isDone i)
    if completed.length ≠ n then loadAll n isDone load algs
    else
      match loadTrials name (load i) completed with
      | .error e => .error e
      | .ok r =>
        match loadAll n isDone load algs with
        | .error e => .error e
        | .ok rest =>
          match r with
          | some (x :: xs) => .ok ((name, x :: xs) :: rest)
          | _ => .ok rest

/-- `_validate_unique_algorithm_names` (_benchmark.py 38-50) -/
def uniqueNames (names : List String) : Py Unit :=
  let r := names.foldl (fun (p : List String × List String) nm =>
    if nm ∈ p.1 then (p.1, nm :: p.2) else (nm :: p.1, p.2)) ([], [])
  if r.2 = [] then .ok () else .error .valueError

/-! ## agent-keyed dictionaries -/

variable {A V : Type}

/-- an attribute of an algorithm: a dictionary whose keys are all agents, a compacted one, or anything else -/
inductive Attr (A V : Type) where
  | agents (d : PyDict A V)
  | compacted (d : PyDict Int V)
  | other (v : V)

/-- one attribute in `_compact_algorithm_agent_dicts_inplace` (checkpoint_manager.py 899-918); an empty dictionary is left
as it is -/
def compact (hash : A → Int) : Attr A V → Attr A V
  | .agents d =>
    if d.entries = [] then .agents d
    else .compacted (d.entries.foldl (fun c e => c.set (hash e.1) e.2) PyDict.empty)
  | a => a

/-- decoding loop (checkpoint_manager.py 947-954) -/
def decode [DecidableEq A] (find : Int → Option A) : List (Int × V) → PyDict A V → Py (PyDict A V)
  | [], d => .ok d
  | (h, v) :: t, d =>
    match find h with
    | none => .error .valueError
    | some a => decode find t (d.set a v)

/-- `{hash(agent): agent for agent in network.graph}` (checkpoint_manager.py 936) as a lookup: the last agent wins -/
def findAgent (hash : A → Int) (nodes : List A) (h : Int) : Option A := nodes.reverse.find? (fun a => hash a = h)

/-- one attribute in `_restore_algorithm_agent_dicts_inplace` without saved originals (checkpoint_manager.py 936-955) -/
def restore [DecidableEq A] (hash : A → Int) (nodes : List A) : Attr A V → Py (Attr A V)
  | .compacted d =>
    match decode (findAgent hash nodes) d.entries PyDict.empty with
    | .error e => .error e
    | .ok r => .ok (.agents r)
  | a => .ok a

/-- the attributes of one algorithm, by name -/
abbrev AlgAttrs (A V : Type) := List (String × Attr A V)

/-- all attributes restored, in order -/
def restoreAll [DecidableEq A] (hash : A → Int) (nodes : List A) : AlgAttrs A V → Py (AlgAttrs A V)
  | [] => .ok []
  | (n, a) :: t =>
    match restore hash nodes a with
    | .error e => .error e
    | .ok a' =>
      match restoreAll hash nodes t with
      | .error e => .error e
      | .ok t' => .ok ((n, a') :: t')

/-- `_compact_algorithm_agent_dicts_inplace`: the compacted attributes, and the originals by name -/
def compactAll (hash : A → Int) (alg : AlgAttrs A V) : AlgAttrs A V × List (String × Attr A V) :=
  (alg.map (fun e => (e.1, compact hash e.2)),
   alg.filter (fun e => match e.2 with | .agents d => !decide (d.entries.length = 0) | _ => false))

/-- `setattr(alg, name, value)` for each saved original -/
def putBack (orig : List (String × Attr A V)) (alg : AlgAttrs A V) : AlgAttrs A V :=
  orig.foldl (fun alg o => alg.map (fun e => if e.1 = o.1 then (e.1, o.2) else e)) alg

/-- `_save_initial_algorithms` (checkpoint_manager.py 792-805) for one algorithm: what is pickled, and the algorithm
afterwards; the `finally` block runs whether or not `save` raises -/
def saveInitial (hash : A → Int) (save : AlgAttrs A V → Py Unit) (alg : AlgAttrs A V) : AlgAttrs A V × Py Unit :=
  let c := compactAll hash alg
  (putBack c.2 c.1, save c.1)

end Verif.Bench
