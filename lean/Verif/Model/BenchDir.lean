import Verif.Model.Benchmark
import Verif.Model.Display
/-!
# The whole checkpoint directory of a benchmark
(decent_bench/utils/checkpoint_manager.py, decent_bench/benchmark/_benchmark.py `benchmark`, `resume_benchmark`, `_run_trials`,
decent_bench/benchmark/_compute/_compute_metrics.py)

* One `Ckpt.Dir` (Model/Checkpoint.lean) per algorithm and trial, plus the files at the top: `metadata.json`, `initial_algorithms.pkl.zst`,
  `benchmark_problem.pkl.zst`, `metric_computation.pkl.zst` and its marker. A file opened for writing but not yet completely written is
  present with unreadable content (`some none`).
* A call of the API is a list of elementary file operations; a kill keeps a prefix of it. Trials may run in several processes: their
  operations are interleaved in any way that keeps the order within each trial.
* `P` benchmark problems, `G` algorithms without name and number of iterations, `S` what a trial checkpoint stores, `M` results of the
  metric computation, `J` other values in the metadata. Pickling is faithful. Legacy `.pkl` files and the backup zip, which is written
  outside the directory, are not modelled; `n_trials` is not negative.
-/
namespace Verif.BenchDir
open Verif

/-- a saved algorithm: name, `iterations`, and everything else -/
structure Alg (G : Type) where
  name : String
  iterations : Nat
  code : G

/-- `metadata.json` (checkpoint_manager.py 199-214): `n_trials`, the algorithms, `rng_seed`, and `benchmark_metadata` with its entries
`increased_trials`, `increased_iterations` (0 when absent) apart from the others -/
structure MetaFile (J : Type) where
  nTrials : Nat
  algs : List (String × Nat × Nat)
  seed : Option Int
  incTrials : Nat
  incIters : Nat
  notes : PyDict String J

/-- the checkpoint directory -/
structure Root (S P G M J : Type) where
  /-- the directory exists -/
  present : Bool
  info : Option (Option (MetaFile J))
  algs : Option (Option (List (Alg G)))
  problem : Option (Option P)
  metrics : Option (Option M)
  /-- `metric_computation_complete.json` exists; its content is never read -/
  marker : Bool
  /-- existing `algorithm_i` directories -/
  algDirs : List Nat
  /-- contents of `algorithm_i/trial_t` -/
  trial : Nat → Nat → Ckpt.Dir S

variable {S P G M J : Type}

/-- elementary file operations -/
inductive Op (S P G M J : Type) where
  | mkdir
  | openInfo
  | writeInfo (m : MetaFile J)
  | openAlgs
  | writeAlgs (l : List (Alg G))
  | openProblem
  | writeProblem (p : P)
  | mkAlg (i : Nat)
  /-- `complete_path.unlink()` -/
  | unmark (i t : Nat)
  | inTrial (i t : Nat) (o : Ckpt.FsOp S)
  | openMetrics
  | writeMetrics (m : M)
  | openMarker
  | writeMarker

/-- the directory of one trial replaced -/
def setTrial (f : Nat → Nat → Ckpt.Dir S) (i t : Nat) (d : Ckpt.Dir S) : Nat → Nat → Ckpt.Dir S :=
  fun i' t' => if i' = i ∧ t' = t then d else f i' t'

/-- effect of one operation -/
def Op.apply : Op S P G M J → Root S P G M J → Root S P G M J
  | .mkdir, r => { r with present := true }
  | .openInfo, r => { r with info := some none }
  | .writeInfo m, r => { r with info := some (some m) }
  | .openAlgs, r => { r with algs := some none }
  | .writeAlgs l, r => { r with algs := some (some l) }
  | .openProblem, r => { r with problem := some none }
  | .writeProblem p, r => { r with problem := some (some p) }
  | .mkAlg i, r => { r with algDirs := r.algDirs ++ [i] }
  | .unmark i t, r => { r with trial := setTrial r.trial i t { r.trial i t with complete := none } }
  | .inTrial i t o, r => { r with trial := setTrial r.trial i t (o.apply (r.trial i t)) }
  | .openMetrics, r => { r with metrics := some none }
  | .writeMetrics m, r => { r with metrics := some (some m) }
  | .openMarker, r => { r with marker := true }
  | .writeMarker, r => { r with marker := true }

/-- a sequence of operations -/
def applyOps (l : List (Op S P G M J)) (r : Root S P G M J) : Root S P G M J := l.foldl (fun r o => o.apply r) r

/-- `is_empty` (checkpoint_manager.py 175-179); trial directories lie in algorithm directories -/
def Root.isEmpty (r : Root S P G M J) : Bool :=
  !r.present || (r.info.isNone && r.algs.isNone && r.problem.isNone && r.metrics.isNone && !r.marker && r.algDirs.isEmpty)

/-- reading a JSON or pickle file: absent, incomplete (`json` says which exception), complete -/
def readFile {T : Type} (bad : PyErr) : Option (Option T) → Py T
  | none => .error .fileNotFound
  | some none => .error bad
  | some (some v) => .ok v

/-- `load_metadata` (checkpoint_manager.py 600-617): `none` stands for the empty dictionary -/
def Root.loadInfo (r : Root S P G M J) : Py (Option (MetaFile J)) :=
  match r.info with
  | none => .ok none
  | some none => .error .jsonDecodeError
  | some (some m) => .ok (some m)

/-! ## starting and resuming -/

/-- what `_benchmark` is called with -/
structure Plan (P G : Type) where
  algs : List (Alg G)
  problem : P
  nTrials : Nat
  seed : Option Int

/-- a call of the API; `notes` is the manager's `benchmark_metadata`, `seed` the value of `iop.get_seed()` -/
inductive Call (P G J : Type) where
  | benchmark (algs : List (Alg G)) (problem : P) (nTrials : Nat) (notes : PyDict String J) (seed : Option Int)
  | resume (incIters incTrials : Int)

/-- `initialize` (checkpoint_manager.py 181-224) -/
def initOps (algs : List (Alg G)) (p : P) (n : Nat) (notes : PyDict String J) (seed : Option Int) : List (Op S P G M J) :=
  [.mkdir, .openInfo, .writeInfo ⟨n, algs.zipIdx.map (fun a => (a.1.name, a.1.iterations, a.2)), seed, 0, 0, notes⟩,
    .openAlgs, .writeAlgs algs, .openProblem, .writeProblem p] ++ (List.range algs.length).map .mkAlg

/-- exceptions turned into `ValueError` by `resume_benchmark` (_benchmark.py 147-150) -/
def asInvalid {T : Type} : Py T → Py T
  | .error .fileNotFound => .error .valueError
  | .error .keyError => .error .valueError
  | .error .jsonDecodeError => .error .valueError
  | r => r

/-- the reading part of `resume_benchmark` (_benchmark.py 130-150) -/
def Root.loadAll (r : Root S P G M J) : Py (MetaFile J × P × List (Alg G)) := asInvalid <| do
  let info ← r.loadInfo
  match info with
  | none => .error .valueError
  | some m =>
    let p ← readFile .runtimeError r.problem
    let a ← readFile .runtimeError r.algs
    .ok (m, p, a)

/-- all (algorithm index, trial) pairs, in order -/
def pairs (nAlgs nTrials : Nat) : List (Nat × Nat) := (List.range nAlgs).flatMap fun i => (List.range nTrials).map fun t => (i, t)

/-- bookkeeping of `resume_benchmark` (_benchmark.py 161-192): the metadata and trial markers it changes, and what it then runs -/
def resumeHead (m : MetaFile J) (p : P) (algs : List (Alg G)) (incI incT : Nat) : List (Op S P G M J) × Plan P G :=
  let totalT := incT + m.incTrials
  let n := m.nTrials + totalT
  let m1 := { m with incTrials := totalT }
  let ops1 := if incT ≠ 0 then [.openInfo, .writeInfo m1] else []
  let m2 := if incT ≠ 0 then m1 else m
  let totalI := incI + m.incIters
  if incI ≠ 0 then
    (ops1 ++ (pairs algs.length n).map (fun it => .unmark it.1 it.2) ++ [.openInfo, .writeInfo { m2 with incIters := totalI }],
      ⟨algs.map fun a => { a with iterations := a.iterations + totalI }, p, n, m.seed⟩)
  else (ops1, ⟨algs, p, n, m.seed⟩)

/-- `benchmark` up to `_benchmark` (_benchmark.py 272-292), and `resume_benchmark` up to `_benchmark` (120-192) -/
def Root.head (r : Root S P G M J) : Call P G J → Py (List (Op S P G M J) × Plan P G)
  | .benchmark algs p n notes seed =>
    match Bench.uniqueNames (algs.map (·.name)) with
    | .error e => .error e
    | .ok () =>
      if r.isEmpty = false then .error .valueError
      else .ok (initOps algs p n notes seed, ⟨algs, p, n, seed⟩)
  | .resume incI incT =>
    if r.present = false then .error .valueError
    else if r.isEmpty = true then .error .valueError
    else if incI < 0 then .error .valueError
    else if incT < 0 then .error .valueError
    else
      match r.loadAll with
      | .error e => .error e
      | .ok (m, p, a) => .ok (resumeHead m p a incI.toNat incT.toNat)

/-! ## the trials -/

/-- trials to look at: algorithm index, trial, algorithm -/
def jobs (pl : Plan P G) : List (Nat × Nat × Alg G) :=
  pl.algs.zipIdx.flatMap fun a => (List.range pl.nTrials).map fun t => (a.2, t, a.1)

/-- the trial as `_run_trial` runs it: problem, algorithm and derived seed (_benchmark.py 480-490, 533-538); `mk` is the code of the
algorithm on the problem with generators seeded by the trial seed, `draw` the numbers used when there is no base seed -/
def trialOf (mk : P → G → Int → Ckpt.Trial S) (draw : Nat → Nat → Int) (pl : Plan P G) (i t : Nat) (a : Alg G) : Ckpt.Trial S :=
  mk pl.problem a.code (Bench.trialSeed pl.seed (draw i t) i t)

/-- `_run_trials` (_benchmark.py 430-530) with a checkpoint manager: completed trials are loaded, the others run; the file operations and
the final state of each. A trial that raises while reading its files makes the whole call raise; what the other trials did by then
is not described (the theorems show that it does not happen). -/
def outcomes (m : Ckpt.Manager) (mk : P → G → Int → Ckpt.Trial S) (draw : Nat → Nat → Int) (r : Root S P G M J) (pl : Plan P G) :
    Py (List (Nat × Nat × Ckpt.Outcome S)) :=
  (jobs pl).mapM fun j =>
    match Ckpt.session m (trialOf mk draw pl j.1 j.2.1 j.2.2) j.2.2.iterations (r.trial j.1 j.2.1) with
    | .error e => .error e
    | .ok o => .ok (j.1, j.2.1, o)

/-- the operations of one trial within a schedule -/
def projectOps (i t : Nat) (l : List (Nat × Nat × Ckpt.FsOp S)) : List (Ckpt.FsOp S) :=
  (l.filter fun o => decide (o.1 = i ∧ o.2.1 = t)).map fun o => o.2.2

/-- operations of the trials tagged by trial, one trial after the other (`max_processes=1`) -/
def sequential (outs : List (Nat × Nat × Ckpt.Outcome S)) : List (Nat × Nat × Ckpt.FsOp S) :=
  outs.flatMap fun o => o.2.2.ops.map fun f => (o.1, o.2.1, f)

/-- SCHEDULE: the processes interleave the trials' operations in some way; each trial's own operations stay in order and nothing else is done -/
def Schedule (outs : List (Nat × Nat × Ckpt.Outcome S)) (l : List (Nat × Nat × Ckpt.FsOp S)) : Prop :=
  ∀ i t, projectOps i t l = projectOps i t (sequential outs)

/-- one call that gets past its checks, when nothing interrupts it: its operations in the order in which they happen, its plan and the outcomes of
the trials -/
def Exec (m : Ckpt.Manager) (mk : P → G → Int → Ckpt.Trial S) (r : Root S P G M J) (c : Call P G J) (l : List (Op S P G M J)) (pl : Plan P G)
    (outs : List (Nat × Nat × Ckpt.Outcome S)) : Prop :=
  ∃ draw hd sched, r.head c = .ok (hd, pl) ∧ outcomes m mk draw (applyOps hd r) pl = .ok outs ∧ Schedule outs sched ∧
    l = hd ++ sched.map fun o => .inTrial o.1 o.2.1 o.2.2

/-- is this trial marked complete (`is_trial_complete`, checkpoint_manager.py 484-497) -/
def Root.done (r : Root S P G M J) (i t : Nat) : Bool := (r.trial i t).complete.isSome

/-- the networks returned for algorithm `i` (_benchmark.py 455-475, 520-524): `order` lists trials run now as their processes ended -/
def returned (r : Root S P G M J) (n : Nat) (outs : List (Nat × Nat × Ckpt.Outcome S)) (state : Ckpt.Outcome S → S) (i : Nat)
    (order : List Nat) : List S :=
  let own := outs.filter fun o => decide (o.1 = i)
  let find := fun t => own.filter fun o => decide (o.2.1 = t)
  (((List.range n).filter (r.done i)).flatMap fun t => (find t).map fun o => state o.2.2) ++
    (pySorted (fun a b : Nat × S => decide (a.1 ≤ b.1)) (order.flatMap fun t => (find t).map fun o => (t, state o.2.2))).map Prod.snd

/-! ## queries of the manager -/

/-- `is_benchmark_started` (checkpoint_manager.py 499-519): no metadata, no benchmark -/
def Root.started (r : Root S P G M J) : Py Bool := do
  let info ← r.loadInfo
  match info with
  | none => .ok false
  | some m => .ok (m.algs.any fun a => (List.range m.nTrials).any fun t => !(r.trial a.2.2 t).ckpt.keys.isEmpty)

/-- `is_benchmark_completed` (checkpoint_manager.py 521-541) -/
def Root.completed (r : Root S P G M J) : Py Bool := do
  let info ← r.loadInfo
  match info with
  | none => .ok false
  | some m => .ok (m.algs.all fun a => (List.range m.nTrials).all fun t => r.done a.2.2 t)

/-- `dict.update` -/
def update (d : PyDict String J) (e : List (String × J)) : PyDict String J := e.foldl (fun d kv => d.set kv.1 kv.2) d

/-- `append_metadata` (checkpoint_manager.py 245-264) with entries other than the two counters; with no `metadata.json` it writes one that has
only `benchmark_metadata`, which is not modelled (`fileNotFound` here) -/
def Root.appendNotes (r : Root S P G M J) (e : List (String × J)) : Py (List (Op S P G M J)) := do
  let info ← r.loadInfo
  match info with
  | none => .error .fileNotFound
  | some m => .ok [.openInfo, .writeInfo { m with notes := update m.notes e }]

end Verif.BenchDir
