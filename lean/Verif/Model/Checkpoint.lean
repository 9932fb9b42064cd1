import Verif.Model.Py
import Verif.Model.Sort
/-!
# Checkpoint files of one trial, and crash-able trial runs
(decent_bench/utils/checkpoint_manager.py, decent_bench/benchmark/_benchmark.py `_run_trial`)

* `S` is everything a checkpoint stores (algorithm, network and random state, checkpoint_manager.py 358-363); pickling is
  assumed to be faithful.
* A file that has been opened for writing but not yet completely written is present with unreadable content (`none`).
* A trial's effect on its directory is a list of elementary file operations; a crash keeps a prefix of that list (the
  operating system is assumed not to reorder or lose completed operations).
* File names, `.pkl` files of older versions and foreign files are in Model/CkptNames (C120); iteration numbers are natural (a trial has at least one iteration).
-/
namespace Verif.Ckpt
open Verif

deriving instance DecidableEq for PyDict

/-- contents of `algorithm_i/trial_j` -/
structure Dir (S : Type) where
  /-- `checkpoint_XXXXXXX.pkl.zst`, by iteration -/
  ckpt : PyDict Nat (Option S)
  /-- `progress.json`: absent, truncated, or `{"last_completed_iteration": i}` -/
  progress : Option (Option Nat)
  /-- `complete.json`: absent, truncated, or naming the checkpoint of iteration `i` -/
  complete : Option (Option Nat)
  deriving DecidableEq

/-- a trial directory that does not exist yet or is empty -/
def Dir.empty {S : Type} : Dir S := ⟨PyDict.empty, none, none⟩

/-- elementary file operations -/
inductive FsOp (S : Type) where
  /-- `path.open("wb")` on a checkpoint file -/
  | openCkpt (i : Nat)
  /-- its content is complete -/
  | writeCkpt (i : Nat) (s : S)
  /-- `progress_path.open("w")`: truncates -/
  | openProgress
  /-- `json.dump(progress, f)` and close -/
  | writeProgress (i : Nat)
  /-- `file_to_remove.unlink()` -/
  | unlink (i : Nat)
  /-- `complete_path.open("w")` -/
  | openComplete
  /-- `json.dump(completed_metadata, f)` and close -/
  | writeComplete (i : Nat)
  deriving DecidableEq

variable {S : Type}

/-- effect of one operation -/
def FsOp.apply : FsOp S → Dir S → Dir S
  | .openCkpt i, d => { d with ckpt := d.ckpt.set i none }
  | .writeCkpt i s, d => { d with ckpt := d.ckpt.set i (some s) }
  | .openProgress, d => { d with progress := some none }
  | .writeProgress i, d => { d with progress := some (some i) }
  | .unlink i, d => { d with ckpt := d.ckpt.pop i }
  | .openComplete, d => { d with complete := some none }
  | .writeComplete i, d => { d with complete := some (some i) }

/-- a sequence of operations -/
def applyAll (l : List (FsOp S)) (d : Dir S) : Dir S := l.foldl (fun d o => o.apply d) d

/-- parameters of the manager (checkpoint_manager.py 164-173, validated there: both positive) -/
structure Manager where
  step : Option Nat
  keep : Nat

/-- the checks of `CheckpointManager.__init__` (checkpoint_manager.py 164-167) -/
def Manager.ctor (step : Option Int) (keep : Int) : Py Manager :=
  if (match step with | some k => decide (k ≤ 0) | none => false) then .error .valueError
  else if keep ≤ 0 then .error .valueError
  else .ok ⟨step.map Int.toNat, keep.toNat⟩

/-- `should_checkpoint` (checkpoint_manager.py 313-319) at a non-negative iteration -/
def Manager.should (m : Manager) (i : Nat) : Bool :=
  match m.step with
  | none => false
  | some k => decide ((i + 1) % k = 0)

/-- files removed by `_cleanup_old_checkpoints` (checkpoint_manager.py 877-896), in order: all but the `keep` newest -/
def Manager.stale (m : Manager) (d : Dir S) : List Nat :=
  (pySorted (fun a b => decide (b ≤ a)) d.ckpt.keys).drop m.keep

/-- the writing part of `save_checkpoint` (checkpoint_manager.py 358-379) -/
def Manager.writeOps (m : Manager) (d : Dir S) (i : Nat) (s : S) : List (FsOp S) :=
  let w := [.openCkpt i, .writeCkpt i s, .openProgress, .writeProgress i]
  w ++ (m.stale (applyAll w d)).map .unlink

/-- `save_checkpoint` (checkpoint_manager.py 321-380): nothing to do if this checkpoint is already the recorded one -/
def Manager.saveOps (m : Manager) (d : Dir S) (i : Nat) (s : S) : Py (List (FsOp S)) :=
  if d.ckpt.contains i then
    match d.progress with
    | none => .ok (m.writeOps d i s)
    | some none => .error .jsonDecodeError
    | some (some p) => if p = i then .ok [] else .ok (m.writeOps d i s)
  else .ok (m.writeOps d i s)

/-- `mark_trial_complete` (checkpoint_manager.py 443-466) -/
def Manager.markOps (m : Manager) (d : Dir S) (i : Nat) (s : S) : Py (List (FsOp S)) :=
  match m.saveOps d i s with
  | .error e => .error e
  | .ok l => .ok (l ++ [.openComplete, .writeComplete i])

/-- reading a checkpoint file; an incomplete file makes zstd or pickle raise (`runtimeError` here) -/
def Dir.read (d : Dir S) (i : Nat) : Py S :=
  match d.ckpt.get? i with
  | none => .error .fileNotFound
  | some none => .error .runtimeError
  | some (some s) => .ok s

/-- `load_checkpoint` (checkpoint_manager.py 382-417) -/
def Dir.load (d : Dir S) : Py (Option (Nat × S)) :=
  match d.progress with
  | none => .ok none
  | some none => .error .jsonDecodeError
  | some (some p) =>
    match d.read p with
    | .error e => .error e
    | .ok s => .ok (some (p, s))

/-- `load_trial_result` (checkpoint_manager.py 555-584) -/
def Dir.result (d : Dir S) : Py S :=
  match d.complete with
  | none => .error .valueError
  | some none => .error .jsonDecodeError
  | some (some i) => d.read i

/-- What one trial does. `body n k s` is iteration `k` of a run with `n` iterations: network step, algorithm step and
snapshots (_algorithm.py 119-123), returning the state and whether it raised; `setup` is `initialize`; `fresh` is the deep
copy of the algorithm and the problem's network together with the generators just seeded (_benchmark.py 555-581); `metric k`
is what the runtime metrics do after iteration `k` (_benchmark.py 600-608); `tidy` is `_cleanup`. -/
structure Trial (S : Type) where
  fresh : S
  setup : S → S × Bool
  body : Nat → Nat → S → S × Bool
  metric : Nat → S → S
  tidy : S → S

/-- what a run of a trial leaves: file operations in order, the returned state, and whether it ran to the end -/
structure Outcome (S : Type) where
  ops : List (FsOp S)
  state : S
  done : Bool

/-- the loop of `Algorithm.run` with the progress callback (_algorithm.py 119-125, _benchmark.py 588-608), `n` iterations
from `k` in a run of `total` -/
def loop (m : Manager) (t : Trial S) (total : Nat) : Nat → Nat → S → Dir S → Outcome S
  | 0, _, s, _ => ⟨[], s, true⟩
  | n + 1, k, s, d =>
    let r := t.body total k s
    if r.2 then ⟨[], r.1, false⟩
    else if m.should k then
      match m.saveOps d k r.1 with
      | .error _ => ⟨[], r.1, false⟩
      | .ok l =>
        let rest := loop m t total n (k + 1) (t.metric k r.1) (applyAll l d)
        ⟨l ++ rest.ops, rest.state, rest.done⟩
    else loop m t total n (k + 1) (t.metric k r.1) d

/-- the end of `_run_trial` (_benchmark.py 612-621): mark complete and clean up, unless the run raised -/
def finish (m : Manager) (t : Trial S) (total : Nat) (d : Dir S) (o : Outcome S) : Outcome S :=
  if o.done then
    match m.markOps (applyAll o.ops d) (total - 1) o.state with
    | .error _ => ⟨o.ops, o.state, false⟩
    | .ok l => ⟨o.ops ++ l, t.tidy o.state, true⟩
  else o

/-- `_run_trial` with a checkpoint manager (_benchmark.py 541-623); exceptions raised while loading the checkpoint are
not caught there, those raised by the run are -/
def runTrial (m : Manager) (t : Trial S) (total : Nat) (d : Dir S) : Py (Outcome S) :=
  match d.load with
  | .error e => .error e
  | .ok none =>
    let r := t.setup t.fresh
    if r.2 then .ok ⟨[], r.1, false⟩
    else .ok (finish m t total d (loop m t total total 0 r.1 d))
  | .ok (some (p, s)) =>
    if total < p + 1 then .ok ⟨[], s, false⟩      -- `Algorithm.run` raises ValueError
    else .ok (finish m t total d (loop m t total (total - (p + 1)) (p + 1) s d))

/-- a benchmark started or resumed on this directory: completed trials are loaded, others run (_benchmark.py 455-471) -/
def session (m : Manager) (t : Trial S) (total : Nat) (d : Dir S) : Py (Outcome S) :=
  if d.complete.isSome then
    match d.result with
    | .error e => .error e
    | .ok s => .ok ⟨[], s, true⟩
  else runTrial m t total d

/-- the directory after a session killed after `c` file operations -/
def crash (m : Manager) (t : Trial S) (total : Nat) (c : Nat) (d : Dir S) : Py (Dir S) :=
  match session m t total d with
  | .error e => .error e
  | .ok o => .ok (applyAll (o.ops.take c) d)

/-- the directory after a sequence of killed sessions -/
def crashes (m : Manager) (t : Trial S) (total : Nat) : List Nat → Dir S → Py (Dir S)
  | [], d => .ok d
  | c :: cs, d =>
    match crash m t total c d with
    | .error e => .error e
    | .ok d => crashes m t total cs d

end Verif.Ckpt
