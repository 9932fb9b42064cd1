import Verif.Model.Checkpoint
/-!
# File names inside a trial directory (decent_bench/utils/checkpoint_manager.py)

Model/Checkpoint addresses checkpoints by iteration number. Here the directory holds files under names, as on disk: zero-padded
decimal numbers, the `.pkl` files of older versions, files the manager did not write, the two globs, the regular expression, and
the marker that stores a file name.

Simplifications. Names are lists of characters; `\d` is an ASCII digit. Iteration numbers are natural. What one trial does to its
directory is still a list of elementary operations, and a kill keeps a prefix. A file whose content has another form than the
reader expects makes the reader raise (JSONDecodeError for the two JSON files, `runtimeError` for a checkpoint). In which order a
glob lists files is a parameter `scan`.
-/
namespace Verif.Names
open Verif Verif.Ckpt

abbrev Name := List Char

/-- what a completely written file holds: a pickled checkpoint (358-363), `progress.json` (367), `complete.json` (455-461), or something else -/
inductive Body (S : Type) where
  | state (s : S)
  | progress (i : Nat)
  | complete (checkpoint : Name)
  | other
  deriving DecidableEq

/-- a trial directory: `none` is a file that was opened for writing and not finished -/
abbrev Folder (S : Type) := PyDict Name (Option (Body S))

/-- `"checkpoint_"` -/
def pre : Name := "checkpoint_".toList
/-- `".pkl"` -/
def pkl : Name := ".pkl".toList
/-- `".pkl.zst"` -/
def zst : Name := ".pkl.zst".toList

/-- `f"{iteration:07d}"` -/
def padded (i : Nat) : Name := List.replicate (7 - (Nat.toDigits 10 i).length) '0' ++ Nat.toDigits 10 i

/-- `f"checkpoint_{iteration:07d}.pkl.zst"` (346, 827) -/
def zstName (i : Nat) : Name := pre ++ (padded i ++ zst)

/-- `f"checkpoint_{iteration:07d}.pkl"` (831) -/
def pklName (i : Nat) : Name := pre ++ (padded i ++ pkl)

/-- `"progress.json"` -/
def progressName : Name := "progress.json".toList
/-- `"complete.json"` -/
def completeName : Name := "complete.json".toList

/-- `f"algorithm_{alg_idx}"`, `f"trial_{trial}"` (777-783): the path of a trial below the checkpoint directory -/
def trialPath (alg trial : Nat) : List Name := ["algorithm_".toList ++ Nat.toDigits 10 alg, "trial_".toList ++ Nat.toDigits 10 trial]

/-- the characters between `checkpoint_` and `suffix`, for a name that `glob("checkpoint_*" + suffix)` lists -/
def between (suffix f : Name) : Option Name :=
  if pre.isPrefixOf f && suffix.isSuffixOf (f.drop pre.length) then some ((f.drop pre.length).take ((f.drop pre.length).length - suffix.length)) else none

/-- does `glob("checkpoint_*" + suffix)` list `f` -/
def globs (suffix f : Name) : Bool := (between suffix f).isSome

/-- `_CHECKPOINT_NAME_RE` and `_checkpoint_iteration` (27, 837-848): `^checkpoint_(\d+)\.pkl(?:\.zst)?$`; `$` also matches before a final newline -/
def iterationOf (f : Name) : Py Nat :=
  if pre.isPrefixOf f then
    let r := f.drop pre.length
    let ds := r.takeWhile Char.isDigit
    let rest := r.dropWhile Char.isDigit
    if ds ≠ [] ∧ (rest = pkl ∨ rest = zst ∨ rest = pkl ++ ['\n'] ∨ rest = zst ++ ['\n']) then .ok (Nat.ofDigitChars 10 ds 0) else .error .valueError
  else .error .valueError

variable {S : Type}

/-- elementary file operations -/
inductive Op (S : Type) where
  /-- `path.open("w")`, `path.open("wb")`: creates or truncates -/
  | openFile (f : Name)
  /-- the content is complete -/
  | write (f : Name) (b : Body S)
  /-- `unlink()` -/
  | unlink (f : Name)
  deriving DecidableEq

/-- effect of one operation -/
def Op.apply : Op S → Folder S → Folder S
  | .openFile f, d => d.set f none
  | .write f b, d => d.set f (some b)
  | .unlink f, d => d.pop f

/-- a sequence of operations -/
def applyOps (l : List (Op S)) (d : Folder S) : Folder S := l.foldl (fun d o => o.apply d) d

/-- `_cleanup_old_checkpoints` (868-896): the files it removes, in order. `scan` is the order in which a glob lists the directory -/
def stale (m : Manager) (scan : List Name → List Name) (d : Folder S) : Py (List Name) :=
  let files := (scan d.keys).filter (globs pkl) ++ (scan d.keys).filter (globs zst)
  match files.mapM (fun f => (iterationOf f).map fun i => (i, f)) with
  | .error e => .error e
  | .ok keyed => .ok (((pySorted (fun a b => decide (b.1 ≤ a.1)) keyed).drop m.keep).map Prod.snd)

/-- what a call did: its file operations, and the exception it ended with -/
structure Did (S : Type) where
  ops : List (Op S)
  err : Option PyErr

/-- `save_checkpoint` after the check (358-379) -/
def writeFiles (m : Manager) (scan : List Name → List Name) (d : Folder S) (i : Nat) (s : S) : Did S :=
  let w := [.openFile (zstName i), .write (zstName i) (.state s), .openFile progressName, .write progressName (.progress i)]
  match stale m scan (applyOps w d) with
  | .error e => ⟨w, some e⟩
  | .ok l => ⟨w ++ l.map .unlink, none⟩

/-- `save_checkpoint` (321-380) -/
def save (m : Manager) (scan : List Name → List Name) (d : Folder S) (i : Nat) (s : S) : Did S :=
  if d.contains (zstName i) && d.contains progressName then
    match d.get? progressName with
    | some (some (.progress p)) => if p = i then ⟨[], none⟩ else writeFiles m scan d i s
    | _ => ⟨[], some .jsonDecodeError⟩
  else writeFiles m scan d i s

/-- `mark_trial_complete` (443-466) -/
def mark (m : Manager) (scan : List Name → List Name) (d : Folder S) (i : Nat) (s : S) : Did S :=
  let r := save m scan d i s
  match r.err with
  | some e => ⟨r.ops, some e⟩
  | none => ⟨r.ops ++ [.openFile completeName, .write completeName (.complete (zstName i))], none⟩

/-- `_resolve_checkpoint_path` (825-835) -/
def resolve (d : Folder S) (i : Nat) : Name :=
  if d.contains (zstName i) then zstName i else if d.contains (pklName i) then pklName i else zstName i

/-- `_load_pickle` of a checkpoint (856-866) -/
def readState (d : Folder S) (f : Name) : Py S :=
  match d.get? f with
  | none => .error .fileNotFound
  | some (some (.state s)) => .ok s
  | some _ => .error .runtimeError

/-- `load_checkpoint` (382-417) -/
def load (d : Folder S) : Py (Option (Nat × S)) :=
  match d.get? progressName with
  | none => .ok none
  | some (some (.progress p)) =>
    match readState d (resolve d p) with
    | .error e => .error e
    | .ok s => .ok (some (p, s))
  | some _ => .error .jsonDecodeError

/-- `load_trial_result` (554-584) -/
def result (d : Folder S) : Py S :=
  match d.get? completeName with
  | none => .error .valueError
  | some (some (.complete f)) => readState d f
  | some _ => .error .jsonDecodeError

/-- `is_benchmark_started` (515-518) for one trial: `any(trial_dir.glob("checkpoint_*.pkl*"))` -/
def started (d : Folder S) : Bool :=
  d.keys.any fun f => pre.isPrefixOf f && (f.drop pre.length).tails.any fun t => pkl.isPrefixOf t

/-- what a run of a trial leaves -/
structure Ran (S : Type) where
  ops : List (Op S)
  state : S
  done : Bool

/-- the loop of `Algorithm.run` with the progress callback, as `Ckpt.loop` -/
def loop (m : Manager) (scan : List Name → List Name) (t : Trial S) (total : Nat) : Nat → Nat → S → Folder S → Ran S
  | 0, _, s, _ => ⟨[], s, true⟩
  | n + 1, k, s, d =>
    let r := t.body total k s
    if r.2 then ⟨[], r.1, false⟩
    else if m.should k then
      let w := save m scan d k r.1
      match w.err with
      | some _ => ⟨w.ops, r.1, false⟩
      | none =>
        let rest := loop m scan t total n (k + 1) (t.metric k r.1) (applyOps w.ops d)
        ⟨w.ops ++ rest.ops, rest.state, rest.done⟩
    else loop m scan t total n (k + 1) (t.metric k r.1) d

/-- the end of `_run_trial` (_benchmark.py 612-621), as `Ckpt.finish` -/
def finish (m : Manager) (scan : List Name → List Name) (t : Trial S) (total : Nat) (d : Folder S) (o : Ran S) : Ran S :=
  if o.done then
    let w := mark m scan (applyOps o.ops d) (total - 1) o.state
    match w.err with
    | some _ => ⟨o.ops ++ w.ops, o.state, false⟩
    | none => ⟨o.ops ++ w.ops, t.tidy o.state, true⟩
  else o

/-- `_run_trial` with a checkpoint manager (_benchmark.py 541-623), as `Ckpt.runTrial` -/
def runTrial (m : Manager) (scan : List Name → List Name) (t : Trial S) (total : Nat) (d : Folder S) : Py (Ran S) :=
  match load d with
  | .error e => .error e
  | .ok none =>
    let r := t.setup t.fresh
    if r.2 then .ok ⟨[], r.1, false⟩
    else .ok (finish m scan t total d (loop m scan t total total 0 r.1 d))
  | .ok (some (p, s)) =>
    if total < p + 1 then .ok ⟨[], s, false⟩
    else .ok (finish m scan t total d (loop m scan t total (total - (p + 1)) (p + 1) s d))

/-- a benchmark started or resumed on this directory (_benchmark.py 455-471), as `Ckpt.session` -/
def session (m : Manager) (scan : List Name → List Name) (t : Trial S) (total : Nat) (d : Folder S) : Py (Ran S) :=
  if d.contains completeName then
    match result d with
    | .error e => .error e
    | .ok s => .ok ⟨[], s, true⟩
  else runTrial m scan t total d

/-- the directory after a sequence of sessions, each killed after some number of file operations -/
def crashes (m : Manager) (scan : List Name → List Name) (t : Trial S) (total : Nat) : List Nat → Folder S → Py (Folder S)
  | [], d => .ok d
  | c :: cs, d =>
    match session m scan t total d with
    | .error e => .error e
    | .ok o => crashes m scan t total cs (applyOps (o.ops.take c) d)

/-- the first four bytes decide how `_load_pickle` reads a file (856-866), not its name -/
def decode (magic : List UInt8) (unzip unpickle : List UInt8 → Option S) (content : List UInt8) : Option S :=
  if content.take magic.length = magic then unzip content else unpickle content

end Verif.Names
