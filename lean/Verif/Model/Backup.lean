import Verif.Model.Metadata
/-!
# Backups made by `resume_benchmark`, and kills
(decent_bench/utils/checkpoint_manager.py `create_backup`, decent_bench/benchmark/_benchmark.py `resume_benchmark`)

* The directory is represented by its `metadata.json` (Model/Metadata), the only file `resume_benchmark` rewrites before the trials start
  (the others: C37, C108). An archive is complete, holding the directory as it was, or incomplete.
* Archives lie beside the directory. Their names differ in the time, to the second, at which they are made.
-/
namespace Verif.Backup
open Verif Meta

variable {J : Type}

/-- the metadata file, and the archives by time stamp: `none` incomplete -/
structure Store (J : Type) where
  file : File J
  zips : PyDict String (Option (File J))

/-- elementary file operations -/
inductive Op (J : Type) where
  | openZip (stamp : String)
  | writeZip (stamp : String) (f : File J)
  | openInfo
  | writeInfo (m : Content J)

/-- effect of one operation -/
def Op.apply : Op J → Store J → Store J
  | .openZip s, st => { st with zips := st.zips.set s none }
  | .writeZip s f, st => { st with zips := st.zips.set s (some f) }
  | .openInfo, st => { st with file := some none }
  | .writeInfo m, st => { st with file := some (some m) }

/-- a sequence of operations -/
def applyOps (l : List (Op J)) (st : Store J) : Store J := l.foldl (fun st o => o.apply st) st

/-- `create_backup` (checkpoint_manager.py 226-243) of a name that is free -/
def backupOps (stamp : String) (f : File J) : List (Op J) := [.openZip stamp, .writeZip stamp f]

/-- `_save_metadata` that leaves the file as `f` (checkpoint_manager.py 785-790) -/
def saveOps : File J → List (Op J)
  | some (some m) => [.openInfo, .writeInfo m]
  | _ => [.openInfo]

/-- the contents `metadata.json` goes through because of added iterations (_benchmark.py 170-185) -/
def iterationWrites (C : Codec J) (incI : Nat) (m : Content J) (f : File J) : List (File J) :=
  match total C m "increased_iterations" incI with
  | .error _ => []
  | .ok t => if incI ≠ 0 then [(append C [("increased_iterations", C.num t)] f).1] else []

/-- the contents `metadata.json` goes through in a resume (_benchmark.py 161-185) -/
def writes (C : Codec J) (incI incT : Nat) (m : Content J) (f : File J) : List (File J) :=
  match total C m "increased_trials" incT with
  | .error _ => []
  | .ok t =>
    if incT ≠ 0 then
      match append C [("increased_trials", C.num t)] f with
      | (f', .ok m') => f' :: iterationWrites C incI m' f'
      | (f', .error _) => [f']
    else iterationWrites C incI m f

/-- `resume_benchmark(create_backup=True)` at time `stamp`, up to `_benchmark` (_benchmark.py 120-192): its file operations and its result;
`userError` stands for `FileExistsError` -/
def resumeOps (C : Codec J) (stamp : String) (incI incT : Nat) (st : Store J) : List (Op J) × Py Plan :=
  match load st.file with
  | .error _ => ([], .error .valueError)
  | .ok m =>
    match m.nTrials with
    | none => ([], .error .valueError)
    | some _ =>
      if (st.zips.get? stamp).isSome then ([], .error .userError)
      else (backupOps stamp st.file ++ (writes C incI incT m st.file).flatMap saveOps, (resume C incI incT st.file).2)

/-- a call: when, what is added, and after how many operations it is killed, if it is -/
structure Call where
  stamp : String
  incI : Nat
  incT : Nat
  kill : Option Nat

/-- the operations of a call that take place -/
def Call.ops (C : Codec J) (c : Call) (st : Store J) : List (Op J) :=
  match c.kill with
  | none => (resumeOps C c.stamp c.incI c.incT st).1
  | some k => (resumeOps C c.stamp c.incI c.incT st).1.take k

/-- does the call get to running the trials -/
def Call.works (C : Codec J) (c : Call) (st : Store J) : Bool :=
  match c.kill, (resumeOps C c.stamp c.incI c.incT st).2 with
  | none, .ok _ => true
  | _, _ => false

/-- the files after a call -/
def Call.run (C : Codec J) (st : Store J) (c : Call) : Store J := applyOps (c.ops C st) st

/-- the files after some calls -/
def afterCalls (C : Codec J) (st : Store J) (l : List Call) : Store J := l.foldl (Call.run C) st

/-- trials added by the calls that got to running the trials -/
def trialsOfWorking (C : Codec J) (st : Store J) : List Call → Int
  | [] => 0
  | c :: l => (if c.works C st then (c.incT : Int) else 0) + trialsOfWorking C (c.run C st) l

end Verif.Backup
