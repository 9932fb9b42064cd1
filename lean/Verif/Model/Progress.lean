import Verif.Model.Run
/-!
# Progress bars  (decent_bench/utils/progress_bar.py 28-286, benchmark/_benchmark.py 465-470, 581-608)

A queue carries records `(bar, increment, trial)`; a listener thread resets a bar at its first record and advances it. Rendering
(columns, speed, colours) is not modelled. Numbers are exact: `ceil(iterations / progress_step)` is computed in floating point by the
code, which agrees below 2^53. Increments, totals, iterations and steps are natural numbers; `progress_step = 0` (a ZeroDivisionError at
construction) and negative steps are left out by hypotheses.
-/
namespace Verif.Progress

/-- `_ProgressRecord` (28-35) -/
structure Rec (B : Type) where
  bar : B
  inc : Nat
  trial : Option Nat

variable {B : Type}

/-- `start_progress_bar` (134-150): `initial_progress // step if step else 0` -/
def startRec (step : Option Nat) (bar : B) (trial start : Nat) : Rec B :=
  match step with
  | none => ⟨bar, 0, some (trial + 1)⟩
  | some s => ⟨bar, start / s, some (trial + 1)⟩

/-- the test in `advance_progress_bar` (151-157): whether a record is put -/
def advances (step : Option Nat) (iterations : Nat) (k : Int) : Bool :=
  match step with
  | none => !decide (k + 1 < iterations)
  | some s => !(decide ((k + 1) % (s : Int) ≠ 0) && decide (k + 1 < iterations))

/-- `advance_progress_bar` (151-160) -/
def advance (step : Option Nat) (iterations : Nat) (bar : B) (k : Int) (q : List (Rec B)) : List (Rec B) :=
  if advances step iterations k then q ++ [⟨bar, 1, none⟩] else q

/-- `steps_per_trial` (224): `max(1, ceil(iterations / step))`; one unit per trial without step (222, 241) -/
def stepsPerTrial (step : Option Nat) (iterations : Nat) : Nat :=
  match step with
  | none => 1
  | some s => max 1 ((iterations + (s - 1)) / s)

/-- total of a bar (219-227) -/
def total (step : Option Nat) (nTrials iterations : Nat) : Nat := nTrials * stepsPerTrial step iterations

/-- `mark_one_trial_as_complete` (239-243) -/
def completeRec (step : Option Nat) (iterations : Nat) (bar : B) (trial : Nat) : Rec B :=
  ⟨bar, stepsPerTrial step iterations, some (trial + 1)⟩

/-- the records a trial puts in the queue: `start_progress_bar`, then `Algorithm.run` with a callback that advances the bar
(_benchmark.py 581-608).  The algorithm itself is abstract: `step` may fail (the exception is caught at 620), in which case the records put so
far remain. -/
def ops (step : Option Nat) (iterations : Nat) (bar : B) (fails : Int → Bool) : RunOps (List (Rec B)) where
  setup q := .ok q
  netStep _ q := q
  step k q := if fails k then .error .valueError else .ok q
  snapshot _ _ q := .ok q
  callback k q := .ok (advance step iterations bar k q)

/-- records of a trial that runs from iteration `start` (successfully: no step fails) -/
def runRecords (step : Option Nat) (iterations : Nat) (bar : B) (trial start : Nat) : List (Rec B) :=
  match (ops step iterations bar fun _ => false).run iterations start [startRec step bar trial start] with
  | .ok q => q
  | .error _ => [startRec step bar trial start]

/-- how a trial is handled (_benchmark.py 459-480): loaded as completed, or run from an iteration (0 unless resumed from a checkpoint) -/
inductive Plan where
  | loaded
  | run (start : Nat)

/-- the records of one trial -/
def trialRecords (step : Option Nat) (iterations : Nat) (bar : B) (trial : Nat) : Plan → List (Rec B)
  | .loaded => [completeRec step iterations bar trial]
  | .run start => runRecords step iterations bar trial start

/-- the records of the trials of one algorithm, numbered from `t` -/
def barRecords (step : Option Nat) (iterations : Nat) (bar : B) : Nat → List Plan → List (Rec B)
  | _, [] => []
  | t, p :: ps => trialRecords step iterations bar t p ++ barRecords step iterations bar (t + 1) ps

/-- what the listener knows: units done per bar (`task.completed`), bars started, and the visible started bars in order -/
structure State (B : Type) where
  done : B → Nat
  started : List B
  order : List B

variable [DecidableEq B]

/-- pop from the front while there are more than `height` (281-282); one pop suffices, since one bar was just appended -/
def trim (height : Nat) (l : List B) : List B := l.drop (l.length - height)

/-- first record of a bar: reset and remember it (276-282) -/
def begin (height : Nat) (b : B) (s : State B) : State B :=
  if b ∈ s.started then s
  else ⟨fun c => if c = b then 0 else s.done c, b :: s.started, trim height (s.order ++ [b])⟩

/-- handling of one record (272-285) -/
def handle (height : Nat) (r : Rec B) (s : State B) : State B :=
  let s := begin height r.bar s
  { s with done := fun c => if c = r.bar then s.done c + r.inc else s.done c }

/-- `orchestrator.finished`: all tasks at their total (rich marks a task finished when `completed >= total` at an update; totals are
positive, so nothing is finished before its first record) -/
def finished (bars : List B) (tot : B → Nat) (s : State B) : Bool := bars.all fun b => decide (tot b ≤ s.done b)

/-- `_progress_listener` (267-286) on the records that arrive, in arrival order; a `None` ends the stream -/
def listen (height : Nat) (bars : List B) (tot : B → Nat) : List (Rec B) → State B → State B
  | [], s => s
  | r :: rs, s => if finished bars tot s then s else listen height bars tot rs (handle height r s)

/-- before the first record: rich tasks start at 0 completed -/
def State.fresh : State B := ⟨fun _ => 0, [], []⟩

end Verif.Progress
