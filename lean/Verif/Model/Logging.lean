import Verif.Model.Py
/-!
# The logger
(decent_bench/utils/logger.py and its callers)

One root logger per process.  Time in the background (the thread of a `QueueListener`) is an action of the trace.  Not modelled: the text
layout of the handlers, a dead manager process, changes the user makes to the root logger.
-/
namespace Verif
namespace Logging

/-- a log record -/
structure Rec where
  level : Nat
  text : String
  deriving DecidableEq

/-- a handler of the root logger: `RichHandler()` (which accepts every level) or `QueueHandler(queue)` -/
inductive Handler where
  | console
  | queue (q : Nat)

/-- a root logger -/
structure Logger where
  handlers : List Handler
  level : Nat

/-- a queue with its `QueueListener`: records not handled yet, level of the listener's `RichHandler`, whether its thread runs -/
structure Queue where
  waiting : List Rec
  level : Nat
  alive : Bool

/-- the logger of the main process, the queues, and what has been printed -/
structure World where
  main : Logger
  queues : List Queue
  shown : List Rec

/-- a new Python process: no handlers, level WARNING -/
def fresh : World := ⟨⟨[], 30⟩, [], []⟩

/-- one handler handles a record (`RichHandler.emit`, `QueueHandler.enqueue`) -/
def handle (r : Rec) (w : World) : Handler → World
  | .console => { w with shown := w.shown ++ [r] }
  | .queue q => { w with queues := w.queues.modify q fun k => { k with waiting := k.waiting ++ [r] } }

/-- `Logger.handle`: records below the level of the logger are dropped, without handlers records from WARNING on are printed
(`logging.lastResort`), otherwise every handler handles the record -/
def log (lg : Logger) (r : Rec) (w : World) : World :=
  if r.level < lg.level then w
  else match lg.handlers with
    | [] => if 30 ≤ r.level then { w with shown := w.shown ++ [r] } else w
    | hs => hs.foldl (handle r) w

/-- `start_logger(log_level)` (logger.py 33-54) -/
def startLogger (level : Nat) (w : World) : World :=
  match w.main.handlers with
  | [] => { w with main := ⟨[.console], level⟩ }
  | _ => w

/-- `start_queue_logger(queue)` (logger.py 83-93) -/
def queueLogger (q : Nat) : Logger := ⟨[.queue q], 0⟩

/-- `start_log_listener(manager, log_level)` (logger.py 57-80): a new queue, a listener on it, and the main logger moved to it -/
def startListener (level : Nat) (w : World) : World :=
  { w with main := queueLogger w.queues.length, queues := w.queues ++ [⟨[], level, true⟩] }

/-- the listener's thread handles the records it finds -/
def accepted (k : Queue) : List Rec := k.waiting.filter fun r => decide (k.level ≤ r.level)

/-- one record is taken from queue `q` by its listener, if the thread runs -/
def deliver (q : Nat) (w : World) : World :=
  match w.queues[q]? with
  | some ⟨r :: rest, lv, true⟩ =>
    { w with queues := w.queues.set q ⟨rest, lv, true⟩, shown := w.shown ++ (if lv ≤ r.level then [r] else []) }
  | _ => w

/-- `QueueListener.stop()`: the records put before are handled, then the thread ends -/
def stop (q : Nat) (w : World) : World :=
  match w.queues[q]? with
  | some ⟨ws, lv, true⟩ =>
    { w with queues := w.queues.set q ⟨[], lv, false⟩, shown := w.shown ++ accepted ⟨ws, lv, true⟩ }
  | _ => w

/-- what happens during a call: code in the main process or in a trial logs, or the thread of listener `q` handles a record -/
inductive Act where
  | main (r : Rec)
  | trial (r : Rec)
  | deliver (q : Nat)

/-- a call of the API: `serial` is any call configuring the logger by `start_logger` (`benchmark` and `resume_benchmark` with
`max_processes=1`, _benchmark.py 398-400; `compute_metrics`, _compute_metrics.py 84; `display_metrics`, _display_metrics.py 106; the problem
generators, _utils.py 56-57, and the centralized solvers, centralized_algorithms.py 45-46, with level INFO); `parallel` is `benchmark` or
`resume_benchmark` with several processes (_benchmark.py 402-421), `returns` says that no exception left it -/
inductive Call where
  | serial (level : Nat) (acts : List Act)
  | parallel (level : Nat) (acts : List Act) (returns : Bool)

/-- one action; `trials` is the logger of the process the trials run in -/
def act (trials : World → Logger) (w : World) : Act → World
  | .main r => log w.main r w
  | .trial r => log (trials w) r w
  | .deliver q => deliver q w

/-- a call.  With one process the trials log in the main process (_benchmark.py 502-503), with several in workers started by
`start_queue_logger` on the listener's queue (512-513); the listener is stopped only if the call returns (_benchmark.py 207-208, 303-304). -/
def Call.run (w : World) : Call → World
  | .serial level acts => acts.foldl (act fun w => w.main) (startLogger level w)
  | .parallel level acts returns =>
    let q := w.queues.length
    let w' := acts.foldl (act fun _ => queueLogger q) (startListener level w)
    if returns then stop q w' else w'

/-- a session: calls one after the other -/
def session (w : World) (cs : List Call) : World := cs.foldl Call.run w

end Logging
end Verif
