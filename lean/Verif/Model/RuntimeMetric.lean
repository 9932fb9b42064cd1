import Verif.Model.Run
import Verif.Model.Metrics
import Mathlib.Analysis.InnerProductSpace.PiL2
/-!
# Runtime metrics  (decent_bench/metrics/_runtime_metric.py, runtime_library.py, _runtime_metric_plotter.py) and the part of
# `_run_trial` (benchmark/_benchmark.py 540-648) which evaluates them

Unlike `RunOps.run`, a call which raises here also says what state it left behind: `_run_trial` swallows the exception and
returns the network as it stands.
-/
namespace Verif
namespace Monitor

/-- outcome of a Python call with side effects on a state: the state left behind and the exception, if any -/
abbrev Eff (σ : Type) := σ × Option PyErr

/-- the calls of `Algorithm.run` (algorithms/_algorithm.py 84-125) and `_cleanup`, on the network, the algorithm object and the
random state (`σ`), each with the state it leaves behind when it raises -/
structure Prog (σ : Type) where
  setup : σ → Eff σ
  netStep : Int → σ → σ
  step : Int → σ → Eff σ
  snapshot : Int → Bool → σ → Eff σ
  cleanup : σ → Eff σ

/-- A runtime metric (metrics/_runtime_metric.py 52-66): its interval and its `compute`, which reads and may write the object's
own memory (`M`; e.g. `_cached_optimal_cost`) and the trial's state.  `V` is the type of values. -/
structure Metric (σ M V : Type) where
  interval : Int
  compute : Int → M → σ → Py V × M × σ

/-- an update message: the position of the metric in the list, iteration, value.  (The algorithm name and the trial are the same
for all messages of a trial, _runtime_metric.py 136.) -/
structure Msg (V : Type) where
  metric : Nat
  iteration : Int
  value : V

/-- what a trial works on: system, the memories of the trial's own copies of the metrics (_benchmark.py 639-640 deep copies),
the messages in the queue, the checkpoints written, and the state stored by `mark_trial_complete` -/
structure TrialState (σ M V : Type) where
  sys : σ
  mem : Nat → M
  queue : List (Msg V)
  saved : List (Int × σ)
  complete : Option σ

variable {σ M V : Type}

/-- `should_update` (_runtime_metric.py 143-154): `%` by zero raises -/
def shouldUpdate (interval k : Int) : Py Bool :=
  if interval = 0 then .error .zeroDivision else .ok (k % interval == 0 || k == 0)

/-- `self._queue.put(…, block=False)` under `contextlib.suppress(Exception)` (_runtime_metric.py 133-136): `room` says whether the
queue takes the message; a refused message is lost -/
def put (room : List (Msg V) → Msg V → Bool) (m : Msg V) (q : List (Msg V)) : List (Msg V) :=
  if room q m then q ++ [m] else q

/-- `metric.update_plot(…)` in its `try`/`except Exception` (_benchmark.py 599-604; _runtime_metric.py 114-136): an exception of
`compute` is logged and swallowed, and nothing is sent; what `compute` has done to the state stays done -/
def updatePlot (room : List (Msg V) → Msg V → Bool) (j : Nat) (m : Metric σ M V) (k : Int) (t : TrialState σ M V) :
    TrialState σ M V :=
  let r := m.compute k (t.mem j) t.sys
  let t' := { t with sys := r.2.2, mem := fun i => if i = j then r.2.1 else t.mem i }
  match r.1 with
  | .error _ => t'
  | .ok v => { t' with queue := put room ⟨j, k, v⟩ t'.queue }

/-- `for metric in trial_runtime_metrics: if metric.should_update(iteration) or iteration + 1 == alg.iterations:` (_benchmark.py
597-604); `should_update` is called outside the `try`.  `j` counts positions. -/
def updateAll (room : List (Msg V) → Msg V → Bool) (iterations k : Int) : Nat → List (Metric σ M V) → TrialState σ M V →
    Eff (TrialState σ M V)
  | _, [], t => (t, none)
  | j, m :: ms, t =>
    match shouldUpdate m.interval k with
    | .error e => (t, some e)
    | .ok b => updateAll room iterations k (j + 1) ms (if b || k + 1 == iterations then updatePlot room j m k t else t)

/-- `progress_callback` (_benchmark.py 585-604): checkpoint if the manager says so (`should`), then the metrics.  The progress
bar's queue is not part of the state. -/
def callback (room : List (Msg V) → Msg V → Bool) (should : Int → Bool) (iterations : Int) (ms : List (Metric σ M V)) (k : Int)
    (t : TrialState σ M V) : Eff (TrialState σ M V) :=
  updateAll room iterations k 0 ms (if should k then { t with saved := t.saved ++ [(k, t.sys)] } else t)

/-- run `f` on the system of the trial -/
def onSys (f : σ → Eff σ) (t : TrialState σ M V) : Eff (TrialState σ M V) :=
  ({ t with sys := (f t.sys).1 }, (f t.sys).2)

/-- statement sequencing: the rest runs only if nothing was raised -/
def andThen {τ : Type} (r : Eff τ) (f : τ → Eff τ) : Eff τ :=
  match r.2 with
  | some e => (r.1, some e)
  | none => f r.1

/-- the loop body of `Algorithm.run` (_algorithm.py 119-125) -/
def body (p : Prog σ) (room : List (Msg V) → Msg V → Bool) (should : Int → Bool) (iterations : Int) (ms : List (Metric σ M V))
    (k : Int) (t : TrialState σ M V) : Eff (TrialState σ M V) :=
  andThen (andThen (onSys (fun s => p.step k (p.netStep k s)) t) (onSys (p.snapshot (k + 1) (k + 1 == iterations))))
    (callback room should iterations ms k)

/-- `for k in range(start, start + n)` -/
def loop (p : Prog σ) (room : List (Msg V) → Msg V → Bool) (should : Int → Bool) (iterations : Int) (ms : List (Metric σ M V)) :
    Nat → Int → TrialState σ M V → Eff (TrialState σ M V)
  | 0, _, t => (t, none)
  | n + 1, k, t => andThen (body p room should iterations ms k t) (loop p room should iterations ms n (k + 1))

/-- `alg.run(network, start_iteration, progress_callback)` (_algorithm.py 84-125) -/
def algRun (p : Prog σ) (room : List (Msg V) → Msg V → Bool) (should : Int → Bool) (iterations start : Int)
    (ms : List (Metric σ M V)) (t : TrialState σ M V) : Eff (TrialState σ M V) :=
  if start < 0 ∨ start > iterations then (t, some .valueError)
  else andThen (if start = 0 then onSys p.setup t else (t, none)) (loop p room should iterations ms (iterations - start).toNat start)

/-- the body of the `try` in `_run_trial` (_benchmark.py 606-622): run, mark complete (the state *before* cleanup), clean up -/
def guarded (p : Prog σ) (room : List (Msg V) → Msg V → Bool) (should : Int → Bool) (manager : Bool) (iterations start : Int)
    (ms : List (Metric σ M V)) (t : TrialState σ M V) : Eff (TrialState σ M V) :=
  andThen (algRun p room should iterations start ms t) (fun t =>
    onSys p.cleanup (if manager then { t with complete := some t.sys } else t))

/-- `_get_runtime_metrics` (_benchmark.py 628-651): without a queue no metric is evaluated -/
def trialMetrics (queueGiven : Bool) (ms : List (Metric σ M V)) : List (Metric σ M V) := if queueGiven then ms else []

/-- `_run_trial` (_benchmark.py 540-625) from the state it starts with (the problem's network, or a loaded checkpoint with the
iteration after it): every exception is logged and swallowed and the network is returned as it stands (625).  `manager` says
whether there is a checkpoint manager; `memory` are the metrics' memories before the trial. -/
def runTrial (p : Prog σ) (room : List (Msg V) → Msg V → Bool) (manager : Bool) (should : Int → Bool) (queueGiven : Bool)
    (iterations start : Int) (ms : List (Metric σ M V)) (memory : Nat → M) (s : σ) : TrialState σ M V :=
  (guarded p room (fun k => manager && should k) manager iterations start (trialMetrics queueGiven ms) ⟨s, memory, [], [], none⟩).1

/-! ## The metrics of runtime_library.py

Costs are deterministic functions of the point here (mini-batch costs: Model/Batch.lean and C50); `runtimeRegret` is given the costs of each call. -/

section Library
variable {A E : Type} [NormedAddCommGroup E] [NormedSpace ℝ E]

/-- Python's `sum(…) / len(agents)`: division by zero raises -/
noncomputable def meanOver (agents : List A) (g : A → ℝ) : Py ℝ :=
  if agents.length = 0 then .error .zeroDivision else .ok ((agents.map g).sum / agents.length)

/-- `RuntimeLoss.compute` (runtime_library.py 35-37) -/
noncomputable def runtimeLoss (agents : List A) (f : A → E → ℝ) (x : A → E) : Py ℝ := meanOver agents (fun i => f i (x i))

/-- `RuntimeRegret.compute` (runtime_library.py 60-71).  `f` are the costs as the first pass over the agents evaluates them, `f'` as the
second pass (only taken when nothing is cached) does: for mini-batch costs these are different batches.  The memory is
`_cached_optimal_cost`.  `problem.x_optimal is None` gives `nan`. -/
noncomputable def runtimeRegret (agents : List A) (xOpt : Option E) (f f' : A → E → ℝ) (x : A → E) (mem : Option ℝ) :
    Py Metrics.Val × Option ℝ :=
  match xOpt with
  | none => (.ok .nan, mem)
  | some xs =>
    match meanOver agents (fun i => f i (x i)) with
    | .error e => (.error e, mem)
    | .ok c =>
      match mem with
      | some b => (.ok (.fin (c - b)), mem)
      | none =>
        match meanOver agents (fun i => f' i xs) with
        | .error e => (.error e, none)
        | .ok b => (.ok (.fin (c - b)), some b)

/-- `RuntimeGradientNorm.compute` (runtime_library.py 95-97) -/
noncomputable def runtimeGradientNorm (agents : List A) (g : A → E → E) (x : A → E) : Py ℝ :=
  meanOver agents (fun i => ‖g i (x i)‖)

/-- `RuntimeConsensusError.compute` (runtime_library.py 123-129); `iop.stack([])` of no agents raises ValueError -/
noncomputable def runtimeConsensusError (agents : List A) (x : A → E) : Py ℝ :=
  if agents.length = 0 then .error .valueError
  else
    let avg := (agents.length : ℝ)⁻¹ • (agents.map x).sum
    meanOver agents (fun i => ‖x i - avg‖)

end Library

/-! ## The plotter -/

/-- A message on the plotter's queue (_runtime_metric.py 107-110 and 135): metric ids, algorithm names and save paths are strings -/
inductive PlotMsg where
  | init (metric description : String) (xLog yLog : Bool) (savePath : Option String)
  | update (metric algorithm : String) (trial iteration : Nat) (value : Metrics.Val)
  /-- anything else: not a tuple, or of another length (ignored with a debug message, _runtime_metric_plotter.py 239-241, 262-263) -/
  | other

/-- what `create_figure` draws: the label, the axis scales -/
structure Figure where
  description : String
  xLog : Bool
  yLog : Bool
  deriving DecidableEq

/-- the plotter's dictionaries (_runtime_metric_plotter.py 45-53).  A line shows the data lists it was last given, and those are
the (mutable) lists of `_data`, so lines and data are one dictionary here; with the data a line also has a colour index. -/
structure Plotter where
  figures : PyDict String Figure
  savePaths : PyDict String String
  data : PyDict (String × String × Nat) (List (Nat × ℝ))
  lineColor : PyDict (String × String × Nat) Nat
  colors : PyDict (String × Nat) Nat

/-- a new plotter -/
def Plotter.fresh : Plotter := ⟨.empty, .empty, .empty, .empty, .empty⟩

/-- `if save_path is not None: self._should_save_plots[metric_id] = save_path` (_runtime_metric_plotter.py 131-132) -/
def recordPath (d : PyDict String String) (metric : String) : Option String → PyDict String String
  | some s => d.set metric s
  | none => d

/-- `create_figure` (_runtime_metric_plotter.py 116-150): later calls for the same id do nothing -/
def Plotter.createFigure (p : Plotter) (metric description : String) (xLog yLog : Bool) (savePath : Option String) : Plotter :=
  if p.figures.contains metric then p
  else
    { p with
      savePaths := recordPath p.savePaths metric savePath
      figures := p.figures.set metric ⟨description, xLog, yLog⟩ }

/-- the colour index of (algorithm, trial), given on first use (_runtime_metric_plotter.py 189-191) -/
def Plotter.colorOf (p : Plotter) (sub : String × Nat) : PyDict (String × Nat) Nat :=
  if p.colors.contains sub then p.colors else p.colors.set sub p.colors.entries.length

/-- `update` with a finite value for an existing figure (_runtime_metric_plotter.py 176-217) -/
def Plotter.addPoint (p : Plotter) (metric algorithm : String) (trial iteration : Nat) (value : ℝ) : Plotter :=
  let key := (metric, algorithm, trial)
  let old := (p.data.get? key).getD []
  { p with
    data := p.data.set key (old ++ [(iteration, value)])
    colors := if p.lineColor.contains key then p.colors else p.colorOf (algorithm, trial)
    lineColor := if p.lineColor.contains key then p.lineColor
      else p.lineColor.set key (((p.colorOf (algorithm, trial)).get? (algorithm, trial)).getD 0) }

/-- `update` (_runtime_metric_plotter.py 152-217): ignored without a figure, and (with a warning) for nan or infinite values -/
def Plotter.update (p : Plotter) (metric algorithm : String) (trial iteration : Nat) (value : Metrics.Val) : Plotter :=
  if p.figures.contains metric then
    match value with
    | .fin v => p.addPoint metric algorithm trial iteration v
    | _ => p
  else p

/-- `_process_message` (_runtime_metric_plotter.py 236-265) -/
def Plotter.process (p : Plotter) : PlotMsg → Plotter
  | .init m d xl yl s => p.createFigure m d xl yl s
  | .update m a t k v => p.update m a t k v
  | .other => p

/-- the process loop (`run`, _runtime_metric_plotter.py 61-114) on all the messages it takes from the queue before shutdown -/
def Plotter.processAll (l : List PlotMsg) (p : Plotter) : Plotter := l.foldl Plotter.process p

/-- `_close_all` (_runtime_metric_plotter.py 284-306): the files written, path and what figure (with its lines) is in them;
nothing after a KeyboardInterrupt (`dont_save`) -/
def Plotter.closeAll (p : Plotter) (dontSave : Bool) : List (String × String) :=
  if dontSave then []
  else (p.savePaths.entries.filter (fun e => p.figures.contains e.1)).map (fun e => (e.2, e.1 ++ ".png"))

/-- `_get_marker_style_color` (benchmark/_display/display_plots.py 455-473) as indices, for `nm` markers, `ns` styles, `nc`
colours -/
def markerStyleColor (nm ns nc index : Nat) : Nat × Nat × Nat :=
  let idx := index % (nm * ns)
  (idx % nm, (idx / nm) % ns, index % nc)

end Monitor
end Verif
