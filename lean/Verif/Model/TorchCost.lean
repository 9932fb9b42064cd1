import Verif.Model.Batch
import Mathlib.Data.Real.Basic
/-!
# `PyTorchCost`: batches, evaluation, local training

`costs/_empirical_risk/_pytorch_cost.py`.  Library semantics assumed: `torch.randperm` and the data loader's sampler are the
permutations of a generator (`Part.Rng`); `torch.stack`, `view` and `flatten` only regroup numbers, so a batch is the list of
its samples and a tensor the list of its entries; `torch.split` gives views and `torch.cat` a fresh tensor.

Simplifications.  The neural network with its loss is a pair of functions of the parameter tensors and of a list of samples
(`Net`): dropout, buffers such as running means, and the switch between `train()` and `eval()` are not modelled.  Real numbers
instead of `float32`.  Tensors are already on the cost's device, so `.to(device)` is the identity (it does not copy).  The data
set is a list (any `Dataset` with list indexing).  Compilation (`compile_model`) is not modelled.
-/
namespace Verif
namespace Torch
open Part Batch

variable {Ω X : Type}

/-! ### configuration and construction -/

/-- What the constructor fixes (_pytorch_cost.py 145-159): the data set, `_batch_size`, `_max_batch_size`, `_use_dataloader`,
the two data loader options that matter (`shuffle`, set to `True` by default in line 595, and `drop_last`), `_load_dataset`. -/
structure Cfg (X : Type) where
  data : List X
  batchSize : Nat
  maxBatch : Int
  useLoader : Bool
  shuffle : Bool
  dropLast : Bool
  loadDataset : Bool

/-- the `batch_size` argument -/
inductive BatchArg where
  | int (b : Int)
  | all
  | str
  deriving DecidableEq, Repr

/-- _pytorch_cost.py 137-143, 154-155: the checks of the constructor, `_batch_size` and `_max_batch_size` -/
def construct (data : List X) (b : BatchArg) (maxBatch : Option Int) (useLoader shuffle dropLast loadDataset : Bool) :
    Py (Cfg X) :=
  match b with
  | .int b =>
    if b ≤ 0 ∨ (data.length : Int) < b then .error .valueError
    else .ok ⟨data, b.toNat, maxBatch.getD data.length, useLoader, shuffle, dropLast, loadDataset⟩
  | .all => .ok ⟨data, data.length, maxBatch.getD data.length, useLoader, shuffle, dropLast, loadDataset⟩
  | .str => .error .valueError

/-- The attributes that change: `_remaining_batch_indices`, `_last_batch_used`, `_last_batch_x`/`_last_batch_y` (absent before
the first batch), and `_dataloader_iter` as the batches it has not yielded yet (`none`: no data loader yet). -/
structure St (X : Type) where
  remaining : List Nat
  lastUsed : List Int
  cache : Option (List X)
  loader : Option (List (List Nat))
  deriving DecidableEq, Repr

/-- _pytorch_cost.py 173-175 -/
def St.fresh : St X := ⟨[], [], none, none⟩

/-! ### batches -/

/-- Python slices `l[i : i + m]` for `i in range(0, len(l), m)` with a positive step `m` (_pytorch_cost.py 638-641, 293-294):
`range` has `⌈len(l) / m⌉` members -/
def chunks {Y : Type} (m : Nat) (l : List Y) : List (List Y) :=
  (List.range ((l.length + m - 1) / m)).map (fun k => (l.drop (k * m)).take m)

/-- _pytorch_cost.py 638: `range` refuses step 0 and is empty for a negative step -/
def pyChunks {Y : Type} (m : Int) (l : List Y) : Py (List (List Y)) :=
  if m = 0 then .error .valueError
  else if m < 0 then .ok []
  else .ok (chunks m.toNat l)

/-- `torch.utils.data.DataLoader` (library semantics): the batches of one pass over the data, in the sampler's order.  Draws
made by the loader for seeding its workers are part of the generator's step. -/
def loaderEpoch (r : Rng Ω) (c : Cfg X) (ω : Ω) : List (List Nat) × Ω :=
  let p := r.perm c.data.length ω
  let order := if c.shuffle then p.1 else List.range c.data.length
  let bs := chunks c.batchSize order
  (if c.dropLast then bs.filter (fun b => decide (b.length = c.batchSize)) else bs, p.2)

/-- what a data loader's iterator yields: the samples of the batch and their indices (_pytorch_cost.py 587-592) -/
def yieldBatch (c : Cfg X) (s : St X) (b : List Nat) (rest : List (List Nat)) (ω : Ω) :
    Py (List X × List Int) × St X × Ω :=
  match readRows c.data (b.map (fun i : Nat => (i : Int))) with
  | .error e => (.error e, { s with loader := some rest }, ω)
  | .ok rows => (.ok (rows, b.map (fun i : Nat => (i : Int))), { s with loader := some rest }, ω)

/-- _pytorch_cost.py 594-616 `_init_dataloader`, `_handle_dataloader`: create the loader on first use, start a new pass when one is exhausted.
(A pass without batches would raise StopIteration, here `runtimeError`; it cannot happen for `1 ≤ batch_size < n`.) -/
def handleLoader (r : Rng Ω) (c : Cfg X) (s : St X) (ω : Ω) : Py (List X × List Int) × St X × Ω :=
  match s.loader with
  | some (b :: rest) => yieldBatch c s b rest ω
  | _ =>
    let e := loaderEpoch r c ω
    match e.1 with
    | b :: rest => yieldBatch c s b rest e.2
    | [] => (.error .runtimeError, { s with loader := some [] }, e.2)

/-- `list(range(self.n_samples))` -/
def allIdx (c : Cfg X) : List Int := (List.range c.data.length).map (fun i : Nat => (i : Int))

/-- _pytorch_cost.py 673-687: the part of `_handle_indices` for a list of indices: the cached batch if the list is the one
used last, else the whole data set in order if the list is as long as it and the data set was loaded, else the listed samples;
`zip(*[])` cannot be unpacked (ValueError). -/
def handleList (c : Cfg X) (s : St X) (is : List Int) : Py (List X × List Int) :=
  match (if is = s.lastUsed then s.cache else none) with
  | some rows => .ok (rows, s.lastUsed)
  | none =>
    let used := if is.length = c.data.length ∧ c.loadDataset = true then allIdx c else is
    match readRows c.data used with
    | .error e => .error e
    | .ok [] => .error .valueError
    | .ok rows => .ok (rows, used)

/-- _pytorch_cost.py 658-662: the indices drawn without a data loader, and those remaining -/
def drawTorch (r : Rng Ω) (c : Cfg X) (s : St X) (ω : Ω) : (List Nat × List Nat) × Ω :=
  let p : List Nat × Ω := if s.remaining.length < c.batchSize then r.perm c.data.length ω else (s.remaining, ω)
  ((p.1.take c.batchSize, p.1.drop c.batchSize), p.2)

/-- _pytorch_cost.py 645-687 `_handle_indices` -/
def handleIndices (r : Rng Ω) (c : Cfg X) (s : St X) (ix : Indices) (ω : Ω) : Py (List X × List Int) × St X × Ω :=
  match ix with
  | .batch =>
    if c.batchSize < c.data.length then
      if c.useLoader then handleLoader r c s ω
      else
        let d := drawTorch r c s ω
        let s' := { s with remaining := d.1.2 }
        (handleList c s' (d.1.1.map (fun i : Nat => (i : Int))), s', d.2)
    else (handleList c s (allIdx c), s, ω)
  | .all => (handleList c s (allIdx c), s, ω)
  | .int i => (handleList c s [i], s, ω)
  | .list l => (handleList c s l, s, ω)
  | .str => (.error .valueError, s, ω)

/-- _pytorch_cost.py 618-643 `_get_batch_data` -/
def getBatchData (r : Rng Ω) (c : Cfg X) (s : St X) (ix : Indices) (ω : Ω) : Py (List (List X)) × St X × Ω :=
  match handleIndices r c s ix ω with
  | (.error e, s', ω') => (.error e, s', ω')
  | (.ok p, s', ω') => (pyChunks c.maxBatch p.1, { s' with lastUsed := p.2, cache := some p.1 }, ω')

/-- _pytorch_cost.py 60-71, 179-200 `__getstate__` then `__setstate__`: the cached batch and the loader's iterator are dropped; an
existing loader gets a new iterator (whose draws are made when it is first used) -/
def St.restored (s : St X) : St X :=
  { s with cache := none, loader := match s.loader with | none => none | some _ => some [] }

/-! ### parameters -/

/-- `torch.split(x, sizes)` -/
def splitBy : List Nat → List ℝ → List (List ℝ)
  | [], _ => []
  | k :: ks, x => x.take k :: splitBy ks (x.drop k)

/-- A network and its loss function: sizes of the parameter tensors, `loss_fn(model(batch))`, and `torch.autograd.grad` of it
with respect to the parameters (one tensor of the same size per parameter), as functions of the parameters and the batch. -/
structure Net (X : Type) where
  sizes : List Nat
  loss : List (List ℝ) → List X → ℝ
  grads : List (List ℝ) → List X → List (List ℝ)

/-- _pytorch_cost.py 724 `total_params` -/
def Net.total (net : Net X) : Nat := net.sizes.sum

/-- The mutable world of one cost: batch state, the storages of tensors by number, the storage which the parameters are views
of (254-257: consecutive pieces of it), and the first unused number. -/
structure World (X : Type) where
  st : St X
  store : Nat → List ℝ
  params : Nat
  next : Nat

/-- _pytorch_cost.py 234-257 `_set_model_parameters` -/
def setParams (net : Net X) (w : World X) (x : Nat) : Py (World X) :=
  if (w.store x).length ≠ net.total then .error .valueError else .ok { w with params := x }

/-- the parameter tensors of the model -/
def World.tensors (net : Net X) (w : World X) : List (List ℝ) := splitBy net.sizes (w.store w.params)

/-- _pytorch_cost.py 259-262 `_get_model_parameters`: a fresh tensor, returned by its number -/
def getParams (net : Net X) (w : World X) : Nat × World X :=
  (w.next, { w with store := fun i => if i = w.next then (w.tensors net).flatten else w.store i, next := w.next + 1 })

/-! ### evaluation -/

/-- _pytorch_cost.py 308-316: `total_loss += loss.item() * batch_x.shape[0]`, divided by `len(self.batch_used)`; an empty
batch list with a non-empty `batch_used` gives 0 -/
noncomputable def meanLoss (net : Net X) (θ : List (List ℝ)) (bs : List (List X)) (used : Nat) : ℝ :=
  bs.foldl (fun t b => t + net.loss θ b * b.length) 0 / used

/-- _pytorch_cost.py 301-316 `function` -/
noncomputable def functionT (r : Rng Ω) (c : Cfg X) (net : Net X) (w : World X) (x : Nat) (ix : Indices) (ω : Ω) :
    Py ℝ × World X × Ω :=
  match setParams net w x with
  | .error e => (.error e, w, ω)
  | .ok w =>
    match getBatchData r c w.st ix ω with
    | (.error e, s', ω') => (.error e, { w with st := s' }, ω')
    | (.ok bs, s', ω') => (.ok (meanLoss net (w.tensors net) bs s'.lastUsed.length), { w with st := s' }, ω')

/-- `acc.add_(grad, alpha=weight)` for each parameter (353-354) -/
noncomputable def addScaled (wt : ℝ) (acc g : List (List ℝ)) : List (List ℝ) :=
  List.zipWith (List.zipWith (fun a b => a + wt * b)) acc g

/-- _pytorch_cost.py 334-356: a single batch is used as it is; else the chunks' gradients weighted by their share -/
noncomputable def meanGrads (net : Net X) (θ : List (List ℝ)) (bs : List (List X)) (used : Nat) : List (List ℝ) :=
  match bs with
  | [b] => net.grads θ b
  | bs => bs.foldl (fun acc b => addScaled ((b.length : ℝ) * (1 / (used : ℝ))) acc (net.grads θ b))
      (net.sizes.map (fun k => List.replicate k 0))

/-- _pytorch_cost.py 318-356 `gradient` with `reduction="mean"`: the flattened gradient -/
noncomputable def gradientT (r : Rng Ω) (c : Cfg X) (net : Net X) (w : World X) (x : Nat) (ix : Indices) (ω : Ω) :
    Py (List ℝ) × World X × Ω :=
  match setParams net w x with
  | .error e => (.error e, w, ω)
  | .ok w =>
    match getBatchData r c w.st ix ω with
    | (.error e, s', ω') => (.error e, { w with st := s' }, ω')
    | (.ok bs, s', ω') => (.ok (meanGrads net (w.tensors net) bs s'.lastUsed.length).flatten, { w with st := s' }, ω')

/-- _pytorch_cost.py 358-411 `_per_sample_gradients`, with 694-708 (`vmap` of the gradient of the loss of a batch of one
sample): one row per sample, chunk after chunk.  (With a negative `max_batch_size` the code returns uninitialised memory; the model returns no rows.) -/
def sampleGradsT (r : Rng Ω) (c : Cfg X) (net : Net X) (w : World X) (x : Nat) (ix : Indices) (ω : Ω) :
    Py (List (List ℝ)) × World X × Ω :=
  match setParams net w x with
  | .error e => (.error e, w, ω)
  | .ok w =>
    match getBatchData r c w.st ix ω with
    | (.error e, s', ω') => (.error e, { w with st := s' }, ω')
    | (.ok bs, s', ω') =>
      (.ok (bs.flatMap (fun b => b.map (fun p => (net.grads (w.tensors net) [p]).flatten))), { w with st := s' }, ω')

/-- _pytorch_cost.py 264-299 `predict`: `fwd` is `final_activation(model(chunk))`, one output per input; the inputs are the rows
of a tensor or the (non-empty) list of tensors stacked in 286 -/
def predictT {I Y : Type} (c : Cfg X) (net : Net X) (fwd : List (List ℝ) → List I → List Y) (w : World X) (x : Nat) (inputs : List I) :
    Py (List Y) × World X :=
  match setParams net w x with
  | .error e => (.error e, w)
  | .ok w =>
    match pyChunks c.maxBatch inputs with
    | .error e => (.error e, w)
    | .ok bs => (.ok (bs.flatMap (fwd (w.tensors net))), w)

/-! ### local training -/

/-- what `regularization` (or the tensor itself) evaluates to: not a tensor, or a tensor with its number of dimensions, its
entries, and (if used as a penalty) the gradient of its only entry with respect to the flat parameters -/
inductive RegVal where
  | other
  | tensor (ndim : Nat) (vals : List ℝ) (grad : List ℝ)

/-- `regularization`: `None`, a tensor, or a callable of the flat parameters -/
inductive Reg where
  | none
  | const (v : RegVal)
  | call (f : List ℝ → RegVal)

/-- _pytorch_cost.py 528-534 -/
def Reg.value : Reg → List ℝ → Option RegVal
  | .none, _ => Option.none
  | .const v, _ => some v
  | .call f, x => some (f x)

/-- A `torch.optim` optimizer: from its state, the flat parameters and the flat gradient to the new ones. -/
structure Opt (σ : Type) where
  step : σ → List ℝ → List ℝ → List ℝ × σ

/-- plain gradient descent, `torch.optim.SGD(lr=lr)` -/
noncomputable def sgd (lr : ℝ) : Opt Unit where
  step _ x g := (List.zipWith (fun a b => a - lr * b) x g, ())

/-- _pytorch_cost.py 529-571: what the regularization adds to the gradient before the optimizer's step, and what is subtracted
from the parameters after it (`none`: nothing) -/
def regEffect (total : Nat) : Option RegVal → Py (Option (List ℝ) × Option (List ℝ))
  | Option.none => .ok (none, none)
  | some .other => .error .typeError
  | some (.tensor ndim vals grad) =>
    if ndim = 0 ∨ vals.length = 1 then .ok (some grad, none)
    else if vals.length ≠ total then .error .valueError
    else .ok (none, some vals)

/-- entrywise sum and difference of tensors of the same size -/
noncomputable def addL (a b : List ℝ) : List ℝ := List.zipWith (fun u v => u + v) a b
noncomputable def subL (a b : List ℝ) : List ℝ := List.zipWith (fun u v => u - v) a b

/-- add or subtract a tensor if there is one -/
noncomputable def addOpt (a : List ℝ) : Option (List ℝ) → List ℝ
  | none => a
  | some b => addL a b
noncomputable def subOpt (a : List ℝ) : Option (List ℝ) → List ℝ
  | none => a
  | some b => subL a b

variable {σ : Type}

/-- the cost's world together with optimizer (`None` before `init_local_training`), the number of scheduler steps taken (if
there is a scheduler) and the agent's `_n_gradient_calls` -/
structure TWorld (X σ : Type) where
  w : World X
  opt : Option σ
  sched : Option Nat
  calls : Nat

/-- the parameters' storage overwritten in place (`optimizer.step()`, `param.data.sub_`) -/
def World.write (w : World X) (x : List ℝ) : World X :=
  { w with store := fun i => if i = w.params then x else w.store i }

/-- _pytorch_cost.py 524-571: one chunk: gradient of the loss, regularization, optimizer step, correction step -/
noncomputable def trainChunk (net : Net X) (o : Opt σ) (reg : Reg) (w : World X) (q : σ) (b : List X) : Py (World X × σ) :=
  let x := w.store w.params
  match regEffect net.total (reg.value (w.tensors net).flatten) with
  | .error e => .error e
  | .ok eff =>
    let g := addOpt (net.grads (w.tensors net) b).flatten eff.1
    let st := o.step q x g
    .ok (w.write (subOpt st.1 eff.2), st.2)

/-- the loop over the chunks of one iteration; an exception leaves what was done -/
noncomputable def trainChunks (net : Net X) (o : Opt σ) (reg : Reg) : List (List X) → World X → σ → Py Unit × World X × σ
  | [], w, q => (.ok (), w, q)
  | b :: bs, w, q =>
    match trainChunk net o reg w q b with
    | .error e => (.error e, w, q)
    | .ok p => trainChunks net o reg bs p.1 p.2

/-- _pytorch_cost.py 522-575: one iteration: draw the batch, train on its chunks, count its samples -/
noncomputable def trainIter (r : Rng Ω) (c : Cfg X) (net : Net X) (o : Opt σ) (reg : Reg) (ix : Indices)
    (w : World X) (q : σ) (calls : Nat) (ω : Ω) : Py Unit × World X × σ × Nat × Ω :=
  match getBatchData r c w.st ix ω with
  | (.error e, s', ω') => (.error e, { w with st := s' }, q, calls, ω')
  | (.ok bs, s', ω') =>
    match trainChunks net o reg bs { w with st := s' } q with
    | (.error e, w', q') => (.error e, w', q', calls, ω')
    | (.ok _, w', q') => (.ok (), w', q', calls + s'.lastUsed.length, ω')

/-- `for _ in range(iterations)` -/
noncomputable def trainLoop (r : Rng Ω) (c : Cfg X) (net : Net X) (o : Opt σ) (reg : Reg) (ix : Indices) :
    Nat → World X → σ → Nat → Ω → Py Unit × World X × σ × Nat × Ω
  | 0, w, q, calls, ω => (.ok (), w, q, calls, ω)
  | k + 1, w, q, calls, ω =>
    match trainIter r c net o reg ix w q calls ω with
    | (.error e, w', q', calls', ω') => (.error e, w', q', calls', ω')
    | (.ok _, w', q', calls', ω') => trainLoop r c net o reg ix k w' q' calls' ω'

/-- _pytorch_cost.py 464-472 `init_local_training` -/
def initTraining (q : σ) (scheduler : Bool) (t : TWorld X σ) : Py (TWorld X σ) :=
  match t.opt with
  | some _ => .error .runtimeError
  | none => .ok { t with opt := some q, sched := if scheduler then some 0 else t.sched }

/-- _pytorch_cost.py 474-580 `local_training`: the number of the tensor returned.  `x` is the number of the caller's tensor.
The scheduler is stepped once at the end (its effect on the optimizer's learning rate is left to the optimizer's state and not
modelled). -/
noncomputable def localTraining (r : Rng Ω) (c : Cfg X) (net : Net X) (o : Opt σ) (reg : Reg) (ix : Indices)
    (t : TWorld X σ) (x : Nat) (iterations : Nat) (ω : Ω) : Py Nat × TWorld X σ × Ω :=
  match t.opt with
  | none => (.error .runtimeError, t, ω)
  | some q =>
    match setParams net t.w x with
    | .error e => (.error e, t, ω)
    | .ok w =>
      match trainLoop r c net o reg ix iterations w q t.calls ω with
      | (.error e, w', q', calls', ω') => (.error e, { t with w := w', opt := some q', calls := calls' }, ω')
      | (.ok _, w', q', calls', ω') =>
        let g := getParams net w'
        (.ok g.1, { w := g.2, opt := some q', sched := t.sched.map (· + 1), calls := calls' }, ω')

end Torch
end Verif
