import Verif.Model.Network
import Verif.Model.Run
import Mathlib.Algebra.Module.Basic
import Mathlib.Data.Real.Basic
import Mathlib.Data.Real.Sign
import Mathlib.Analysis.Real.Sqrt
/-!
# Federated algorithms  (decent_bench/algorithms/federated/*.py)

* Every algorithm runs on the federated network model (`NetState.sendFed`): selection, broadcast, local training, uploads
  and aggregation go through the inboxes and may lose, compress or perturb messages as the world decides.
* Arrays are elements of a real vector space `E` (coordinate functions where the code works elementwise); arithmetic is
  exact. Gradient oracles (mini-batch sampling) and selection schemes act on the abstract world `Ω`.
* Counters other than the communication counters and `_n_times_selected` are in `Model/Agent.lean`.
-/
namespace Verif.Fed
open Verif

/-- channels: "default", `_MODEL_DELTA_CHANNEL`, `_CONTROL_VARIATE_DELTA_CHANNEL` (_scaffold.py 19-20), `_NORMALIZER_CHANNEL`,
`_CUMULATIVE_GRADIENT_CHANNEL` (_fed_nova.py 20-21), `_CENTER_CANDIDATE_CHANNEL`, `_CENTER_UPDATE_CHANNEL` (_fed_pd.py 19-20) -/
inductive FChan where
  | dflt | modelDelta | controlDelta | normalizer | cumGrad | centerCand | centerUpdate
  deriving DecidableEq, Repr

/-- network state, server variables, client variables, `_n_times_selected` -/
structure FSys (A V Ω α σ : Type) where
  net : NetState A FChan V Ω
  srv : σ
  cli : A → α
  nSelected : A → Nat

/-- The parts in which the algorithms differ; `FedAlg.step` is the `step` method they share. -/
structure FedAlg (A V Ω α σ : Type) where
  /-- server variables after `initialize`, from the server's initial state -/
  initServer : V → σ
  /-- client variables after `initialize` -/
  initClient : A → V → α
  /-- what the server does before selecting clients (only FedLT, _fed_lt.py 203-204) -/
  prepare : σ → Ω → σ × Ω
  /-- message of `server_broadcast` -/
  payload : σ → V
  /-- one client in `_run_local_updates`: the received broadcast, own variables, world; new variables and the uploads in
  sending order -/
  train : A → V → α → Ω → (α × List (FChan × V)) × Ω
  /-- `aggregate`: all clients of the network, the server's inbox, the participating clients -/
  aggregate : List A → Inbox FChan A V → List A → σ → Py σ

/-- a selection scheme's `select(active_clients, iteration)`; `none` = "all active clients" -/
abbrev Select (A Ω : Type) := Option (List A → Int → Ω → Py (List A × Ω))

namespace FedAlg
variable {A V Ω α σ : Type} [DecidableEq A]

/-- `select_clients` with `_record_selected_clients` (_fed_algorithm.py 62-85) -/
def selectClients (w : World A V Ω) (n : Net A) (sel : Select A Ω) (k : Int) (s : FSys A V Ω α σ) :
    Py (List A × FSys A V Ω α σ) :=
  let r := s.net.activeAgents w n
  let s := { s with net := r.2 }
  if r.1 = [] then .ok ([], s)
  else
    match sel with
    | none => .ok (r.1, { s with nSelected := r.1.foldl (fun f c => upd f c (f c + 1)) s.nSelected })
    | some select =>
      match select r.1 k s.net.ω with
      | .error e => .error e
      | .ok (l, ω) =>
        .ok (l, { s with net := { s.net with ω := ω }, nSelected := l.foldl (fun f c => upd f c (f c + 1)) s.nSelected })

/-- `network.send(...)` inside an algorithm; an exception ends the round -/
def sendF (w : World A V Ω) (n : Net A) (server sender : A) (r : Recv A) (m : V) (ch : FChan) (s : FSys A V Ω α σ) :
    Py (FSys A V Ω α σ) :=
  let o := s.net.sendFed w n server sender r (some m) ch
  match o.2 with
  | .ok _ => .ok { s with net := o.1 }
  | .error e => .error e

/-- one pass of the loop in `_run_local_updates` (e.g. _fed_avg.py 86-89): `_get_server_broadcast` (_fed_algorithm.py
105-116, raising ValueError if absent), local training, uploads -/
def trainOne (alg : FedAlg A V Ω α σ) (w : World A V Ω) (n : Net A) (server c : A) (s : FSys A V Ω α σ) :
    Py (FSys A V Ω α σ) :=
  match (s.net.inbox c).get server .dflt with
  | .error _ => .error .valueError
  | .ok m =>
    let r := alg.train c m (s.cli c) s.net.ω
    let s := { s with net := { s.net with ω := r.2 }, cli := upd s.cli c r.1.1 }
    r.1.2.foldlM (fun s u => sendF w n server c (.one server) u.2 u.1 s) s

/-- `step` (_fed_avg.py 73-84 and the identical methods of the other algorithms; _fed_lt.py 202-215) -/
def step (alg : FedAlg A V Ω α σ) (sel : Select A Ω) (server : A) (w : World A V Ω) (n : Net A) (k : Int)
    (s : FSys A V Ω α σ) : Py (FSys A V Ω α σ) := do
  let p := alg.prepare s.srv s.net.ω
  let s := { s with srv := p.1, net := { s.net with ω := p.2 } }
  let r ← selectClients w n sel k s
  let selected := r.1
  let s := r.2
  if selected = [] then .ok s
  else do
    -- `server_broadcast` (_fed_algorithm.py 87-94)
    let s ← sendF w n server server (.many selected) (alg.payload s.srv) .dflt s
    -- `_clients_with_server_broadcast` (_fed_algorithm.py 96-103)
    let participating := selected.filter (fun c => (s.net.inbox c).has server .dflt)
    if participating = [] then .ok s
    else do
      let s ← participating.foldlM (fun s c => alg.trainOne w n server c s) s
      let srv ← alg.aggregate n.queryAgents (s.net.inbox server) participating s.srv
      .ok { s with srv := srv }

/-- `initialize`: server and all clients re-initialised (e.g. _fed_avg.py 67-71); agent.initialize resets the
communication fields and `_n_times_selected` (agents.py 144-185) -/
def initialize_ (alg : FedAlg A V Ω α σ) (n : Net A) (server : A) (x0 : A → V) (s : FSys A V Ω α σ) : FSys A V Ω α σ :=
  { net := s.net.resetAgents n, srv := alg.initServer (x0 server), cli := fun c => alg.initClient c (x0 c),
    nSelected := fun a => if a ∈ n.nodes then 0 else s.nSelected a }

/-- the effects used by `Algorithm.run` -/
def ops (alg : FedAlg A V Ω α σ) (sel : Select A Ω) (server : A) (w : World A V Ω) (n : Net A) (x0 : A → V) :
    RunOps (FSys A V Ω α σ) where
  setup s := .ok (alg.initialize_ n server x0 s)
  netStep k s := { s with net := s.net.step n k }
  step k s := alg.step sel server w n k s
  snapshot _ _ s := .ok s
  callback _ s := .ok s

/-- the system after `Algorithm.run` with `k` iterations -/
def after (alg : FedAlg A V Ω α σ) (sel : Select A Ω) (server : A) (w : World A V Ω) (n : Net A) (x0 : A → V)
    (s : FSys A V Ω α σ) (k : Nat) : Py (FSys A V Ω α σ) :=
  (alg.ops sel server w n x0).run k 0 s

end FedAlg

section algos
variable {A Ω E : Type} [DecidableEq A] [AddCommGroup E] [Module ℝ E]

/-- `[client for client in participating_clients if client in server.messages(ch)]` with the messages read by
`server.message(client, ch)` -/
def receivedFrom (b : Inbox FChan A V) (ch : FChan) (part : List A) : List (A × V) :=
  part.filterMap (fun c => ((b.byChannel ch).get? c).map (fun m => (c, m)))

/-- `_weighted_average` (_fed_algorithm.py 118-124) -/
noncomputable def weightedAverage (values : List E) (weights : List ℝ) (total : ℝ) : E :=
  (1 / total) • (List.zip values weights).foldl (fun acc p => acc + p.2 • p.1) 0

/-- `_weighted_average(values, [1.0] * len, float(len))` as every caller uses it -/
noncomputable def uniformAverage (values : List E) : E :=
  weightedAverage values (List.replicate values.length 1) values.length

/-- repeat a local step `n` times, threading the world -/
def iterW {S : Type} (f : S → Ω → S × Ω) : Nat → S → Ω → S × Ω
  | 0, s, ω => (s, ω)
  | n + 1, s, ω => let r := f s ω; iterW f n r.1 r.2

/-- a mini-batch gradient oracle per client: `client.cost.gradient(x)` -/
abbrev Grad (A Ω E : Type) := A → E → Ω → E × Ω

/-- local SGD: `for _ in range(num_local_steps): grad = ...; local_x -= step_size * grad` (_fed_avg.py 98-101) -/
noncomputable def localSgd (G : Grad A Ω E) (η : ℝ) (K : Nat) (c : A) (x : E) (ω : Ω) : E × Ω :=
  iterW (fun x ω => let g := G c x ω; (x - η • g.1, g.2)) K x ω

/-- default `aggregate` (_fed_algorithm.py 126-142) -/
noncomputable def aggregateMean (_clients : List A) (b : Inbox FChan A E) (part : List A) (x : E) : Py E :=
  let received := receivedFrom b .dflt part
  if received = [] then .ok x else .ok (uniformAverage (received.map Prod.snd))

/-- FedAvg (_fed_avg.py 67-102) -/
noncomputable def fedAvg (G : Grad A Ω E) (η : ℝ) (K : Nat) : FedAlg A E Ω E E where
  initServer x := x
  initClient _ x := x
  prepare s ω := (s, ω)
  payload x := x
  train c m _ ω := let r := localSgd G η K c m ω; ((r.1, [(.dflt, r.1)]), r.2)
  aggregate := aggregateMean

/-- FedProx's local loop (_fed_prox.py 107-111) -/
noncomputable def localProx (G : Grad A Ω E) (η μ : ℝ) (K : Nat) (c : A) (ref : E) (ω : Ω) : E × Ω :=
  iterW (fun x ω => let g := G c x ω; (x - η • (g.1 + μ • (x - ref)), g.2)) K ref ω

/-- FedProx (_fed_prox.py 76-112) -/
noncomputable def fedProx (G : Grad A Ω E) (η μ : ℝ) (K : Nat) : FedAlg A E Ω E E where
  initServer x := x
  initClient _ x := x
  prepare s ω := (s, ω)
  payload x := x
  train c m _ ω := let r := localProx G η μ K c m ω; ((r.1, [(.dflt, r.1)]), r.2)
  aggregate := aggregateMean

/-- FedDyn's local loop (_fed_dyn.py 128-132); `g` is the client's dynamic state -/
noncomputable def localDyn (G : Grad A Ω E) (η α : ℝ) (K : Nat) (c : A) (g ref : E) (ω : Ω) : E × Ω :=
  iterW (fun x ω => let d := G c x ω; (x - η • (d.1 - g + α • (x - ref)), d.2)) K ref ω

/-- server variables of FedDyn -/
structure DynSrv (E : Type) where
  x : E
  h : E

/-- client variables of FedDyn -/
structure DynCli (E : Type) where
  x : E
  g : E

/-- FedDyn (_fed_dyn.py 89-157) -/
noncomputable def fedDyn (G : Grad A Ω E) (η α : ℝ) (K : Nat) : FedAlg A E Ω (DynCli E) (DynSrv E) where
  initServer x := ⟨x, 0⟩
  initClient _ x := ⟨x, 0⟩
  prepare s ω := (s, ω)
  payload s := s.x
  train c ref v ω :=
    let r := localDyn G η α K c v.g ref ω
    ((⟨r.1, v.g - α • (r.1 - ref)⟩, [(.dflt, r.1)]), r.2)
  aggregate clients b part s :=
    let received := receivedFrom b .dflt part
    if received = [] then .ok s
    else
      let models := received.map Prod.snd
      let deltaSum := models.foldl (fun acc m => acc + (m - s.x)) 0
      let h := s.h - (1 / (clients.length : ℝ)) • (α • deltaSum)
      .ok ⟨uniformAverage models - (1 / α) • h, h⟩

/-- arrays that are sent in more than one shape: `iop.stack([x, c])` (two rows) and the one-element normaliser array. A
message has up to two rows and one scalar; unused parts are zero. -/
structure Arr (E : Type) where
  row0 : E
  row1 : E
  scalar : ℝ

/-- a plain array -/
def Arr.single (x : E) : Arr E := ⟨x, 0, 0⟩
/-- `iop.stack([x, c], dim=0)` -/
def Arr.stack (x c : E) : Arr E := ⟨x, c, 0⟩
/-- `iop.reshape(iop.to_array_like(a, ...), (1,))` -/
def Arr.number (a : ℝ) : Arr E := ⟨0, 0, a⟩

/-- server variables of SCAFFOLD -/
structure ScafSrv (E : Type) where
  x : E
  c : E

/-- client variables of SCAFFOLD; `delta_c` is `aux_vars["delta_c"]` -/
structure ScafCli (E : Type) where
  x : E
  c_i : E
  delta_c : E

/-- SCAFFOLD's local loop (_scaffold.py 166-168) -/
noncomputable def localScaffold (G : Grad A Ω E) (η : ℝ) (K : Nat) (cl : A) (ci c ref : E) (ω : Ω) : E × Ω :=
  iterW (fun x ω => let g := G cl x ω; (x - η • (g.1 - ci + c), g.2)) K ref ω

/-- SCAFFOLD (_scaffold.py 103-212); `c0` gives the initial control variates -/
noncomputable def scaffold (G : Grad A Ω E) (η ηg : ℝ) (K : Nat) (c0 : A → E) (server : A) :
    FedAlg A (Arr E) Ω (ScafCli E) (ScafSrv E) where
  initServer x := ⟨x.row0, c0 server⟩
  initClient i x := ⟨x.row0, c0 i, 0⟩
  prepare s ω := (s, ω)
  payload s := Arr.stack s.x s.c
  train cl m v ω :=
    let r := localScaffold G η K cl v.c_i m.row1 m.row0 ω
    let cNew := v.c_i - m.row1 + (1 / ((K : ℝ) * η)) • (m.row0 - r.1)
    ((⟨r.1, cNew, cNew - v.c_i⟩,
      [(.modelDelta, Arr.single (r.1 - m.row0)), (.controlDelta, Arr.single (cNew - v.c_i))]), r.2)
  aggregate clients b part s :=
    let received := part.filter (fun cl => ((b.byChannel .modelDelta).get? cl).isSome &&
      ((b.byChannel .controlDelta).get? cl).isSome)
    if received = [] then .ok s
    else
      let dx := (receivedFrom b .modelDelta received).map (fun p => p.2.row0)
      let dc := (receivedFrom b .controlDelta received).map (fun p => p.2.row0)
      .ok ⟨s.x + ηg • uniformAverage dx,
           s.c + ((received.length : ℝ) / (clients.length : ℝ)) • uniformAverage dc⟩

/-! ### FedNova -/

/-- hyper-parameters of FedNova (_fed_nova.py 125-139) -/
structure NovaParams where
  η : ℝ
  useMomentum : Bool
  β : ℝ
  useProx : Bool
  μ : ℝ
  useServerMomentum : Bool
  γ : ℝ

/-- the checks of `__post_init__` (_fed_nova.py 141-158) -/
def NovaParams.Accepted (p : NovaParams) : Prop :=
  0 < p.η ∧ (0 ≤ p.β ∧ p.β < 1) ∧ 0 ≤ p.μ ∧ (0 ≤ p.γ ∧ p.γ < 1)

/-- loop variables of `_compute_local_update` (_fed_nova.py 207-213) -/
structure NovaLoop (E : Type) where
  x : E
  cum : E
  mom : E
  a : ℝ
  s : ℝ

/-- loop body (_fed_nova.py 215-237) -/
noncomputable def novaBody (p : NovaParams) (G : Grad A Ω E) (c : A) (ref : E) (v : NovaLoop E) (ω : Ω) : NovaLoop E × Ω :=
  let g := G c v.x ω
  let grad := if p.useProx then g.1 + p.μ • (v.x - ref) else g.1
  let mom := if p.useMomentum then p.β • v.mom + grad else v.mom
  let direction := if p.useMomentum then mom else grad
  let upd := p.η • direction
  let s := if p.useMomentum then p.β * v.s + 1 else 1
  let a := if p.useProx then (1 - p.η * p.μ) * v.a + s else v.a + s
  (⟨v.x - upd, v.cum + upd, mom, a, s⟩, g.2)

/-- `_compute_local_update` (_fed_nova.py 196-239) -/
noncomputable def novaLocal (p : NovaParams) (G : Grad A Ω E) (τ : A → Nat) (c : A) (ref : E) (ω : Ω) : NovaLoop E × Ω :=
  iterW (novaBody p G c ref) (τ c) ⟨ref, 0, 0, 0, 0⟩ ω

/-- server variables of FedNova (`client_sample_counts` is the constant `counts` below) -/
structure NovaSrv (E : Type) where
  x : E
  m : E

/-- `sum(...)` and the loop `global_update += weighted_term` (_fed_nova.py 275-287) on the received triples
`(n_i, a_i, c_i)` -/
noncomputable def novaUpdate (l : List (ℝ × ℝ × E)) : E :=
  let total := (l.map (fun t => t.1)).sum
  let tauEff := (l.map (fun t => t.1 / total * t.2.1)).sum
  (l.map (fun t => (t.1 / total * (tauEff / t.2.1)) • t.2.2)).foldl (fun acc v => acc + v) 0

/-- what the server collects from client `c` if it is in both channels (_fed_nova.py 253-273) -/
noncomputable def novaTriple (counts : A → Nat) (b : Inbox FChan A (Arr E)) (c : A) : Option (ℝ × ℝ × E) :=
  match (b.byChannel .normalizer).get? c, (b.byChannel .cumGrad).get? c with
  | some a, some g => some ((counts c : ℝ), a.scalar, g.row0)
  | _, _ => none

/-- FedNova (_fed_nova.py 160-288); `counts c` is `infer_client_data_size(c)`, `τ` the resolved local step counts -/
noncomputable def fedNova (p : NovaParams) (G : Grad A Ω E) (τ : A → Nat) (counts : A → Nat) :
    FedAlg A (Arr E) Ω E (NovaSrv E) where
  initServer x := ⟨x.row0, 0⟩
  initClient _ x := x.row0
  prepare s ω := (s, ω)
  payload s := Arr.single s.x
  train c m _ ω :=
    let r := novaLocal p G τ c m.row0 ω
    ((r.1.x, [(.normalizer, Arr.number r.1.a), (.cumGrad, Arr.single r.1.cum)]), r.2)
  aggregate _ b part s :=
    let received := part.filterMap (novaTriple counts b)
    if received = [] then .ok s
    else if ∃ t ∈ received, t.2.1 ≤ 0 then .error .valueError
    else
      let g := novaUpdate received
      if p.useServerMomentum then
        let m := p.γ • s.m + g
        .ok ⟨s.x - m, m⟩
      else .ok ⟨s.x - g, s.m⟩

/-! ### Fed-LT -/

/-- client variables of Fed-LT -/
structure LtCli (E : Type) where
  x : E
  z : E

/-- server variables of Fed-LT; `z_by_client` as a function on clients -/
structure LtSrv (A E : Type) where
  x : E
  zBy : A → E

/-- `if client in received: z_by_client[client] = message` (_fed_lt.py 291-304) -/
def storeZ (b : Inbox FChan A E) (f : A → E) (c : A) : A → E :=
  match (b.byChannel .dflt).get? c with
  | some z => upd f c z
  | none => f

/-- Fed-LT (_fed_lt.py 192-304). The local solver (gd, nesterov or adam, 226-290) is the parameter `solve c x v`;
`prox v ρ` is `server.cost.proximal(v, ρ)`; `z0` the initial auxiliary states. -/
noncomputable def fedLT (solve : A → E → E → Ω → E × Ω) (prox : E → ℝ → Ω → E × Ω) (ρ : ℝ) (clients : List A) (z0 : A → E) :
    FedAlg A E Ω (LtCli E) (LtSrv A E) where
  initServer x := ⟨x, z0⟩
  initClient c x := ⟨x, z0 c⟩
  -- `_compute_server_y` (217-223)
  prepare s ω :=
    let r := prox ((1 / (clients.length : ℝ)) • (clients.map s.zBy).foldl (fun acc z => acc + z) 0)
      (ρ / (clients.length : ℝ)) ω
    ({ s with x := r.1 }, r.2)
  payload s := s.x
  train c y v ω :=
    let r := solve c v.x ((2 : ℝ) • y - v.z) ω
    let z := v.z + (2 : ℝ) • (r.1 - y)
    ((⟨r.1, z⟩, [(.dflt, z)]), r.2)
  -- 291-304
  aggregate _ b part s :=
    .ok { s with zBy := part.foldl (storeZ b) s.zBy }

/-- the "gd" local solver (_fed_lt.py 245-247) -/
noncomputable def ltGd (G : Grad A Ω E) (η ρ : ℝ) (K : Nat) (c : A) (x v : E) (ω : Ω) : E × Ω :=
  iterW (fun x ω => let g := G c x ω; (x - η • (g.1 + (1 / ρ) • (x - v)), g.2)) K x ω

/-- the "nesterov" local solver (_fed_lt.py 252-261) -/
noncomputable def ltNesterov (G : Grad A Ω E) (η ρ m : ℝ) (K : Nat) (c : A) (x v : E) (ω : Ω) : E × Ω :=
  let r := iterW (fun (p : E × E) ω =>
    let g := G c p.1 ω
    let u := p.1 - η • (g.1 + (1 / ρ) • (p.1 - v))
    ((u + m • (u - p.2), u), g.2)) K (x, x) ω
  (r.1.1, r.2)

end algos

/-! ### Adaptive servers: arrays are coordinate functions `ι → ℝ` -/
section opt
variable {A Ω ι : Type} [DecidableEq A]

/-- server variables of FedOpt algorithms -/
structure OptSrv (ι : Type) where
  x : ι → ℝ
  m : ι → ℝ
  v : ι → ℝ

/-- `_update_second_moment` of FedAdagrad (_fed_adagrad.py 61-62) -/
def adagradV (v d : ℝ) : ℝ := v + d * d
/-- FedAdam (_fed_adam.py 75-77) -/
def adamV (β2 v d : ℝ) : ℝ := β2 * v + (1 - β2) * (d * d)
/-- FedYogi (_fed_yogi.py 77-79); `iop.sign` -/
noncomputable def yogiV (β2 v d : ℝ) : ℝ := v - (1 - β2) * (d * d) * Real.sign (v - d * d)

/-- FedOpt (_fed_opt.py 97-168) with the second-moment rule `second`, elementwise -/
noncomputable def fedOpt (G : Grad A Ω (ι → ℝ)) (η ηs β1 ε : ℝ) (K : Nat) (second : ℝ → ℝ → ℝ) :
    FedAlg A (ι → ℝ) Ω (ι → ℝ) (OptSrv ι) where
  initServer x := ⟨x, 0, 0⟩
  initClient _ x := x
  prepare s ω := (s, ω)
  payload s := s.x
  train c ref _ ω := let r := localSgd G η K c ref ω; ((r.1, [(.dflt, r.1 - ref)]), r.2)
  aggregate _ b part s :=
    let received := receivedFrom b .dflt part
    if received = [] then .ok s
    else
      let d : ι → ℝ := uniformAverage (received.map Prod.snd)
      let m := fun i => β1 * s.m i + (1 - β1) * d i
      let v := fun i => second (s.v i) (d i)
      .ok ⟨fun i => s.x i + ηs * m i / (Real.sqrt (v i) + ε), m, v⟩

end opt
end Verif.Fed
