import Verif.Model.Fed
/-!
# FedPD  (decent_bench/algorithms/federated/_fed_pd.py)

FedPD has its own round: clients train before anything is sent, and the server answers inside the same round.  The system
state, `select_clients` and `network.send` are those of `Model/Fed.lean`.  Not modelled: `_validate_num_local_steps` and
`_settle_num_local_steps` (the number of local steps is a function of the client).
-/
namespace Verif.Fed
open Verif

/-- client variables: `x`, `aux_vars["lambda"]`, `aux_vars["center"]` -/
structure PdCli (E : Type) where
  x : E
  lam : E
  center : E

section
variable {A Ω E : Type} [DecidableEq A] [AddCommGroup E] [Module ℝ E]

/-- `_compute_local_update` (_fed_pd.py 129-142): `K` gradient steps from `client.x`; `γ` is `step_size`, `η` is `penalty` -/
noncomputable def pdLocal (G : Grad A Ω E) (γ η : ℝ) (K : Nat) (c : A) (v : PdCli E) (ω : Ω) : E × Ω :=
  iterW (fun x ω => let g := G c x ω; (x - γ • (g.1 + v.lam + (1 / η) • (x - v.center)), g.2)) K v.x ω

/-- one pass of the loop in `_run_local_updates` (_fed_pd.py 119-127) -/
noncomputable def pdTrain (G : Grad A Ω E) (γ η : ℝ) (K : A → Nat) (c : A) (s : FSys A E Ω (PdCli E) E) : FSys A E Ω (PdCli E) E :=
  let v := s.cli c
  let r := pdLocal G γ η (K c) c v s.net.ω
  let lam := v.lam + (1 / η) • (r.1 - v.center)
  { s with net := { s.net with ω := r.2 }, cli := upd s.cli c ⟨r.1, lam, r.1 + η • lam⟩ }

/-- last loop of `aggregate` (_fed_pd.py 181-183): clients that got the new centre take it over -/
def pdAdopt (server c : A) (s : FSys A E Ω (PdCli E) E) : FSys A E Ω (PdCli E) E :=
  match (s.net.inbox c).get server .centerUpdate with
  | .ok m => { s with cli := upd s.cli c { s.cli c with center := m } }
  | .error _ => s

/-- `_communicate_center_candidates` (_fed_pd.py 144-155) -/
def pdUpload (w : World A E Ω) (n : Net A) (server : A) (P : List A) (s : FSys A E Ω (PdCli E) E) :
    Py (FSys A E Ω (PdCli E) E) :=
  P.foldlM (fun s c => FedAlg.sendF w n server c (.one server) (s.cli c).center .centerCand s) s

/-- `aggregate` (_fed_pd.py 157-183) -/
noncomputable def pdAggregate (w : World A E Ω) (n : Net A) (server : A) (P : List A) (s : FSys A E Ω (PdCli E) E) :
    Py (FSys A E Ω (PdCli E) E) :=
  let received := receivedFrom (s.net.inbox server) .centerCand P
  if received = [] then .ok s
  else do
    let s : FSys A E Ω (PdCli E) E := { s with srv := uniformAverage (received.map Prod.snd) }
    let s ← FedAlg.sendF w n server server (.many P) s.srv .centerUpdate s
    .ok (P.foldl (fun s c => pdAdopt server c s) s)

/-- `step` (_fed_pd.py 109-117); `coin` is `random.random() >= skip_probability`; there is no selection scheme -/
noncomputable def pdStep (G : Grad A Ω E) (γ η : ℝ) (K : A → Nat) (coin : Ω → Bool × Ω) (server : A) (w : World A E Ω) (n : Net A)
    (k : Int) (s : FSys A E Ω (PdCli E) E) : Py (FSys A E Ω (PdCli E) E) := do
  let r ← FedAlg.selectClients w n none k s
  if r.1 = [] then .ok r.2
  else do
    let s := r.1.foldl (fun s c => pdTrain G γ η K c s) r.2
    let b := coin s.net.ω
    let s := { s with net := { s.net with ω := b.2 } }
    if b.1 then do
      let s ← pdUpload w n server r.1 s
      pdAggregate w n server r.1 s
    else .ok s

/-- `initialize` (_fed_pd.py 91-107) -/
def pdInit (n : Net A) (server : A) (x0 : A → E) (s : FSys A E Ω (PdCli E) E) : FSys A E Ω (PdCli E) E :=
  { net := s.net.resetAgents n, srv := x0 server, cli := fun c => ⟨x0 c, 0, x0 server⟩,
    nSelected := fun a => if a ∈ n.nodes then 0 else s.nSelected a }

/-- the effects used by `Algorithm.run` -/
noncomputable def pdOps (G : Grad A Ω E) (γ η : ℝ) (K : A → Nat) (coin : Ω → Bool × Ω) (server : A) (w : World A E Ω) (n : Net A)
    (x0 : A → E) : RunOps (FSys A E Ω (PdCli E) E) where
  setup s := .ok (pdInit n server x0 s)
  netStep k s := { s with net := s.net.step n k }
  step k s := pdStep G γ η K coin server w n k s
  snapshot _ _ s := .ok s
  callback _ s := .ok s

/-- the system after `FedPD.run` with `k` iterations -/
noncomputable def pdAfter (G : Grad A Ω E) (γ η : ℝ) (K : A → Nat) (coin : Ω → Bool × Ω) (server : A) (w : World A E Ω) (n : Net A)
    (x0 : A → E) (s : FSys A E Ω (PdCli E) E) (k : Nat) : Py (FSys A E Ω (PdCli E) E) :=
  (pdOps G γ η K coin server w n x0).run k 0 s

end
end Verif.Fed
