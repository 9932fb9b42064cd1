import Verif.Model.P2PCore
/-!
# The peer-to-peer algorithms  (decent_bench/algorithms/p2p/*.py)

Every `step` is transcribed as the sequence of its `for i in network.active_agents()` loops. `grad i x` is
`i.cost.gradient(x)`, an oracle acting on the world (mini-batch costs sample). Variables that a step writes before it reads
them start as 0 in the model.
-/
namespace Verif.P2P
open Verif Sys
variable {A E Ω : Type} [DecidableEq A] [AddCommGroup E] [Module ℝ E]

/-- `i.cost.gradient(x)` -/
abbrev Grad (A E Ω : Type) := A → E → Ω → E × Ω

/-! ## DGD (_dgd.py) -/

/-- DGD: only `x` -/
structure Dgd (E : Type) where
  x : E

/-- `initialize` (_dgd.py 45-50) and `step` (52-60) -/
noncomputable def dgd (grad : Grad A E Ω) (W : A → A → ℝ) (ρ : ℝ) : P2PAlg A E Ω (Dgd E) where
  init _ x0 ω := (⟨x0⟩, ω)
  step w n _ s := do
    let s ← forActive w n (say w n (fun _ a => a) (fun _ a => [(.dflt, a.x)])) s
    forActive w n (own (fun i inbox a ω =>
      let avg := mix W i a.x (inbox.byChannel .dflt)
      let g := grad i a.x ω
      (⟨avg - ρ • g.1⟩, g.2))) s

/-! ## ATC (_atc.py) -/

/-- ATC: `x` and `y` -/
structure Atc (E : Type) where
  x : E
  y : E

/-- `initialize` (_atc.py 49-54) and `step` (56-70); the combine step starts from `W[i, i] * i.x` (67) -/
noncomputable def atc (grad : Grad A E Ω) (W : A → A → ℝ) (ρ : ℝ) : P2PAlg A E Ω (Atc E) where
  init _ x0 ω := (⟨x0, x0⟩, ω)
  step w n _ s := do
    let s ← forActive w n (own (fun i _ a ω =>
      let g := grad i a.x ω
      ({ a with y := a.x - ρ • g.1 }, g.2))) s
    let s ← forActive w n (say w n (fun _ a => a) (fun _ a => [(.dflt, a.y)])) s
    forActive w n (own (fun i inbox a ω => ({ a with x := mix W i a.x (inbox.byChannel .dflt) }, ω))) s

/-! ## SimpleGT (_simple_gt.py) -/

/-- SimpleGT: `x`, `y`, `y_new` -/
structure SimpleGt (E : Type) where
  x : E
  y : E
  yNew : E

/-- `initialize` (_simple_gt.py 49-54) and `step` (56-68) -/
noncomputable def simpleGt (grad : Grad A E Ω) (W : A → A → ℝ) (ρ : ℝ) : P2PAlg A E Ω (SimpleGt E) where
  init _ x0 ω := (⟨x0, x0, 0⟩, ω)
  step w n _ s := do
    let s ← forActive w n (say w n (fun _ a => a) (fun _ a => [(.dflt, a.x)])) s
    forActive w n (own (fun i inbox a ω =>
      let g := grad i a.x ω
      let yNew := a.x - ρ • g.1
      let avg := mix W i a.x (inbox.byChannel .dflt)
      (⟨yNew - a.y + avg, yNew, yNew⟩, g.2))) s

/-- `0.5 * (eye + W)` (_ed.py 59, _nids.py 60) -/
noncomputable def halfPlus (W : A → A → ℝ) (i j : A) : ℝ := 0.5 * ((if i = j then 1 else 0) + W i j)

/-- `0.5 * (eye - W)` (_wang_elia.py 62) -/
noncomputable def halfMinus (W : A → A → ℝ) (i j : A) : ℝ := 0.5 * ((if i = j then 1 else 0) - W i j)

/-! ## ED (_ed.py) -/

/-- ED: `x`, `y`, `y_new`, `msg` -/
structure Ed (E : Type) where
  x : E
  y : E
  yNew : E
  msg : E

/-- `initialize` (_ed.py 51-59) and `step` (61-73); mixing with `W̃` -/
noncomputable def ed (grad : Grad A E Ω) (W : A → A → ℝ) (ρ : ℝ) : P2PAlg A E Ω (Ed E) where
  init i x0 ω := let g := grad i x0 ω; (⟨x0, x0, x0 - ρ • g.1, 0⟩, g.2)
  step w n _ s := do
    let s ← forActive w n (say w n (fun _ a => { a with msg := a.x + a.yNew - a.y }) (fun _ a => [(.dflt, a.msg)])) s
    forActive w n (own (fun i inbox a ω =>
      let x := mix (halfPlus W) i a.msg (inbox.byChannel .dflt)
      let g := grad i x ω
      (⟨x, a.yNew, x - ρ • g.1, a.msg⟩, g.2))) s

/-! ## NIDS (_nids.py) -/

/-- NIDS: `x`, `x_old`, `g`, `g_old`, `y` -/
structure Nids (E : Type) where
  x : E
  xOld : E
  g : E
  gOld : E
  y : E

/-- `initialize` (_nids.py 53-61) and `step` (63-87) -/
noncomputable def nids (grad : Grad A E Ω) (W : A → A → ℝ) (ρ : ℝ) : P2PAlg A E Ω (Nids E) where
  init _ x0 ω := (⟨x0, x0, 0, 0, 0⟩, ω)
  step w n k s :=
    if k = 0 then
      forActive w n (own (fun i _ a ω =>
        let g := grad i a.x ω
        ({ a with g := g.1, x := a.xOld - ρ • g.1 }, g.2))) s
    else do
      let s ← forActive w n (own (fun i _ a ω =>
        let g := grad i a.x ω
        ({ a with gOld := a.g, g := g.1, y := (2 : ℝ) • a.x - a.xOld - ρ • g.1 + ρ • a.g }, g.2))) s
      let s ← forActive w n (say w n (fun _ a => a) (fun _ a => [(.dflt, a.y)])) s
      forActive w n (own (fun i inbox a ω =>
        ({ a with xOld := a.x, x := mix (halfPlus W) i a.y (inbox.byChannel .dflt) }, ω))) s

/-! ## EXTRA (_extra.py) -/

/-- EXTRA: `x`, `x_old`, `x_old_old`, `x_cons` -/
structure Extra (E : Type) where
  x : E
  xOld : E
  xOldOld : E
  xCons : E

/-- `initialize` (_extra.py 52-61) and `step` (63-95) -/
noncomputable def extra (grad : Grad A E Ω) (W : A → A → ℝ) (ρ : ℝ) : P2PAlg A E Ω (Extra E) where
  init _ x0 ω := (⟨x0, x0, 0, 0⟩, ω)
  step w n k s :=
    if k = 0 then do
      let s ← forActive w n (say w n (fun _ a => a) (fun _ a => [(.dflt, a.x)])) s
      forActive w n (own (fun i inbox a ω =>
        let avg := mix W i a.x (inbox.byChannel .dflt)
        let g := grad i a.x ω
        ({ a with xCons := avg, xOld := a.x, x := avg - ρ • g.1 }, g.2))) s
    else do
      let s ← forActive w n (say w n (fun _ a => a) (fun _ a => [(.dflt, a.x)])) s
      forActive w n (own (fun i inbox a ω =>
        let avg := mix W i a.x (inbox.byChannel .dflt)
        let g1 := grad i a.x ω
        let g2 := grad i a.xOld g1.2
        (⟨a.x + avg - (0.5 : ℝ) • a.xOld - (0.5 : ℝ) • a.xCons - ρ • (g1.1 - g2.1), a.x, a.xOld, avg⟩, g2.2))) s

/-! ## Wang-Elia (_wang_elia.py) -/

/-- WangElia: `x`, `z`, `x_old`, `msg` -/
structure Wang (E : Type) where
  x : E
  z : E
  xOld : E
  msg : E

/-- `initialize` (_wang_elia.py 56-64) and `step` (66-91), mixing with `K` -/
noncomputable def wangElia (grad : Grad A E Ω) (W : A → A → ℝ) (ρ : ℝ) : P2PAlg A E Ω (Wang E) where
  init _ x0 ω := (⟨x0, 0, x0, 0⟩, ω)
  step w n _ s := do
    let s ← forActive w n (say w n (fun _ a => { a with msg := a.x + a.z }) (fun _ a => [(.state, a.msg)])) s
    let s ← forActive w n (own (fun i inbox a ω =>
      let avg := mix (halfMinus W) i a.msg (inbox.byChannel .state)
      let g := grad i a.x ω
      ({ a with xOld := a.x, x := a.x - avg - ρ • g.1 }, g.2))) s
    let s ← forActive w n (say w n (fun _ a => a) (fun _ a => [(.prevState, a.xOld)])) s
    forActive w n (own (fun i inbox a ω =>
      ({ a with z := a.z + mix (halfMinus W) i a.xOld (inbox.byChannel .prevState) }, ω))) s

/-! ## Aug-DGM (_aug_dgm.py) and ATC-Tracking (_atc_tracking.py) -/

/-- `x`, `y`, `g`, `g_new`, `s`, `msg` -/
structure Track (E : Type) where
  x : E
  y : E
  g : E
  gNew : E
  s : E
  msg : E

/-- `initialize` (_aug_dgm.py 58-65) and `step` (67-97) -/
noncomputable def augDgm (grad : Grad A E Ω) (W : A → A → ℝ) (ρ : ℝ) : P2PAlg A E Ω (Track E) where
  init i x0 ω := let g := grad i x0 ω; (⟨x0, g.1, g.1, 0, 0, 0⟩, g.2)
  step w n _ s := do
    let s ← forActive w n (own (fun _ _ a ω => ({ a with s := a.x - ρ • a.y }, ω))) s
    let s ← forActive w n (say w n (fun _ a => a) (fun _ a => [(.state, a.s)])) s
    let s ← forActive w n (own (fun i inbox a ω =>
      let x := mix W i a.s (inbox.byChannel .state)
      let g := grad i x ω
      ({ a with x := x, gNew := g.1 }, g.2))) s
    let s ← forActive w n (say w n (fun _ a => { a with msg := a.y + a.gNew - a.g }) (fun _ a => [(.tracker, a.msg)])) s
    forActive w n (own (fun i inbox a ω =>
      ({ a with y := mix W i a.msg (inbox.byChannel .tracker), g := a.gNew }, ω))) s

/-- `initialize` (_atc_tracking.py 58-68) and `step` (70-98) -/
noncomputable def atcTracking (grad : Grad A E Ω) (W : A → A → ℝ) (ρ : ℝ) : P2PAlg A E Ω (Track E) where
  init i x0 ω := let g := grad i x0 ω; (⟨x0, g.1, g.1, 0, 0, 0⟩, g.2)
  step w n _ s := do
    let s ← forActive w n (own (fun _ _ a ω => ({ a with s := a.x - ρ • a.y }, ω))) s
    let s ← forActive w n (say w n (fun _ a => a) (fun _ a => [(.state, a.s)])) s
    let s ← forActive w n (own (fun i inbox a ω =>
      let x := mix W i a.s (inbox.byChannel .state)
      let g := grad i x ω
      ({ a with x := x, gNew := g.1 }, g.2))) s
    let s ← forActive w n (say w n (fun _ a => a) (fun _ a => [(.tracker, a.y)])) s
    forActive w n (own (fun i inbox a ω =>
      ({ a with y := mix W i a.y (inbox.byChannel .tracker) + a.gNew - a.g, g := a.gNew }, ω))) s

/-- `for _ in range(k): x = f(x)` with oracle state -/
def repeatN {T : Type} (f : T → Ω → T × Ω) : Nat → T → Ω → T × Ω
  | 0, v, ω => (v, ω)
  | k + 1, v, ω => let r := f v ω; repeatN f k r.1 r.2

/-! ## LED (_led.py) -/

/-- LED: `x`, `y`, `phi` -/
structure Led (E : Type) where
  x : E
  y : E
  phi : E

/-- `initialize` (_led.py 54-72) and `step` (74-123) -/
noncomputable def led (grad : Grad A E Ω) (W : A → A → ℝ) (ρ β : ℝ) (τ : Nat) : P2PAlg A E Ω (Led E) where
  init _ x0 ω := (⟨x0, 0, x0⟩, ω)
  step w n _ s := do
    let s ← forActive w n (own (fun i _ a ω =>
      let r := repeatN (fun phi ω => let g := grad i phi ω; (phi - (ρ • g.1 + β • a.y), g.2)) τ a.x ω
      ({ a with phi := r.1 }, r.2))) s
    let s ← forActive w n (say w n (fun _ a => a) (fun _ a => [(.dflt, a.phi)])) s
    let s ← forActive w n (own (fun i inbox a ω => ({ a with x := mix W i a.phi (inbox.byChannel .dflt) }, ω))) s
    forActive w n (own (fun _ _ a ω => ({ a with y := a.y + (a.phi - a.x) }, ω))) s

/-! ## ProxSkip (_prox_skip.py) -/

/-- ProxSkip: `x`, `y`, `z` -/
structure Skip (E : Type) where
  x : E
  y : E
  z : E

/-- `W_a = I - 1/(2 chi) (I - W)` (_prox_skip.py 72) -/
noncomputable def relaxed (χ : ℝ) (W : A → A → ℝ) (i j : A) : ℝ :=
  (if i = j then 1 else 0) - (1 / (2 * χ)) * ((if i = j then 1 else 0) - W i j)

/-- `initialize` (_prox_skip.py 59-83) and `step` (85-148); `coin` is `random.random() < comm_probability` -/
noncomputable def proxSkip (grad : Grad A E Ω) (coin : Ω → Bool × Ω) (W : A → A → ℝ) (ρ β χ : ℝ) :
    P2PAlg A E Ω (Skip E) where
  init _ x0 ω := (⟨x0, 0, x0⟩, ω)
  step w n _ s := do
    let s ← forActive w n (own (fun i _ a ω =>
      let g := grad i a.x ω
      ({ a with z := a.x - ρ • g.1 - a.y }, g.2))) s
    let θ := coin s.net.ω
    let s := { s with net := { s.net with ω := θ.2 } }
    if θ.1 then do
      let s ← forActive w n (say w n (fun _ a => a) (fun _ a => [(.dflt, a.z)])) s
      forActive w n (own (fun i inbox a ω =>
        let x := mix (relaxed χ W) i a.z (inbox.byChannel .dflt)
        ({ a with x := x, y := a.y + β • (a.z - x) }, ω))) s
    else forActive w n (own (fun _ _ a ω => ({ a with x := a.z }, ω))) s

/-! ## K-GT (_kgt.py) -/

/-- K-GT: `x`, `c`, `x_before_local`, `z_i`, `msg` -/
structure Kgt (E : Type) where
  x : E
  c : E
  before : E
  z : E
  msg : E

/-- senders heard on both channels, in the order of the first (`set(...).intersection(...)`, _kgt.py 138; the iteration
order of a Python set is arbitrary, which does not matter for exact sums) -/
def heardBoth (b : Inbox Chan A E) (c1 c2 : Chan) : List A :=
  (b.byChannel c1).keys.filter (fun j => (b.byChannel c2).contains j)

/-- `avg = W[i,i] * own; for j in received_both: avg += W[i,j] * received[j]` (_kgt.py 134-141) -/
noncomputable def mixOver (W : A → A → ℝ) (i : A) (own : E) (received : PyDict A E) (senders : List A) : E :=
  senders.foldl (fun acc j => acc + W i j • ((received.get? j).getD 0)) (W i i • own)

/-- `initialize` (_kgt.py 57-79) and `step` (81-143) -/
noncomputable def kgt (grad : Grad A E Ω) (W : A → A → ℝ) (ρ β : ℝ) (K : Nat) : P2PAlg A E Ω (Kgt E) where
  init _ x0 ω := (⟨x0, 0, x0, x0, 0⟩, ω)
  step w n _ s := do
    let s ← forActive w n (own (fun i _ a ω =>
      let r := repeatN (fun x ω => let g := grad i x ω; (x - ρ • (g.1 + a.c), g.2)) K a.x ω
      ({ a with before := a.x, x := r.1 }, r.2))) s
    let s ← forActive w n (say w n
      (fun _ a =>
        let z := (1 / ((K : ℝ) * ρ)) • (a.before - a.x)
        { a with z := z, msg := a.before - ((K : ℝ) * β * ρ) • z })
      (fun _ a => [(.state, a.msg), (.tracker, a.z)])) s
    forActive w n (own (fun i inbox a ω =>
      let both := heardBoth inbox .state .tracker
      let wz := mixOver W i a.z (inbox.byChannel .tracker) both
      let wx := mixOver W i a.msg (inbox.byChannel .state) both
      ({ a with c := a.c - a.z + wz, x := wx }, ω))) s

/-! ## Variance-reduced methods (_gt_saga.py, _gt_vr.py, _gt_sarah.py) -/

/-- gradient oracles of an empirical cost (costs/base/_empirical_risk_cost.py) -/
structure Emp (A E Ω : Type) where
  /-- `cost.gradient(x)` on a sampled batch, with `cost.batch_used` -/
  batch : A → E → Ω → (E × List Nat) × Ω
  /-- `cost.gradient(x, indices=...)` -/
  at_ : A → E → List Nat → E
  /-- `cost.gradient(x, indices="all")` -/
  all : A → E → E
  /-- per-sample gradient `cost.gradient(x, reduction=None)[j]` -/
  sample : A → E → Nat → E
  /-- `cost.n_samples` -/
  size : A → Nat

/-- `iop.mean(table[indices], dim=0)` -/
noncomputable def meanAt (table : Nat → E) (l : List Nat) : E := (1 / (l.length : ℝ)) • (l.map table).sum

/-- GT-SAGA: `x`, `z_grads`, `y`, `g_old`, `g`, `y_plus_delta_g`, `x_minus_alpha_y` -/
structure Saga (E : Type) where
  x : E
  table : Nat → E
  y : E
  gOld : E
  g : E
  yMsg : E
  xMsg : E

/-- `initialize` (_gt_saga.py 54-77) and `step` (79-170) -/
noncomputable def gtSaga (c : Emp A E Ω) (W : A → A → ℝ) (ρ : ℝ) : P2PAlg A E Ω (Saga E) where
  init i x0 ω := (⟨x0, c.sample i x0, 0, 0, 0, 0, 0⟩, ω)
  step w n _ s := do
    -- _update_gradient_estimator (110-137)
    let s ← forActive w n (own (fun i _ a ω =>
      let r := c.batch i a.x ω
      ({ a with gOld := a.g,
                g := r.1.1 - meanAt a.table r.1.2 + meanAt a.table (List.range (c.size i)) }, r.2))) s
    let s ← forActive w n (say w n (fun _ a => { a with yMsg := a.y + a.g - a.gOld }) (fun _ a => [(.tracker, a.yMsg)])) s
    let s ← forActive w n (own (fun i inbox a ω => ({ a with y := mix W i a.yMsg (inbox.byChannel .tracker) }, ω))) s
    let s ← forActive w n (say w n (fun _ a => { a with xMsg := a.x - ρ • a.y }) (fun _ a => [(.state, a.xMsg)])) s
    let s ← forActive w n (own (fun i inbox a ω => ({ a with x := mix W i a.xMsg (inbox.byChannel .state) }, ω))) s
    -- _update_gradient_table (153-170): a fresh batch is drawn
    forActive w n (own (fun i _ a ω =>
      let r := c.batch i a.x ω
      ({ a with table := fun j => if j ∈ r.1.2 then c.sample i a.x j else a.table j }, r.2))) s

/-- GT-VR: `x`, `tau`, `full_grad_tau`, `y`, `v`, `v_old`, `x_minus_eta_y`, `y_plus_delta_v` -/
structure Vr (E : Type) where
  x : E
  tau : E
  fullTau : E
  y : E
  v : E
  vOld : E
  xMsg : E
  yMsg : E

/-- `initialize` (_gt_vr.py 58-92) and `step` (94-198); `coin` is `random.random() < snapshot_prob` -/
noncomputable def gtVr (c : Emp A E Ω) (coin : Ω → Bool × Ω) (W : A → A → ℝ) (ρ : ℝ) : P2PAlg A E Ω (Vr E) where
  init i x0 ω := let g := c.all i x0; (⟨x0, x0, g, g, g, g, 0, 0⟩, ω)
  step w n _ s := do
    let s ← forActive w n (say w n (fun _ a => { a with xMsg := a.x - ρ • a.y }) (fun _ a => [(.state, a.xMsg)])) s
    let s ← forActive w n (own (fun i inbox a ω => ({ a with x := mix W i a.xMsg (inbox.byChannel .state) }, ω))) s
    let s ← forActive w n (own (fun i _ a ω =>
      let θ := coin ω
      (if θ.1 then { a with tau := a.x, fullTau := c.all i a.x } else a, θ.2))) s
    let s ← forActive w n (own (fun i _ a ω =>
      let r := c.batch i a.x ω
      ({ a with vOld := a.v, v := r.1.1 - c.at_ i a.tau r.1.2 + a.fullTau }, r.2))) s
    let s ← forActive w n (say w n (fun _ a => { a with yMsg := a.y + a.v - a.vOld }) (fun _ a => [(.tracker, a.yMsg)])) s
    forActive w n (own (fun i inbox a ω => ({ a with y := mix W i a.yMsg (inbox.byChannel .tracker) }, ω))) s

/-- GT-SARAH: `x`, `y`, `v`, `v_prev`, `x_prev` -/
structure Sarah (E : Type) where
  x : E
  y : E
  v : E
  vPrev : E
  xPrev : E

/-- tracker and state update (_gt_sarah.py 97-108 and 188-199, with 151-174) -/
noncomputable def sarahRound (W : A → A → ℝ) (ρ : ℝ) (w : World A E Ω) (n : Net A) (s : Sys A E Ω (Sarah E)) :
    Py (Sys A E Ω (Sarah E)) := do
  let s ← forActive w n (say w n (fun _ a => a) (fun _ a => [(.tracker, a.y)])) s
  let s ← forActive w n (own (fun i inbox a ω =>
    ({ a with y := mix W i a.y (inbox.byChannel .tracker) + a.v - a.vPrev }, ω))) s
  let s ← forActive w n (say w n (fun _ a => a) (fun _ a => [(.state, a.x)])) s
  forActive w n (own (fun i inbox a ω =>
    ({ a with xPrev := a.x, x := mix W i a.x (inbox.byChannel .state) - ρ • a.y }, ω))) s

/-- `_inner_loop` (_gt_sarah.py 176-199) -/
noncomputable def sarahInner (c : Emp A E Ω) (W : A → A → ℝ) (ρ : ℝ) (w : World A E Ω) (n : Net A) :
    Nat → Sys A E Ω (Sarah E) → Py (Sys A E Ω (Sarah E))
  | 0, s => .ok s
  | k + 1, s => do
    let s ← forActive w n (own (fun i _ a ω =>
      let r := c.batch i a.x ω
      ({ a with vPrev := a.v, v := r.1.1 - c.at_ i a.xPrev r.1.2 + a.v }, r.2))) s
    let s ← sarahRound W ρ w n s
    sarahInner c W ρ w n k s

/-- `initialize` (_gt_sarah.py 58-89) and `step` (91-110) -/
noncomputable def gtSarah (c : Emp A E Ω) (W : A → A → ℝ) (ρ : ℝ) (K : Nat) : P2PAlg A E Ω (Sarah E) where
  init _ x0 ω := (⟨x0, 0, 0, 0, x0⟩, ω)
  step w n _ s := do
    let s ← forActive w n (own (fun i _ a ω => ({ a with vPrev := a.v, v := c.all i a.x }, ω))) s
    let s ← sarahRound W ρ w n s
    sarahInner c W ρ w n K s

end Verif.P2P
