import Verif.Model.P2PAlgos
/-!
# The ADMM family  (decent_bench/algorithms/p2p/_admm.py, _atg.py, _lt_admm.py, _lt_admm_vr.py)

The stacked array `z` of an agent has one row per neighbour, addressed through `neighbor_to_idx`, the enumeration of
`network.neighbors(i)`; here a row is addressed by the neighbour itself (`z : A → E`). The neighbours of a simple graph are
listed once, so rows and neighbours correspond one to one; only neighbours send to an agent, so `neighbor_to_idx[j]` never
raises `KeyError`.
-/
namespace Verif.P2P
open Verif Sys
variable {A E Ω : Type} [DecidableEq A] [AddCommGroup E] [Module ℝ E]

/-- `i.cost.proximal(v, penalty)` -/
abbrev Prox (A E Ω : Type) := A → E → ℝ → Ω → E × Ω

/-- `for j, msg in i.messages().items(): z[j] = (1 - relaxation) * z[j] - relaxation * msg` (_admm.py 91-93,
_lt_admm.py 138-141) -/
noncomputable def absorb (α : ℝ) (received : PyDict A E) (z : A → E) : A → E :=
  received.entries.foldl (fun z e => upd z e.1 ((1 - α) • z e.1 - α • e.2)) z

/-- `iop.sum(z, dim=0)` -/
def rowSumZ (n : Net A) (i : A) (z : A → E) : E := ((n.nbrs i).map z).sum

/-! ## ADMM (_admm.py) -/

/-- ADMM: `x` and the rows of `z` -/
structure Admm (A E : Type) where
  x : E
  z : A → E

/-- `rho_i = 1 / (penalty * len(neighbors(i)))` (_admm.py 70) -/
noncomputable def admmRho (n : Net A) (ρ : ℝ) (i : A) : ℝ := 1 / (ρ * ((n.nbrs i).length : ℝ))

/-- `initialize` (_admm.py 69-80; `fromZ` is `x_from_z`, and the division by zero of line 70 is in `admmAfter`) and `step`
(82-93) -/
noncomputable def admm (prox : Prox A E Ω) (n0 : Net A) (ρ α : ℝ) (z0 : A → E) (fromZ : Bool) : P2PAlg A E Ω (Admm A E) where
  init i x0 ω :=
    if fromZ then
      let r := prox i ((1 / ρ) • z0 i) (admmRho n0 ρ i) ω
      (⟨r.1, fun _ => z0 i⟩, r.2)
    else (⟨x0, fun _ => z0 i⟩, ω)
  step w n _ s := do
    let s ← forActive w n (own (fun i _ a ω =>
      let r := prox i (admmRho n ρ i • rowSumZ n i a.z) (admmRho n ρ i) ω
      ({ a with x := r.1 }, r.2))) s
    let s ← forActive w n (tellEach w n (fun _ a j => [(.dflt, a.z j - (2 * ρ) • a.x)])) s
    forActive w n (own (fun _ inbox a ω => ({ a with z := absorb α (inbox.byChannel .dflt) a.z }, ω))) s

/-- `run` of ADMM: `rho_i` is computed for all agents first, so an agent without neighbours raises `ZeroDivisionError`
(_admm.py 70) -/
noncomputable def admmAfter (prox : Prox A E Ω) (ρ α : ℝ) (z0 : A → E) (fromZ : Bool) (w : World A E Ω) (n : Net A) (x0 : A → E)
    (s : Sys A E Ω (Admm A E)) (k : Nat) : Py (Sys A E Ω (Admm A E)) :=
  if n.nodes.any (fun i => (n.nbrs i).isEmpty) then .error .zeroDivision
  else (admm prox n ρ α z0 fromZ).after w n x0 s k

/-! ## LT-ADMM (_lt_admm.py) -/

/-- LT-ADMM: `x`, `phi` and the rows of `z_i` -/
structure LtAdmm (A E : Type) where
  x : E
  phi : E
  z : A → E

/-- `initialize` (_lt_admm.py 62-84) and `step` (86-141) -/
noncomputable def ltAdmm (grad : Grad A E Ω) (ρ α γ β : ℝ) (τ : Nat) : P2PAlg A E Ω (LtAdmm A E) where
  init _ x0 ω := (⟨x0, x0, fun _ => x0⟩, ω)
  step w n _ s := do
    let s ← forActive w n (own (fun i _ a ω =>
      let correction := β • ((ρ * ((n.nbrs i).length : ℝ)) • a.x - rowSumZ n i a.z)
      let r := repeatN (fun phi ω => let g := grad i phi ω; (phi - (γ • g.1 + correction), g.2)) τ a.x ω
      ({ a with phi := r.1, x := r.1 }, r.2))) s
    let s ← forActive w n (tellEach w n (fun _ a j => [(.dflt, a.z j - (2 * ρ) • a.x)])) s
    forActive w n (own (fun _ inbox a ω => ({ a with z := absorb α (inbox.byChannel .dflt) a.z }, ω))) s

/-! ## LT-ADMM-VR (_lt_admm_vr.py) -/

/-- LT-ADMM-VR: `x`, `phi`, the rows of `z_i` and the table `r_grads` -/
structure LtVr (A E : Type) where
  x : E
  phi : E
  z : A → E
  table : Nat → E

/-- one local step (_lt_admm_vr.py 99-109): the batch gradient is corrected by the table, then the table entries of the batch
are refreshed at the new point -/
noncomputable def ltVrLocal (c : Emp A E Ω) (γ : ℝ) (correction : E) (i : A) (p : E × (Nat → E)) (ω : Ω) : (E × (Nat → E)) × Ω :=
  let r := c.batch i p.1 ω
  let g := r.1.1 - meanAt p.2 r.1.2 + meanAt p.2 (List.range (c.size i))
  let phi := p.1 - (γ • g + correction)
  ((phi, fun j => if j ∈ r.1.2 then c.sample i phi j else p.2 j), r.2)

/-- `initialize` (_lt_admm_vr.py 46-74; the `TypeError` for other costs is not modelled) and `step` (inherited, with
`_local_training` 76-112) -/
noncomputable def ltAdmmVr (c : Emp A E Ω) (v2 : Bool) (ρ α γ β : ℝ) (τ : Nat) : P2PAlg A E Ω (LtVr A E) where
  init i x0 ω := (⟨x0, x0, fun _ => x0, if v2 then c.sample i x0 else fun _ => 0⟩, ω)
  step w n _ s := do
    let s ← forActive w n (own (fun i _ a ω =>
      let correction := β • ((ρ * ((n.nbrs i).length : ℝ)) • a.x - rowSumZ n i a.z)
      let table := if v2 then a.table else c.sample i a.x
      let r := repeatN (ltVrLocal c γ correction i) τ (a.x, table) ω
      ({ a with phi := r.1.1, x := r.1.1, table := r.1.2 }, r.2))) s
    let s ← forActive w n (tellEach w n (fun _ a j => [(.dflt, a.z j - (2 * ρ) • a.x)])) s
    forActive w n (own (fun _ inbox a ω => ({ a with z := absorb α (inbox.byChannel .dflt) a.z }, ω))) s

/-! ## ATG (_atg.py) -/

/-- ATG: `x`, `y`, `s`, the rows of `z_y` and `z_s` -/
structure Atg (A E : Type) where
  x : E
  y : E
  s : E
  zy : A → E
  zs : A → E

/-- `for j in received_both: z[j] = (1 - relaxation) * z[j] + relaxation * received[j]` (_atg.py 117-124) -/
noncomputable def absorbBoth (α : ℝ) (senders : List A) (received : PyDict A E) (z : A → E) : A → E :=
  senders.foldl (fun z j => upd z j ((1 - α) • z j + α • ((received.get? j).getD 0))) z

/-- `initialize` (_atg.py 81-93) and `step` (95-124); the messages are `-z[j] + 2 * penalty * y` -/
noncomputable def atg (grad : Grad A E Ω) (ρ α γ δ : ℝ) (z0 : A → E) : P2PAlg A E Ω (Atg A E) where
  init i x0 ω := (⟨x0, 0, 0, fun _ => z0 i, fun _ => z0 i⟩, ω)
  step w n _ s := do
    let s ← forActive w n (own (fun i _ a ω =>
      let y := (1 / (1 + ρ * ((n.nbrs i).length : ℝ))) • (a.x + rowSumZ n i a.zy)
      let g := grad i a.x ω
      let t := (1 / (1 + ρ * ((n.nbrs i).length : ℝ))) • (g.1 + rowSumZ n i a.zs)
      ({ a with y := y, s := t, x := (1 - γ) • a.x + γ • (y - δ • t) }, g.2))) s
    let s ← forActive w n (tellEach w n (fun _ a j =>
      [(.zy, - a.zy j + (2 * ρ) • a.y), (.zs, - a.zs j + (2 * ρ) • a.s)])) s
    forActive w n (own (fun _ inbox a ω =>
      let both := heardBoth inbox .zy .zs
      ({ a with zy := absorbBoth α both (inbox.byChannel .zy) a.zy, zs := absorbBoth α both (inbox.byChannel .zs) a.zs }, ω))) s

/-- `run` of ATG: `iop.stack` of an empty list raises `ValueError` (_atg.py 86, utils/interoperability/_functions.py 532-533),
so an agent without neighbours makes `initialize` fail -/
noncomputable def atgAfter (grad : Grad A E Ω) (ρ α γ δ : ℝ) (z0 : A → E) (w : World A E Ω) (n : Net A) (x0 : A → E)
    (s : Sys A E Ω (Atg A E)) (k : Nat) : Py (Sys A E Ω (Atg A E)) :=
  if n.nodes.any (fun i => (n.nbrs i).isEmpty) then .error .valueError
  else (atg grad ρ α γ δ z0).after w n x0 s k

end Verif.P2P
