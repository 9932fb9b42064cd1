import Verif.Model.Run
/-!
# Ready-made starting points (decent_bench/algorithms/utils.py 85-183)

`X0Env` (Model/Run) describes the network and its arrays. Random numbers come from an abstract generator state `Ω`; `draw` is
`iop.normal` or `iop.uniform` for one array of the given shape. `params` is what `_get_model_parameters` of an agent's cost returns
(`none`: the cost is no PyTorchCost).

Simplifications. Framework and device conversion is the identity. The bounds are numbers that can be compared (no NaN).
-/
namespace Verif.Starts
open Verif

variable {A V S Ω : Type} [DecidableEq A] [DecidableEq S]

/-- the comprehension over `network.graph`: one draw after the other -/
def drawEach (shape : A → S) (draw : S → Ω → V × Ω) : List A → Ω → List (A × V) × Ω
  | [], ω => ([], ω)
  | a :: t, ω =>
    let r := draw (shape a) ω
    let q := drawEach shape draw t r.2
    ((a, r.1) :: q.1, q.2)

/-- `normal_initialization` (utils.py 85-110) -/
def normalInit (e : X0Env A V S) (draw : S → Ω → V × Ω) (ω : Ω) : List (A × V) × Ω := drawEach e.costShape draw e.graph ω

/-- `uniform_initialization` (utils.py 113-142) -/
def uniformInit (e : X0Env A V S) (low high : Rat) (draw : S → Ω → V × Ω) (ω : Ω) : Py (List (A × V)) × Ω :=
  if high ≤ low then (.error .valueError, ω) else
  let r := drawEach e.costShape draw e.graph ω
  (.ok r.1, r.2)

/-- the loop of `pytorch_initialization` (utils.py 173-182) -/
def torchEach (params : A → Option V) : List A → Py (List (A × V))
  | [] => .ok []
  | a :: t =>
    match params a with
    | none => .error .typeError
    | some v =>
      match torchEach params t with
      | .error x => .error x
      | .ok r => .ok ((a, v) :: r)

/-- `pytorch_initialization` (utils.py 145-183); `next(iter([]))` raises StopIteration (`runtimeError` here) -/
def torchInit (e : X0Env A V S) (params : A → Option V) (allSame : Bool) : Py (X0 A V) :=
  if allSame then
    match e.agents with
    | [] => .error .runtimeError
    | a :: _ =>
      match params a with
      | none => .error .typeError
      | some v => .ok (.arr v)
  else
    match torchEach params e.graph with
    | .error x => .error x
    | .ok r => .ok (.dict r)

end Verif.Starts
