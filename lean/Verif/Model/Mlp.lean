import Verif.Model.TorchCost
import Mathlib.Algebra.BigOperators.Ring.Finset
import Mathlib.Analysis.SpecialFunctions.Sigmoid
import Mathlib.Analysis.SpecialFunctions.Trigonometric.DerivHyp
/-!
# `SimpleLinearModel`, `ArgmaxActivation`, `ArgminActivation` (utils/pytorch_utils.py)

Library semantics assumed: `torch.nn.Linear(a, b)` holds a weight of `b * a` entries (row after row) and a bias of `b` entries, in this
order, maps the last dimension from `a` to `b` and raises RuntimeError for another size; `Sequential` applies its members in order and
lists their parameters in order; autograd of these modules is back-propagation, with slope 0 of the rectifier at 0.

Simplifications. Real numbers instead of floats. One input row at a time: a batch is treated row by row. The sizes are natural numbers.
-/
namespace Verif
namespace Mlp
open Torch

inductive Act where
  | relu | tanh | sigmoid
  deriving DecidableEq, Repr

/-- `torch.nn.ReLU`, `Tanh`, `Sigmoid` on a number -/
noncomputable def Act.on : Act → ℝ → ℝ
  | .relu, v => max v 0
  | .tanh, v => Real.tanh v
  | .sigmoid, v => Real.sigmoid v

/-- the slope autograd uses -/
noncomputable def Act.slope : Act → ℝ → ℝ
  | .relu, v => if 0 < v then 1 else 0
  | .tanh, v => 1 - Real.tanh v ^ 2
  | .sigmoid, v => Real.sigmoid v * (1 - Real.sigmoid v)

/-- the members of the `Sequential` -/
inductive Layer where
  | linear (nin nout : Nat)
  | act (a : Act)
  deriving DecidableEq, Repr

/-- the `if`-chains of pytorch_utils.py 66-71, 76-82: `None` and any other string add nothing -/
def actLayers : Option String → List Layer
  | some s => if s = "relu" then [.act .relu] else if s = "tanh" then [.act .tanh] else if s = "sigmoid" then [.act .sigmoid] else []
  | none => []

/-- the loop over the hidden layers and the output layer (pytorch_utils.py 60-82); `prev` is `prev_size` -/
def layersFrom (output : Nat) (activation outputActivation : Option String) : Nat → List Nat → List Layer
  | prev, [] => .linear prev output :: actLayers outputActivation
  | prev, h :: hs => .linear prev h :: actLayers activation ++ layersFrom output activation outputActivation h hs

/-- `SimpleLinearModel.__init__` (pytorch_utils.py 47-84) with PyTorch installed -/
def build (input : Nat) (hidden : List Nat) (output : Nat) (activation : Option String := some "relu") (outputActivation : Option String := none) :
    List Layer := layersFrom output activation outputActivation input hidden

/-- pytorch_utils.py 55-56 -/
def construct (torchInstalled : Bool) (input : Nat) (hidden : List Nat) (output : Nat) (activation outputActivation : Option String) : Py (List Layer) :=
  if torchInstalled then .ok (build input hidden output activation outputActivation) else .error .importError

/-- sizes of the tensors in `model.parameters()` -/
def paramSizes : List Layer → List Nat
  | [] => []
  | .linear a b :: ls => b * a :: b :: paramSizes ls
  | .act _ :: ls => paramSizes ls

/-- `torch.nn.Linear` -/
noncomputable def affine (a b : Nat) (w c x : List ℝ) : List ℝ :=
  (List.range b).map fun r => (∑ j ∈ Finset.range a, w.getD (r * a + j) 0 * x.getD j 0) + c.getD r 0

/-- `forward` (pytorch_utils.py 86-89) on one row, with the parameter tensors `θ` -/
noncomputable def forward : List Layer → List (List ℝ) → List ℝ → Py (List ℝ)
  | [], _, x => .ok x
  | .linear a b :: ls, w :: c :: θ, x => if x.length = a then forward ls θ (affine a b w c x) else .error .runtimeError
  | .linear _ _ :: _, _, _ => .error .runtimeError
  | .act f :: ls, θ, x => forward ls θ (x.map f.on)

/-- `torch.autograd.grad` through the network: from the derivatives `δ` with respect to the outputs to those with respect to the parameter
tensors and to the input -/
noncomputable def back : List Layer → List (List ℝ) → List ℝ → List ℝ → List (List ℝ) × List ℝ
  | [], _, _, δ => ([], δ)
  | .linear a b :: ls, w :: c :: θ, x, δ =>
    let q := back ls θ (affine a b w c x) δ
    (((List.range (b * a)).map fun i => q.2.getD (i / a) 0 * x.getD (i % a) 0) :: ((List.range b).map fun r => q.2.getD r 0) :: q.1,
     (List.range a).map fun j => ∑ r ∈ Finset.range b, q.2.getD r 0 * w.getD (r * a + j) 0)
  | .linear _ _ :: _, _, _, δ => ([], δ)
  | .act f :: ls, θ, x, δ =>
    let q := back ls θ (x.map f.on) δ
    (q.1, (List.range x.length).map fun i => q.2.getD i 0 * f.slope (x.getD i 0))

/-- `ArgmaxActivation.forward` on one row (pytorch_utils.py 111-113): the first position of the largest entry; IndexError for an empty row -/
noncomputable def argmax : List ℝ → Py Nat
  | [] => .error .indexError
  | v :: vs => .ok ((vs.zipIdx 1).foldl (fun (p : ℝ × Nat) q => if p.1 < q.1 then q else p) (v, 0)).2

/-- `ArgminActivation.forward` on one row (pytorch_utils.py 135-137) -/
noncomputable def argmin : List ℝ → Py Nat
  | [] => .error .indexError
  | v :: vs => .ok ((vs.zipIdx 1).foldl (fun (p : ℝ × Nat) q => if q.1 < p.1 then q else p) (v, 0)).2

/-- `torch.nn.CrossEntropyLoss` of one row of scores and a class -/
noncomputable def crossEntropy (o : List ℝ) (y : Nat) : ℝ := Real.log ((o.map Real.exp).sum) - o.getD y 0

end Mlp
end Verif
