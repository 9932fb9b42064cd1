import Mathlib.Data.Real.Basic
import Mathlib.Algebra.Order.Floor.Ring
import Mathlib.Data.Rat.Floor
import Verif.Model.Py
import Verif.Model.Sort
/-!
# Client selection schemes  (decent_bench/schemes.py 174-468)

Random library calls are parameters: `pick` stands for `random.sample` / `Generator.choice(replace=False)` as a list of
positions, `tie` for `Generator.permutation`. Their documented contracts are hypotheses of the theorems.
Fractions are exact rationals (rounding of `fraction * len` in floating point is not modelled).
-/
namespace Verif.Selection

/-- selection size given to a constructor: `num_selected_clients`, `fraction_selected_clients` -/
structure Size where
  num : Option Int
  frac : Option Rat
  deriving DecidableEq

/-- `_validate_selection_size` (schemes.py 183-202) -/
def validate (s : Size) : Py Unit :=
  match s.num, s.frac with
  | none, none => .error .valueError
  | some _, some _ => .error .valueError
  | some k, none => if k ≤ 0 then .error .valueError else .ok ()
  | none, some f => if 0 < f ∧ f ≤ 1 then .ok () else .error .valueError

/-- `_resolve_num_selected_clients` (schemes.py 205-219); `int(x)` truncates, which is floor for `x ≥ 0` -/
def resolve (s : Size) (n : Nat) : Nat :=
  match s.num with
  | some k => min k.toNat n
  | none =>
    match s.frac with
    | some f => min (max 1 (Int.toNat ⌊f * (n : Rat)⌋)) n
    | none => 0      -- excluded by `validate`

variable {A : Type}

/-- `[clients_list[i] for i in idx]` (positions given by the sampler are in range) -/
def pickAt (clients : List A) (idx : List Nat) : List A := idx.filterMap (fun i => clients[i]?)

/-- `UniformSelection.select` (schemes.py 275-285); `pick n k` is the sample of positions drawn by `random.sample` -/
def uniform (s : Size) (pick : Nat → Nat → List Nat) (clients : List A) : List A :=
  if clients = [] then []
  else
    let k := resolve s clients.length
    if k = clients.length then clients else pickAt clients (pick clients.length k)

/-- `DataSizeSelection.select` (schemes.py 322-341). `dataSize c = none` models a cost without data (raises ValueError).
NumPy's `choice(..., replace=False, p=...)` raises ValueError when fewer than `k` probabilities are non-zero, and when
they are not a probability vector (all data sizes zero). -/
def dataSize (s : Size) (size : A → Option Nat) (pick : List Nat → Nat → List Nat) (clients : List A) : Py (List A) :=
  if clients = [] then .ok []
  else
    let k := resolve s clients.length
    if k = clients.length then .ok clients
    else if clients.any (fun c => (size c).isNone) then .error .valueError
    else
      let sizes := clients.map (fun c => (size c).getD 0)
      if (sizes.filter (fun m => decide (0 < m))).length < k then .error .valueError
      else .ok (pickAt clients (pick sizes k))

variable [DecidableEq A]

/-- `FairSelection.select` (schemes.py 383-404): selected clients and the updated `_selection_counts` -/
def fair (s : Size) (counts : PyDict A Nat) (clients : List A) : List A × PyDict A Nat :=
  if clients = [] then ([], counts)
  else
    let k := resolve s clients.length
    let sel :=
      if k = clients.length then clients
      else (pySorted (fun a b => decide ((counts.get? a).getD 0 ≤ (counts.get? b).getD 0)) clients).take k
    (sel, sel.foldl (fun c a => c.set a ((c.get? a).getD 0 + 1)) counts)

/-- key of a candidate in `HighLossSelection`: `(-losses[index], tie_breakers[index])`, compared lexicographically -/
noncomputable def hlLe (loss : Nat → ℝ) (tie : Nat → Nat) (i j : Nat) : Bool :=
  decide (loss j < loss i ∨ (loss i = loss j ∧ tie i ≤ tie j))

/-- `HighLossSelection.select` (schemes.py 446-468); `loss c` is `_client_loss(c)` (schemes.py 222-231),
`tie` the drawn permutation -/
noncomputable def highLoss (s : Size) (loss : A → ℝ) (tie : Nat → Nat) (clients : List A) : List A :=
  if clients = [] then []
  else
    let k := resolve s clients.length
    if k = clients.length then clients
    else
      let lossAt := fun i => ((clients[i]?).map loss).getD 0
      pickAt clients ((pySorted (hlLe lossAt tie) (List.range clients.length)).take k)

/-- rounds of `FairSelection` over a fixed client list: history of selections and final counts -/
def fairRounds (s : Size) (clients : List A) : Nat → PyDict A Nat → List (List A) × PyDict A Nat
  | 0, c => ([], c)
  | n + 1, c =>
    let r := fair s c clients
    let rest := fairRounds s clients n r.2
    (r.1 :: rest.1, rest.2)

end Verif.Selection
