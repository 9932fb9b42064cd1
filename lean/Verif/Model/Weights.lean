import Verif.Model.Network
import Mathlib.Data.Real.Basic
/-!
# Metropolis-Hastings weights  (decent_bench/networks.py 403-427) and degrees (213-216)

The matrix is indexed by agents; `W[i, j]` in the code goes through `Agent.__index__`, and `C10` shows that the indices
of a network's agents are distinct, so agent-indexing and position-indexing agree. Real arithmetic.
-/
namespace Verif
variable {A : Type} [DecidableEq A]

/-- `graph.degree()` (networks.py 213-216): networkx counts a self-loop twice -/
def degree (n : Net A) (a : A) : Nat := (n.nbrs a).length + (if a ∈ n.nbrs a then 1 else 0)

/-- `W[i, j] = v` -/
def setEntry {R : Type} (W : A → A → R) (i j : A) (v : R) : A → A → R :=
  fun x y => if x = i ∧ y = j then v else W x y

/-- inner loop over neighbours (networks.py 418-420) -/
noncomputable def fillRow (n : Net A) (i : A) (W : A → A → ℝ) : List A → A → A → ℝ
  | [] => W
  | j :: t => fillRow n i (setEntry W i j (1 / (1 + max (degree n i : ℝ) (degree n j : ℝ)))) t

/-- outer loop (networks.py 415-420) -/
noncomputable def fillRows (n : Net A) (W : A → A → ℝ) : List A → A → A → ℝ
  | [] => W
  | i :: t => fillRows n (fillRow n i W (n.nbrs i)) t

/-- `sum(W[i])` -/
noncomputable def rowSum (n : Net A) (W : A → A → ℝ) (i : A) : ℝ := (n.nodes.map (fun j => W i j)).sum

/-- second loop: `W[i, i] = 1 - sum(W[i])` (networks.py 421-422) -/
noncomputable def fillDiag (n : Net A) (W : A → A → ℝ) : List A → A → A → ℝ
  | [] => W
  | i :: t => fillDiag n (setEntry W i i (1 - rowSum n W i)) t

/-- `P2PNetwork.weights` (networks.py 403-427) when no custom matrix was set -/
noncomputable def weights (n : Net A) : A → A → ℝ :=
  fillDiag n (fillRows n (fun _ _ => 0) n.nodes) n.nodes

end Verif
