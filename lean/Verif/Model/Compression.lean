import Mathlib.Data.Real.Basic
import Mathlib.Analysis.Real.Sqrt
import Mathlib.Algebra.Order.Floor.Ring
import Mathlib.Algebra.Order.Floor.Semiring
import Mathlib.Algebra.BigOperators.Group.Finset.Basic
import Verif.Model.Py
/-!
# Message compression schemes  (decent_bench/schemes.py 471-670)

A message is its flattened vector of `n` real entries (`reshape(-1)` and back is not modelled; entries are exact reals,
not floats). Library routines with random or unspecified results (`np.argpartition`, `Generator.choice`,
`Generator.random`) are parameters.
-/
namespace Verif.Compression

variable {n : Nat}

/-- `k` of `TopK`/`RandK`: an int or a float -/
inductive KParam where
  | int (k : Int)
  | frac (f : ℝ)

/-- constructor guard of `TopK` / `RandK` (schemes.py 598-605, 644-651) -/
noncomputable def ctor : KParam → Py KParam
  | .int k => if k < 1 then .error .valueError else .ok (.int k)
  | .frac f => if f ≤ 0 ∨ f > 1 then .error .valueError else .ok (.frac f)

/-- `k_count` (schemes.py 610, 656) -/
noncomputable def kCount : KParam → Nat → Nat
  | .int k, n => min k.toNat n
  | .frac f, n => max 1 (Int.toNat ⌈f * (n : ℝ)⌉)

/-- `compressed_msg_size` of `TopK`/`RandK` (schemes.py 619-621, 665-667) -/
noncomputable def declaredSize : KParam → Nat → Int
  | .int k, _ => k
  | .frac f, n => ⌈f * (n : ℝ)⌉

/-- `compressed_msg_size` of the base class (schemes.py 478-480) -/
def baseSize (n : Nat) : Int := n

/-- `zeros_like(flat); compressed[idx] = flat[idx]` (schemes.py 614-615, 660-661) -/
noncomputable def scatter (v : Fin n → ℝ) (idx : List (Fin n)) : Fin n → ℝ := fun i => if i ∈ idx then v i else 0

/-- `TopK.compress` (schemes.py 607-617); `part w m` is `np.argpartition(w, -m)`, of which the last `k_count` entries
are used (`l[-k:]` drops all but the last `k`) -/
noncomputable def topK (k : KParam) (part : (Fin n → ℝ) → Nat → List (Fin n)) (v : Fin n → ℝ) : Fin n → ℝ :=
  let kc := kCount k n
  let p := part (fun i => |v i|) kc
  scatter v (p.drop (p.length - kc))

/-- `RandK.compress` (schemes.py 653-663); `choice m k` is `rng.choice(n, size=k, replace=False)` -/
noncomputable def randK (k : KParam) (choice : Nat → List (Fin n)) (v : Fin n → ℝ) : Fin n → ℝ :=
  scatter v (choice (kCount k n))

/-- `np.rint`: nearest integer, ties to even -/
noncomputable def rint (x : ℝ) : ℤ :=
  let f := ⌊x⌋
  if x - f < 1 / 2 then f
  else if 1 / 2 < x - f then f + 1
  else if f % 2 = 0 then f else f + 1

/-- `Quantization.__init__` guard (schemes.py 505-508) -/
noncomputable def quantCtor (step : ℝ) : Py ℝ := if step ≤ 0 then .error .valueError else .ok step

/-- `Quantization.compress` (schemes.py 510-512) -/
noncomputable def quantize (step : ℝ) (v : Fin n → ℝ) : Fin n → ℝ := fun i => step * (rint (v i / step) : ℝ)

/-- `np.sign` -/
noncomputable def pySign (x : ℝ) : ℝ := if x < 0 then -1 else if 0 < x then 1 else 0

/-- `iop.norm(msg)` (Euclidean norm) -/
noncomputable def norm2 (v : Fin n → ℝ) : ℝ := Real.sqrt (∑ i, v i ^ 2)

/-- one coordinate of `StochasticQuantization.compress` (schemes.py 570-577), with draw `u` -/
noncomputable def stochCoord (levels : Nat) (nrm x u : ℝ) : ℝ :=
  let scaled := (levels : ℝ) * |x| / nrm
  let lower : ℝ := ⌊scaled⌋
  let prob := scaled - lower
  let q := lower + (if u < prob then 1 else 0)
  nrm * pySign x * q / levels

/-- `StochasticQuantization.compress` (schemes.py 564-578), `u` being the vector of uniform draws -/
noncomputable def stochQuantize (levels : Nat) (u : Fin n → ℝ) (v : Fin n → ℝ) : Fin n → ℝ :=
  if norm2 v = 0 then fun _ => 0 else fun i => stochCoord levels (norm2 v) (v i) (u i)

end Verif.Compression
