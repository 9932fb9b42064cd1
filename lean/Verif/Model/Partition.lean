import Verif.Model.Py
import Verif.Model.Sort
import Mathlib.Algebra.Order.Ring.Rat
/-!
# Dataset partitioners

`decent_bench/datasets/partitioners/*` (all but `_label_quantity.py`, see `Model/MaxFlow.lean`) and
`DatasetHandler._resolve_partitions`.

The NumPy generator is an abstract state `Ω` with three operations.  What NumPy documents about them is in
`Rng.Lawful`; every theorem quantifies over all generators satisfying it, hence over all random draws.
Floating point numbers only occur as weights given to `choice` (their values are irrelevant), and as sort keys in
`_proportional_counts`: there the key is an abstract function `frac`, see `propOrder`.
-/
namespace Verif
namespace Part

/-- the NumPy generator returned by `iop.rng_numpy()` (library semantics): `permutation(n)`,
`dirichlet(alpha * ones(n))`, `choice(list, p=...)`. -/
structure Rng (Ω : Type) where
  perm : Nat → Ω → List Nat × Ω
  dirichlet : Nat → Ω → (Nat → ℚ) × Ω
  choice : List Nat → (Nat → ℚ) → Ω → Nat × Ω

/-- NumPy's documented contract: `permutation(n)` rearranges `0..n-1`, `choice` returns an element. -/
structure Rng.Lawful {Ω : Type} (r : Rng Ω) : Prop where
  perm : ∀ n ω, ((r.perm n ω).1).Perm (List.range n)
  choice : ∀ l w ω, l ≠ [] → (r.choice l w ω).1 ∈ l

variable {Ω : Type} {L : Type} [DecidableEq L]

/-- datasets/partitioners/_utils.py:155-156 `_shuffled_range` -/
def shuffledRange (r : Rng Ω) (stop : Nat) (ω : Ω) : List Nat × Ω := r.perm stop ω

/-- datasets/partitioners/_utils.py:159-161 `_shuffled_sequence`; `filterMap` stands for `values[int(index)]`
(indices outside the list, which NumPy never produces, would raise). -/
def shuffledSequence {T : Type} (r : Rng Ω) (values : List T) (ω : Ω) : List T × Ω :=
  let d := r.perm values.length ω
  (d.1.filterMap (fun i => values[i]?), d.2)

/-- `[_shuffled_sequence(partition) for partition in partitions]` (_stratified_iid.py:52, _dirichlet_label.py:82,
_label_quantity.py:90) -/
def shuffledAll {T : Type} (r : Rng Ω) : List (List T) → Ω → List (List T) × Ω
  | [], ω => ([], ω)
  | p :: ps, ω =>
    let a := shuffledSequence r p ω
    let b := shuffledAll r ps a.2
    (a.1 :: b.1, b.2)

/-- the argument `samples_per_partition : int | Sequence[int] | None` -/
inductive Samples where
  | none
  | each (size : Int)
  | list (sizes : List Int)
  deriving DecidableEq, Repr

/-- datasets/partitioners/_utils.py:63-65 `_even_counts` -/
def evenCounts (n p : Nat) : List Nat :=
  (List.range p).map (fun i => n / p + if i < n % p then 1 else 0)

/-- datasets/partitioners/_utils.py:24-39 `_validate_samples_per_partition` and 42-60 `_partition_counts`.
`n_datapoints` is `len(dataset)` and thus never negative. -/
def partitionCounts (n : Nat) (p : Int) (s : Samples) : Py (List Nat) :=
  if p ≤ 0 then .error .valueError
  else
    let checked : Py (List Nat) :=
      match s with
      | .none => .ok (evenCounts n p.toNat)
      | .each k => if k < 0 then .error .valueError else .ok (List.replicate p.toNat k.toNat)
      | .list l =>
        if (l.length : Int) ≠ p then .error .valueError
        else if l.any (fun k => decide (k < 0)) then .error .valueError
        else .ok (l.map Int.toNat)
    match checked with
    | .error e => .error e
    | .ok counts => if counts.sum > n then .error .valueError else .ok counts

/-- Sort keys `exact_counts[index] - proportional_counts[index]` of _utils.py:76-80.  `frac total count avail` is the
(floating point) value computed for the fractional part of `total * count / avail`. -/
abbrev Frac := Nat → Nat → Nat → ℚ

/-- What is required of the floating point fractional part: it is non-negative, and zero exactly when the division is
exact.  (True of IEEE doubles as long as `total * count < 2^53`; ties and the order among non-zero keys are free.) -/
def Frac.Lawful (frac : Frac) : Prop :=
  ∀ t c a, 0 < a → 0 ≤ frac t c a ∧ (frac t c a = 0 ↔ t * c % a = 0)

/-- the exact fractional part -/
def Frac.exact : Frac := fun t c a => ((t * c % a : Nat) : ℚ) / a

/-- _utils.py:76-80: `sorted(range(len(counts)), key=..., reverse=True)` (stable, descending) -/
def propOrder (frac : Frac) (counts : List Nat) (total : Nat) : List Nat :=
  pySorted (fun i j => decide (frac total (counts.getD j 0) counts.sum ≤ frac total (counts.getD i 0) counts.sum))
    (List.range counts.length)

/-- _utils.py:82-87: the loop handing out the remainder -/
def bump (counts : List Nat) : List Nat → Int → List Nat → List Nat
  | [], _, cur => cur
  | i :: rest, rem, cur =>
    if rem = 0 then cur
    else if cur.getD i 0 < counts.getD i 0 then bump counts rest (rem - 1) (cur.set i (cur.getD i 0 + 1))
    else bump counts rest rem cur

/-- datasets/partitioners/_utils.py:68-89 `_proportional_counts`.  `int(total * count / available_total)` is the exact
quotient (true of doubles as long as `total * count < 2^53`). -/
def propCounts (frac : Frac) (counts : List Nat) (total : Nat) : List Nat :=
  if counts.sum = 0 then counts.map (fun _ => 0)
  else
    let floors := counts.map (fun c => total * c / counts.sum)
    bump counts (propOrder frac counts total) ((total : Int) - (floors.sum : Int)) floors

/-- datasets/partitioners/_utils.py:92-99 `_split_by_counts` -/
def splitByCounts {T : Type} (indices : List T) : List Nat → List (List T)
  | [] => []
  | c :: cs => indices.take c :: splitByCounts (indices.drop c) cs

/-- datasets/partitioners/_iid.py:8-26 `split_iid` -/
def splitIid (r : Rng Ω) (n : Nat) (p : Int) (s : Samples) (ω : Ω) : Py (List (List Nat) × Ω) :=
  match partitionCounts n p s with
  | .error e => .error e
  | .ok counts =>
    let d := shuffledRange r n ω
    .ok (splitByCounts d.1 counts, d.2)

/-- datasets/partitioners/_size.py:8-21 `split_size` -/
def splitSize (r : Rng Ω) (n : Nat) (sizes : List Int) (ω : Ω) : Py (List (List Nat) × Ω) :=
  if sizes.length = 0 then .error .valueError
  else match partitionCounts n sizes.length (.list sizes) with
    | .error e => .error e
    | .ok counts =>
      let d := shuffledRange r n ω
      .ok (splitByCounts d.1 counts, d.2)

/-- A dataset as seen by the partitioners: its length and the (normalised, hashable) labels it reports. -/
structure Labelled (L : Type) where
  n : Nat
  labels : List L

/-- datasets/partitioners/_utils.py:127-131 `_normalized_labels`; normalisation itself (134-145) is not modelled: labels
are given in normalised form. -/
def normalizedLabels (d : Labelled L) : Py (List L) :=
  if d.labels.length ≠ d.n then .error .valueError else .ok d.labels

/-- datasets/partitioners/_utils.py:148-152 `_indices_by_label`, scanning from index `i` -/
def indicesFrom : List L → Nat → PyDict L (List Nat) → PyDict L (List Nat)
  | [], _, d => d
  | l :: ls, i, d => indicesFrom ls (i + 1) (d.set l ((d.get? l).getD [] ++ [i]))

/-- datasets/partitioners/_utils.py:148-152 `_indices_by_label` -/
def indicesByLabel (labels : List L) : PyDict L (List Nat) := indicesFrom labels 0 PyDict.empty

/-- _stratified_iid.py:40-47: the loop over `zip(label_items, label_counts)` -/
def stratLoop (r : Rng Ω) (frac : Frac) : List (L × List Nat) → List Nat → List (List Nat) → List Nat → Ω →
    (List (List Nat) × List Nat) × Ω
  | it :: items, lc :: lcs, parts, rem, ω =>
    let sh := shuffledSequence r it.2 ω
    let counts := propCounts frac rem lc
    stratLoop r frac items lcs
      (List.zipWith (· ++ ·) parts (splitByCounts (sh.1.take lc) counts))
      (List.zipWith (· - ·) rem counts) sh.2
  | _, _, parts, rem, ω => ((parts, rem), ω)

/-- datasets/partitioners/_stratified_iid.py:15-52 `split_stratified_iid`; `le` is the order of `repr(label)`. -/
def splitStratified (r : Rng Ω) (frac : Frac) (le : L → L → Bool) (d : Labelled L) (p : Int) (s : Samples) (ω : Ω) :
    Py (List (List Nat) × Ω) :=
  match normalizedLabels d with
  | .error e => .error e
  | .ok labels =>
    match partitionCounts d.n p s with
    | .error e => .error e
    | .ok counts =>
      let items := pySorted (fun a b => le a.1 b.1) (indicesByLabel labels).entries
      let lcs := propCounts frac (items.map (fun it => it.2.length)) counts.sum
      let res := stratLoop r frac items lcs (List.replicate p.toNat []) counts ω
      if res.1.2.any (fun k => decide (k ≠ 0)) then .error .valueError
      else .ok (shuffledAll r res.1.1 res.2)

/-- datasets/partitioners/_utils.py:102-124 `_extend_weighted_by_capacity`; the weights only influence the
probabilities handed to `choice`, whose result is left to the generator.  Partition lists and remaining counts are
mutated in place, here returned. -/
def extendWeighted (r : Rng Ω) (w : Nat → ℚ) : List Nat → List (List Nat) → List Nat → Ω →
    (List (List Nat) × List Nat) × Ω
  | [], parts, rem, ω => ((parts, rem), ω)
  | i :: is, parts, rem, ω =>
    let avail := (List.range rem.length).filter (fun j => decide (0 < rem.getD j 0))
    if avail = [] then ((parts, rem), ω)
    else
      let c := r.choice avail w ω
      extendWeighted r w is (parts.set c.1 (parts.getD c.1 [] ++ [i])) (rem.set c.1 (rem.getD c.1 0 - 1)) c.2

/-- _dirichlet_label.py:74-77: the loop over the shuffled label assignments -/
def dirLoop (r : Rng Ω) (p : Nat) : List ((L × List Nat) × Nat) → List (List Nat) → List Nat → Ω →
    (List (List Nat) × List Nat) × Ω
  | [], parts, rem, ω => ((parts, rem), ω)
  | a :: as, parts, rem, ω =>
    let sh := shuffledSequence r a.1.2 ω
    let w := r.dirichlet p sh.2
    let e := extendWeighted r w.1 (sh.1.take a.2) parts rem w.2
    dirLoop r p as e.1.1 e.1.2 e.2

/-- datasets/partitioners/_dirichlet_label.py:59-82 `_split_once` -/
def dirOnce (r : Rng Ω) (frac : Frac) (labels : List L) (counts : List Nat) (ω : Ω) : Py (List (List Nat) × Ω) :=
  let items := (indicesByLabel labels).entries
  let lcs := propCounts frac (items.map (fun it => it.2.length)) counts.sum
  let as := shuffledSequence r (items.zip lcs) ω
  let res := dirLoop r counts.length as.1 (List.replicate counts.length []) counts as.2
  if res.1.2.any (fun k => decide (k ≠ 0)) then .error .valueError
  else .ok (shuffledAll r res.1.1 res.2)

/-- _dirichlet_label.py:48-56: `for _ in range(max_retries)` -/
def dirRetry (r : Rng Ω) (frac : Frac) (labels : List L) (counts : List Nat) (minSize : Nat) : Nat → Ω →
    Py (List (List Nat) × Ω)
  | 0, _ => .error .valueError
  | k + 1, ω =>
    match dirOnce r frac labels counts ω with
    | .error e => .error e
    | .ok res =>
      if res.1.all (fun p => decide (minSize ≤ p.length)) then .ok res
      else dirRetry r frac labels counts minSize k res.2

/-- datasets/partitioners/_dirichlet_label.py:20-56 `split_dirichlet_label`; `alpha` only matters through its sign and
the generator. -/
def splitDirichlet (r : Rng Ω) (frac : Frac) (d : Labelled L) (p : Int) (alpha : ℚ) (s : Samples)
    (minSize : Int) (maxRetries : Int) (ω : Ω) : Py (List (List Nat) × Ω) :=
  if alpha ≤ 0 then .error .valueError
  else if minSize < 0 then .error .valueError
  else if maxRetries ≤ 0 then .error .valueError
  else match normalizedLabels d with
    | .error e => .error e
    | .ok labels =>
      match partitionCounts d.n p s with
      | .error e => .error e
      | .ok counts => dirRetry r frac labels counts minSize.toNat maxRetries.toNat ω

/-- _shard.py:33-38: the loop building the partitions from consecutive groups of the shard order -/
def shardLoop (r : Rng Ω) (shards : List (List Nat)) (order : List Nat) (spp : Nat) : List Nat → Ω →
    List (List Nat) × Ω
  | [], ω => ([], ω)
  | i :: is, ω =>
    let assigned := (order.drop (i * spp)).take spp
    let part := assigned.flatMap (fun s => shards.getD s [])
    let a := shuffledSequence r part ω
    let b := shardLoop r shards order spp is a.2
    (a.1 :: b.1, b.2)

/-- datasets/partitioners/_shard.py:8-39 `split_shard`; `np.array_split(l, k)` cuts `l` into consecutive pieces whose
sizes are the even counts (NumPy semantics: the first `len % k` pieces are one longer). -/
def splitShard (r : Rng Ω) (le : L → L → Bool) (d : Labelled L) (p spp : Int) (ω : Ω) :
    Py (List (List Nat) × Ω) :=
  if p ≤ 0 then .error .valueError
  else if spp ≤ 0 then .error .valueError
  else match normalizedLabels d with
    | .error e => .error e
    | .ok labels =>
      let total := p.toNat * spp.toNat
      if total > d.n then .error .valueError
      else
        let sorted := pySorted (fun i j => (labels[i]?).elim true (fun a => (labels[j]?).elim true (fun b => le a b)))
          (List.range d.n)
        let shards := splitByCounts sorted (evenCounts d.n total)
        let order := shuffledRange r total ω
        .ok (shardLoop r shards order.1 spp.toNat (List.range p.toNat) order.2)

/-! ### Materialising partitions -/

/-- an element of a partition argument: any Python object; only `int`-like objects and `bool` are distinguished -/
inductive Idx where
  | int (i : Int)
  | bool (b : Bool)
  | other
  deriving DecidableEq, Repr

/-- _dataset_handler.py:101-112: the loop over one partition, with `seen_indices` -/
def resolveOne (n : Nat) : List Idx → List Nat → Py (List Nat × List Nat)
  | [], seen => .ok ([], seen)
  | .int i :: rest, seen =>
    if i < 0 ∨ i ≥ (n : Int) then .error .indexError
    else if i.toNat ∈ seen then .error .valueError
    else match resolveOne n rest (i.toNat :: seen) with
      | .error e => .error e
      | .ok (l, s) => .ok (i.toNat :: l, s)
  | _ :: _, _ => .error .typeError

/-- _dataset_handler.py:93-114 `_resolve_partitions` (loop) -/
def resolveLoop (n : Nat) : List (List Idx) → List Nat → Py (List (List Nat))
  | [], _ => .ok []
  | p :: ps, seen =>
    match resolveOne n p seen with
    | .error e => .error e
    | .ok (l, s) =>
      match resolveLoop n ps s with
      | .error e => .error e
      | .ok ls => .ok (l :: ls)

/-- datasets/_dataset_handler.py:93-114 `_resolve_partitions` -/
def resolvePartitions (n : Nat) (ps : List (List Idx)) : Py (List (List Nat)) := resolveLoop n ps []

/-- `split` of the synthetic handlers (_synthetic_classification_handler.py:71-78, 93-104,
_synthetic_regression_handler.py:71-78, 94-105); the kaggle handler (110-117) and the PyTorch handler (84-91) have the
same shape.  `data i` is the datapoint with index `i`. -/
def splitData {X : Type} (n : Nat) (data : Nat → X) (ps : List (List Idx)) : Py (List (List X)) :=
  match resolvePartitions n ps with
  | .error e => .error e
  | .ok parts => .ok (parts.map (fun is => is.map data))

end Part
end Verif
