import Verif.Model.Partition
/-!
# Label-quantity partitioning and its maximum-flow solver

`decent_bench/datasets/partitioners/_label_quantity.py`.  `while` loops carry a step budget (`fuel`); the value `none` means
"still running", so termination is a statement about the model, not an assumption of it.

Simplification: the dictionary `capacities` is a total function with default 0.  The Python code only reads entries
`(node, neighbor)` with `neighbor in adjacency[node]`, for which `_add_flow_edge` stored both directions, or uses
`.get(..., 0)`.
-/
namespace Verif
namespace Part

/-- `capacities[u, v]` -/
abbrev Caps := Nat → Nat → Int

/-- `capacities[u, v] = x` -/
def setCap (r : Caps) (u v : Nat) (x : Int) : Caps := fun a b => if a = u ∧ b = v then x else r a b

/-- the mutable pair `adjacency`, `capacities` -/
structure FlowNet where
  adj : Nat → List Nat
  cap : Caps

/-- _label_quantity.py:153-165 `_add_flow_edge`: two appends, then the capacity update. -/
def addFlowEdge (g : FlowNet) (u v : Nat) (c : Int) : FlowNet :=
  if c = 0 then g
  else
    let adj1 : Nat → List Nat := fun a => if a = u then g.adj a ++ [v] else g.adj a
    let adj2 : Nat → List Nat := fun a => if a = v then adj1 a ++ [u] else adj1 a
    ⟨adj2, setCap g.cap u v (g.cap u v + c)⟩

/-- `parent` with `-1` as `none` -/
abbrev Parents := Nat → Option Nat

/-- _label_quantity.py:208-214: `for neighbor in adjacency[node]`; the flag says that the sink was reached (`return`). -/
def scan (r : Caps) (sink node : Nat) : List Nat → Parents → List Nat → (Parents × List Nat) × Bool
  | [], par, q => ((par, q), false)
  | v :: vs, par, q =>
    if (par v).isSome = true ∨ r node v ≤ 0 then scan r sink node vs par q
    else
      let par' : Parents := fun a => if a = v then some node else par a
      if v = sink then ((par', q), true) else scan r sink node vs par' (q ++ [v])

/-- _label_quantity.py:206-215: `while queue` -/
def bfs (adj : Nat → List Nat) (r : Caps) (sink : Nat) : Nat → List Nat → Parents → Option Parents
  | _, [], par => some par
  | 0, _ :: _, _ => none
  | fuel + 1, node :: q, par =>
    let res := scan r sink node (adj node) par q
    if res.2 = true then some res.1.1 else bfs adj r sink fuel res.1.2 res.1.1

/-- _label_quantity.py:196-215 `_find_augmenting_path` -/
def findAugmentingPath (adj : Nat → List Nat) (r : Caps) (source sink fuel : Nat) : Option Parents :=
  bfs adj r sink fuel [source] (fun a => if a = source then some source else none)

/-- _label_quantity.py:181-185 and 187-192: the walk `while node != source` along the parents, collecting
`(previous, node)`.  A missing parent would raise `KeyError` (entry `(-1, node)`): not reachable, here `none`. -/
def walk (par : Parents) (source : Nat) : Nat → Nat → Option (List (Nat × Nat))
  | 0, node => if node = source then some [] else none
  | fuel + 1, node =>
    if node = source then some []
    else match par node with
      | none => none
      | some prev => (walk par source fuel prev).map (fun es => (prev, node) :: es)

/-- `np.iinfo(np.int64).max` -/
def int64Max : Int := 9223372036854775807

/-- _label_quantity.py:180-185: bottleneck along the path -/
def pathFlow (r : Caps) (es : List (Nat × Nat)) : Int := es.foldl (fun m e => min m (r e.1 e.2)) int64Max

/-- _label_quantity.py:187-192: push `f` along the path -/
def augment (f : Int) : List (Nat × Nat) → Caps → Caps
  | [], r => r
  | e :: es, r =>
    let r1 := setCap r e.1 e.2 (r e.1 e.2 - f)
    let r2 := setCap r1 e.2 e.1 (r1 e.2 e.1 + f)
    augment f es r2

/-- _label_quantity.py:168-193 `_max_flow`; `inner` is the budget of the inner loops.  Returns the flow and the residual
capacities (mutated in place). -/
def maxFlow (adj : Nat → List Nat) (source sink inner : Nat) : Nat → Caps → Int → Option (Int × Caps)
  | 0, _, _ => none
  | fuel + 1, r, flow =>
    match findAugmentingPath adj r source sink inner with
    | none => none
    | some par =>
      match par sink with
      | none => some (flow, r)
      | some _ =>
        match walk par source inner sink with
        | none => none
        | some es =>
          let f := pathFlow r es
          maxFlow adj source sink inner fuel (augment f es r) (flow + f)

variable {L : Type} [DecidableEq L]

/-- _label_quantity.py:99-138: the flow network for labels with the given supplies.  `allowed j l` is
`label in allowed_labels_by_partition[j]`. -/
def labelNet (labels : List L) (supply : L → Nat) (allowed : Nat → L → Bool) (counts : List Nat) : FlowNet :=
  let nL := labels.length
  let nP := counts.length
  let total : Int := (counts.sum : Nat)
  let g0 : FlowNet := ⟨fun _ => [], fun _ _ => 0⟩
  let g1 := labels.zipIdx.foldl (fun g li => addFlowEdge g 0 (1 + li.2) (supply li.1 : Nat)) g0
  let g2 := labels.zipIdx.foldl (fun g li => (List.range nP).foldl (fun g j =>
    if allowed j li.1 = true then addFlowEdge g (1 + li.2) (1 + nL + j) total else g) g) g1
  counts.zipIdx.foldl (fun g cj => addFlowEdge g (1 + nL + cj.2) (1 + nL + nP) ((cj.1 : Nat) : Int)) g2

/-- _label_quantity.py:94-150 `_label_partition_allocations`: `none` while running; the table is indexed by label position
and partition.  `labels` is `sorted(indices_by_label, key=repr)`. -/
def labelAllocations (labels : List L) (supply : L → Nat) (allowed : Nat → L → Bool) (counts : List Nat) (fuel : Nat) :
    Option (Py (List (List Int))) :=
  let nL := labels.length
  let nP := counts.length
  let net := labelNet labels supply allowed counts
  match maxFlow net.adj 0 (1 + nL + nP) fuel fuel net.cap 0 with
  | none => none
  | some (flow, r) =>
    if flow ≠ ((counts.sum : Nat) : Int) then some (.error .valueError)
    else some (.ok ((List.range nL).map (fun i => (List.range nP).map (fun j => r (1 + nL + j) (1 + i)))))

/-- _label_quantity.py:83-89: cutting each label's shuffled indices and extending the partitions -/
def fillLabels : List (List Nat) → List (List Int) → List (List Nat) → List (List Nat)
  | is :: iss, row :: rows, parts =>
    fillLabels iss rows (List.zipWith (· ++ ·) parts (splitByCounts is (row.map Int.toNat)))
  | _, _, parts => parts

/-- `{label: _shuffled_sequence(indices) for ...}` (_label_quantity.py:72-76): shuffling label by label, in dictionary
order -/
def shuffleItems {Ω : Type} (r : Rng Ω) : List (L × List Nat) → Ω → List (L × List Nat) × Ω
  | [], ω => ([], ω)
  | it :: its, ω =>
    let a := shuffledSequence r it.2 ω
    let b := shuffleItems r its a.2
    ((it.1, a.1) :: b.1, b.2)

/-- _label_quantity.py:66-91 `_fill_allowed_label_partitions`; `items` are the entries of `label_to_indices` -/
def fillAllowed {Ω : Type} (r : Rng Ω) (le : L → L → Bool) (items : List (L × List Nat)) (groups : List (List L))
    (counts : List Nat) (fuel : Nat) (ω : Ω) : Option (Py (List (List Nat) × Ω)) :=
  let kept := items.filter (fun it => groups.any (fun g => decide (it.1 ∈ g)))
  let sh := shuffleItems r kept ω
  let sorted := pySorted (fun a b => le a.1 b.1) sh.1
  match labelAllocations (sorted.map Prod.fst) (fun l => ((PyDict.lookupL l sh.1).getD []).length)
      (fun j l => decide (l ∈ groups.getD j [])) counts fuel with
  | none => none
  | some (.error e) => some (.error e)
  | some (.ok rows) =>
    some (.ok (shuffledAll r (fillLabels (sorted.map Prod.snd) rows (List.replicate counts.length [])) sh.2))

/-- _label_quantity.py:43-50: the cyclic label group of a partition -/
def labelGroup (order : List L) (classes i : Nat) : List L :=
  (List.range classes).filterMap (fun o => order[(i * classes + o) % order.length]?)

/-- _label_quantity.py:18-63 `split_label_quantity`; `le` is the order of `repr(label)`. -/
def splitLabelQuantity {Ω : Type} (r : Rng Ω) (le : L → L → Bool) (d : Labelled L) (p classes : Int) (s : Samples)
    (fuel : Nat) (ω : Ω) : Option (Py (List (List Nat) × Ω)) :=
  if p ≤ 0 then some (.error .valueError)
  else if classes ≤ 0 then some (.error .valueError)
  else match normalizedLabels d with
    | .error e => some (.error e)
    | .ok labels =>
      let items := (indicesByLabel labels).entries
      let sorted := pySorted le (items.map Prod.fst)
      if classes > (sorted.length : Int) then some (.error .valueError)
      else
        let order := shuffledSequence r sorted ω
        let groups := (List.range p.toNat).map (fun i => labelGroup order.1 classes.toNat i)
        let usable := ((items.filter (fun it => groups.any (fun g => decide (it.1 ∈ g)))).map (fun it => it.2.length)).sum
        let counts : Py (List Nat) :=
          match s with
          | .none => .ok (evenCounts usable p.toNat)
          | s => partitionCounts usable p s
        match counts with
        | .error e => some (.error e)
        | .ok counts => fillAllowed r le items groups counts fuel order.2

end Part
end Verif
