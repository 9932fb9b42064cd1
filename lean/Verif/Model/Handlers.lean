import Verif.Model.Partition
/-!
# The Kaggle and PyTorch dataset handlers, and the labels the partitioners see
(decent_bench/datasets/_kaggle_handler.py, decent_bench/datasets/_pytorch_handler.py, decent_bench/datasets/partitioners/_utils.py)

Not modelled: the download from Kaggle (a parameter), transfer of arrays to other frameworks, random transforms of PyTorch datasets (an item
is a function of its index).
-/
namespace Verif
namespace Handlers
open Part

/-! ### labels -/

/-- a scalar entry of a table or label array -/
inductive Scalar where
  | num (q : ℚ)
  | nan
  | str (s : String)
  | none_
  deriving DecidableEq

/-- a label object: what `np.asarray(label)` makes of it, a scalar or an array with at least one dimension (entries in row-major order;
arrays of mixed kind, which numpy would turn into strings, are not modelled) -/
inductive Label where
  | scalar (s : Scalar)
  | array (xs : List Scalar)
  deriving DecidableEq

/-- a normalised entry; a NaN is an object equal to no other one, named by where it was made: index of the sample, position in the label -/
inductive Entry where
  | num (q : ℚ)
  | nanAt (sample position : Nat)
  | str (s : String)
  | none_
  deriving DecidableEq

/-- a normalised label -/
inductive Norm where
  | one (e : Entry)
  | tuple (es : List Entry)
  deriving DecidableEq

/-- `.item()` or one entry of `.tolist()`: numbers of any type compare by value, NaN by identity -/
def Scalar.entry (sample position : Nat) : Scalar → Entry
  | .num q => .num q
  | .nan => .nanAt sample position
  | .str s => .str s
  | .none_ => .none_

/-- `_normalize_label` (partitioners/_utils.py 134-145); the fallbacks for unhashable entries are not reached by the modelled entries -/
def normLabel (sample : Nat) : Label → Norm
  | .scalar s => .one (s.entry sample 0)
  | .array xs => .tuple (xs.mapIdx fun j s => s.entry sample j)

/-- what the partitioners work with: `len(dataset)` and the normalised labels (partitioners/_utils.py 127-131) -/
def labelled (n : Nat) (labels : List Label) : Labelled Norm := ⟨n, labels.mapIdx fun i l => normLabel i l⟩

/-! ### Kaggle -/

/-- a data frame: names of the columns, rows as lists of entries -/
structure Table where
  columns : List String
  rows : List (List Scalar)

/-- `KaggleDatasetHandler` -/
structure Kaggle where
  df : Table
  features : List String
  targets : List String
  labelColumn : Option String

/-- `__init__` (_kaggle_handler.py 24-83); `df` is what `kagglehub.dataset_load` returned.  The feature and target columns are not looked at. -/
def Kaggle.construct (available : Bool) (df : Option Table) (features targets : List String) (labelColumn : Option String) : Py Kaggle :=
  if available = false then .error .importError
  else match df with
    | none => .error .runtimeError
    | some df =>
      match labelColumn with
      | none => .ok ⟨df, features, targets, none⟩
      | some c => if c ∈ df.columns then .ok ⟨df, features, targets, some c⟩ else .error .valueError

/-- the entries of a row in the columns called `c` (several if the frame repeats a name) -/
def valuesIn (columns : List String) (row : List Scalar) (c : String) : List Scalar :=
  ((columns.zip row).filter fun p => p.1 == c).map Prod.snd

/-- `row[names]` (119-132): KeyError if a name is missing -/
def pick (columns : List String) (row : List Scalar) : List String → Py (List Scalar)
  | [] => .ok []
  | c :: cs =>
    if c ∈ columns then (pick columns row cs).map fun rest => valuesIn columns row c ++ rest else .error .keyError

/-- `.to_numpy().astype(dtype)`: numbers; `conv` is the conversion of one entry, `none` if it raises -/
def castAll {R : Type} (conv : Scalar → Option R) : List Scalar → Py (List R)
  | [] => .ok []
  | s :: t =>
    match conv s with
    | none => .error .valueError
    | some r => (castAll conv t).map fun rest => r :: rest

/-- one datapoint (_kaggle_handler.py 121-131) -/
def Kaggle.point {R : Type} (conv : Scalar → Option R) (k : Kaggle) (row : List Scalar) : Py (List R × List R) := do
  let x ← (pick k.df.columns row k.features).bind (castAll conv)
  let y ← (pick k.df.columns row k.targets).bind (castAll conv)
  .ok (x, y)

/-- `_create_partition` (119-132) -/
def Kaggle.create {R : Type} (conv : Scalar → Option R) (k : Kaggle) (rows : List (List Scalar)) : Py (List (List R × List R)) :=
  rows.mapM (k.point conv)

/-- `n_samples` (85-87) -/
def Kaggle.n (k : Kaggle) : Nat := k.df.rows.length

/-- `get_datapoints` (97-98) -/
def Kaggle.datapoints {R : Type} (conv : Scalar → Option R) (k : Kaggle) : Py (List (List R × List R)) := k.create conv k.df.rows

/-- `list(df[c])` (107); KeyError if the column is missing.  A repeated name, which gives a frame instead of a column, is not modelled: the first
column of that name is taken. -/
def columnOf (df : Table) (c : String) : Py (List Scalar) :=
  if c ∈ df.columns then .ok (df.rows.map fun r => r.getD (df.columns.idxOf c) .nan) else .error .keyError

/-- `get_labels` (100-107) -/
def Kaggle.labels (k : Kaggle) : Py (List Label) :=
  match k.labelColumn with
  | some c => (columnOf k.df c).map fun l => l.map Label.scalar
  | none =>
    match k.targets with
    | [c] => (columnOf k.df c).map fun l => l.map Label.scalar
    | _ => .error .valueError

/-- `split` (109-117): `df.iloc[indices]` for every partition -/
def Kaggle.split {R : Type} (conv : Scalar → Option R) (k : Kaggle) (ps : List (List Idx)) : Py (List (List (List R × List R))) := do
  let parts ← resolvePartitions k.n ps
  parts.mapM fun is => k.create conv (is.map fun i => k.df.rows.getD i [])

/-! ### PyTorch -/

/-- a PyTorch dataset: its length, its items (features and target), the attributes `targets` and `labels` if it has them -/
structure TorchData (X : Type) where
  len : Nat
  item : Nat → X × Label
  targets : Option (List Label)
  labels : Option (List Label)

variable {X : Type}

/-- `get_datapoints` (_pytorch_handler.py 63-69) -/
def TorchData.datapoints (d : TorchData X) : List (X × Label) := (List.range d.len).map d.item

/-- `get_labels` (71-82): the attribute `targets`, else `labels`, else the targets of the items -/
def TorchData.getLabels (d : TorchData X) : List Label :=
  match d.targets with
  | some l => l
  | none =>
    match d.labels with
    | some l => l
    | none => (List.range d.len).map fun i => (d.item i).2

/-- `split` (84-91): lazy subsets; the `j`-th item of a subset is the item of its `j`-th index -/
def TorchData.split (d : TorchData X) (ps : List (List Idx)) : Py (List (List (X × Label))) := splitData d.len d.item ps

end Handlers
end Verif
