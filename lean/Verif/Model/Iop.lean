import Verif.Model.Py
/-!
# Arrays of several frameworks  (utils/array.py, utils/interoperability/_helpers.py, _operators.py, _functions.py,
_imports_types.py, _decorators.py)

At run time `_return_array` (_helpers.py 48-68) returns the native object: the wrapper `Array` only exists where somebody wrote
`Array(...)`. Arguments are therefore either raw values or wrapped values.

Memory. A native array is a header (class, device, dtype, shape) together with a buffer number and the positions of its entries
in that buffer; views are headers on the same buffer. A heap is the list of all buffers.

Simplifications. Numbers are elements of an arbitrary type `S` (so rounding, infinities and NaN are whatever `S` says). Python
`float`, `int` and `bool` are one class of numbers; `complex`, strings, lists and everything else is `foreign`. What the four
libraries compute is a parameter (`Lib`); the theorems name the facts they use about it. TensorFlow conversions are modelled as
copies. `dtype` arguments are either NumPy dtypes or dtypes of the target framework.
-/
namespace Verif
namespace Iop

/-- `SupportedFrameworks` (types.py 99-105) -/
inductive Fw where | numpy | torch | tf | jax
  deriving DecidableEq, Repr
/-- `SupportedDevices` (types.py 108-113) -/
inductive Dev where | cpu | gpu | mps
  deriving DecidableEq, Repr
/-- the array classes the code tests for: `np.ndarray`, `np.generic`, `torch.Tensor`, `tf.Tensor`, `jnp.ndarray | jnp.generic` -/
inductive Kind where | ndarray | npScalar | torchTensor | tfTensor | jaxArray
  deriving DecidableEq, Repr
/-- element types, as far as the code looks at them -/
inductive DType where | f64 | f32 | other
  deriving DecidableEq, Repr

/-- the framework an array class belongs to -/
def Kind.fw : Kind → Fw
  | .ndarray => .numpy
  | .npScalar => .numpy
  | .torchTensor => .torch
  | .tfTensor => .tf
  | .jaxArray => .jax

/-- language semantics: `a += b` writes into the array for these classes and makes a new object for the others -/
def Kind.mutable : Kind → Bool
  | .ndarray => true
  | .torchTensor => true
  | _ => false

/-- a native array object: header, buffer, positions in the buffer -/
structure Arr where
  kind : Kind
  dev : Dev
  dtype : DType
  shape : List Nat
  buf : Nat
  idx : List Nat
  deriving DecidableEq, Repr

/-- run-time values -/
inductive Value (S : Type) where
  | num (v : S)
  | arr (a : Arr)
  | foreign
  deriving DecidableEq, Repr

/-- arguments: raw values, or `Array(value)` -/
inductive Arg (S : Type) where
  | raw (v : Value S)
  | wrap (v : Value S)
  deriving DecidableEq, Repr

/-- all buffers -/
abbrev Heap (S : Type) := List (List S)

variable {S : Type} [Inhabited S]

/-- the numbers an array shows -/
def entries (h : Heap S) (a : Arr) : List S := a.idx.map fun i => (h.getD a.buf []).getD i default

/-- what a library function sees of an operand -/
inductive View (S : Type) where
  | num (v : S)
  | arr (kind : Kind) (dev : Dev) (dtype : DType) (shape : List Nat) (data : List S)
  | foreign

/-- look an operand up -/
def look (h : Heap S) : Value S → View S
  | .num v => .num v
  | .arr a => .arr a.kind a.dev a.dtype a.shape (entries h a)
  | .foreign => .foreign

/-- what a library function returns: a number, a new array, or a view on its array argument (positions into that argument) -/
inductive Res (S : Type) where
  | num (v : S)
  | fresh (kind : Kind) (dev : Dev) (dtype : DType) (shape : List Nat) (data : List S)
  | part (shape : List Nat) (pos : List Nat)

/-- the arithmetic operators -/
inductive Op where | add | sub | mul | div
  deriving DecidableEq, Repr

/-- functions of one array with the common four-way dispatch (_functions.py 247-987, _operators.py 345-512, _rng.py 352-453) -/
inductive Fn where
  | sum | mean | min | max | argmax | argmin | reshape | zerosLike | onesLike | eyeLike | transpose | norm | squeeze | diag
  | power | negative | absolute | sqrt | sign | uniformLike | normalLike | choice
  deriving DecidableEq, Repr

/-- The libraries. `installed` is "`torch` is not `None`" and so on; `pyOp` is the Python expression `value1 + value2`, `fwOp`
the function `torch.add`, `tf.add`, `jnp.add`, ...; `inpl` computes the entries that `value1 += value2` leaves in a `value1`
that can be written, `ipw` those of `value **= p`, and `pw` is the expression `value ** p`; `call` is `np.sum(value, ...)`, `torch.sum(value, ...)`, ... with the remaining arguments `args`;
`sel` is `value[key]`; `fill n v` gives the `n` numbers that `array[key] = v` stores; `maxOp` is `np.maximum`,
`torch.maximum`, ...; `cast` is the conversion to another element type; `fromForeign` is `np.array(obj)` and the like. -/
structure Lib (S : Type) where
  installed : Fw → Bool
  pyOp : Op → View S → View S → Py (Res S)
  fwOp : Fw → Op → View S → View S → Py (Res S)
  inpl : Op → View S → View S → Py (List S)
  ipw : View S → S → Py (List S)
  pw : View S → S → Py (Res S)
  call : Fw → Fn → List Int → View S → Py (Res S)
  sel : View S → List Int → Py (Res S)
  fill : Nat → View S → Py (List S)
  maxOp : Fw → View S → View S → Py (Res S)
  cast : DType → S → S
  fromForeign : Fw → Py (List Nat × List S)

/-- language semantics: a new object -/
def place (h : Heap S) (base : Option Arr) : Res S → Value S × Heap S
  | .num v => (.num v, h)
  | .fresh k d t sh data => (.arr ⟨k, d, t, sh, h.length, List.range data.length⟩, h ++ [data])
  | .part sh pos =>
    match base with
    | some a => (.arr { a with shape := sh, idx := pos.filterMap (a.idx[·]?) }, h)
    | none => (.foreign, h)

/-- language semantics: the result of a library call as an object; its exceptions pass through -/
def placed (h : Heap S) (base : Option Arr) : Py (Res S) → Py (Value S × Heap S)
  | .ok r => .ok (place h base r)
  | .error e => .error e

/-- language semantics: store entries at positions of a buffer -/
def store (b : List S) : List Nat → List S → List S
  | i :: is, v :: vs => store (b.set i v) is vs
  | _, _ => b

/-- write the entries of an array -/
def write (h : Heap S) (buf : Nat) (idx : List Nat) (data : List S) : Heap S :=
  h.set buf (store (h.getD buf []) idx data)

/-- `array.value if isinstance(array, Array) else array` -/
def unwrap : Arg S → Value S
  | .raw v => v
  | .wrap v => v

/-! ### class tests (_imports_types.py 33-50) -/

/-- `isinstance(v, float | int)`: numbers, and NumPy's `float64` scalars, which are a subclass of `float` -/
def isNumber : Value S → Bool
  | .num _ => true
  | .arr a => a.kind == .npScalar && a.dtype == .f64
  | .foreign => false
/-- `isinstance(v, <array classes of the framework>)` -/
def isArr (f : Fw) : Value S → Bool
  | .arr a => a.kind.fw == f
  | _ => false
/-- `isinstance(v, _np_types)` and so on -/
def isTy (f : Fw) (v : Value S) : Bool := isArr f v || isNumber v

/-! ### operators (_operators.py) -/

/-- `add`, `sub`, `mul`, `div` (_operators.py 19-47, 85-113, 151-179, 217-245) -/
def binop (L : Lib S) (op : Op) (a b : Arg S) (h : Heap S) : Py (Value S × Heap S) :=
  let v1 := unwrap a
  let v2 := unwrap b
  if isTy .numpy v1 then
    placed h none (L.pyOp op (look h v1) (look h v2))
  else if L.installed .torch && isTy .torch v1 && isTy .torch v2 then
    placed h none (L.fwOp .torch op (look h v1) (look h v2))
  else if L.installed .tf && isTy .tf v1 && isTy .tf v2 then
    placed h none (L.fwOp .tf op (look h v1) (look h v2))
  else if L.installed .jax && isTy .jax v1 && isTy .jax v2 then
    placed h none (L.fwOp .jax op (look h v1) (look h v2))
  else .error .typeError

/-- language semantics of `value1 ∘= other`: arrays that can be written are written and stay the same object; for the others
the statement means `value1 = value1 ∘ other` -/
def assignBack (x : Arr) (data : Py (List S)) (expr : Py (Res S)) (h : Heap S) : Py (Value S × Heap S) :=
  if x.kind.mutable then
    match data with
    | .ok data => .ok (.arr x, write h x.buf x.idx data)
    | .error e => .error e
  else
    placed h none expr

/-- `iadd`, `isub`, `imul`, `idiv` (_operators.py 50-82, 116-148, 182-214, 248-280); the wrapper is not put back: the returned
object is native -/
def iop (L : Lib S) (op : Op) (a b : Arg S) (h : Heap S) : Py (Value S × Heap S) :=
  match unwrap a with
  | .arr x =>
    if x.kind.fw = .numpy ∨ (L.installed x.kind.fw = true ∧ isTy x.kind.fw (unwrap b) = true) then
      assignBack x (L.inpl op (look h (.arr x)) (look h (unwrap b))) (L.pyOp op (look h (.arr x)) (look h (unwrap b))) h
    else .error .typeError
  | _ => .error .typeError

/-- `ipow` (_operators.py 374-404) -/
def ipow (L : Lib S) (a : Arg S) (p : S) (h : Heap S) : Py (Value S × Heap S) :=
  match unwrap a with
  | .arr x =>
    if x.kind.fw = .numpy ∨ L.installed x.kind.fw = true then
      assignBack x (L.ipw (look h (.arr x)) p) (L.pw (look h (.arr x)) p) h
    else .error .typeError
  | _ => .error .typeError

/-- the functions of one array: dispatch on the array class, numbers are refused (for example `sum`, _functions.py 268-279;
`negative`, _operators.py 421-432) -/
def unary (L : Lib S) (f : Fn) (args : List Int) (a : Arg S) (h : Heap S) : Py (Value S × Heap S) :=
  match unwrap a with
  | .arr x =>
    if x.kind.fw = .numpy ∨ L.installed x.kind.fw = true then
      placed h (some x) (L.call x.kind.fw f args (look h (.arr x)))
    else .error .typeError
  | _ => .error .typeError

/-- `_is_scalar` of `maximum` (_operators.py 535-536): numbers and all NumPy scalars (registered as `Real`) -/
def isScalar : Value S → Bool
  | .num _ => true
  | .arr a => a.kind == .npScalar
  | .foreign => false

/-- `maximum` (_operators.py 515-577); the library argument order is the one in the code -/
def maximum (L : Lib S) (a b : Arg S) (h : Heap S) : Py (Value S × Heap S) :=
  let v1 := unwrap a
  let v2 := unwrap b
  if (isTy .numpy v1 && (isTy .numpy v2 || isScalar v2)) || (isTy .numpy v2 && isScalar v1) then
    placed h none (L.maxOp .numpy (look h v1) (look h v2))
  else if L.installed .torch && (isArr .torch v1 || isArr .torch v2) then
    let t := if isArr .torch v1 then v1 else v2
    let o := if isArr .torch v1 then v2 else v1
    if isArr .torch o || isScalar o then placed h none (L.maxOp .torch (look h t) (look h o)) else .error .typeError
  else if L.installed .tf && (isArr .tf v1 || isArr .tf v2) then
    let t := if isArr .tf v1 then v1 else v2
    let o := if isArr .tf v1 then v2 else v1
    if isTy .tf o || isScalar o then placed h none (L.maxOp .tf (look h t) (look h o)) else .error .typeError
  else if isTy .jax v1 || isTy .jax v2 then
    let t := if isScalar v1 then v2 else v1
    let o := if isScalar v1 then v1 else v2
    if L.installed .jax then
      if isTy .jax o || isScalar o then placed h none (L.maxOp .jax (look h t) (look h o)) else .error .typeError
    else .error .importError
  else .error .typeError

/-! ### items and copies (_functions.py 479-503, 742-788; array.py 252-296) -/

/-- `Array.__getitem__` / `get_item` (array.py 252-271, _functions.py 774-788) -/
def getItem (L : Lib S) (a : Arg S) (key : List Int) (h : Heap S) : Py (Value S × Heap S) :=
  match unwrap a with
  | .arr x =>
    placed h (some x) (L.sel (look h (.arr x)) key)
  | _ => .error .typeError

/-- `set_item` (_functions.py 742-771): the key is given by the positions (in the array) it selects -/
def setItem (L : Lib S) (a : Arg S) (pos : List Nat) (b : Arg S) (h : Heap S) : Py (Heap S) :=
  match unwrap a with
  | .arr x =>
    if x.kind.fw = .numpy ∨ (L.installed .torch = true ∧ x.kind.fw = .torch ∧ isTy .torch (unwrap b) = true) then
      if x.kind.mutable then
        match L.fill pos.length (look h (unwrap b)) with
        | .ok data => .ok (write h x.buf (pos.filterMap (x.idx[·]?)) data)
        | .error e => .error e
      else .error .typeError
    else if L.installed x.kind.fw = true ∧ isTy x.kind.fw (unwrap b) = true ∧ x.kind.fw ≠ .torch then
      .error .notImplemented
    else .error .typeError
  | _ => .error .typeError

/-- `copy` (_functions.py 479-503); `np.copy` turns a NumPy scalar into an array; other objects are deep-copied with their
wrapper -/
def copy (L : Lib S) (a : Arg S) (h : Heap S) : Arg S × Heap S :=
  match unwrap a with
  | .arr x =>
    if x.kind.fw = .numpy ∨ L.installed x.kind.fw = true then
      (.raw (.arr { x with
        kind := if x.kind = .npScalar then .ndarray else x.kind
        buf := h.length
        idx := List.range x.idx.length }), h ++ [entries h x])
    else (a, h)
  | _ => (a, h)

/-- language semantics: the libraries stack arrays of one framework and shape -/
def fits (x : Arr) : Value S → Bool
  | .arr y => y.kind.fw == x.kind.fw && y.shape == x.shape
  | _ => false

/-- the numbers a value shows -/
def shown (h : Heap S) : Value S → List S
  | .arr y => entries h y
  | _ => []

/-- `stack` (_functions.py 506-541): the wrapper is looked for on the first element only; the entries of a stack are the
entries of the arrays one after the other (stacking along dimension 0). If the first element is a bare array and a later one
is wrapped, the list is handed to the library as it is: NumPy reads the wrapper through `__array__`, the others are modelled as
refusing it. -/
def stack (L : Lib S) (as_ : List (Arg S)) (h : Heap S) : Py (Value S × Heap S) :=
  match as_ with
  | [] => .error .valueError
  | .wrap v :: rest =>
    if rest.all (fun a => match a with | .wrap _ => true | .raw _ => false) then
      stackRaw L (v :: rest.map unwrap) h
    else .error .attributeError
  | .raw v :: rest =>
    if isArr .numpy v || rest.all (fun a => match a with | .wrap _ => false | .raw _ => true) then
      stackRaw L (v :: rest.map unwrap) h
    else .error .typeError
where
  /-- dispatch on the class of the first array; arrays of other frameworks or shapes are refused by the libraries -/
  stackRaw (L : Lib S) (vs : List (Value S)) (h : Heap S) : Py (Value S × Heap S) :=
    match vs with
    | .arr x :: _ =>
      if x.kind.fw = .numpy ∨ L.installed x.kind.fw = true then
        if vs.all (fits x) then
          .ok (place h none (.fresh (if x.kind = .npScalar then .ndarray else x.kind) x.dev x.dtype (vs.length :: x.shape)
            (vs.flatMap (shown h))))
        else .error .typeError
      else .error .typeError
    | _ => .error .typeError

/-! ### frameworks and conversions (_helpers.py 12-46, 71-109; _functions.py 50-244) -/

/-- `framework_device_of_array` (_helpers.py 71-109) -/
def frameworkDevice (L : Lib S) (a : Arg S) : Py (Fw × Dev) :=
  match unwrap a with
  | .num _ => .ok (.numpy, .cpu)
  | .arr x =>
    if x.kind.fw = .numpy then .ok (.numpy, .cpu)
    else if L.installed x.kind.fw = true then
      .ok (x.kind.fw, if x.kind.fw = .torch then x.dev else if x.dev = .gpu then .gpu else .cpu)
    else .error .typeError
  | .foreign => .error .typeError

/-- `device_to_framework_device` (_helpers.py 12-46): the device an array ends up on -/
def deviceFor (L : Lib S) (d : Dev) (f : Fw) : Py Dev :=
  match f with
  | .numpy => .ok d
  | .torch => if L.installed .torch then .ok d else .error .valueError
  | .tf => if L.installed .tf then .ok d else .error .valueError
  | .jax => if L.installed .jax then .ok (if d = .cpu then .cpu else .gpu) else .error .valueError

/-- the `dtype` argument of a conversion: a NumPy dtype, or one of the target framework -/
inductive DTypeArg where
  | np (t : DType)
  | own (t : DType)
  deriving DecidableEq, Repr

/-- the element type a request asks for -/
def DTypeArg.get : DTypeArg → DType
  | .np t => t
  | .own t => t

/-- language semantics: a converted copy -/
def fresh (L : Lib S) (k : Kind) (d : Dev) (old : DType) (t : Option DType) (sh : List Nat) (data : List S) (h : Heap S) :
    Value S × Heap S :=
  place h none (.fresh k d (t.getD old) sh (match t with
    | none => data
    | some t => data.map (L.cast t)))

/-- numbers and other objects handed to `np.array`, `torch.tensor`, `tf.convert_to_tensor`, `jnp.array` -/
def fromOther (L : Lib S) (f : Fw) (k : Kind) (d : Dev) (t : Option DType) (v : Value S) (h : Heap S) :
    Py (Value S × Heap S) :=
  match v with
  | .num s => .ok (fresh L k d .f64 t [] [s] h)
  | _ =>
    match L.fromForeign f with
    | .ok (sh, data) => .ok (fresh L k d .other t sh data h)
    | .error e => .error e

/-- `to_numpy` (_functions.py 50-87): NumPy arrays are returned as they are, CPU tensors of PyTorch share their memory with
the result unless a `dtype` is asked for (`astype` copies) -/
def toNumpy (L : Lib S) (a : Arg S) (dtype : Option DTypeArg) (h : Heap S) : Py (Value S × Heap S) :=
  match unwrap a with
  | .arr x =>
    match x.kind with
    | .ndarray => .ok (.arr x, h)
    | .npScalar => .ok (.arr x, h)
    | .torchTensor =>
      if x.dev = .cpu ∧ dtype = none then .ok (.arr { x with kind := .ndarray }, h)
      else .ok (fresh L .ndarray .cpu x.dtype (dtype.map DTypeArg.get) x.shape (entries h x) h)
    | .tfTensor => .ok (fresh L .ndarray .cpu x.dtype (dtype.map DTypeArg.get) x.shape (entries h x) h)
    | .jaxArray => .ok (fresh L .ndarray .cpu x.dtype (dtype.map DTypeArg.get) x.shape (entries h x) h)
  | v => fromOther L .numpy .ndarray .cpu (dtype.map DTypeArg.get) v h

/-- the `dtype` argument as PyTorch gets it (_functions.py 111-113): NumPy's `float64` is replaced by `float32`; other NumPy
dtypes are not understood by PyTorch -/
def torchDtype : Option DTypeArg → Py (Option DType)
  | none => .ok none
  | some (.own t) => .ok (some t)
  | some (.np .f64) => .ok (some .f32)
  | some (.np _) => .error .typeError

/-- `to_torch` (_functions.py 90-123): `.to(...)` returns the tensor itself when nothing has to change, everything else is
copied -/
def toTorch (L : Lib S) (a : Arg S) (d : Dev) (dtype : Option DTypeArg) (h : Heap S) : Py (Value S × Heap S) :=
  if L.installed .torch then
    match torchDtype dtype with
    | .error e => .error e
    | .ok t =>
      match unwrap a with
      | .arr x =>
        if x.kind = .torchTensor ∧ x.dev = d ∧ (t = none ∨ t = some x.dtype) then .ok (.arr x, h)
        else .ok (fresh L .torchTensor d x.dtype t x.shape (entries h x) h)
      | v => fromOther L .torch .torchTensor d t v h
  else .error .importError

/-- `to_tensorflow` (_functions.py 126-165): a tensor of TensorFlow is returned as it is, whatever device is asked for -/
def toTf (L : Lib S) (a : Arg S) (d : Dev) (dtype : Option DTypeArg) (h : Heap S) : Py (Value S × Heap S) :=
  if L.installed .tf then
    match unwrap a with
    | .arr x =>
      if x.kind = .tfTensor then .ok (.arr x, h)
      else .ok (fresh L .tfTensor d x.dtype (dtype.map DTypeArg.get) x.shape (entries h x) h)
    | v => fromOther L .tf .tfTensor d (dtype.map DTypeArg.get) v h
  else .error .importError

/-- `to_jax` (_functions.py 168-200): JAX arrays are moved, their `dtype` is kept -/
def toJax (L : Lib S) (a : Arg S) (d : Dev) (dtype : Option DTypeArg) (h : Heap S) : Py (Value S × Heap S) :=
  if L.installed .jax then
    let d := if d = .cpu then Dev.cpu else Dev.gpu
    match unwrap a with
    | .arr x =>
      if x.kind = .jaxArray then .ok (fresh L .jaxArray d x.dtype none x.shape (entries h x) h)
      else .ok (fresh L .jaxArray d x.dtype (dtype.map DTypeArg.get) x.shape (entries h x) h)
    | v => fromOther L .jax .jaxArray d (dtype.map DTypeArg.get) v h
  else .error .importError

/-- `to_array` (_functions.py 203-240) -/
def toArray (L : Lib S) (a : Arg S) (f : Fw) (d : Dev) (dtype : Option DTypeArg) (h : Heap S) : Py (Value S × Heap S) :=
  match f with
  | .numpy => toNumpy L a dtype h
  | .torch => if L.installed .torch then toTorch L a d dtype h else .error .typeError
  | .tf => if L.installed .tf then toTf L a d dtype h else .error .typeError
  | .jax => if L.installed .jax then toJax L a d dtype h else .error .typeError

/-- `value.dtype` if there is one (_functions.py 256-258) -/
def dtypeOf : Value S → Option DTypeArg
  | .arr x => some (.own x.dtype)
  | _ => none

/-- `to_array_like` (_functions.py 243-261) -/
def toArrayLike (L : Lib S) (a like : Arg S) (h : Heap S) : Py (Value S × Heap S) :=
  match frameworkDevice L (.raw (unwrap like)) with
  | .error e => .error e
  | .ok (f, d) => toArray L a f d (dtypeOf (unwrap like)) h

/-! ### decorated cost methods (_decorators.py) -/

/-- `_get_converter(framework)(arg, device)` (_decorators.py 21-31, 84) -/
def convert (L : Lib S) (f : Fw) (d : Dev) (a : Arg S) (h : Heap S) : Py (Value S × Heap S) :=
  match f with
  | .numpy => toNumpy L a none h
  | .torch => toTorch L a d none h
  | .tf => toTf L a d none h
  | .jax => toJax L a d none h

/-- the `"return"` annotation of the superclass method (_decorators.py 57-60): absent, the class `Array`, another class, or a
string, which is what it is in a module with `from __future__ import annotations` -/
inductive Ann where | missing | array | otherClass | text (s : String)
  deriving DecidableEq, Repr

/-- Python: how an annotation is stored (PEP 563) -/
def annotation (postponed : Bool) (written : String) : Ann :=
  if postponed then .text written else if written = "Array" then .array else .otherClass

/-- one positional or keyword argument: a value the wrapper looks at, or any other Python object -/
inductive CallArg (S : Type) where
  | val (a : Arg S)
  | obj

/-- the loop over the arguments (_decorators.py 73-84, 86-97): wrapped arrays are converted, everything else passes through;
counts the warnings -/
def convertArgs (L : Lib S) (f : Fw) (d : Dev) : List (CallArg S) → Heap S → Py (List (CallArg S) × Nat × Heap S)
  | [], h => .ok ([], 0, h)
  | .val (.wrap v) :: rest, h =>
    match frameworkDevice L (.wrap v) with
    | .error e => .error e
    | .ok (g, _) =>
      match convert L f d (.wrap v) h with
      | .error e => .error e
      | .ok (v', h) =>
        match convertArgs L f d rest h with
        | .error e => .error e
        | .ok (vs, n, h) => .ok (.val (.raw v') :: vs, n + (if g = f then 0 else 1), h)
  | a :: rest, h =>
    match convertArgs L f d rest h with
    | .error e => .error e
    | .ok (vs, n, h) => .ok (a :: vs, n, h)

/-- a call `cost.method(*args, **kwargs)` with keyword arguments as a list of names and values -/
structure Call (S : Type) where
  args : List (CallArg S)
  kwargs : List (String × CallArg S)

/-- `x_like` (_decorators.py 66-71) -/
def Call.xLike (c : Call S) : Option (CallArg S) :=
  match c.args with
  | a :: _ => some a
  | [] => (c.kwargs.find? (fun e => e.1 = "x")).map Prod.snd

/-- the cost: framework, device, the undecorated method -/
structure Method (S : Type) where
  fw : Fw
  dev : Dev
  body : List (CallArg S) → List (String × CallArg S) → Heap S → Py (Value S × Heap S)

/-- `wrapper` (_decorators.py 62-103); returns the result, the number of warnings and the heap. An `x` that is no value at all
makes the last conversion fail (`framework_device_of_array` raises `TypeError`). -/
def wrapper (L : Lib S) (m : Method S) (ann : Ann) (c : Call S) (h : Heap S) : Py (Value S × Nat × Heap S) :=
  match c.xLike with
  | none => .error .valueError
  | some x =>
    match convertArgs L m.fw m.dev c.args h with
    | .error e => .error e
    | .ok (args, n, h) =>
      match convertArgs L m.fw m.dev (c.kwargs.map Prod.snd) h with
      | .error e => .error e
      | .ok (kw, k, h) =>
        match m.body args ((c.kwargs.map Prod.fst).zip kw) h with
        | .error e => .error e
        | .ok (r, h) =>
          if ann = .array then
            match x with
            | .obj => .error .typeError
            | .val like =>
              match toArrayLike L (.raw r) like h with
              | .error e => .error e
              | .ok (r, h) => .ok (r, n + k, h)
          else .ok (r, n + k, h)

/-- The decorated methods of the built-in costs: the superclass methods `Cost.gradient`, `Cost.hessian`, `Cost.proximal`,
`EmpiricalRiskCost.gradient`, `.hessian`, `.proximal`, `.predict` are written with `-> Array` in modules that begin with
`from __future__ import annotations` (_cost.py 1, 137-145; _empirical_risk_cost.py 1, 75, 158-202). -/
def builtinAnn : Ann := annotation true "Array"

/-! ### programs -/

/-- statements over variables numbered by natural numbers -/
inductive Stmt (S : Type) where
  /-- `x = a ∘ b` -/
  | arith (x : Nat) (op : Op) (a b : Nat)
  /-- `a ∘= b` -/
  | inplace (a : Nat) (op : Op) (b : Nat)
  /-- `a **= p` -/
  | inpow (a : Nat) (p : S)
  /-- `x = f(a, ...)` -/
  | apply (x : Nat) (f : Fn) (args : List Int) (a : Nat)
  /-- `x = maximum(a, b)` -/
  | maxi (x a b : Nat)
  /-- `x = a[key]` -/
  | get (x a : Nat) (key : List Int)
  /-- `a[key] = b` -/
  | set (a : Nat) (pos : List Nat) (b : Nat)
  /-- `x = iop.copy(a)` -/
  | copy (x a : Nat)
  /-- `x = a` -/
  | bind (x a : Nat)
  /-- `x = Array(a)` (wrapping what is already wrapped is modelled as keeping the wrapper) -/
  | wrap (x a : Nat)
  /-- `x = iop.to_array(a, framework, device, dtype)` -/
  | conv (x a : Nat) (f : Fw) (d : Dev) (t : Option DTypeArg)
  /-- `x = iop.stack([a, b, ...])` -/
  | stack (x : Nat) (as_ : List Nat)

/-- variables and memory -/
structure State (S : Type) where
  env : Nat → Arg S
  heap : Heap S

/-- language semantics: assignment to a variable -/
def State.bind (s : State S) (x : Nat) (v : Arg S) (h : Heap S) : State S :=
  ⟨fun y => if y = x then v else s.env y, h⟩

/-- language semantics: bind the result of a call, a raised exception leaves the variables alone -/
def State.put (s : State S) (x : Nat) (r : Py (Value S × Heap S)) : Py (State S) :=
  match r with
  | .ok (v, h) => .ok (s.bind x (.raw v) h)
  | .error e => .error e

/-- one statement -/
def exec (L : Lib S) (s : State S) : Stmt S → Py (State S)
  | .arith x op a b => s.put x (binop L op (s.env a) (s.env b) s.heap)
  | .inplace a op b => s.put a (iop L op (s.env a) (s.env b) s.heap)
  | .inpow a p => s.put a (ipow L (s.env a) p s.heap)
  | .apply x f args a => s.put x (unary L f args (s.env a) s.heap)
  | .maxi x a b => s.put x (maximum L (s.env a) (s.env b) s.heap)
  | .get x a key => s.put x (getItem L (s.env a) key s.heap)
  | .set a pos b =>
    match setItem L (s.env a) pos (s.env b) s.heap with
    | .ok h => .ok { s with heap := h }
    | .error e => .error e
  | .copy x a => let r := Iop.copy L (s.env a) s.heap; .ok (s.bind x r.1 r.2)
  | .bind x a => .ok (s.bind x (s.env a) s.heap)
  | .wrap x a => .ok (s.bind x (.wrap (unwrap (s.env a))) s.heap)
  | .conv x a f d t => s.put x (toArray L (s.env a) f d t s.heap)
  | .stack x as_ => s.put x (Iop.stack L (as_.map s.env) s.heap)

/-- the state after a statement; a statement that raises changes nothing and the exception is caught -/
def next (L : Lib S) (s : State S) (i : Stmt S) : State S :=
  match exec L s i with
  | .ok s => s
  | .error _ => s

/-- a program -/
def run (L : Lib S) (s : State S) (p : List (Stmt S)) : State S := p.foldl (next L) s

end Iop
end Verif
