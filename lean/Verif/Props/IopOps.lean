import Verif.Model.Iop
import Mathlib.Tactic.ByContra
import Mathlib.Data.List.GetD
import Mathlib.Tactic.Use
/-!
# C100: arithmetic between arrays of one framework, of several frameworks, and numbers
-/
set_option linter.unusedSectionVars false
set_option linter.unusedVariables false
namespace Verif.Props
open Verif Verif.Iop
variable {S : Type} [Inhabited S]

/-- What the libraries are assumed to do with operands that fit together: arrays of one framework, on one device, of one shape
give an array of that framework, entry by entry; so do an array and a number. Nothing is assumed about other operands. -/
structure EntryWise (L : Lib S) (f : Op → S → S → S) : Prop where
  py : ∀ op k k' d t t' sh (x y : List S), k.fw = k'.fw → x.length = y.length →
    ∃ k'' t'', k''.fw = k.fw ∧
      L.pyOp op (.arr k d t sh x) (.arr k' d t' sh y) = .ok (.fresh k'' d t'' sh (List.zipWith (f op) x y))
  fw : ∀ op k k' d t t' sh (x y : List S), k.fw = k'.fw → x.length = y.length →
    ∃ k'' t'', k''.fw = k.fw ∧
      L.fwOp k.fw op (.arr k d t sh x) (.arr k' d t' sh y) = .ok (.fresh k'' d t'' sh (List.zipWith (f op) x y))
  pyNum : ∀ op k d t sh (x : List S) v,
    ∃ k'' t'', k''.fw = k.fw ∧ L.pyOp op (.arr k d t sh x) (.num v) = .ok (.fresh k'' d t'' sh (x.map (f op · v)))
  fwNum : ∀ op k d t sh (x : List S) v,
    ∃ k'' t'', k''.fw = k.fw ∧ L.fwOp k.fw op (.arr k d t sh x) (.num v) = .ok (.fresh k'' d t'' sh (x.map (f op · v)))
  numPy : ∀ op k d t sh (x : List S) v,
    ∃ k'' t'', k''.fw = k.fw ∧ L.pyOp op (.num v) (.arr k d t sh x) = .ok (.fresh k'' d t'' sh (x.map (f op v ·)))

/-- all frameworks whose arrays can exist are installed -/
def CanUse (L : Lib S) (x : Arr) : Prop := x.kind.fw = .numpy ∨ L.installed x.kind.fw = true

/-- The answer is a new array of framework `f` and shape `sh` holding `data`; no array that existed before has changed. -/
def NewArray (h : Heap S) (f : Fw) (d : Dev) (sh : List Nat) (data : List S) (out : Py (Value S × Heap S)) : Prop :=
  ∃ r h', out = .ok (.arr r, h') ∧ r.kind.fw = f ∧ r.dev = d ∧ r.shape = sh ∧ entries h' r = data ∧ h.length ≤ r.buf ∧
    ∀ z : Arr, z.buf < h.length → entries h' z = entries h z

theorem read_append (h : Heap S) (b : List S) (z : Arr) (hz : z.buf < h.length) : entries (h ++ [b]) z = entries h z := by
  unfold entries
  have : (h ++ [b]).getD z.buf [] = h.getD z.buf [] := by
    simp [List.getD, List.getElem?_append_left hz]
  rw [this]

theorem read_new (h : Heap S) (b : List S) (k : Kind) (d : Dev) (t : DType) (sh : List Nat) :
    entries (h ++ [b]) ⟨k, d, t, sh, h.length, List.range b.length⟩ = b := by
  unfold entries
  have : (h ++ [b]).getD h.length [] = b := by simp [List.getD]
  simp only [this]
  apply List.ext_getElem
  · simp
  · intro i h1 h2
    simp [List.getElem_map, List.getD, List.getElem?_eq_getElem h2]

theorem newArray_place (h : Heap S) (k : Kind) (d : Dev) (t : DType) (sh : List Nat) (data : List S) (base : Option Arr) :
    NewArray h k.fw d sh data (.ok (place h base (.fresh k d t sh data))) :=
  ⟨_, _, rfl, rfl, rfl, rfl, read_new h data k d t sh, Nat.le_refl _, fun z hz => read_append h data z hz⟩

theorem isTy_arr (f : Fw) (a : Arr) : isTy f (.arr a : Value S) = true ↔
    a.kind.fw = f ∨ (a.kind = .npScalar ∧ a.dtype = .f64) := by
  simp [isTy, isArr, isNumber]

theorem isTy_numpy (a : Arr) : isTy .numpy (.arr a : Value S) = true ↔ a.kind.fw = .numpy := by
  rw [isTy_arr]
  constructor
  · rintro (h | ⟨h, -⟩)
    · exact h
    · rw [h]; rfl
  · exact Or.inl

theorem isTy_own (a : Arr) : isTy a.kind.fw (.arr a : Value S) = true := (isTy_arr _ _).2 (Or.inl rfl)

theorem isTy_num (f : Fw) (v : S) : isTy f (.num v : Value S) = true := by simp [isTy, isNumber]

/-- an array that is not a NumPy array passes exactly its own framework's test -/
theorem isTy_other (f : Fw) (a : Arr) (ha : a.kind.fw ≠ .numpy) : isTy f (.arr a : Value S) = decide (a.kind.fw = f) := by
  by_cases h : a.kind.fw = f
  · rw [decide_eq_true h, ← h]
    exact isTy_own a
  · rw [decide_eq_false h]
    by_contra hc
    rw [Bool.not_eq_false, isTy_arr] at hc
    rcases hc with hc | ⟨hc, -⟩
    · exact h hc
    · exact ha (by rw [hc]; rfl)

/-- the dispatch, for an array of PyTorch, TensorFlow or JAX as the first operand -/
theorem binop_other (L : Lib S) (op : Op) (a b : Arg S) (h : Heap S) (x : Arr) (hx : unwrap a = .arr x)
    (hn : x.kind.fw ≠ .numpy) (hi : L.installed x.kind.fw = true) :
    binop L op a b h = if isTy x.kind.fw (unwrap b) then
      placed h none (L.fwOp x.kind.fw op (look h (.arr x)) (look h (unwrap b)))
      else .error .typeError := by
  unfold binop
  rw [hx]
  simp only [isTy_other _ x hn]
  cases hk : x.kind.fw with
  | numpy => exact absurd hk hn
  | torch => rw [hk] at hi; cases h2 : isTy Fw.torch (unwrap b) <;> simp [hi]
  | tf => rw [hk] at hi; cases h2 : isTy Fw.tf (unwrap b) <;> simp [hi]
  | jax => rw [hk] at hi; cases h2 : isTy Fw.jax (unwrap b) <;> simp [hi]

theorem binop_numpy (L : Lib S) (op : Op) (a b : Arg S) (h : Heap S) (ht : isTy .numpy (unwrap a) = true) :
    binop L op a b h = placed h none (L.pyOp op (look h (unwrap a)) (look h (unwrap b))) := by
  unfold binop
  simp only [ht, if_true]

/-- **C100.** Two arrays of one framework (wrapped in `Array` or not), on one device and of one shape: `+ - * /` give a new
array of the same framework, device and shape, entry by entry, and change no existing array. -/
theorem C100_same_framework (L : Lib S) (f : Op → S → S → S) (hL : EntryWise L f) (op : Op) (a b : Arg S) (h : Heap S)
    (x y : Arr) (hx : unwrap a = .arr x) (hy : unwrap b = .arr y) (hi : CanUse L x) (hf : x.kind.fw = y.kind.fw)
    (hd : x.dev = y.dev) (hs : x.shape = y.shape) (hl : x.idx.length = y.idx.length) :
    NewArray h x.kind.fw x.dev x.shape (List.zipWith (f op) (entries h x) (entries h y)) (binop L op a b h) := by
  have hlen : (entries h x).length = (entries h y).length := by simp [entries, hl]
  by_cases hn : x.kind.fw = .numpy
  · rw [binop_numpy L op a b h (by rw [hx]; exact (isTy_numpy x).2 hn), hx, hy]
    obtain ⟨k, t, hk, e⟩ := hL.py op x.kind y.kind x.dev x.dtype y.dtype x.shape (entries h x) (entries h y) hf hlen
    simp only [look, ← hd, ← hs, e]
    rw [← hk]
    exact newArray_place h k x.dev t x.shape _ none
  · have hi' := hi.resolve_left hn
    rw [binop_other L op a b h x hx hn hi', hy, hf, if_pos (isTy_own y), ← hf]
    obtain ⟨k, t, hk, e⟩ := hL.fw op x.kind y.kind x.dev x.dtype y.dtype x.shape (entries h x) (entries h y) hf hlen
    simp only [look, ← hd, ← hs, e]
    rw [← hk]
    exact newArray_place h k x.dev t x.shape _ none

/-- **C100.** An array and a number: `array ∘ number` (and `array ∘= number` on arrays that cannot be written) works on every
entry and stays in the framework of the array. -/
theorem C100_array_number (L : Lib S) (f : Op → S → S → S) (hL : EntryWise L f) (op : Op) (a b : Arg S) (h : Heap S)
    (x : Arr) (v : S) (hx : unwrap a = .arr x) (hb : unwrap b = .num v) (hi : CanUse L x) :
    NewArray h x.kind.fw x.dev x.shape ((entries h x).map (f op · v)) (binop L op a b h) := by
  by_cases hn : x.kind.fw = .numpy
  · rw [binop_numpy L op a b h (by rw [hx]; exact (isTy_numpy x).2 hn), hx, hb]
    obtain ⟨k, t, hk, e⟩ := hL.pyNum op x.kind x.dev x.dtype x.shape (entries h x) v
    simp only [look, e]
    rw [← hk]
    exact newArray_place h k x.dev t x.shape _ none
  · have hi' := hi.resolve_left hn
    rw [binop_other L op a b h x hx hn hi', hb, if_pos (isTy_num _ v)]
    obtain ⟨k, t, hk, e⟩ := hL.fwNum op x.kind x.dev x.dtype x.shape (entries h x) v
    simp only [look, e]
    rw [← hk]
    exact newArray_place h k x.dev t x.shape _ none

/-- **C100.** A number and an array of any framework, in this order: `2 - array` is the number minus every entry (not the other
way round), in the framework of the array. -/
theorem C100_number_array (L : Lib S) (f : Op → S → S → S) (hL : EntryWise L f) (op : Op) (a b : Arg S) (h : Heap S)
    (x : Arr) (v : S) (ha : unwrap a = .num v) (hx : unwrap b = .arr x) :
    NewArray h x.kind.fw x.dev x.shape ((entries h x).map (f op v ·)) (binop L op a b h) := by
  rw [binop_numpy L op a b h (by rw [ha]; exact isTy_num _ v), ha, hx]
  obtain ⟨k, t, hk, e⟩ := hL.numPy op x.kind x.dev x.dtype x.shape (entries h x) v
  simp only [look, e]
  rw [← hk]
  exact newArray_place h k x.dev t x.shape _ none

/-- **C100.** Arrays of two frameworks. If the first one is not a NumPy array the call raises `TypeError` whatever the libraries
would do (NumPy's `float64` scalars count as numbers and are excluded). -/
theorem C100_two_frameworks (L : Lib S) (op : Op) (a b : Arg S) (h : Heap S) (x y : Arr) (hx : unwrap a = .arr x)
    (hy : unwrap b = .arr y) (hn : x.kind.fw ≠ .numpy) (hf : x.kind.fw ≠ y.kind.fw)
    (hy64 : ¬ (y.kind = .npScalar ∧ y.dtype = .f64)) :
    binop L op a b h = .error .typeError ∧ iop L op a b h = .error .typeError := by
  have ht : isTy x.kind.fw (.arr y : Value S) = false := by
    by_contra hc
    rw [Bool.not_eq_false, isTy_arr] at hc
    rcases hc with hc | hc
    · exact hf hc.symm
    · exact hy64 hc
  constructor
  · unfold binop
    rw [hx, hy]
    simp only [isTy_other _ x hn]
    cases hk : x.kind.fw with
    | numpy => exact absurd hk hn
    | torch => rw [hk] at ht; simp [ht]
    | tf => rw [hk] at ht; simp [ht]
    | jax => rw [hk] at ht; simp [ht]
  · unfold iop
    rw [hx, hy]
    simp only [ht, hn, false_or, Bool.false_eq_true, and_false, if_false]

/-- **C100.** If the first one is a NumPy array there is no such check, although the documentation promises a `TypeError`: the
second operand, of whatever framework, goes to NumPy, and the call returns exactly when NumPy's operator does, with its
answer. -/
theorem C100_numpy_first_unchecked (L : Lib S) (op : Op) (a b : Arg S) (h : Heap S) (x : Arr) (hx : unwrap a = .arr x)
    (hn : x.kind.fw = .numpy) (out : Value S × Heap S) :
    binop L op a b h = .ok out ↔
      ∃ r, L.pyOp op (look h (.arr x)) (look h (unwrap b)) = .ok r ∧ place h none r = out := by
  rw [binop_numpy L op a b h (by rw [hx]; exact (isTy_numpy x).2 hn), hx]
  cases L.pyOp op (look h (.arr x)) (look h (unwrap b)) with
  | error e => simp [placed]
  | ok r => simp [placed]

/-- **C100.** `maximum` does check: for arrays of two installed frameworks it raises `TypeError`, with one exception that
depends on the order, a NumPy array first and a JAX array second. -/
theorem C100_maximum_two_frameworks (L : Lib S) (a b : Arg S) (h : Heap S) (x y : Arr) (hx : unwrap a = .arr x)
    (hy : unwrap b = .arr y) (hix : CanUse L x) (hiy : CanUse L y) (hf : x.kind.fw ≠ y.kind.fw)
    (hxs : x.kind ≠ .npScalar) (hys : y.kind ≠ .npScalar) :
    (¬ (x.kind = .ndarray ∧ y.kind = .jaxArray) → maximum L a b h = .error .typeError) ∧
      (x.kind = .ndarray → y.kind = .jaxArray →
        maximum L a b h = placed h none (L.maxOp .jax (look h (.arr x)) (look h (.arr y)))) := by
  unfold CanUse at hix hiy
  constructor
  · intro hno
    unfold maximum
    rw [hx, hy]
    cases hkx : x.kind <;> cases hky : y.kind <;> rw [hkx, hky] at hno hf <;> rw [hkx] at hix hxs <;> rw [hky] at hiy hys <;>
      first
      | exact absurd rfl hf
      | exact absurd rfl hxs
      | exact absurd rfl hys
      | exact absurd ⟨rfl, rfl⟩ hno
      | (simp only [Kind.fw, reduceCtorEq, false_or, true_or] at hix hiy
         simp [isTy, isArr, isNumber, isScalar, hkx, hky, Kind.fw, hix, hiy])
  · intro hkx hky
    unfold maximum
    rw [hx, hy]
    have hj : L.installed .jax = true := by
      rcases hiy with h | h <;> rw [hky] at h
      · cases h
      · exact h
    simp [isTy, isArr, isNumber, isScalar, hkx, hky, Kind.fw, hj]

/-- **C100.** Plain numbers, wrapped or not: in-place operators and every function of one array refuse them with `TypeError`
(although `Array(2.0) + 1.0` works). -/
theorem C100_numbers_refused (L : Lib S) (a b : Arg S) (h : Heap S) (v p : S) (ha : unwrap a = .num v) (op : Op) (g : Fn)
    (args : List Int) (key : List Int) (pos : List Nat) :
    iop L op a b h = .error .typeError ∧ ipow L a p h = .error .typeError ∧ unary L g args a h = .error .typeError ∧
      getItem L a key h = .error .typeError ∧ setItem L a pos b h = .error .typeError := by
  simp [iop, ipow, unary, getItem, setItem, ha]

/-- **C100.** The wrapper makes no difference to the operators. -/
theorem C100_wrapper_transparent (L : Lib S) (op : Op) (g : Fn) (args : List Int) (v w : Value S) (h : Heap S) :
    binop L op (.wrap v) (.wrap w) h = binop L op (.raw v) (.raw w) h ∧
      binop L op (.wrap v) (.raw w) h = binop L op (.raw v) (.raw w) h ∧
      binop L op (.raw v) (.wrap w) h = binop L op (.raw v) (.raw w) h ∧
      iop L op (.wrap v) (.wrap w) h = iop L op (.raw v) (.raw w) h ∧
      maximum L (.wrap v) (.wrap w) h = maximum L (.raw v) (.raw w) h ∧
      unary L g args (.wrap v) h = unary L g args (.raw v) h :=
  ⟨rfl, rfl, rfl, rfl, rfl, rfl⟩

/-- what a list of arguments must be for `stack`: arrays of one installed framework and one shape, all wrapped or all bare -/
structure Stackable (L : Lib S) (as_ : List (Arg S)) (xs : List Arr) (f : Fw) (sh : List Nat) : Prop where
  arrays : as_.map unwrap = xs.map Value.arr
  form : (∀ a ∈ as_, ∃ v, a = .wrap v) ∨ (∀ a ∈ as_, ∃ v, a = .raw v)
  same : ∀ x ∈ xs, x.kind.fw = f ∧ x.shape = sh
  installed : f = .numpy ∨ L.installed f = true

theorem stackRaw_ok (L : Lib S) (x : Arr) (xs : List Arr) (h : Heap S) (f : Fw) (sh : List Nat)
    (hs : ∀ y ∈ x :: xs, y.kind.fw = f ∧ y.shape = sh) (hi : f = .numpy ∨ L.installed f = true) :
    NewArray h f x.dev ((x :: xs).length :: sh) ((x :: xs).flatMap (entries h))
      (stack.stackRaw L ((x :: xs).map Value.arr) h) := by
  obtain ⟨hf, hsh⟩ := hs x List.mem_cons_self
  have h1 : x.kind.fw = .numpy ∨ L.installed x.kind.fw = true := by rw [hf]; exact hi
  have h2 : ((x :: xs).map (Value.arr (S := S))).all (fits x) = true := by
    rw [List.all_eq_true]
    intro v hv
    obtain ⟨y, hy, rfl⟩ := List.mem_map.1 hv
    obtain ⟨a, b⟩ := hs y hy
    simp [fits, a, b, hf, hsh]
  have h3 : ((x :: xs).map (Value.arr (S := S))).flatMap (shown h) = (x :: xs).flatMap (entries h) := by
    rw [List.flatMap_map]
    rfl
  have h4 : (if x.kind = .npScalar then Kind.ndarray else x.kind).fw = f := by
    split
    · rename_i e; rw [← hf, e]; rfl
    · exact hf
  have := newArray_place h (if x.kind = .npScalar then Kind.ndarray else x.kind) x.dev x.dtype
    ((x :: xs).length :: sh) ((x :: xs).flatMap (entries h)) none
  rw [h4] at this
  rw [List.map_cons] at h2 h3 ⊢
  unfold stack.stackRaw
  dsimp only
  rw [if_pos h1, if_pos h2, h3, hsh]
  simpa using this

/-- **C100.** `iop.stack` of arrays of one framework and shape, wrapped or not: a new array of that framework with one more
dimension, holding their entries one after the other in the order of the list; an empty list raises `ValueError`, and a list
whose first element is wrapped must be wrapped throughout. -/
theorem C100_stack (L : Lib S) (h : Heap S) :
    stack L [] h = .error .valueError ∧
      (∀ v rest, (∃ w, Arg.raw w ∈ rest) → stack L (.wrap v :: rest) h = .error .attributeError) ∧
      ∀ (a : Arg S) (rest : List (Arg S)) (x : Arr) (xs : List Arr) (f : Fw) (sh : List Nat),
        Stackable L (a :: rest) (x :: xs) f sh →
        NewArray h f x.dev ((x :: xs).length :: sh) ((x :: xs).flatMap (entries h)) (stack L (a :: rest) h) := by
  refine ⟨rfl, ?_, ?_⟩
  · rintro v rest ⟨w, hw⟩
    simp only [stack]
    rw [if_neg]
    intro hall
    have := List.all_eq_true.1 hall _ hw
    cases this
  · intro a rest x xs f sh hst
    have key := stackRaw_ok L x xs h f sh hst.same hst.installed
    rw [← hst.arrays, List.map_cons] at key
    cases a with
    | wrap v =>
      have hall : ∀ b ∈ rest, ∃ v, b = Arg.wrap v := by
        rcases hst.form with h | h
        · exact fun b hb => h b (List.mem_cons_of_mem _ hb)
        · obtain ⟨_, e⟩ := h _ List.mem_cons_self; cases e
      simp only [stack]
      rw [if_pos]
      · exact key
      · rw [List.all_eq_true]
        intro b hb
        obtain ⟨w, rfl⟩ := hall b hb
        rfl
    | raw v =>
      have hall : ∀ b ∈ rest, ∃ v, b = Arg.raw v := by
        rcases hst.form with h | h
        · obtain ⟨_, e⟩ := h _ List.mem_cons_self; cases e
        · exact fun b hb => h b (List.mem_cons_of_mem _ hb)
      simp only [stack]
      rw [if_pos]
      · exact key
      · rw [Bool.or_eq_true]
        right
        rw [List.all_eq_true]
        intro b hb
        obtain ⟨w, rfl⟩ := hall b hb
        rfl

/-! ### a concrete set of libraries -/

/-- libraries on integers that compute entry by entry, accept any mixture of arrays in NumPy's operators, and copy -/
def intLib : Lib Int where
  installed := fun _ => true
  pyOp := fun op a b => match a, b with
    | .arr k d t sh x, .arr _ _ _ _ y => .ok (.fresh k d t sh (List.zipWith (intOp op) x y))
    | .arr k d t sh x, .num v => .ok (.fresh k d t sh (x.map (intOp op · v)))
    | .num v, .arr k d t sh x => .ok (.fresh k d t sh (x.map (intOp op v ·)))
    | .num v, .num w => .ok (.num (intOp op v w))
    | _, _ => .error .typeError
  fwOp := fun _ op a b => match a, b with
    | .arr k d t sh x, .arr _ _ _ _ y => .ok (.fresh k d t sh (List.zipWith (intOp op) x y))
    | .arr k d t sh x, .num v => .ok (.fresh k d t sh (x.map (intOp op · v)))
    | _, _ => .error .typeError
  inpl := fun op a b => match a, b with
    | .arr _ _ _ _ x, .arr _ _ _ _ y => .ok (List.zipWith (intOp op) x y)
    | .arr _ _ _ _ x, .num v => .ok (x.map (intOp op · v))
    | _, _ => .error .typeError
  ipw := fun a p => match a with
    | .arr _ _ _ _ x => .ok (x.map (· ^ p.toNat))
    | _ => .error .typeError
  pw := fun a p => match a with
    | .arr k d t sh x => .ok (.fresh k d t sh (x.map (· ^ p.toNat)))
    | _ => .error .typeError
  call := fun _ f _ a => match f, a with
    | .negative, .arr k d t sh x => .ok (.fresh k d t sh (x.map (- ·)))
    | .transpose, .arr _ _ _ sh x => .ok (.part sh.reverse (List.range x.length))
    | _, .arr k d t sh x => .ok (.fresh k d t sh x)
    | _, _ => .error .typeError
  sel := fun a key => match a with
    | .arr _ _ _ _ _ => .ok (.part [key.length] (key.map Int.toNat))
    | _ => .error .typeError
  fill := fun n a => match a with
    | .arr _ _ _ _ x => .ok x
    | .num v => .ok (List.replicate n v)
    | .foreign => .error .typeError
  maxOp := fun _ a b => match a, b with
    | .arr k d t sh x, .arr _ _ _ _ y => .ok (.fresh k d t sh (List.zipWith max x y))
    | .arr k d t sh x, .num v => .ok (.fresh k d t sh (x.map (max · v)))
    | _, _ => .error .typeError
  cast := fun _ v => v
  fromForeign := fun _ => .error .typeError
where
  /-- integer arithmetic -/
  intOp : Op → Int → Int → Int
    | .add => (· + ·)
    | .sub => (· - ·)
    | .mul => (· * ·)
    | .div => (· / ·)

theorem intLib_entryWise : EntryWise intLib intLib.intOp where
  py := fun op k k' d t t' sh x y _ _ => ⟨k, t, rfl, rfl⟩
  fw := fun op k k' d t t' sh x y _ _ => ⟨k, t, rfl, rfl⟩
  pyNum := fun op k d t sh x v => ⟨k, t, rfl, rfl⟩
  fwNum := fun op k d t sh x v => ⟨k, t, rfl, rfl⟩
  numPy := fun op k d t sh x v => ⟨k, t, rfl, rfl⟩

/-- a tensor `[7, 9]`, one `[1, 2]`, and a NumPy array `[1, 2]` -/
def tens : Arr := ⟨.torchTensor, .cpu, .f32, [2], 0, [0, 1]⟩
/-- another tensor -/
def tens2 : Arr := ⟨.torchTensor, .cpu, .f32, [2], 1, [0, 1]⟩
/-- a NumPy array -/
def nparr : Arr := ⟨.ndarray, .cpu, .f64, [2], 1, [0, 1]⟩
/-- their memory -/
def heap2 : Heap Int := [[7, 9], [1, 2]]

example : NewArray heap2 .torch .cpu [2] [6, 7] (binop intLib .sub (.wrap (.arr tens)) (.raw (.arr tens2)) heap2) :=
  C100_same_framework intLib _ intLib_entryWise .sub _ _ heap2 tens tens2 rfl rfl (Or.inr rfl) rfl rfl rfl rfl
example : NewArray heap2 .torch .cpu [2] [-5, -7] (binop intLib .sub (.raw (.num 2)) (.raw (.arr tens)) heap2) :=
  C100_number_array intLib _ intLib_entryWise .sub _ _ heap2 tens 2 rfl rfl
example : NewArray heap2 .torch .cpu [2] [5, 7] (binop intLib .sub (.raw (.arr tens)) (.raw (.num 2)) heap2) :=
  C100_array_number intLib _ intLib_entryWise .sub _ _ heap2 tens 2 rfl rfl (Or.inr rfl)
example : NewArray heap2 .torch .cpu [2, 2] [7, 9, 1, 2] (stack intLib [.wrap (.arr tens), .wrap (.arr tens2)] heap2) :=
  (C100_stack intLib heap2).2.2 _ _ tens [tens2] .torch [2]
    ⟨rfl, Or.inl (by intro a ha; simp only [List.mem_cons, List.not_mem_nil, or_false] at ha; rcases ha with rfl | rfl <;> exact ⟨_, rfl⟩), by intro a ha; simp only [List.mem_cons, List.not_mem_nil, or_false] at ha; rcases ha with rfl | rfl <;> exact ⟨rfl, rfl⟩, Or.inr rfl⟩
/-- a tensor plus a NumPy array is refused ... -/
example : binop intLib .add (.raw (.arr tens)) (.raw (.arr nparr)) heap2 = .error .typeError :=
  (C100_two_frameworks intLib .add _ _ heap2 tens nparr rfl rfl (fun h => by cases h) (fun h => by cases h)
    (fun h => by cases h.1)).1
/-- ... a NumPy array plus a tensor is left to NumPy -/
example : ∃ out, binop intLib .add (.raw (.arr nparr)) (.raw (.arr tens)) heap2 = .ok out :=
  ⟨_, (C100_numpy_first_unchecked intLib .add _ _ heap2 nparr rfl rfl _).2 ⟨_, rfl, rfl⟩⟩
example : maximum intLib (.raw (.arr tens)) (.raw (.arr nparr)) heap2 = .error .typeError :=
  (C100_maximum_two_frameworks intLib _ _ heap2 tens nparr rfl rfl (Or.inr rfl) (Or.inl rfl) (fun h => by cases h)
    (fun h => by cases h) (fun h => by cases h)).1 (fun h => by cases h.1)

end Verif.Props
