import Verif.Props.IopMemory
/-!
# C102: conversions between frameworks
-/
set_option linter.unusedSectionVars false
set_option linter.unusedVariables false
namespace Verif.Props
open Verif Verif.Iop
variable {S : Type} [Inhabited S]

/-- `r` in memory `h'` is `x` in memory `h` as an array of framework `f`: same shape, same entries, same element type; memory
was at most added. -/
structure SameArray (f : Fw) (h : Heap S) (x : Arr) (h' : Heap S) (r : Arr) : Prop where
  fw : r.kind.fw = f
  shape : r.shape = x.shape
  dtype : r.dtype = x.dtype
  entries : entries h' r = entries h x
  grows : ∃ e, h' = h ++ e
  where_ : r.buf = x.buf ∨ (h.length ≤ r.buf ∧ r.buf < h'.length)

theorem sameArray_fresh (L : Lib S) (k : Kind) (d : Dev) (h : Heap S) (x : Arr) :
    ∃ r h', fresh L k d x.dtype none x.shape (entries h x) h = (.arr r, h') ∧ SameArray k.fw h x h' r ∧ r.kind = k ∧ r.dev = d ∧
      h.length ≤ r.buf :=
  ⟨_, _, rfl, ⟨rfl, rfl, rfl, read_new h (entries h x) k d x.dtype x.shape, ⟨_, rfl⟩, Or.inr ⟨Nat.le_refl _, by simp⟩⟩, rfl, rfl,
    Nat.le_refl _⟩

/-- the device an array of framework `f` is reported to be on after it was asked for on device `d` -/
def reported (f : Fw) (d : Dev) : Dev :=
  match f with
  | .numpy => .cpu
  | .torch => d
  | _ => if d = .cpu then .cpu else .gpu

/-- **C102.** `iop.to_array(a, framework, device)` of an array of any framework: an array of the requested framework with the
same shape, element type and entries; no existing array changes. -/
theorem C102_same_entries (L : Lib S) (a : Arg S) (x : Arr) (hx : unwrap a = .arr x) (f : Fw) (d : Dev) (h : Heap S)
    (hf : f = .numpy ∨ L.installed f = true) :
    ∃ r h', toArray L a f d none h = .ok (.arr r, h') ∧ SameArray f h x h' r := by
  have same : ∀ (y : Arr), y.buf = x.buf → y.idx = x.idx → y.shape = x.shape → y.dtype = x.dtype →
      SameArray y.kind.fw h x h y := by
    intro y h1 h2 h3 h4
    refine ⟨rfl, h3, h4, ?_, ⟨[], by simp⟩, Or.inl h1⟩
    unfold entries
    rw [h1, h2]
  have new : ∀ (k : Kind) (d' : Dev), ∃ r h',
      (.ok (fresh L k d' x.dtype none x.shape (entries h x) h) : Py _) = .ok (.arr r, h') ∧ SameArray k.fw h x h' r := by
    intro k d'
    obtain ⟨r, h', e, hs, -⟩ := sameArray_fresh L k d' h x
    exact ⟨r, h', by rw [e], hs⟩
  cases f with
  | numpy =>
    simp only [toArray, toNumpy, hx]
    cases hk : x.kind with
    | ndarray => exact ⟨x, h, rfl, by have := same x rfl rfl rfl rfl; rwa [hk] at this⟩
    | npScalar => exact ⟨x, h, rfl, by have := same x rfl rfl rfl rfl; rwa [hk] at this⟩
    | torchTensor =>
      simp only
      split
      · exact ⟨_, h, rfl, same { x with kind := .ndarray } rfl rfl rfl rfl⟩
      · exact new .ndarray .cpu
    | tfTensor => exact new .ndarray .cpu
    | jaxArray => exact new .ndarray .cpu
  | torch =>
    have hi : L.installed .torch = true := hf.resolve_left (fun h => by cases h)
    simp only [toArray, toTorch, hx, hi, if_true, torchDtype]
    split
    · rename_i hc
      exact ⟨x, h, rfl, by have := same x rfl rfl rfl rfl; rwa [hc.1] at this⟩
    · exact new .torchTensor d
  | tf =>
    have hi : L.installed .tf = true := hf.resolve_left (fun h => by cases h)
    simp only [toArray, toTf, hx, hi, if_true]
    split
    · rename_i hc
      exact ⟨x, h, rfl, by have := same x rfl rfl rfl rfl; rwa [hc] at this⟩
    · exact new .tfTensor d
  | jax =>
    have hi : L.installed .jax = true := hf.resolve_left (fun h => by cases h)
    simp only [toArray, toJax, hx, hi, if_true]
    split
    · exact new .jaxArray _
    · exact new .jaxArray _

/-- **C102.** What `framework_device_of_array` reports after a conversion: the requested framework, and the requested device for
PyTorch; for JAX, and for TensorFlow unless the array was a TensorFlow tensor before, the requested device as far as it is a
CPU or GPU; always the CPU for NumPy. (An `mps` request is excluded for TensorFlow, which has no such device.) -/
theorem C102_reported (L : Lib S) (a : Arg S) (x : Arr) (hx : unwrap a = .arr x) (f : Fw) (d : Dev) (t : Option DTypeArg)
    (h : Heap S) (v : Value S) (h' : Heap S) (e : toArray L a f d t h = .ok (v, h'))
    (htf : f = .tf → x.kind ≠ .tfTensor ∧ d ≠ .mps) :
    frameworkDevice L (.raw v) = .ok (f, reported f d) := by
  have fr : ∀ (k : Kind) (d' : Dev) (o : DType) (t' : Option DType) (sh : List Nat) (data : List S),
      (.ok (fresh L k d' o t' sh data h) : Py _) = .ok (v, h') → ∃ r : Arr, v = .arr r ∧ r.kind = k ∧ r.dev = d' := by
    intro k d' o t' sh data e
    rw [Except.ok.injEq] at e
    unfold fresh place at e
    cases e
    exact ⟨_, rfl, rfl, rfl⟩
  cases f with
  | numpy =>
    have : ∃ r : Arr, v = .arr r ∧ r.kind.fw = .numpy := by
      simp only [toArray, toNumpy, hx] at e
      cases hk : x.kind with
      | ndarray => simp only [hk, Except.ok.injEq] at e; cases e; exact ⟨x, rfl, by rw [hk]; rfl⟩
      | npScalar => simp only [hk, Except.ok.injEq] at e; cases e; exact ⟨x, rfl, by rw [hk]; rfl⟩
      | torchTensor =>
        simp only [hk] at e
        split at e
        · cases e; exact ⟨_, rfl, rfl⟩
        · obtain ⟨r, h1, h2, -⟩ := fr _ _ _ _ _ _ e; exact ⟨r, h1, by rw [h2]; rfl⟩
      | tfTensor => simp only [hk] at e; obtain ⟨r, h1, h2, -⟩ := fr _ _ _ _ _ _ e; exact ⟨r, h1, by rw [h2]; rfl⟩
      | jaxArray => simp only [hk] at e; obtain ⟨r, h1, h2, -⟩ := fr _ _ _ _ _ _ e; exact ⟨r, h1, by rw [h2]; rfl⟩
    obtain ⟨r, rfl, hr⟩ := this
    simp [frameworkDevice, unwrap, hr, reported]
  | torch =>
    simp only [toArray] at e
    split at e
    · rename_i hi
      simp only [toTorch, hi, if_true, hx] at e
      have : ∃ r : Arr, v = .arr r ∧ r.kind = .torchTensor ∧ r.dev = d := by
        split at e
        · cases e
        · split at e
          · rename_i hc
            cases e; exact ⟨x, rfl, hc.1, hc.2.1⟩
          · exact fr _ _ _ _ _ _ e
      obtain ⟨r, rfl, hr, hd⟩ := this
      simp [frameworkDevice, unwrap, hr, hd, reported, Kind.fw, hi]
    · cases e
  | tf =>
    obtain ⟨hnt, hd'⟩ := htf rfl
    simp only [toArray] at e
    split at e
    · rename_i hi
      simp only [toTf, hi, if_true, hx, if_neg hnt] at e
      obtain ⟨r, rfl, hr, hd⟩ := fr _ _ _ _ _ _ e
      simp only [frameworkDevice, unwrap, hr, hd, reported, Kind.fw, hi]
      cases d <;> simp_all
    · cases e
  | jax =>
    simp only [toArray] at e
    split at e
    · rename_i hi
      have : ∃ r : Arr, v = .arr r ∧ r.kind = .jaxArray ∧ r.dev = if d = .cpu then Dev.cpu else Dev.gpu := by
        simp only [toJax, hi, if_true, hx] at e
        split at e
        · exact fr _ _ _ _ _ _ e
        · exact fr _ _ _ _ _ _ e
      obtain ⟨r, rfl, hr, hd⟩ := this
      simp only [frameworkDevice, unwrap, hr, hd, reported, Kind.fw, hi]
      cases d <;> simp
    · cases e

/-- **C102.** Requests that are ignored. A NumPy array (or scalar) converted to NumPy and a TensorFlow tensor converted to
TensorFlow are returned as they are: the same object on the device and with the element type it had, whatever `device` and
`dtype` say. A JAX array keeps its element type. -/
theorem C102_ignored_requests (L : Lib S) (a : Arg S) (x : Arr) (hx : unwrap a = .arr x) (d : Dev) (t : Option DTypeArg)
    (h : Heap S) :
    (x.kind.fw = .numpy → toArray L a .numpy d t h = .ok (.arr x, h)) ∧
      (x.kind.fw = .tf → L.installed .tf = true → toArray L a .tf d t h = .ok (.arr x, h)) ∧
      (x.kind.fw = .jax → L.installed .jax = true → ∃ r h', toArray L a .jax d t h = .ok (.arr r, h') ∧ r.dtype = x.dtype ∧
        entries h' r = entries h x) := by
  refine ⟨fun hk => ?_, fun hk hi => ?_, fun hk hi => ?_⟩
  · simp only [toArray, toNumpy, hx]
    cases hkk : x.kind with
    | ndarray => rfl
    | npScalar => rfl
    | _ => rw [hkk] at hk; cases hk
  · have : x.kind = .tfTensor := by
      cases hkk : x.kind <;> rw [hkk] at hk <;> first | rfl | cases hk
    simp [toArray, toTf, hx, hi, this]
  · have : x.kind = .jaxArray := by
      cases hkk : x.kind <;> rw [hkk] at hk <;> first | rfl | cases hk
    obtain ⟨r, h', e, hs, -⟩ := sameArray_fresh L .jaxArray (if d = .cpu then Dev.cpu else Dev.gpu) h x
    refine ⟨r, h', ?_, hs.dtype, hs.entries⟩
    simp only [toArray, toJax, hx, hi, this, if_true, e]

/-- **C102.** `to_array(..., dtype=np.float64)` for PyTorch gives single precision. -/
theorem C102_float64_becomes_float32 (L : Lib S) (a : Arg S) (x : Arr) (hx : unwrap a = .arr x) (d : Dev) (h : Heap S)
    (hi : L.installed .torch = true) :
    ∃ r h', toArray L a .torch d (some (.np .f64)) h = .ok (.arr r, h') ∧ r.kind = .torchTensor ∧ r.dtype = .f32 := by
  simp only [toArray, toTorch, hx, hi, if_true, torchDtype]
  split
  · rename_i hc
    refine ⟨x, h, rfl, hc.1, ?_⟩
    rcases hc.2.2 with h | h
    · cases h
    · injection h with h; exact h.symm
  · exact ⟨_, _, rfl, rfl, rfl⟩

/-- **C102.** Shared memory. These conversions (without `dtype`) do not copy: NumPy to NumPy, a CPU tensor of PyTorch to NumPy,
a PyTorch tensor to PyTorch on its own device. In every later memory both arrays show the same entries: a change through one of
them is a change of the other. -/
theorem C102_shares_memory (L : Lib S) (a : Arg S) (x : Arr) (hx : unwrap a = .arr x) (f : Fw) (d : Dev) (h : Heap S)
    (hc : (x.kind.fw = .numpy ∧ f = .numpy) ∨ (x.kind = .torchTensor ∧ x.dev = .cpu ∧ f = .numpy) ∨
      (x.kind = .torchTensor ∧ f = .torch ∧ x.dev = d ∧ L.installed .torch = true)) :
    ∃ r, toArray L a f d none h = .ok (.arr r, h) ∧ r.buf = x.buf ∧ r.idx = x.idx ∧ ∀ later : Heap S,
      entries later r = entries later x := by
  rcases hc with ⟨hk, rfl⟩ | ⟨hk, hd, rfl⟩ | ⟨hk, rfl, hd, hi⟩
  · exact ⟨x, (C102_ignored_requests L a x hx d none h).1 hk, rfl, rfl, fun _ => rfl⟩
  · refine ⟨{ x with kind := .ndarray }, ?_, rfl, rfl, fun _ => rfl⟩
    simp [toArray, toNumpy, hx, hk, hd]
  · refine ⟨x, ?_, rfl, rfl, fun _ => rfl⟩
    simp [toArray, toTorch, hx, hk, hd, hi, torchDtype]

/-- **C102.** These conversions copy: NumPy to PyTorch, anything to JAX, a PyTorch tensor that is not on the CPU to NumPy. Later changes of one array do not reach the other
(the copy is in new memory). -/
theorem C102_copies (L : Lib S) (a : Arg S) (x : Arr) (hx : unwrap a = .arr x) (f : Fw) (d : Dev) (t : Option DTypeArg)
    (h : Heap S) (v : Value S) (h' : Heap S) (e : toArray L a f d t h = .ok (v, h'))
    (hc : (x.kind.fw = .numpy ∧ f = .torch) ∨ f = .jax ∨ (x.kind = .torchTensor ∧ x.dev ≠ .cpu ∧ f = .numpy)) :
    ∃ r, v = .arr r ∧ h.length ≤ r.buf := by
  have fr : ∀ (k : Kind) (d' : Dev) (o : DType) (t' : Option DType) (sh : List Nat) (data : List S),
      (.ok (fresh L k d' o t' sh data h) : Py _) = .ok (v, h') → ∃ r : Arr, v = .arr r ∧ h.length ≤ r.buf := by
    intro k d' o t' sh data e
    rw [Except.ok.injEq] at e
    unfold fresh place at e
    cases e
    exact ⟨_, rfl, Nat.le_refl _⟩
  rcases hc with ⟨hk, rfl⟩ | rfl | ⟨hk, hd, rfl⟩
  rotate_left 2
  · simp only [toArray, toNumpy, hx, hk, hd, false_and, if_false] at e
    exact fr _ _ _ _ _ _ e
  · simp only [toArray] at e
    split at e
    · rename_i hi
      simp only [toTorch, hi, if_true, hx] at e
      split at e
      · cases e
      · split at e
        · rename_i hc
          rw [hc.1] at hk; cases hk
        · exact fr _ _ _ _ _ _ e
    · cases e
  · simp only [toArray] at e
    split at e
    · rename_i hi
      simp only [toJax, hi, if_true, hx] at e
      split at e
      · exact fr _ _ _ _ _ _ e
      · exact fr _ _ _ _ _ _ e
    · cases e

/-- **C102.** A requested element type is honoured when the array comes from another framework (PyTorch also converts its own
tensors): the result has that type, and its entries are the old ones cast to it. -/
theorem C102_dtype_honoured (L : Lib S) (a : Arg S) (x : Arr) (hx : unwrap a = .arr x) (f : Fw) (d : Dev) (t : DType)
    (h : Heap S) (hf : f = .numpy ∨ L.installed f = true) (hne : x.kind.fw ≠ f ∨ (f = .torch ∧ t ≠ x.dtype)) :
    ∃ r h', toArray L a f d (some (.own t)) h = .ok (.arr r, h') ∧ r.dtype = t ∧ r.shape = x.shape ∧
      entries h' r = (entries h x).map (L.cast t) := by
  have fr : ∀ (k : Kind) (d' : Dev), ∃ r h', (.ok (fresh L k d' x.dtype (some t) x.shape (entries h x) h) : Py (Value S × Heap S)) =
      .ok (.arr r, h') ∧ r.dtype = t ∧ r.shape = x.shape ∧ entries h' r = (entries h x).map (L.cast t) := by
    intro k d'
    exact ⟨_, _, rfl, rfl, rfl, read_new h _ k d' t x.shape⟩
  cases f with
  | numpy =>
    have hk : x.kind.fw ≠ .numpy := by
      rcases hne with h | h
      · exact h
      · cases h.1
    simp only [toArray, toNumpy, hx]
    cases hkk : x.kind with
    | ndarray => rw [hkk] at hk; exact absurd rfl hk
    | npScalar => rw [hkk] at hk; exact absurd rfl hk
    | torchTensor => simpa [DTypeArg.get] using fr .ndarray .cpu
    | tfTensor => exact fr .ndarray .cpu
    | jaxArray => exact fr .ndarray .cpu
  | torch =>
    have hi : L.installed .torch = true := hf.resolve_left (fun h => by cases h)
    have hc : ¬ (x.kind = .torchTensor ∧ x.dev = d ∧ ((some t : Option DType) = none ∨ some t = some x.dtype)) := by
      rintro ⟨hk, -, h | h⟩
      · cases h
      · injection h with h
        rcases hne with hne | hne
        · exact hne (by rw [hk]; rfl)
        · exact hne.2 h
    simp only [toArray, toTorch, hi, if_true, torchDtype, hx]
    rw [if_neg hc]
    exact fr .torchTensor d
  | tf =>
    have hi : L.installed .tf = true := hf.resolve_left (fun h => by cases h)
    have hc : ¬ x.kind = .tfTensor := by
      intro hk
      rcases hne with hne | hne
      · exact hne (by rw [hk]; rfl)
      · cases hne.1
    simp only [toArray, toTf, hi, if_true, hx]
    rw [if_neg hc]
    exact fr .tfTensor d
  | jax =>
    have hi : L.installed .jax = true := hf.resolve_left (fun h => by cases h)
    have hc : ¬ x.kind = .jaxArray := by
      intro hk
      rcases hne with hne | hne
      · exact hne (by rw [hk]; rfl)
      · cases hne.1
    simp only [toArray, toJax, hi, if_true, hx]
    rw [if_neg hc]
    exact fr .jaxArray _

example : ∃ r h', toArray intLib (.wrap (.arr nparr)) .torch .gpu (some (.own .f32)) heap2 = .ok (.arr r, h') ∧ r.dtype = .f32 ∧
    r.shape = [2] ∧ entries h' r = [1, 2] :=
  C102_dtype_honoured intLib _ nparr rfl .torch .gpu .f32 heap2 (Or.inr rfl) (Or.inl fun h => by cases h)

/-- an array whose framework is installed and whose device its framework knows -/
def UsableArr (L : Lib S) (x : Arr) : Prop := CanUse L x ∧ (x.kind.fw ≠ .torch → x.dev ≠ .mps)

theorem frameworkDevice_usable (L : Lib S) (a : Arg S) (y : Arr) (hy : unwrap a = .arr y) (hu : CanUse L y) :
    ∃ d, frameworkDevice L a = .ok (y.kind.fw, d) ∧ (y.kind.fw ≠ .torch → d ≠ .mps) ∧ (y.kind.fw = .numpy → d = .cpu) := by
  simp only [frameworkDevice, hy]
  by_cases hn : y.kind.fw = .numpy
  · exact ⟨.cpu, by simp [hn], fun _ h => (by cases h), fun _ => rfl⟩
  · rw [if_neg hn, if_pos (hu.resolve_left hn)]
    refine ⟨_, rfl, fun ht h => ?_, fun h => absurd h hn⟩
    rw [if_neg ht] at h
    split at h <;> cases h

/-- **C102.** `iop.to_array_like(a, like)` answers in the framework and on the device of `like` (for two TensorFlow tensors the
device is the one `a` was on). -/
theorem C102_like (L : Lib S) (a like : Arg S) (x y : Arr) (hx : unwrap a = .arr x) (hy : unwrap like = .arr y)
    (hu : CanUse L y) (htf : ¬ (x.kind = .tfTensor ∧ y.kind = .tfTensor)) (h : Heap S) :
    ∃ r h', toArrayLike L a like h = .ok (.arr r, h') ∧ r.kind.fw = y.kind.fw ∧
      frameworkDevice L (.raw (.arr r)) = frameworkDevice L like := by
  obtain ⟨d, hd, hm, hn⟩ := frameworkDevice_usable L (.raw (unwrap like)) y (by rw [← hy]; rfl) hu
  have hd' : frameworkDevice L like = .ok (y.kind.fw, d) := by rw [← hd]; rfl
  have hty : y.kind.fw = .tf → y.kind = .tfTensor := by
    intro h
    cases hk : y.kind <;> rw [hk] at h <;> first | rfl | cases h
  have hok : ∃ r h', toArray L a y.kind.fw d (dtypeOf (unwrap like)) h = .ok (.arr r, h') := by
    have fr : ∀ (k : Kind) (d' : Dev) (o : DType) (t' : Option DType) (sh : List Nat) (data : List S),
        ∃ r h', (.ok (fresh L k d' o t' sh data h) : Py _) = .ok (.arr r, h') := fun k d' o t' sh data => ⟨_, _, rfl⟩
    rw [hy]
    simp only [dtypeOf]
    cases hk : y.kind.fw with
    | numpy =>
      simp only [toArray, toNumpy, hx]
      cases hkk : x.kind with
      | ndarray => exact ⟨x, h, rfl⟩
      | npScalar => exact ⟨x, h, rfl⟩
      | torchTensor => simp only [reduceCtorEq, and_false, if_false]; exact fr _ _ _ _ _ _
      | tfTensor => exact fr _ _ _ _ _ _
      | jaxArray => exact fr _ _ _ _ _ _
    | torch =>
      have hi : L.installed .torch = true := by
        rcases hu with h | h
        · rw [hk] at h; cases h
        · rwa [hk] at h
      simp only [toArray, toTorch, hx, hi, if_true, torchDtype]
      split
      · exact ⟨x, h, rfl⟩
      · exact fr _ _ _ _ _ _
    | tf =>
      have hi : L.installed .tf = true := by
        rcases hu with h | h
        · rw [hk] at h; cases h
        · rwa [hk] at h
      simp only [toArray, toTf, hx, hi, if_true]
      split
      · exact ⟨x, h, rfl⟩
      · exact fr _ _ _ _ _ _
    | jax =>
      have hi : L.installed .jax = true := by
        rcases hu with h | h
        · rw [hk] at h; cases h
        · rwa [hk] at h
      simp only [toArray, toJax, hx, hi, if_true]
      split
      · exact fr _ _ _ _ _ _
      · exact fr _ _ _ _ _ _
  obtain ⟨r, h', e⟩ := hok
  have hrep := C102_reported L a x hx y.kind.fw d _ h _ _ e (fun hf => ⟨fun hk => htf ⟨hk, hty hf⟩,
    hm (by rw [hf]; exact fun h => by cases h)⟩)
  have hrd : reported y.kind.fw d = d := by
    unfold reported
    cases hk : y.kind.fw with
    | numpy => exact (hn hk).symm
    | torch => rfl
    | tf => have := hm (by rw [hk]; exact fun h => by cases h); cases d <;> simp_all
    | jax => have := hm (by rw [hk]; exact fun h => by cases h); cases d <;> simp_all
  refine ⟨r, h', ?_, ?_, ?_⟩
  · simp only [toArrayLike, hd, e]
  · rw [hrd] at hrep
    simp only [frameworkDevice, unwrap] at hrep
    split at hrep
    · rename_i h1
      rw [h1]
      injection hrep with h2
      exact (Prod.mk.inj h2).1
    · split at hrep
      · injection hrep with h2
        exact (Prod.mk.inj h2).1
      · cases hrep
  · rw [hrep, hrd, hd']

/-- **C102.** What is not an array. Numbers count as NumPy; other objects have no framework (`TypeError`). A framework that is
not installed: `to_array` raises `TypeError`, the direct converters `ImportError`. -/
theorem C102_refusals (L : Lib S) (a : Arg S) (v : S) (d : Dev) (t : Option DTypeArg) (h : Heap S) :
    (unwrap a = .num v → frameworkDevice L a = .ok (.numpy, .cpu)) ∧
      (unwrap a = .foreign → frameworkDevice L a = .error .typeError) ∧
      (∀ f, f ≠ .numpy → L.installed f = false → toArray L a f d t h = .error .typeError) ∧
      (L.installed .torch = false → toTorch L a d t h = .error .importError) ∧
      (L.installed .tf = false → toTf L a d t h = .error .importError) ∧
      (L.installed .jax = false → toJax L a d t h = .error .importError) := by
  refine ⟨fun e => by simp [frameworkDevice, e], fun e => by simp [frameworkDevice, e], fun f hf hi => ?_,
    fun hi => by simp [toTorch, hi], fun hi => by simp [toTf, hi], fun hi => by simp [toJax, hi]⟩
  cases f with
  | numpy => exact absurd rfl hf
  | torch => simp [toArray, hi]
  | tf => simp [toArray, hi]
  | jax => simp [toArray, hi]

/-- **C102.** There and back: an array taken to another framework and back with `to_array_like` has its old framework, device,
shape and entries, provided its entries are representable in its own element type. -/
theorem C102_round_trip (L : Lib S) (a : Arg S) (x : Arr) (hx : unwrap a = .arr x) (hu : CanUse L x) (f : Fw) (d : Dev)
    (h : Heap S) (hf : f = .numpy ∨ L.installed f = true) (hcast : ∀ v ∈ entries h x, L.cast x.dtype v = v)
    (htf : ¬ (x.kind = .tfTensor ∧ f = .tf)) :
    ∃ r h' r' h'', toArray L a f d none h = .ok (.arr r, h') ∧ toArrayLike L (.raw (.arr r)) a h' = .ok (.arr r', h'') ∧
      r'.kind.fw = x.kind.fw ∧ r'.shape = x.shape ∧ entries h'' r' = entries h x ∧
      frameworkDevice L (.raw (.arr r')) = frameworkDevice L a := by
  obtain ⟨r, h', e, hs⟩ := C102_same_entries L a x hx f d h hf
  have hktf : r.kind = .tfTensor → f = .tf := by intro hk; rw [← hs.fw, hk]; rfl
  obtain ⟨r', h'', e', hk, hd⟩ := C102_like L (.raw (.arr r)) a r x rfl hx hu
    (fun hc => htf ⟨hc.2, hktf hc.1⟩) h'
  refine ⟨r, h', r', h'', e, e', hk, ?_⟩
  suffices hh : r'.shape = r.shape ∧ entries h'' r' = entries h' r from
    ⟨hh.1.trans hs.shape, hh.2.trans hs.entries, hd⟩
  have hcast' : ∀ v ∈ entries h' r, L.cast x.dtype v = v := by rw [hs.entries]; exact hcast
  have fr : ∀ (k : Kind) (d' : Dev) (o : DType) (t' : Option DType), (t' = none ∨ t' = some x.dtype) →
      (.ok (fresh L k d' o t' r.shape (entries h' r) h') : Py _) = .ok (.arr r', h'') →
      r'.shape = r.shape ∧ entries h'' r' = entries h' r := by
    intro k d' o t' ht e
    rw [Except.ok.injEq] at e
    rcases ht with rfl | rfl
    · unfold fresh place at e
      cases e
      exact ⟨rfl, read_new h' (entries h' r) _ _ _ _⟩
    · have hmap : (entries h' r).map (L.cast x.dtype) = entries h' r :=
        (List.map_congr_left hcast').trans (List.map_id _)
      unfold fresh at e
      simp only [hmap] at e
      unfold place at e
      cases e
      exact ⟨rfl, read_new h' (entries h' r) _ _ _ _⟩
  obtain ⟨d0, hd0, -⟩ := frameworkDevice_usable L (.raw (.arr x)) x rfl hu
  simp only [toArrayLike, hd0, hx, dtypeOf] at e'
  cases hkx : x.kind.fw with
  | numpy =>
    simp only [hkx, toArray, toNumpy, unwrap, Option.map, DTypeArg.get, reduceCtorEq, and_false, if_false] at e'
    split at e'
    · cases e'; exact ⟨rfl, rfl⟩
    · cases e'; exact ⟨rfl, rfl⟩
    · exact fr _ _ _ _ (Or.inr rfl) e'
    · exact fr _ _ _ _ (Or.inr rfl) e'
    · exact fr _ _ _ _ (Or.inr rfl) e'
  | torch =>
    have hi : L.installed .torch = true := by
      rcases hu with h | h
      · rw [hkx] at h; cases h
      · rwa [hkx] at h
    simp only [hkx, toArray, toTorch, unwrap, hi, if_true, torchDtype] at e'
    split at e'
    · cases e'; exact ⟨rfl, rfl⟩
    · exact fr _ _ _ _ (Or.inr rfl) e'
  | tf =>
    have hi : L.installed .tf = true := by
      rcases hu with h | h
      · rw [hkx] at h; cases h
      · rwa [hkx] at h
    simp only [hkx, toArray, toTf, unwrap, hi, if_true, Option.map, DTypeArg.get] at e'
    split at e'
    · cases e'; exact ⟨rfl, rfl⟩
    · exact fr _ _ _ _ (Or.inr rfl) e'
  | jax =>
    have hi : L.installed .jax = true := by
      rcases hu with h | h
      · rw [hkx] at h; cases h
      · rwa [hkx] at h
    simp only [hkx, toArray, toJax, unwrap, hi, if_true, Option.map, DTypeArg.get] at e'
    split at e'
    · exact fr _ _ _ _ (Or.inl rfl) e'
    · exact fr _ _ _ _ (Or.inr rfl) e'

/-! ### examples -/

example : ∃ r h', toArray intLib (.wrap (.arr tens)) .numpy .gpu none heap2 = .ok (.arr r, h') ∧
    SameArray .numpy heap2 tens h' r := C102_same_entries intLib _ tens rfl .numpy .gpu heap2 (Or.inl rfl)
/-- the NumPy array made from a CPU tensor changes when the tensor is changed in place -/
example : ∃ r, toArray intLib (.raw (.arr tens)) .numpy .cpu none heap2 = .ok (.arr r, heap2) ∧
    entries (next intLib twoNames (.inplace 0 .add 2)).heap r = [8, 11] := by
  obtain ⟨r, e, -, -, hl⟩ := C102_shares_memory intLib (.raw (.arr tens)) tens rfl .numpy .cpu heap2
    (Or.inr (Or.inl ⟨rfl, rfl, rfl⟩))
  exact ⟨r, e, by rw [hl]; decide⟩
example : toArray intLib (.raw (.arr nparr)) .numpy .gpu (some (.np .f32)) heap2 = .ok (.arr nparr, heap2) :=
  (C102_ignored_requests intLib _ nparr rfl .gpu (some (.np .f32)) heap2).1 rfl
example : ∃ r h' r' h'', toArray intLib (.raw (.arr nparr)) .torch .gpu none heap2 = .ok (.arr r, h') ∧
    toArrayLike intLib (.raw (.arr r)) (.raw (.arr nparr)) h' = .ok (.arr r', h'') ∧ r'.kind.fw = .numpy ∧ r'.shape = [2] ∧
      entries h'' r' = [1, 2] ∧ frameworkDevice intLib (.raw (.arr r')) = .ok (.numpy, .cpu) :=
  C102_round_trip intLib _ nparr rfl (Or.inl rfl) .torch .gpu heap2 (Or.inr rfl) (fun v _ => rfl) (fun h => by cases h.1)

end Verif.Props
