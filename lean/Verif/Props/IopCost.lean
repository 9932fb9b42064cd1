import Verif.Props.IopConvert
import Mathlib.Data.List.Forall2
/-!
# C103: arguments and results of decorated cost methods
-/
set_option linter.unusedSectionVars false
set_option linter.unusedVariables false
namespace Verif.Props
open Verif Verif.Iop
variable {S : Type} [Inhabited S]

/-- an argument whose arrays exist in memory and belong to installed frameworks; wrapped arguments are arrays -/
def GoodArg (L : Lib S) (h : Heap S) : CallArg S → Prop
  | .val (.wrap v) => ∃ x : Arr, v = .arr x ∧ x.buf < h.length ∧ CanUse L x
  | _ => True

/-- What the undecorated method gets for an argument: a wrapped array arrives as a bare array of the cost's framework with the
same shape and entries; everything else, bare arrays of other frameworks included, arrives as it is. -/
def Handed (f : Fw) (h h' : Heap S) : CallArg S → CallArg S → Prop
  | .val (.wrap v), out => ∃ x r : Arr, v = .arr x ∧ out = .val (.raw (.arr r)) ∧ r.kind.fw = f ∧ r.shape = x.shape ∧
      r.buf < h'.length ∧ entries h' r = entries h x
  | a, out => out = a

/-- a wrapped array of another framework than the cost's -/
def Foreign (f : Fw) : CallArg S → Bool
  | .val (.wrap (.arr x)) => !decide (x.kind.fw = f)
  | _ => false

theorem convert_spec (L : Lib S) (f : Fw) (d : Dev) (hf : f = .numpy ∨ L.installed f = true) (x : Arr) (h : Heap S) :
    ∃ r h', convert L f d (.wrap (.arr x)) h = .ok (.arr r, h') ∧ SameArray f h x h' r := by
  obtain ⟨r, h', e, hs⟩ := C102_same_entries L (.wrap (.arr x)) x rfl f d h hf
  refine ⟨r, h', ?_, hs⟩
  rw [← e]
  cases f with
  | numpy => rfl
  | torch => simp [convert, toArray, hf.resolve_left (fun h => by cases h)]
  | tf => simp [convert, toArray, hf.resolve_left (fun h => by cases h)]
  | jax => simp [convert, toArray, hf.resolve_left (fun h => by cases h)]

theorem entries_grow (h e : Heap S) (z : Arr) (hz : z.buf < h.length) : entries (h ++ e) z = entries h z := by
  unfold entries
  have : (h ++ e).getD z.buf [] = h.getD z.buf [] := by simp [List.getD, List.getElem?_append_left hz]
  rw [this]

theorem handed_later (f : Fw) (h h1 e : Heap S) (b o : CallArg S) (hbo : Handed f h h1 b o) : Handed f h (h1 ++ e) b o := by
  cases b with
  | obj => exact hbo
  | val w =>
    cases w with
    | raw v => exact hbo
    | wrap v =>
      obtain ⟨y, ry, h3, h4, h5, h6, h7, h8⟩ := hbo
      exact ⟨y, ry, h3, h4, h5, h6, by simp; omega, by rw [entries_grow h1 e ry h7, h8]⟩

theorem handed_earlier (L : Lib S) (f : Fw) (h e h2 : Heap S) (bs os : List (CallArg S)) (hall : List.Forall₂ (Handed f (h ++ e) h2) bs os) :
    (∀ b ∈ bs, GoodArg L h b) → List.Forall₂ (Handed f h h2) bs os := by
  induction hall with
  | nil => intro _; exact .nil
  | @cons b o bs os hbo _ ih =>
    intro hg
    refine .cons ?_ (ih (fun a ha => hg a (List.mem_cons_of_mem _ ha)))
    cases b with
    | obj => exact hbo
    | val w =>
      cases w with
      | raw v => exact hbo
      | wrap v =>
        obtain ⟨y, ry, h3, h4, h5, h6, h7, h8⟩ := hbo
        obtain ⟨y', hy', hyb, -⟩ := hg (.val (.wrap v)) (by simp)
        rw [h3] at hy'
        cases hy'
        exact ⟨y, ry, h3, h4, h5, h6, h7, by rw [h8, entries_grow h e y hyb]⟩

theorem convertArgs_spec (L : Lib S) (f : Fw) (d : Dev) (hf : f = .numpy ∨ L.installed f = true) (args : List (CallArg S)) :
    ∀ h : Heap S, (∀ a ∈ args, GoodArg L h a) →
      ∃ outs h', convertArgs L f d args h = .ok (outs, args.countP (Foreign f), h') ∧ (∃ e, h' = h ++ e) ∧
        List.Forall₂ (Handed f h h') args outs := by
  induction args with
  | nil => intro h _; exact ⟨[], h, rfl, ⟨[], by simp⟩, .nil⟩
  | cons a rest ih =>
    intro h hg
    have hrest : ∀ (h1 : Heap S), (∃ e, h1 = h ++ e) → ∀ a ∈ rest, GoodArg L h1 a := by
      rintro h1 ⟨e, rfl⟩ b hb
      have := hg b (by simp [hb])
      cases b with
      | obj => trivial
      | val w =>
        cases w with
        | raw v => trivial
        | wrap v =>
          obtain ⟨x, h1, h2, h3⟩ := this
          exact ⟨x, h1, by simp; omega, h3⟩
    have plain : ∀ (b : CallArg S), b = a → (∀ h', Handed f h h' a a) → Foreign f a = false →
        (convertArgs L f d (a :: rest) h = match convertArgs L f d rest h with
          | .error e => .error e
          | .ok (vs, n, h) => .ok (a :: vs, n, h)) →
        ∃ outs h', convertArgs L f d (a :: rest) h = .ok (outs, (a :: rest).countP (Foreign f), h') ∧ (∃ e, h' = h ++ e) ∧
          List.Forall₂ (Handed f h h') (a :: rest) outs := by
      intro _ _ hh hfo heq
      obtain ⟨outs, h', e, hgr, hall⟩ := ih h (hrest h ⟨[], by simp⟩)
      refine ⟨a :: outs, h', ?_, hgr, .cons (hh h') hall⟩
      rw [heq, e, List.countP_cons_of_neg (by simp [hfo])]
    cases a with
    | obj => exact plain _ rfl (fun _ => rfl) rfl rfl
    | val w =>
      cases w with
      | raw v => exact plain _ rfl (fun _ => rfl) rfl rfl
      | wrap v =>
        obtain ⟨x, rfl, hb, hu⟩ := hg (.val (.wrap v)) (by simp)
        obtain ⟨d0, hd0, -⟩ := frameworkDevice_usable L (.wrap (.arr x)) x rfl hu
        obtain ⟨r, h1, e1, hs⟩ := convert_spec L f d hf x h
        obtain ⟨outs, h', e, ⟨e2, he2⟩, hall⟩ := ih h1 (hrest h1 hs.grows)
        have hrb : r.buf < h1.length := by
          rcases hs.where_ with h | h
          · obtain ⟨e3, he3⟩ := hs.grows
            rw [h, he3]
            simp; omega
          · exact h.2
        have hr : entries h' r = entries h x := by rw [he2, entries_grow h1 e2 r hrb, hs.entries]
        refine ⟨.val (.raw (.arr r)) :: outs, h', ?_, ?_,
          .cons ⟨x, r, rfl, rfl, hs.fw, hs.shape, by rw [he2]; simp; omega, hr⟩ ?_⟩
        · simp only [convertArgs, hd0, e1, e]
          rw [List.countP_cons]
          simp only [Foreign]
          by_cases h : x.kind.fw = f <;> simp [h]
        · obtain ⟨e3, he3⟩ := hs.grows
          exact ⟨e3 ++ e2, by rw [he2, he3, List.append_assoc]⟩
        · -- entries of the later arguments did not change in between
          obtain ⟨e3, he3⟩ := hs.grows
          rw [he3] at hall
          exact handed_earlier L f h e3 h' rest outs hall (fun a ha => hg a (List.mem_cons_of_mem _ ha))

/-- **C103.** A decorated cost method with good arguments: the undecorated method is called once, with every wrapped array
converted to the cost's framework (same shape and entries) and everything else untouched; positional arguments in their order,
keyword arguments under their names. One warning is counted for each wrapped array of another framework. The result is the
method's result or exception, before a possible conversion. -/
theorem C103_arguments (L : Lib S) (m : Method S) (ann : Ann) (c : Call S) (h : Heap S)
    (hf : m.fw = .numpy ∨ L.installed m.fw = true) (hx : c.xLike ≠ none) (hg : ∀ a ∈ c.args, GoodArg L h a)
    (hk : ∀ e ∈ c.kwargs, GoodArg L h e.2) (hann : ann ≠ .array) :
    ∃ (args : List (CallArg S)) (kw : List (CallArg S)) (h' : Heap S), (∃ e, h' = h ++ e) ∧
      List.Forall₂ (Handed m.fw h h') c.args args ∧ List.Forall₂ (Handed m.fw h h') (c.kwargs.map Prod.snd) kw ∧
      wrapper L m ann c h = (match m.body args ((c.kwargs.map Prod.fst).zip kw) h' with
        | .error e => .error e
        | .ok (r, h'') => .ok (r, c.args.countP (Foreign m.fw) + c.kwargs.countP (fun e => Foreign m.fw e.2), h'')) := by
  obtain ⟨args, h1, e1, ⟨x1, hx1⟩, hall1⟩ := convertArgs_spec L m.fw m.dev hf c.args h hg
  obtain ⟨kw, h2, e2, ⟨x2, hx2⟩, hall2⟩ := convertArgs_spec L m.fw m.dev hf (c.kwargs.map Prod.snd) h1 (by
    intro a ha
    rw [List.mem_map] at ha
    obtain ⟨p, hp, rfl⟩ := ha
    have := hk p hp
    cases hpa : p.2 with
    | obj => trivial
    | val w =>
      cases w with
      | raw v => trivial
      | wrap v =>
        rw [hpa] at this
        obtain ⟨x, h3, h4, h5⟩ := this
        exact ⟨x, h3, by rw [hx1]; simp; omega, h5⟩)
  have lift1 : List.Forall₂ (Handed m.fw h h2) c.args args := by
    rw [hx2]
    exact hall1.imp (fun b o hbo => handed_later m.fw h h1 x2 b o hbo)
  have lift2 : List.Forall₂ (Handed m.fw h h2) (c.kwargs.map Prod.snd) kw := by
    rw [hx1] at hall2
    refine handed_earlier L m.fw h x1 h2 _ kw hall2 ?_
    intro a ha
    rw [List.mem_map] at ha
    obtain ⟨p, hp, rfl⟩ := ha
    exact hk p hp
  refine ⟨args, kw, h2, ⟨x1 ++ x2, by rw [hx2, hx1, List.append_assoc]⟩, lift1, lift2, ?_⟩
  have hcount : (c.kwargs.map Prod.snd).countP (Foreign m.fw) = c.kwargs.countP (fun e => Foreign m.fw e.2) := by
    rw [List.countP_map]; rfl
  unfold wrapper
  cases hxl : c.xLike with
  | none => exact absurd hxl hx
  | some x =>
    simp only [e1, e2, hcount]
    cases m.body args ((c.kwargs.map Prod.fst).zip kw) h2 with
    | error e => rfl
    | ok p => simp [hann]

/-- **C103.** Without a first argument, positional or named `x`, the call raises `ValueError` and the method is not called. -/
theorem C103_needs_x (L : Lib S) (m : Method S) (ann : Ann) (c : Call S) (h : Heap S) (ha : c.args = [])
    (hk : ∀ e ∈ c.kwargs, e.1 ≠ "x") : wrapper L m ann c h = .error .valueError := by
  have : c.xLike = none := by
    unfold Call.xLike
    rw [ha]
    simp only [Option.map_eq_none_iff, List.find?_eq_none, decide_eq_true_eq]
    exact hk
  unfold wrapper
  rw [this]

/-- **C103.** The built-in costs do not convert results back, although the documentation says so: what `gradient`, `hessian`,
`proximal` and `predict` return is exactly what the undecorated method returned, whatever `x` was. (The annotations of the
superclass are strings, and a string is not the class `Array`.) -/
theorem C103_builtin_results_stay (L : Lib S) (m : Method S) (c : Call S) (h : Heap S) (r : Value S) (n : Nat) (h' : Heap S)
    (e : wrapper L m builtinAnn c h = .ok (r, n, h')) : ∃ args kw h1, m.body args kw h1 = .ok (r, h') := by
  unfold wrapper at e
  split at e
  · cases e
  · split at e
    · cases e
    · split at e
      · cases e
      · split at e
        · cases e
        · rename_i hb
          rw [if_neg (by unfold builtinAnn annotation; simp)] at e
          cases e
          exact ⟨_, _, _, hb⟩

/-- **C103.** So a built-in cost whose formulas produce arrays of its own framework answers in its own framework: evaluated at a
wrapped array `x` of another framework, the result is never in the framework of `x`. -/
theorem C103_builtin_framework_of_cost (L : Lib S) (m : Method S) (c : Call S) (h : Heap S) (x : Arr)
    (hx : c.xLike = some (.val (.wrap (.arr x)))) (hne : x.kind.fw ≠ m.fw)
    (hbody : ∀ args kw h1 v h2, m.body args kw h1 = .ok (v, h2) → ∃ r : Arr, v = .arr r ∧ r.kind.fw = m.fw)
    (v : Value S) (n : Nat) (h' : Heap S) (e : wrapper L m builtinAnn c h = .ok (v, n, h')) :
    ∃ r : Arr, v = .arr r ∧ r.kind.fw = m.fw ∧ r.kind.fw ≠ x.kind.fw := by
  obtain ⟨args, kw, h1, hb⟩ := C103_builtin_results_stay L m c h v n h' e
  obtain ⟨r, hr, hf⟩ := hbody args kw h1 v h' hb
  exact ⟨r, hr, hf, fun h => hne (h.symm.trans hf)⟩

/-- **C103.** A superclass written without `from __future__ import annotations` gets the documented behaviour: an array result
comes back in the framework of `x`, and `framework_device_of_array` reports the device of `x`. -/
theorem C103_converted_when_not_postponed (L : Lib S) (m : Method S) (c : Call S) (h : Heap S) (like : Arg S) (x : Arr)
    (hx : c.xLike = some (.val like)) (hl : unwrap like = .arr x) (hu : CanUse L x) (htf : x.kind ≠ .tfTensor)
    (hbody : ∀ args kw h1 v h2, m.body args kw h1 = .ok (v, h2) → ∃ r : Arr, v = .arr r)
    (v : Value S) (n : Nat) (h' : Heap S) (e : wrapper L m (annotation false "Array") c h = .ok (v, n, h')) :
    ∃ r : Arr, v = .arr r ∧ r.kind.fw = x.kind.fw ∧ frameworkDevice L (.raw v) = frameworkDevice L like := by
  unfold wrapper at e
  rw [hx] at e
  simp only at e
  split at e
  · cases e
  · split at e
    · cases e
    · split at e
      · cases e
      · rename_i w h2 hb
        obtain ⟨r0, rfl⟩ := hbody _ _ _ _ _ hb
        rw [if_pos (by simp [annotation])] at e
        obtain ⟨r, h3, e3, hk, hd⟩ := C102_like L (.raw (.arr r0)) like r0 x rfl hl hu (fun hc => htf hc.2) h2
        rw [e3] at e
        simp only [Except.ok.injEq] at e
        obtain ⟨rfl, -⟩ := Prod.mk.inj e
        exact ⟨r, rfl, hk, hd⟩

/-! ### examples -/

/-- a NumPy cost whose gradient is its argument (the body returns its first argument) -/
def echo : Method Int where
  fw := .numpy
  dev := .cpu
  body := fun args _ h => match args with
    | .val (.raw v) :: _ => .ok (v, h)
    | _ => .error .typeError

/-- `cost.gradient(Array(tensor))`: the method sees a NumPy array with the tensor's entries, one warning is counted -/
example := C103_arguments intLib echo builtinAnn ⟨[.val (.wrap (.arr tens))], []⟩ heap2 (Or.inl rfl) (by simp [Call.xLike])
    (by
      intro a ha
      simp only [List.mem_singleton] at ha
      rw [ha]
      exact ⟨tens, rfl, by decide, Or.inr rfl⟩) (by simp) (by decide)
/-- the answer is a NumPy array, not a tensor ... -/
example : wrapper intLib echo builtinAnn ⟨[.val (.wrap (.arr tens))], []⟩ heap2 =
    .ok (.arr { tens with kind := .ndarray }, 1, heap2) := by rfl
/-- ... while a superclass with real annotations gets a tensor -/
example : ∃ r h', wrapper intLib echo (annotation false "Array") ⟨[.val (.wrap (.arr tens))], []⟩ heap2 = .ok (.arr r, 1, h') ∧
    r.kind = .torchTensor := ⟨_, _, rfl, rfl⟩
/-- a bare tensor reaches the NumPy formulas unconverted and without a warning -/
example : wrapper intLib echo builtinAnn ⟨[.val (.raw (.arr tens))], []⟩ heap2 = .ok (.arr tens, 0, heap2) := by rfl
example : wrapper intLib echo builtinAnn ⟨[], [("penalty", .obj)]⟩ heap2 = .error .valueError :=
  C103_needs_x intLib echo builtinAnn _ heap2 rfl (by simp)

end Verif.Props
