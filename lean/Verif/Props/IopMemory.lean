import Verif.Props.IopOps
/-!
# C101: which arrays an in-place operation changes
-/
set_option linter.unusedSectionVars false
set_option linter.unusedVariables false
namespace Verif.Props
open Verif Verif.Iop
variable {S : Type} [Inhabited S]

/-! ### specification -/

/-- two arrays share an entry -/
def Overlap (a b : Arr) : Prop := a.buf = b.buf ∧ ∃ i ∈ a.idx, i ∈ b.idx

/-- the array a statement is asked to change: the left side of `∘=`, `**=` and `[...] =`, if it is a NumPy array or a PyTorch
tensor -/
def target (s : State S) : Stmt S → Option Arr
  | .inplace a _ _ => mutArr (s.env a)
  | .inpow a _ => mutArr (s.env a)
  | .set a _ _ => mutArr (s.env a)
  | _ => none
where
  /-- the array behind a variable, if it can be written -/
  mutArr (v : Arg S) : Option Arr :=
    match unwrap v with
    | .arr x => if x.kind.mutable then some x else none
    | _ => none

/-- no statement of the program is asked to change an array that overlaps `z` -/
def LeftAlone (L : Lib S) (z : Arr) : State S → List (Stmt S) → Prop
  | _, [] => True
  | s, i :: p => (∀ x, target s i = some x → ¬ Overlap x z) ∧ LeftAlone L z (next L s i) p

/-- the variables of a statement -/
def stmtVars : Stmt S → List Nat
  | .arith x _ a b => [x, a, b]
  | .inplace a _ b => [a, b]
  | .inpow a _ => [a]
  | .apply x _ _ a => [x, a]
  | .maxi x a b => [x, a, b]
  | .get x a _ => [x, a]
  | .set a _ b => [a, b]
  | .copy x a => [x, a]
  | .bind x a => [x, a]
  | .wrap x a => [x, a]
  | .conv x a _ _ _ => [x, a]
  | .stack x as_ => x :: as_

/-- every variable refers to memory that exists -/
def Sound (s : State S) : Prop := ∀ y r, unwrap (s.env y) = .arr r → r.buf < s.heap.length

/-! ### memory facts -/

/-- a call only adds buffers, and its array (if any) lives in an admissible or in a new buffer -/
structure Calm (h : Heap S) (old : Nat → Prop) (v : Value S) (h' : Heap S) : Prop where
  grows : ∃ e, h' = h ++ e
  from_ : ∀ r, v = .arr r → old r.buf ∨ (h.length ≤ r.buf ∧ r.buf < h'.length)

theorem Calm.mono {h h' : Heap S} {old old' : Nat → Prop} {v : Value S} (c : Calm h old v h') (ho : ∀ b, old b → old' b) :
    Calm h old' v h' := ⟨c.grows, fun r hr => (c.from_ r hr).imp (ho _) id⟩

theorem calm_place (h : Heap S) (base : Option Arr) (r : Res S) :
    Calm h (fun b => ∃ a, base = some a ∧ a.buf = b) (place h base r).1 (place h base r).2 := by
  cases r with
  | num v => exact ⟨⟨[], by simp [place]⟩, fun r hr => by simp [place] at hr⟩
  | fresh k d t sh data =>
    refine ⟨⟨[data], rfl⟩, fun r hr => Or.inr ?_⟩
    simp only [place, Value.arr.injEq] at hr
    rw [← hr]
    simp [place]
  | part sh pos =>
    cases base with
    | none => exact ⟨⟨[], by simp [place]⟩, fun r hr => by simp [place] at hr⟩
    | some a =>
      refine ⟨⟨[], by simp [place]⟩, fun r hr => Or.inl ⟨a, rfl, ?_⟩⟩
      simp only [place, Value.arr.injEq] at hr
      rw [← hr]

theorem calm_placed {h h' : Heap S} {base : Option Arr} {r : Py (Res S)} {v : Value S} (e : placed h base r = .ok (v, h')) :
    Calm h (fun b => ∃ a, base = some a ∧ a.buf = b) v h' := by
  cases r with
  | error e' => simp [placed] at e
  | ok r =>
    simp only [placed, Except.ok.injEq] at e
    have := calm_place h base r
    rw [e] at this
    exact this

theorem calm_none {h h' : Heap S} {r : Py (Res S)} {v : Value S} (old : Nat → Prop) (e : placed h none r = .ok (v, h')) :
    Calm h old v h' := (calm_placed e).mono (fun b hb => by obtain ⟨a, ha, -⟩ := hb; cases ha)

theorem calm_same (h : Heap S) (x : Arr) (r : Arr) (hr : r.buf = x.buf) : Calm h (fun b => x.buf = b) (.arr r) h :=
  ⟨⟨[], by simp⟩, fun r' e => Or.inl (by cases e; exact hr.symm)⟩

theorem calm_fresh (L : Lib S) (k : Kind) (d : Dev) (old : DType) (t : Option DType) (sh : List Nat) (data : List S)
    (h : Heap S) (o : Nat → Prop) :
    Calm h o (fresh L k d old t sh data h).1 (fresh L k d old t sh data h).2 :=
  (calm_place h none _).mono (fun b hb => by obtain ⟨a, ha, -⟩ := hb; cases ha)

theorem calm_fresh' {L : Lib S} {k : Kind} {d : Dev} {old : DType} {t : Option DType} {sh : List Nat} {data : List S}
    {h h' : Heap S} {v : Value S} (o : Nat → Prop) (e : (.ok (fresh L k d old t sh data h) : Py _) = .ok (v, h')) :
    Calm h o v h' := by
  rw [Except.ok.injEq] at e
  have := calm_fresh L k d old t sh data h o
  rw [e] at this
  exact this

/-- the buffers of an argument -/
def bufOf (a : Arg S) (b : Nat) : Prop := ∃ x, unwrap a = .arr x ∧ x.buf = b

theorem calm_binop {L : Lib S} {op : Op} {a b : Arg S} {h h' : Heap S} {v : Value S} (o : Nat → Prop)
    (e : binop L op a b h = .ok (v, h')) : Calm h o v h' := by
  simp only [binop] at e
  repeat' split at e
  all_goals first | exact calm_none o e | cases e

theorem calm_maximum {L : Lib S} {a b : Arg S} {h h' : Heap S} {v : Value S} (o : Nat → Prop)
    (e : maximum L a b h = .ok (v, h')) : Calm h o v h' := by
  simp only [maximum] at e
  repeat' split at e
  all_goals first | exact calm_none o e | cases e

theorem calm_unary {L : Lib S} {f : Fn} {args : List Int} {a : Arg S} {h h' : Heap S} {v : Value S}
    (e : unary L f args a h = .ok (v, h')) : Calm h (bufOf a) v h' := by
  simp only [unary] at e
  split at e
  · rename_i x hx
    split at e
    · exact (calm_placed e).mono (fun b hb => by obtain ⟨y, hy, hb⟩ := hb; cases hy; exact ⟨x, hx, hb⟩)
    · cases e
  · cases e

theorem calm_getItem {L : Lib S} {key : List Int} {a : Arg S} {h h' : Heap S} {v : Value S}
    (e : getItem L a key h = .ok (v, h')) : Calm h (bufOf a) v h' := by
  simp only [getItem] at e
  split at e
  · rename_i x hx
    exact (calm_placed e).mono (fun b hb => by obtain ⟨y, hy, hb⟩ := hb; cases hy; exact ⟨x, hx, hb⟩)
  · cases e

theorem calm_fromOther {L : Lib S} {f : Fw} {k : Kind} {d : Dev} {t : Option DType} {w v : Value S} {h h' : Heap S}
    (o : Nat → Prop) (e : fromOther L f k d t w h = .ok (v, h')) : Calm h o v h' := by
  simp only [fromOther] at e
  repeat' split at e
  all_goals first | exact calm_fresh' o e | cases e

theorem calm_toNumpy {L : Lib S} {a : Arg S} {t : Option DTypeArg} {h h' : Heap S} {v : Value S}
    (e : toNumpy L a t h = .ok (v, h')) : Calm h (bufOf a) v h' := by
  simp only [toNumpy] at e
  have same : ∀ (x r : Arr), unwrap a = .arr x → r.buf = x.buf → Calm h (bufOf a) (.arr r) h := fun x r hx hr =>
    (calm_same h x r hr).mono (fun b hb => ⟨x, hx, hb⟩)
  split at e
  · rename_i x hx
    split at e
    · cases e; exact same x x hx rfl
    · cases e; exact same x x hx rfl
    · split at e
      · cases e; exact same x _ hx rfl
      · exact calm_fresh' _ e
    · exact calm_fresh' _ e
    · exact calm_fresh' _ e
  · exact calm_fromOther _ e

theorem calm_toTorch {L : Lib S} {a : Arg S} {d : Dev} {t : Option DTypeArg} {h h' : Heap S} {v : Value S}
    (e : toTorch L a d t h = .ok (v, h')) : Calm h (bufOf a) v h' := by
  simp only [toTorch] at e
  split at e
  · split at e
    · cases e
    · split at e
      · rename_i x hx
        split at e
        · cases e; exact (calm_same h x x rfl).mono (fun b hb => ⟨x, hx, hb⟩)
        · exact calm_fresh' _ e
      · exact calm_fromOther _ e
  · cases e

theorem calm_toTf {L : Lib S} {a : Arg S} {d : Dev} {t : Option DTypeArg} {h h' : Heap S} {v : Value S}
    (e : toTf L a d t h = .ok (v, h')) : Calm h (bufOf a) v h' := by
  simp only [toTf] at e
  split at e
  · split at e
    · rename_i x hx
      split at e
      · cases e; exact (calm_same h x x rfl).mono (fun b hb => ⟨x, hx, hb⟩)
      · exact calm_fresh' _ e
    · exact calm_fromOther _ e
  · cases e

theorem calm_toJax {L : Lib S} {a : Arg S} {d : Dev} {t : Option DTypeArg} {h h' : Heap S} {v : Value S}
    (e : toJax L a d t h = .ok (v, h')) : Calm h (bufOf a) v h' := by
  simp only [toJax] at e
  split at e
  · split at e
    · rename_i x hx
      split at e
      · exact calm_fresh' _ e
      · exact calm_fresh' _ e
    · exact calm_fromOther _ e
  · cases e

theorem calm_toArray {L : Lib S} {a : Arg S} {f : Fw} {d : Dev} {t : Option DTypeArg} {h h' : Heap S} {v : Value S}
    (e : toArray L a f d t h = .ok (v, h')) : Calm h (bufOf a) v h' := by
  simp only [toArray] at e
  cases f with
  | numpy => exact calm_toNumpy e
  | torch => simp only at e; split at e; exacts [calm_toTorch e, by cases e]
  | tf => simp only at e; split at e; exacts [calm_toTf e, by cases e]
  | jax => simp only at e; split at e; exacts [calm_toJax e, by cases e]

theorem calm_stackRaw {L : Lib S} {vs : List (Value S)} {h h' : Heap S} {v : Value S} (o : Nat → Prop)
    (e : Iop.stack.stackRaw L vs h = .ok (v, h')) : Calm h o v h' := by
  unfold Iop.stack.stackRaw at e
  split at e
  · split at e
    · split at e
      · have := calm_placed (base := none) (r := .ok _) e
        exact this.mono (fun b hb => by obtain ⟨a, ha, -⟩ := hb; cases ha)
      · cases e
    · cases e
  · cases e

theorem calm_stack {L : Lib S} {as_ : List (Arg S)} {h h' : Heap S} {v : Value S} (o : Nat → Prop)
    (e : Iop.stack L as_ h = .ok (v, h')) : Calm h o v h' := by
  unfold Iop.stack at e
  split at e
  · cases e
  · split at e
    · exact calm_stackRaw o e
    · cases e
  · split at e
    · exact calm_stackRaw o e
    · cases e

theorem calm_copy (L : Lib S) (a : Arg S) (h : Heap S) :
    Calm h (bufOf a) (unwrap (Iop.copy L a h).1) (Iop.copy L a h).2 := by
  have same : ∀ v : Arg S, Calm h (bufOf v) (unwrap v) h := fun v =>
    ⟨⟨[], by simp⟩, fun r hr => Or.inl ⟨r, hr, rfl⟩⟩
  unfold Iop.copy
  split
  · split
    · refine ⟨⟨_, rfl⟩, fun r hr => Or.inr ?_⟩
      simp only [unwrap, Value.arr.injEq] at hr
      rw [← hr]
      simp
    · exact same a
  · exact same a

/-! ### writing -/

theorem store_length (b : List S) (is : List Nat) (vs : List S) : (store b is vs).length = b.length := by
  induction is generalizing b vs with
  | nil => simp [store]
  | cons i is ih =>
    cases vs with
    | nil => simp [store]
    | cons v vs => simp [store, ih]

theorem store_other (b : List S) (is : List Nat) (vs : List S) (j : Nat) (hj : j ∉ is) :
    (store b is vs).getD j default = b.getD j default := by
  induction is generalizing b vs with
  | nil => simp [store]
  | cons i is ih =>
    cases vs with
    | nil => simp [store]
    | cons v vs =>
      rw [List.mem_cons, not_or] at hj
      rw [store, ih _ _ hj.2]
      simp only [List.getD]
      rw [List.getElem?_set_ne (fun h => hj.1 h.symm)]

theorem store_at (b : List S) (is : List Nat) (vs : List S) (hn : is.Nodup) (hb : ∀ i ∈ is, i < b.length)
    (hl : is.length = vs.length) : is.map (fun i => (store b is vs).getD i default) = vs := by
  induction is generalizing b vs with
  | nil => cases vs with
    | nil => rfl
    | cons v vs => simp at hl
  | cons i is ih =>
    cases vs with
    | nil => simp at hl
    | cons v vs =>
      rw [List.nodup_cons] at hn
      rw [store, List.map_cons]
      congr 1
      · rw [store_other _ _ _ _ hn.1]
        have := hb i (by simp)
        simp [List.getD, List.getElem?_set, this]
      · refine ih _ _ hn.2 (fun j hj => ?_) (by simpa using hl)
        rw [List.length_set]
        exact hb j (by simp [hj])

theorem entries_write_other (h : Heap S) (x : Arr) (idx : List Nat) (data : List S) (z : Arr)
    (hz : ¬ (x.buf = z.buf ∧ ∃ i ∈ idx, i ∈ z.idx)) : entries (write h x.buf idx data) z = entries h z := by
  unfold entries write
  by_cases hb : x.buf = z.buf
  · apply List.map_congr_left
    intro i hi
    by_cases hlt : z.buf < h.length
    · have e : (h.set x.buf (store (h.getD x.buf []) idx data)).getD z.buf [] = store (h.getD x.buf []) idx data := by
        rw [hb]; simp [List.getD, List.getElem?_set, hlt]
      rw [e, store_other, hb]
      exact fun hi' => hz ⟨hb, i, hi', hi⟩
    · have e : h.set x.buf (store (h.getD x.buf []) idx data) = h := by
        rw [List.set_eq_of_length_le]
        rw [hb]; omega
      rw [e]
  · have e : (h.set x.buf (store (h.getD x.buf []) idx data)).getD z.buf [] = h.getD z.buf [] := by
      simp only [List.getD]
      rw [List.getElem?_set_ne hb]
    rw [e]

/-! ### one statement -/

/-- what any statement does to memory -/
structure StepFacts (L : Lib S) (s : State S) (i : Stmt S) (s' : State S) : Prop where
  grows : s.heap.length ≤ s'.heap.length
  keeps : ∀ z : Arr, z.buf < s.heap.length → (∀ x, target s i = some x → ¬ Overlap x z) →
    entries s'.heap z = entries s.heap z
  from_ : ∀ y r, unwrap (s'.env y) = .arr r →
    (∃ y' r', (y' = y ∨ y' ∈ stmtVars i) ∧ unwrap (s.env y') = .arr r' ∧ r'.buf = r.buf) ∨
      (s.heap.length ≤ r.buf ∧ r.buf < s'.heap.length)

theorem stepFacts_same (L : Lib S) (s : State S) (i : Stmt S) : StepFacts L s i s :=
  ⟨Nat.le_refl _, fun _ _ _ => rfl, fun y r hr => Or.inl ⟨y, r, Or.inl rfl, hr, rfl⟩⟩

/-- a statement that binds `x` to the result of a calm call on some of its variables -/
theorem stepFacts_calm (L : Lib S) (s : State S) (i : Stmt S) (x : Nat) (v : Arg S) (h' : Heap S) (o : Nat → Prop)
    (hc : Calm s.heap o (unwrap v) h') (ho : ∀ b, o b → ∃ a ∈ stmtVars i, bufOf (s.env a) b) :
    StepFacts L s i (s.bind x v h') := by
  obtain ⟨e, he⟩ := hc.grows
  refine ⟨?_, ?_, ?_⟩
  · simp [State.bind, he]
  · intro z hz _
    simp only [State.bind, he]
    unfold entries
    have : (s.heap ++ e).getD z.buf [] = s.heap.getD z.buf [] := by
      simp [List.getD, List.getElem?_append_left hz]
    rw [this]
  · intro y r hr
    simp only [State.bind] at hr
    by_cases hy : y = x
    · rw [if_pos hy] at hr
      rcases hc.from_ r hr with h | h
      · obtain ⟨a, ha, x', hx', hb⟩ := ho _ h
        exact Or.inl ⟨a, x', Or.inr ha, hx', hb⟩
      · exact Or.inr h
    · rw [if_neg hy] at hr
      exact Or.inl ⟨y, r, Or.inl rfl, hr, rfl⟩

/-- a write into the target -/
theorem stepFacts_write (L : Lib S) (s : State S) (i : Stmt S) (a : Nat) (x : Arr) (idx : List Nat) (data : List S)
    (env : Nat → Arg S) (ha : unwrap (s.env a) = .arr x) (hi : target s i = some x) (hidx : ∀ j ∈ idx, j ∈ x.idx)
    (henv : ∀ y r, unwrap (env y) = .arr r → unwrap (s.env y) = .arr r ∨ (y = a ∧ r = x)) :
    StepFacts L s i ⟨env, write s.heap x.buf idx data⟩ := by
  refine ⟨by simp [write], fun z hz hx => ?_, fun y r hr => ?_⟩
  · apply entries_write_other
    rintro ⟨hb, j, hj, hj'⟩
    exact hx x hi ⟨hb, j, hidx j hj, hj'⟩
  · rcases henv y r hr with h | ⟨h, h'⟩
    · exact Or.inl ⟨y, r, Or.inl rfl, h, rfl⟩
    · exact Or.inl ⟨a, x, Or.inl h.symm, ha, by rw [h']⟩

theorem target_mut (v : Arg S) (x : Arr) (hv : unwrap v = .arr x) (hm : x.kind.mutable = true) :
    target.mutArr v = some x := by
  unfold target.mutArr
  rw [hv]
  simp [hm]

theorem stepFacts_put (L : Lib S) (s : State S) (i : Stmt S) (x : Nat) (r : Py (Value S × Heap S)) (o : Nat → Prop)
    (hc : ∀ v h', r = .ok (v, h') → Calm s.heap o v h') (ho : ∀ b, o b → ∃ a ∈ stmtVars i, bufOf (s.env a) b) (s' : State S)
    (e : s.put x r = .ok s') : StepFacts L s i s' := by
  cases r with
  | error _ => simp [State.put] at e
  | ok p =>
    obtain ⟨v, h'⟩ := p
    simp only [State.put, Except.ok.injEq] at e
    rw [← e]
    exact stepFacts_calm L s i x (.raw v) h' o (hc v h' rfl) ho

theorem stepFacts_back (L : Lib S) (s : State S) (i : Stmt S) (a : Nat) (x : Arr) (data : Py (List S)) (expr : Py (Res S))
    (ha : unwrap (s.env a) = .arr x) (hi : target s i = target.mutArr (s.env a)) (s' : State S)
    (e : s.put a (assignBack x data expr s.heap) = .ok s') : StepFacts L s i s' := by
  by_cases hm : x.kind.mutable = true
  · simp only [assignBack, hm, if_true] at e
    cases data with
    | error _ => simp [State.put] at e
    | ok data =>
      simp only [State.put, Except.ok.injEq] at e
      rw [← e]
      refine stepFacts_write L s i a x x.idx data _ ha (by rw [hi]; exact target_mut _ _ ha hm) (fun _ h => h) ?_
      intro y r hr
      by_cases hy : y = a
      · simp only [hy, if_true, unwrap, Value.arr.injEq] at hr
        exact Or.inr ⟨hy, hr.symm⟩
      · simp only [hy, if_false] at hr
        exact Or.inl hr
  · simp only [assignBack, hm, if_false] at e
    exact stepFacts_put L s i a _ (fun _ => False) (fun v h' he => calm_none _ he) (fun b hb => hb.elim) s' e

theorem stepFacts (L : Lib S) (s : State S) (i : Stmt S) : StepFacts L s i (next L s i) := by
  unfold next
  cases e : exec L s i with
  | error _ => exact stepFacts_same L s i
  | ok s' =>
    simp only
    cases i with
    | arith x op a b =>
      exact stepFacts_put L s _ x _ (fun _ => False) (fun v h' he => calm_binop _ he) (fun b hb => hb.elim) s' e
    | inplace a op b =>
      simp only [exec, iop] at e
      split at e
      · rename_i x hx
        split at e
        · exact stepFacts_back L s _ a x _ _ hx rfl s' e
        · simp [State.put] at e
      · simp [State.put] at e
    | inpow a p =>
      simp only [exec, ipow] at e
      split at e
      · rename_i x hx
        split at e
        · exact stepFacts_back L s _ a x _ _ hx rfl s' e
        · simp [State.put] at e
      · simp [State.put] at e
    | apply x f args a =>
      exact stepFacts_put L s _ x _ (bufOf (s.env a)) (fun v h' he => calm_unary he)
        (fun b hb => ⟨a, by simp [stmtVars], hb⟩) s' e
    | maxi x a b =>
      exact stepFacts_put L s _ x _ (fun _ => False) (fun v h' he => calm_maximum _ he) (fun b hb => hb.elim) s' e
    | get x a key =>
      exact stepFacts_put L s _ x _ (bufOf (s.env a)) (fun v h' he => calm_getItem he)
        (fun b hb => ⟨a, by simp [stmtVars], hb⟩) s' e
    | set a pos b =>
      simp only [exec, setItem] at e
      cases hx : unwrap (s.env a) with
      | num v => simp [hx] at e
      | foreign => simp [hx] at e
      | arr x =>
        simp only [hx] at e
        by_cases hc : x.kind.fw = .numpy ∨ (L.installed .torch = true ∧ x.kind.fw = .torch ∧
            isTy .torch (unwrap (s.env b)) = true)
        · rw [if_pos hc] at e
          by_cases hm : x.kind.mutable = true
          · rw [if_pos hm] at e
            cases hf : L.fill pos.length (look s.heap (unwrap (s.env b))) with
            | error _ => simp [hf] at e
            | ok data =>
              simp only [hf, Except.ok.injEq] at e
              rw [← e]
              refine stepFacts_write L s _ a x _ data _ hx (target_mut _ _ hx hm) ?_ (fun y r hr => Or.inl hr)
              intro j hj
              rw [List.mem_filterMap] at hj
              obtain ⟨k, -, hk⟩ := hj
              exact List.mem_of_getElem? hk
          · rw [if_neg hm] at e
            simp at e
        · rw [if_neg hc] at e
          split at e
          · rename_i he
            split at he <;> cases he
          · cases e
    | copy x a =>
      simp only [exec, Except.ok.injEq] at e
      rw [← e]
      exact stepFacts_calm L s _ x _ _ _ (calm_copy L (s.env a) s.heap) (fun b hb => ⟨a, by simp [stmtVars], hb⟩)
    | bind x a =>
      simp only [exec, Except.ok.injEq] at e
      rw [← e]
      exact stepFacts_calm L s _ x _ _ (bufOf (s.env a)) ⟨⟨[], by simp⟩, fun r hr => Or.inl ⟨r, hr, rfl⟩⟩
        (fun b hb => ⟨a, by simp [stmtVars], hb⟩)
    | wrap x a =>
      simp only [exec, Except.ok.injEq] at e
      rw [← e]
      exact stepFacts_calm L s _ x _ _ (bufOf (s.env a)) ⟨⟨[], by simp⟩, fun r hr => Or.inl ⟨r, hr, rfl⟩⟩
        (fun b hb => ⟨a, by simp [stmtVars], hb⟩)
    | conv x a f d t =>
      exact stepFacts_put L s _ x _ (bufOf (s.env a)) (fun v h' he => calm_toArray he)
        (fun b hb => ⟨a, by simp [stmtVars], hb⟩) s' e
    | stack x as_ =>
      exact stepFacts_put L s _ x _ (fun _ => False) (fun v h' he => calm_stack _ he) (fun b hb => hb.elim) s' e

theorem env_put (s : State S) (a : Nat) (r : Py (Value S × Heap S)) (s' : State S) (e : s.put a r = .ok s') (x : Nat)
    (hx : x ≠ a) : s'.env x = s.env x := by
  cases r with
  | error _ => simp [State.put] at e
  | ok p =>
    simp only [State.put, Except.ok.injEq] at e
    rw [← e]
    simp [State.bind, hx]

/-- a statement binds only its own variables -/
theorem env_other (L : Lib S) (s : State S) (i : Stmt S) (x : Nat) (hx : x ∉ stmtVars i) : (next L s i).env x = s.env x := by
  unfold next
  cases e : exec L s i with
  | error _ => rfl
  | ok s' =>
    simp only
    cases i <;> simp only [stmtVars, List.mem_cons, not_or] at hx
    case set a pos b =>
      simp only [exec] at e
      split at e
      · cases e; rfl
      · cases e
    case copy y a => simp only [exec, Except.ok.injEq] at e; rw [← e]; simp [State.bind, hx.1]
    case bind y a => simp only [exec, Except.ok.injEq] at e; rw [← e]; simp [State.bind, hx.1]
    case wrap y a => simp only [exec, Except.ok.injEq] at e; rw [← e]; simp [State.bind, hx.1]
    all_goals exact env_put s _ _ s' e x hx.1

theorem target_var (s : State S) (i : Stmt S) (t : Arr) (ht : target s i = some t) :
    ∃ y ∈ stmtVars i, unwrap (s.env y) = .arr t := by
  have key : ∀ a, target.mutArr (s.env a) = some t → unwrap (s.env a) = .arr t := by
    intro a h
    unfold target.mutArr at h
    split at h
    · rename_i x hx
      split at h
      · cases h; exact hx
      · cases h
    · cases h
  cases i <;> simp only [target, reduceCtorEq] at ht
  case inplace a op b => exact ⟨a, by simp [stmtVars], key a ht⟩
  case inpow a p => exact ⟨a, by simp [stmtVars], key a ht⟩
  case set a pos b => exact ⟨a, by simp [stmtVars], key a ht⟩

/-! ### theorems -/

/-- **C101.** In any program of arithmetic, in-place operations, assignments to items, views, copies, conversions and stacks, an
array keeps its entries unless some in-place statement was executed on an array that shares an entry with it. In particular
`x = a + b`, `iop.*` functions and conversions never change an array. -/
theorem C101_only_targets_change (L : Lib S) (z : Arr) (p : List (Stmt S)) : ∀ s : State S, z.buf < s.heap.length →
    LeftAlone L z s p → entries (run L s p).heap z = entries s.heap z := by
  induction p with
  | nil => intro s _ _; rfl
  | cons i p ih =>
    intro s hz hp
    have f := stepFacts L s i
    have := ih (next L s i) (Nat.lt_of_lt_of_le hz f.grows) hp.2
    unfold run at this ⊢
    rw [List.foldl_cons, this]
    exact f.keeps z hz hp.1

/-- if no other variable refers to the buffer of `c`, programs that do not mention `x` do not change it -/
theorem isolated (L : Lib S) (x : Nat) (c : Arr) (p : List (Stmt S)) (hp : ∀ i ∈ p, x ∉ stmtVars i) : ∀ s : State S,
    c.buf < s.heap.length → (∀ y r', y ≠ x → unwrap (s.env y) = .arr r' → r'.buf ≠ c.buf) →
    (run L s p).env x = s.env x ∧ entries (run L s p).heap c = entries s.heap c := by
  induction p with
  | nil => intro s _ _; exact ⟨rfl, rfl⟩
  | cons i p ih =>
    intro s hlen hother
    have f := stepFacts L s i
    have hx : x ∉ stmtVars i := hp i (by simp)
    have hk : entries (next L s i).heap c = entries s.heap c := by
      refine f.keeps c hlen fun t ht ho => ?_
      obtain ⟨y, hy, hyt⟩ := target_var s i t ht
      exact hother y t (by rintro rfl; exact hx hy) hyt ho.1
    have := ih (fun j hj => hp j (by simp [hj])) (next L s i) (Nat.lt_of_lt_of_le hlen f.grows) ?_
    · rw [← hk, ← env_other L s i x hx]
      exact this
    · intro y r' hy hr'
      rcases f.from_ y r' hr' with ⟨y', r'', hy', hr'', hb⟩ | h
      · rw [← hb]
        refine hother y' r'' ?_ hr''
        rcases hy' with h | h
        · rw [h]; exact hy
        · rintro rfl; exact hx h
      · omega

/-- the header of a copy in buffer `b` (a NumPy scalar becomes an array) -/
def copied (r : Arr) (b : Nat) : Arr :=
  { r with kind := if r.kind = .npScalar then .ndarray else r.kind, buf := b, idx := List.range r.idx.length }

/-- **C101.** `iop.copy` protects: after `x = iop.copy(a)` no program that does not mention `x` changes the entries of `x`,
whatever it does to `a` and to arrays derived from it. -/
theorem C101_copy_independent (L : Lib S) (s : State S) (hs : Sound s) (x a : Nat) (r : Arr) (ha : unwrap (s.env a) = .arr r)
    (hi : CanUse L r) (p : List (Stmt S)) (hp : ∀ i ∈ p, x ∉ stmtVars i) :
    ∃ c : Arr, (run L (next L s (.copy x a)) p).env x = .raw (.arr c) ∧
      c.kind = (if r.kind = .npScalar then .ndarray else r.kind) ∧ c.shape = r.shape ∧
      entries (run L (next L s (.copy x a)) p).heap c = entries s.heap r := by
  have hi' : r.kind.fw = .numpy ∨ L.installed r.kind.fw = true := hi
  have e : next L s (.copy x a) = s.bind x
      (.raw (.arr (copied r s.heap.length))) (s.heap ++ [entries s.heap r]) := by
    simp only [next, exec, Iop.copy, ha, if_pos hi', copied]
  have hr := read_new s.heap (entries s.heap r) (if r.kind = .npScalar then .ndarray else r.kind) r.dev r.dtype r.shape
  rw [show (entries s.heap r).length = r.idx.length by simp [entries]] at hr
  have key := isolated L x (copied r s.heap.length) p hp (next L s (.copy x a))
    (by rw [e]; simp [State.bind, copied]) (by
      intro y r' hy hr'
      rw [e] at hr'
      simp only [State.bind, if_neg hy] at hr'
      have := hs y r' hr'
      simp only [copied]
      omega)
  refine ⟨(copied r s.heap.length), key.1.trans ?_, rfl, rfl, key.2.trans ?_⟩
  · rw [e]; simp [State.bind]
  · rw [e]; exact hr

/-- The libraries write entry by entry into arrays of floating point numbers. -/
structure WritesEntryWise (L : Lib S) (f : Op → S → S → S) : Prop where
  arrays : ∀ op k k' d t t' sh (x y : List S), k.fw = k'.fw → t ≠ .other → x.length = y.length →
    L.inpl op (.arr k d t sh x) (.arr k' d t' sh y) = .ok (List.zipWith (f op) x y)
  number : ∀ op k d t sh (x : List S) v, t ≠ .other → L.inpl op (.arr k d t sh x) (.num v) = .ok (x.map (f op · v))

/-- an array whose entries are at different places that exist -/
def Proper (h : Heap S) (x : Arr) : Prop := x.idx.Nodup ∧ ∀ i ∈ x.idx, i < (h.getD x.buf []).length

theorem entries_write_self (h : Heap S) (x : Arr) (data : List S) (hb : x.buf < h.length) (hx : Proper h x)
    (hl : data.length = x.idx.length) : entries (write h x.buf x.idx data) x = data := by
  unfold entries write
  have e : (h.set x.buf (store (h.getD x.buf []) x.idx data)).getD x.buf [] = store (h.getD x.buf []) x.idx data := by
    simp [List.getD, List.getElem?_set, hb]
  rw [e]
  exact store_at _ _ _ hx.1 hx.2 hl.symm

/-- **C101.** `a ∘= b` on a NumPy array or a PyTorch tensor writes into the array itself: `a` is still bound to the same object
(without the wrapper it may have had), and every other name of that object shows the new entries. -/
theorem C101_inplace_seen_by_all (L : Lib S) (f : Op → S → S → S) (hL : WritesEntryWise L f) (s : State S) (hs : Sound s)
    (op : Op) (a b : Nat) (x y : Arr) (ha : unwrap (s.env a) = .arr x) (hb : unwrap (s.env b) = .arr y)
    (hm : x.kind.mutable = true) (hi : CanUse L x) (hx : Proper s.heap x) (hf : x.kind.fw = y.kind.fw) (ht : x.dtype ≠ .other)
    (hd : x.dev = y.dev) (hsh : x.shape = y.shape) (hl : x.idx.length = y.idx.length) :
    (next L s (.inplace a op b)).env a = .raw (.arr x) ∧
      (∀ c, c ≠ a → (next L s (.inplace a op b)).env c = s.env c) ∧
      ∀ c, unwrap (s.env c) = .arr x → unwrap ((next L s (.inplace a op b)).env c) = .arr x ∧
        entries (next L s (.inplace a op b)).heap x = List.zipWith (f op) (entries s.heap x) (entries s.heap y) := by
  have hlen : (entries s.heap x).length = (entries s.heap y).length := by simp [entries, hl]
  have hcond : x.kind.fw = .numpy ∨ (L.installed x.kind.fw = true ∧ isTy x.kind.fw (unwrap (s.env b)) = true) := by
    rcases hi with h | h
    · exact Or.inl h
    · refine Or.inr ⟨h, ?_⟩
      rw [hb, hf]
      exact isTy_own y
  have hin := hL.arrays op x.kind y.kind x.dev x.dtype y.dtype x.shape (entries s.heap x) (entries s.heap y) hf ht hlen
  have e : next L s (.inplace a op b) = s.bind a (.raw (.arr x))
      (write s.heap x.buf x.idx (List.zipWith (f op) (entries s.heap x) (entries s.heap y))) := by
    rw [hb] at hcond
    simp only [next, exec, iop, ha, hb, if_pos hcond, if_true, assignBack, hm, look, ← hd, ← hsh, hin, State.put]
  rw [e]
  have hw := entries_write_self s.heap x (List.zipWith (f op) (entries s.heap x) (entries s.heap y)) (hs a x ha) hx
    (by simp [entries, hl])
  refine ⟨by simp [State.bind], fun c hc => by simp [State.bind, hc], fun c hc => ⟨?_, hw⟩⟩
  by_cases h : c = a
  · simp [State.bind, h, unwrap]
  · simp only [State.bind, if_neg h]; exact hc

/-- **C101.** The same statement on a JAX array, a TensorFlow tensor or a NumPy scalar changes no array at all: `a` is bound to
the result of `a ∘ b` in new memory, and every other name keeps its entries. -/
theorem C101_inplace_immutable (L : Lib S) (s : State S) (op : Op) (a b : Nat) (x : Arr) (ha : unwrap (s.env a) = .arr x)
    (hm : x.kind.mutable = false) (z : Arr) (hz : z.buf < s.heap.length) :
    entries (next L s (.inplace a op b)).heap z = entries s.heap z ∧
      (∀ c, c ≠ a → (next L s (.inplace a op b)).env c = s.env c) ∧
      (∀ s', exec L s (.inplace a op b) = .ok s' → ∃ r, L.pyOp op (look s.heap (.arr x)) (look s.heap (unwrap (s.env b))) = .ok r ∧
        s'.env a = .raw (place s.heap none r).1) := by
  refine ⟨(stepFacts L s (.inplace a op b)).keeps z hz ?_, fun c hc => ?_, ?_⟩
  · intro t ht
    simp [target, target.mutArr, ha, hm] at ht
  · unfold next
    cases e : exec L s (.inplace a op b) with
    | error _ => rfl
    | ok s' => exact env_put s a _ s' e c hc
  · intro s' e
    simp only [exec, iop, ha] at e
    split at e
    · simp only [assignBack, hm, Bool.false_eq_true, if_false] at e
      cases hr : L.pyOp op (look s.heap (.arr x)) (look s.heap (unwrap (s.env b))) with
      | error _ => simp [hr, placed, State.put] at e
      | ok r =>
        simp only [hr, placed, State.put, Except.ok.injEq] at e
        exact ⟨r, rfl, by rw [← e]; simp [State.bind]⟩
    · simp [State.put] at e

/-- **C101.** The result of `x = a ∘ b` shares memory with nothing: no later program that does not mention `x` changes it. -/
theorem C101_result_independent (L : Lib S) (s : State S) (hs : Sound s) (x : Nat) (op : Op) (a b : Nat) (r : Arr)
    (s1 : State S) (e : exec L s (.arith x op a b) = .ok s1) (hr : s1.env x = .raw (.arr r)) (p : List (Stmt S))
    (hp : ∀ i ∈ p, x ∉ stmtVars i) :
    (run L s1 p).env x = .raw (.arr r) ∧ entries (run L s1 p).heap r = entries s1.heap r := by
  simp only [exec] at e
  cases hb : binop L op (s.env a) (s.env b) s.heap with
  | error _ => rw [hb] at e; simp [State.put] at e
  | ok out =>
    obtain ⟨v, h'⟩ := out
    rw [hb] at e
    simp only [State.put, Except.ok.injEq] at e
    have hc := calm_binop (fun _ => False) hb
    have hv : v = .arr r := by
      rw [← e] at hr
      simpa [State.bind] using hr
    have hr2 := (hc.from_ r hv).resolve_left id
    have key := isolated L x r p hp s1 (by rw [← e]; exact hr2.2) (by
      intro y r' hy hr'
      rw [← e] at hr'
      simp only [State.bind, if_neg hy] at hr'
      have := hs y r' hr'
      omega)
    exact ⟨key.1.trans hr, key.2⟩

/-! ### examples -/

theorem intLib_writes : WritesEntryWise intLib intLib.intOp where
  arrays := fun op k k' d t t' sh x y _ _ _ => rfl
  number := fun op k d t sh x v _ => rfl

/-- variable 0 is a tensor `[7, 9]` in a wrapper, variable 1 another name of it, variable 2 the tensor `[1, 2]` -/
def twoNames : State Int where
  env := fun y => if y = 0 then .wrap (.arr tens) else if y = 1 then .raw (.arr tens) else .raw (.arr tens2)
  heap := heap2

theorem twoNames_sound : Sound twoNames := by
  intro y r hr
  simp only [twoNames] at hr ⊢
  split at hr
  · cases hr; decide
  · split at hr
    · cases hr; decide
    · cases hr; decide

/-- `v0 += v2` is visible through `v1`, and `v0` has lost its wrapper -/
example : entries (next intLib twoNames (.inplace 0 .add 2)).heap tens = [8, 11] ∧
    (next intLib twoNames (.inplace 0 .add 2)).env 0 = .raw (.arr tens) := by
  have h := C101_inplace_seen_by_all intLib _ intLib_writes twoNames twoNames_sound .add 0 2 tens tens2 rfl rfl rfl (Or.inr rfl)
    ⟨by decide, by decide⟩ rfl (fun h => by cases h) rfl rfl rfl
  exact ⟨(h.2.2 1 rfl).2, h.1⟩
/-- after `v3 = iop.copy(v1)`, changing the original in place does not reach the copy -/
example : ∃ c : Arr, (run intLib (next intLib twoNames (.copy 3 1)) [.inplace 0 .add 2, .set 1 [0] 2]).env 3 = .raw (.arr c) ∧
    entries (run intLib (next intLib twoNames (.copy 3 1)) [.inplace 0 .add 2, .set 1 [0] 2]).heap c = [7, 9] := by
  obtain ⟨c, h1, -, -, h2⟩ := C101_copy_independent intLib twoNames twoNames_sound 3 1 tens rfl (Or.inr rfl)
    [.inplace 0 .add 2, .set 1 [0] 2] (by simp [stmtVars])
  exact ⟨c, h1, h2⟩
/-- the second entry of a tensor is not touched by writing to a view of the first one -/
example : LeftAlone intLib ⟨.torchTensor, .cpu, .f32, [1], 0, [1]⟩ twoNames [.get 5 0 [0], .inplace 5 .add 5] := by
  refine ⟨fun x h => by simp [target] at h, fun x h => ?_, trivial⟩
  have : target (next intLib twoNames (.get 5 0 [0])) (.inplace 5 .add 5) =
      some ⟨.torchTensor, .cpu, .f32, [1], 0, [0]⟩ := by decide
  rw [this] at h
  cases h
  rintro ⟨-, i, hi, hi'⟩
  simp at hi hi'
  omega
/-- a JAX array is replaced, the other name keeps the old entries -/
example : entries (next intLib ⟨fun y => .raw (.arr ⟨.jaxArray, .cpu, .f32, [2], y % 2, [0, 1]⟩), heap2⟩ (.inplace 0 .add 1)).heap
    ⟨.jaxArray, .cpu, .f32, [2], 0, [0, 1]⟩ = [7, 9] :=
  (C101_inplace_immutable intLib _ .add 0 1 ⟨.jaxArray, .cpu, .f32, [2], 0, [0, 1]⟩ rfl rfl _ (by decide)).1

end Verif.Props
