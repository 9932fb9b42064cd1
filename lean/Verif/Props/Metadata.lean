import Verif.Model.Metadata
import Mathlib.Tactic.Ring
set_option linter.unusedSectionVars false
/-!
# C132: what users add to the metadata, and what resumes count there
-/
namespace Verif.Props
open Verif Meta

variable {J : Type}

/-- SPEC: the value `dict.update(e)` leaves for key `k`, if `e` has that key (the last one) -/
def givenValue (e : List (String × J)) (k : String) : Option J := PyDict.lookupL k e.reverse

/-- SPEC: the value stored for `k` in `benchmark_metadata` -/
def noteOf (m : Content J) (k : String) : Option J := (m.bench.getD PyDict.empty).get? k

/-- SPEC: the keys under which `resume_benchmark` keeps its counters -/
def CounterKey (k : String) : Prop := k = "increased_trials" ∨ k = "increased_iterations"

instance (k : String) : Decidable (CounterKey k) := by unfold CounterKey; infer_instance

/-- SPEC: entries that can be written to JSON and do not use the names of the counters -/
def HarmlessNotes (C : Codec J) (e : List (String × J)) : Prop := ∀ kv ∈ e, C.enc kv.2 ≠ none ∧ ¬ CounterKey kv.1

/-- the content as it is read back from a file written by `_save_metadata` -/
def StoredContent (C : Codec J) (m : Content J) : Prop := ∀ b, m.bench = some b → encEntries C b.entries = some b.entries

/-! ### dictionaries -/

theorem encEntries_lookup (C : Codec J) (l l' : List (String × J)) (h : encEntries C l = some l') (k : String) :
    PyDict.lookupL k l' = (PyDict.lookupL k l).bind C.enc := by
  induction l generalizing l' with
  | nil => simp only [encEntries, Option.some.injEq] at h; subst h; rfl
  | cons e t ih =>
    obtain ⟨k', v⟩ := e
    simp only [encEntries] at h
    cases hv : C.enc v with
    | none => rw [hv] at h; cases h
    | some u =>
      rw [hv] at h
      cases ht : encEntries C t with
      | none => rw [ht] at h; cases h
      | some t' =>
        rw [ht] at h
        simp only [Option.some.injEq] at h
        subst h
        simp only [PyDict.lookupL]
        split
        · exact hv.symm
        · exact ih t' ht

theorem encEntries_idem (C : Codec J) (l l' : List (String × J)) (h : encEntries C l = some l') : encEntries C l' = some l' := by
  induction l generalizing l' with
  | nil => simp only [encEntries, Option.some.injEq] at h; subst h; rfl
  | cons e t ih =>
    obtain ⟨k', v⟩ := e
    simp only [encEntries] at h
    cases hv : C.enc v with
    | none => rw [hv] at h; cases h
    | some u =>
      rw [hv] at h
      cases ht : encEntries C t with
      | none => rw [ht] at h; cases h
      | some t' =>
        rw [ht] at h
        simp only [Option.some.injEq] at h
        subst h
        simp only [encEntries, C.enc_enc v u hv, ih t' ht]

theorem encEntries_some (C : Codec J) (l : List (String × J)) (h : ∀ kv ∈ l, C.enc kv.2 ≠ none) : ∃ l', encEntries C l = some l' := by
  induction l with
  | nil => exact ⟨[], rfl⟩
  | cons e t ih =>
    obtain ⟨k', v⟩ := e
    obtain ⟨u, hu⟩ := Option.ne_none_iff_exists'.1 (h (k', v) (by simp))
    obtain ⟨t', ht⟩ := ih (fun kv hkv => h kv (by simp [hkv]))
    exact ⟨(k', u) :: t', by simp only [encEntries, hu, ht]⟩

theorem encEntries_mem (C : Codec J) (l l' : List (String × J)) (h : encEntries C l = some l') : ∀ kv ∈ l, C.enc kv.2 ≠ none := by
  induction l generalizing l' with
  | nil => intro kv hkv; cases hkv
  | cons e t ih =>
    obtain ⟨k', v⟩ := e
    simp only [encEntries] at h
    cases hv : C.enc v with
    | none => rw [hv] at h; cases h
    | some u =>
      rw [hv] at h
      cases ht : encEntries C t with
      | none => rw [ht] at h; cases h
      | some t' =>
        intro kv hkv
        rcases List.mem_cons.1 hkv with rfl | h'
        · rw [hv]; simp
        · exact ih t' ht kv h'

theorem setL_mem (k : String) (v : J) (l : List (String × J)) (kv : String × J) (h : kv ∈ PyDict.setL k v l) : kv.2 = v ∨ kv ∈ l := by
  induction l with
  | nil => simp only [PyDict.setL, List.mem_singleton] at h; exact Or.inl (by rw [h])
  | cons e t ih =>
    obtain ⟨a, b⟩ := e
    simp only [PyDict.setL] at h
    split at h
    · rcases List.mem_cons.1 h with rfl | h
      · exact Or.inl rfl
      · exact Or.inr (by simp [h])
    · rcases List.mem_cons.1 h with rfl | h
      · exact Or.inr (by simp)
      · rcases ih h with h | h
        · exact Or.inl h
        · exact Or.inr (by simp [h])

theorem update_mem (e : List (String × J)) (d : PyDict String J) (kv : String × J) (h : kv ∈ (Meta.update d e).entries) :
    kv ∈ d.entries ∨ ∃ k, (k, kv.2) ∈ e := by
  induction e generalizing d with
  | nil => exact Or.inl h
  | cons a t ih =>
    rcases ih (d.set a.1 a.2) h with h | ⟨k, h⟩
    · rcases setL_mem a.1 a.2 d.entries kv h with h | h
      · exact Or.inr ⟨a.1, by rw [h]; simp⟩
      · exact Or.inl h
    · exact Or.inr ⟨k, by simp [h]⟩

theorem lookup_append (k : String) (l l' : List (String × J)) :
    PyDict.lookupL k (l ++ l') = (PyDict.lookupL k l).or (PyDict.lookupL k l') := by
  induction l with
  | nil => rfl
  | cons e t ih =>
    obtain ⟨a, b⟩ := e
    simp only [List.cons_append, PyDict.lookupL]
    split
    · rfl
    · exact ih

theorem metaUpdate_get? (e : List (String × J)) (d : PyDict String J) (k : String) :
    (Meta.update d e).get? k = (givenValue e k).or (d.get? k) := by
  induction e generalizing d with
  | nil => rfl
  | cons a t ih =>
    obtain ⟨ka, va⟩ := a
    have h := ih (d.set ka va)
    rw [PyDict.get?_set] at h
    rw [show Meta.update d ((ka, va) :: t) = Meta.update (d.set ka va) t from rfl, h]
    simp only [givenValue, List.reverse_cons, lookup_append, PyDict.lookupL]
    cases PyDict.lookupL k t.reverse with
    | some v => rfl
    | none =>
      by_cases hk : k = ka
      · simp [hk]
      · simp [hk]

theorem lookup_mem (k : String) (v : J) (l : List (String × J)) (h : PyDict.lookupL k l = some v) : (k, v) ∈ l := by
  induction l with
  | nil => cases h
  | cons e t ih =>
    obtain ⟨a, b⟩ := e
    simp only [PyDict.lookupL] at h
    split at h
    · rename_i hk
      cases h; subst hk; simp
    · simp [ih h]

theorem givenValue_mem (e : List (String × J)) (k : String) (v : J) (h : givenValue e k = some v) : (k, v) ∈ e :=
  List.mem_reverse.1 (lookup_mem k v e.reverse h)

theorem stored_note (C : Codec J) (m : Content J) (h : StoredContent C m) (k : String) : (noteOf m k).bind C.enc = noteOf m k := by
  unfold noteOf
  cases hb : m.bench with
  | none => rfl
  | some b => exact (encEntries_lookup C b.entries b.entries (h b hb) k).symm

/-! ### appending -/

/-- A successful `append_metadata` changes only the entries it names, in the dictionary it returns and in the file; in the file the new
values are what JSON makes of them. -/
theorem C132_append (C : Codec J) (m : Content J) (hs : StoredContent C m) (e : List (String × J)) (he : ∀ kv ∈ e, C.enc kv.2 ≠ none) :
    ∃ m1 m2, Meta.append C e (some (some m)) = (some (some m2), .ok m1) ∧ StoredContent C m2 ∧
      (m1.nTrials = m.nTrials ∧ m1.algs = m.algs ∧ m1.seed = m.seed) ∧ (m2.nTrials = m.nTrials ∧ m2.algs = m.algs ∧ m2.seed = m.seed) ∧
      ∀ k, noteOf m1 k = (givenValue e k).or (noteOf m k) ∧ noteOf m2 k = ((givenValue e k).bind C.enc).or (noteOf m k) := by
  obtain ⟨d, hd⟩ : ∃ d, d = Meta.update (m.bench.getD PyDict.empty) e := ⟨_, rfl⟩
  obtain ⟨l, hl⟩ := encEntries_some C d.entries (by
    intro kv hkv
    rw [hd] at hkv
    rcases update_mem e _ kv hkv with h | ⟨k, h⟩
    · cases hb : m.bench with
      | none => rw [hb] at h; cases h
      | some b => rw [hb] at h; exact encEntries_mem C b.entries _ (hs b hb) kv h
    · exact he (k, kv.2) h)
  refine ⟨{ m with bench := some d }, { m with bench := some ⟨l⟩ }, ?_, ?_, ⟨rfl, rfl, rfl⟩, ⟨rfl, rfl, rfl⟩, fun k => ?_⟩
  · simp only [Meta.append, load, save, ← hd, hl]
  · intro b hb
    simp only [Option.some.injEq] at hb
    subst hb
    exact encEntries_idem C _ _ hl
  · have h1 : noteOf { m with bench := some d } k = (givenValue e k).or (noteOf m k) := by
      show d.get? k = _
      rw [hd]; exact metaUpdate_get? e _ k
    refine ⟨h1, ?_⟩
    have h2 : noteOf { m with bench := some ⟨l⟩ } k = (d.get? k).bind C.enc := encEntries_lookup C d.entries l hl k
    rw [h2, hd, metaUpdate_get?]
    cases hg : givenValue e k with
    | none => exact stored_note C m hs k
    | some v =>
      obtain ⟨u, hu⟩ := Option.ne_none_iff_exists'.1 (he _ (givenValue_mem e k v hg))
      simp [hu]

/-! ### histories -/

/-- SPEC: with `n` trials and base seed `seed` at the start, and `T` trials and `I` iterations added so far, what the resumes among `calls`
run: trials add up; iterations are added up too, but only used by resumes that add some themselves. -/
def expectedPlans (n : Int) (seed : Option Int) : Int → Int → List (Call J) → List (Py Plan)
  | _, _, [] => []
  | T, I, .append _ :: l => expectedPlans n seed T I l
  | T, I, .resume i t :: l => .ok ⟨n + (t + T), if i ≠ 0 then i + I else 0, seed⟩ :: expectedPlans n seed (t + T) (i + I) l

/-- SPEC: the user's value for key `k` after some calls, given the one before -/
def expectedNote (k : String) : Option J → List (Call J) → Option J
  | v, [] => v
  | v, .append e :: l => expectedNote k ((givenValue e k).or v) l
  | v, .resume _ _ :: l => expectedNote k v l

structure CountsAre (C : Codec J) (m : Content J) (n : Int) (seed : Option Int) (T I : Int) : Prop where
  stored : StoredContent C m
  trials : m.nTrials = some n
  seed_ : m.seed = seed
  addT : ∀ inc : Nat, total C m "increased_trials" inc = .ok (inc + T)
  addI : ∀ inc : Nat, total C m "increased_iterations" inc = .ok (inc + I)

theorem total_note (C : Codec J) (m m' : Content J) (key : String) (h : noteOf m' key = noteOf m key) (inc : Nat) :
    total C m' key inc = total C m key inc := by
  unfold noteOf at h
  unfold total
  rw [h]

theorem total_num (C : Codec J) (m : Content J) (key : String) (t : Int) (h : noteOf m key = some (C.num t)) (inc : Nat) :
    total C m key inc = .ok (inc + t) := by
  unfold noteOf at h
  unfold total
  rw [h]
  simp only [C.asInt_num]

/-- appending one number -/
theorem append_num (C : Codec J) (m : Content J) (hs : StoredContent C m) (key : String) (t : Int) :
    ∃ m1 m2, Meta.append C [(key, C.num t)] (some (some m)) = (some (some m2), .ok m1) ∧ StoredContent C m2 ∧
      (m1.nTrials = m.nTrials ∧ m1.algs = m.algs ∧ m1.seed = m.seed) ∧ (m2.nTrials = m.nTrials ∧ m2.algs = m.algs ∧ m2.seed = m.seed) ∧
      ∀ k, noteOf m1 k = (if k = key then some (C.num t) else noteOf m k) ∧ noteOf m2 k = (if k = key then some (C.num t) else noteOf m k) := by
  obtain ⟨m1, m2, h1, h2, h3, h4, h5⟩ := C132_append C m hs [(key, C.num t)] (by
    intro kv hkv
    rw [List.mem_singleton.1 hkv, C.enc_num]
    simp)
  refine ⟨m1, m2, h1, h2, h3, h4, fun k => ?_⟩
  obtain ⟨a, b⟩ := h5 k
  rw [a, b]
  by_cases hk : k = key
  · simp [givenValue, PyDict.lookupL, hk, C.enc_num]
  · simp [givenValue, PyDict.lookupL, hk]

theorem resumeIterations_ok (C : Codec J) (i : Nat) (N n : Int) (seed : Option Int) (T I : Int) (m m' : Content J) (hm : m.seed = seed)
    (hI : ∀ inc : Nat, total C m "increased_iterations" inc = .ok (inc + I)) (h : CountsAre C m' n seed T I) :
    ∃ m2, resumeIterations C i N m (some (some m')) = (some (some m2), .ok ⟨N, if i ≠ 0 then i + I else 0, seed⟩) ∧
      CountsAre C m2 n seed T (i + I) ∧ ∀ k, ¬ CounterKey k → noteOf m2 k = noteOf m' k := by
  unfold resumeIterations
  rw [hI]
  dsimp only
  by_cases hi : i = 0
  · subst hi
    refine ⟨m', by simp [hm], ?_, fun _ _ => rfl⟩
    rw [Nat.cast_zero, zero_add]
    exact h
  · obtain ⟨m1, m2, h1, h2, h3, h4, h5⟩ := append_num C m' h.stored "increased_iterations" (i + I)
    rw [if_pos hi, if_pos hi, h1]
    refine ⟨m2, by simp only [h3.2.2, h.seed_], ⟨h2, h4.1.trans h.trials, h4.2.2.trans h.seed_, ?_, ?_⟩, ?_⟩
    · intro inc
      rw [total_note C m' m2 _ (by rw [(h5 _).2, if_neg (by decide)]), h.addT]
    · exact total_num C m2 _ _ (by rw [(h5 _).2, if_pos rfl])
    · intro k hk
      rw [(h5 k).2, if_neg (fun e => hk (Or.inr e))]

theorem resume_ok (C : Codec J) (i t : Nat) (n : Int) (seed : Option Int) (T I : Int) (m : Content J) (h : CountsAre C m n seed T I) :
    ∃ m2, Meta.resume C i t (some (some m)) = (some (some m2), .ok ⟨n + (t + T), if i ≠ 0 then i + I else 0, seed⟩) ∧
      CountsAre C m2 n seed (t + T) (i + I) ∧ ∀ k, ¬ CounterKey k → noteOf m2 k = noteOf m k := by
  simp only [Meta.resume, load, h.trials, h.addT]
  by_cases ht : t = 0
  · subst ht
    rw [if_neg (by simp), Nat.cast_zero, zero_add]
    exact resumeIterations_ok C i _ n seed T I m m h.seed_ h.addI h
  · obtain ⟨m1, m2, h1, h2, h3, h4, h5⟩ := append_num C m h.stored "increased_trials" (t + T)
    rw [if_pos ht, h1]
    have hI : ∀ x : Content J, (noteOf x "increased_iterations" = noteOf m "increased_iterations") → ∀ inc : Nat,
        total C x "increased_iterations" inc = .ok (inc + I) := fun x hx inc => by rw [total_note C m x _ hx, h.addI]
    obtain ⟨m3, a, b, c⟩ := resumeIterations_ok C i (n + (t + T)) n seed (t + T) I m1 m2 (h3.2.2.trans h.seed_)
      (hI m1 (by rw [(h5 _).1, if_neg (by decide)])) ⟨h2, h4.1.trans h.trials, h4.2.2.trans h.seed_,
        total_num C m2 _ _ (by rw [(h5 _).2, if_pos rfl]), hI m2 (by rw [(h5 _).2, if_neg (by decide)])⟩
    refine ⟨m3, a, b, fun k hk => ?_⟩
    rw [c k hk, (h5 k).2, if_neg (fun e => hk (Or.inl e))]

theorem append_harmless (C : Codec J) (e : List (String × J)) (he : HarmlessNotes C e) (n : Int) (seed : Option Int) (T I : Int)
    (m : Content J) (h : CountsAre C m n seed T I) :
    ∃ m2, (Meta.append C e (some (some m))).1 = some (some m2) ∧ CountsAre C m2 n seed T I ∧
      ∀ k, noteOf m2 k = ((givenValue e k).bind C.enc).or (noteOf m k) := by
  obtain ⟨m1, m2, h1, h2, _, h4, h5⟩ := C132_append C m h.stored e (fun kv hkv => (he kv hkv).1)
  have hc : ∀ k, CounterKey k → noteOf m2 k = noteOf m k := by
    intro k hk
    rw [(h5 k).2]
    cases hg : givenValue e k with
    | none => rfl
    | some v => exact absurd hk (he _ (givenValue_mem e k v hg)).2
  refine ⟨m2, by rw [h1], ⟨h2, h4.1.trans h.trials, h4.2.2.trans h.seed_, fun inc => ?_, fun inc => ?_⟩, fun k => (h5 k).2⟩
  · rw [total_note C m m2 _ (hc _ (Or.inl rfl)), h.addT]
  · rw [total_note C m m2 _ (hc _ (Or.inr rfl)), h.addI]

/-- the file after some calls with harmless entries -/
theorem history (C : Codec J) (calls : List (Call J)) (hh : ∀ e, Call.append e ∈ calls → HarmlessNotes C e) (n : Int) (seed : Option Int)
    (T I : Int) (m : Content J) (h : CountsAre C m n seed T I) (w : String → Option J) (hw : ∀ k, ¬ CounterKey k → noteOf m k = (w k).bind C.enc) :
    plans C (some (some m)) calls = expectedPlans n seed T I calls ∧
    ∃ m', Meta.after C (some (some m)) calls = some (some m') ∧ ∀ k, ¬ CounterKey k → noteOf m' k = (expectedNote k (w k) calls).bind C.enc := by
  induction calls generalizing m T I w with
  | nil => exact ⟨rfl, m, rfl, hw⟩
  | cons c l ih =>
    have hl : ∀ e, Call.append e ∈ l → HarmlessNotes C e := fun e he => hh e (by simp [he])
    cases c with
    | append e =>
      have he := hh e (by simp)
      obtain ⟨m2, a, b, c⟩ := append_harmless C e he n seed T I m h
      simp only [plans, Meta.after, expectedPlans, expectedNote, a]
      refine ih hl T I m2 b (fun k => (givenValue e k).or (w k)) (fun k hk => ?_)
      rw [c k, hw k hk]
      cases hg : givenValue e k with
      | none => rfl
      | some v =>
        obtain ⟨u, hu⟩ := Option.ne_none_iff_exists'.1 (he _ (givenValue_mem e k v hg)).1
        simp [hu]
    | resume i t =>
      obtain ⟨m2, a, b, c⟩ := resume_ok C i t n seed T I m h
      simp only [plans, Meta.after, expectedPlans, expectedNote, a]
      obtain ⟨p, q⟩ := ih hl (t + T) (i + I) m2 b w (fun k hk => (c k hk).trans (hw k hk))
      exact ⟨by rw [p], q⟩

/-- However a user's entries (harmless ones) are added before and between any resumes, the resumes run what they would run without them, and
the user finds every entry as last written (through JSON). -/
theorem C132_history (C : Codec J) (n : Int) (algs : J) (seed : Option Int) (notes : Option (List (String × J)))
    (hn : HarmlessNotes C (notes.getD [])) (hk : ((notes.getD []).map Prod.fst).Nodup) (calls : List (Call J))
    (hh : ∀ e, Call.append e ∈ calls → HarmlessNotes C e) :
    (start C n algs seed notes).2 = .ok () ∧
    plans C (start C n algs seed notes).1 calls = expectedPlans n seed 0 0 calls ∧
    ∃ m, Meta.after C (start C n algs seed notes).1 calls = some (some m) ∧
      ∀ k, ¬ CounterKey k → noteOf m k = (expectedNote k (givenValue (notes.getD []) k) calls).bind C.enc := by
  have nodup_rev : ∀ (l : List (String × J)), (l.map Prod.fst).Nodup → ∀ k, PyDict.lookupL k l = PyDict.lookupL k l.reverse := by
    intro l
    induction l with
    | nil => intro _ _; rfl
    | cons a t ih =>
      intro hnd k
      obtain ⟨ka, va⟩ := a
      rw [List.map_cons, List.nodup_cons] at hnd
      rw [List.reverse_cons, lookup_append, ← ih hnd.2 k]
      simp only [PyDict.lookupL]
      by_cases hka : k = ka
      · cases hl : PyDict.lookupL k t with
        | none => simp [hka]
        | some v =>
          refine absurd ?_ hnd.1
          rw [← hka]
          exact List.mem_map.2 ⟨(k, v), lookup_mem k v t hl, rfl⟩
      · cases PyDict.lookupL k t <;> simp [hka]
  cases notes with
  | none =>
    obtain ⟨m, hm⟩ : ∃ m : Content J, m = ⟨some n, some algs, seed, none⟩ := ⟨_, rfl⟩
    have e : start C n algs seed none = (some (some m), .ok ()) := by rw [hm]; rfl
    rw [e]
    refine ⟨rfl, history C calls hh n seed 0 0 m ⟨?_, by rw [hm], by rw [hm], ?_, ?_⟩ (fun k => givenValue [] k) ?_⟩
    · intro b hb; rw [hm] at hb; cases hb
    · intro inc; rw [hm]; simp [total, PyDict.empty, PyDict.get?, PyDict.lookupL]
    · intro inc; rw [hm]; simp [total, PyDict.empty, PyDict.get?, PyDict.lookupL]
    · intro k _; rw [hm]; rfl
  | some l =>
    obtain ⟨l', hl'⟩ := encEntries_some C l (fun kv hkv => (hn kv hkv).1)
    obtain ⟨m, hm⟩ : ∃ m : Content J, m = ⟨some n, some algs, seed, some ⟨l'⟩⟩ := ⟨_, rfl⟩
    have e : start C n algs seed (some l) = (some (some m), .ok ()) := by
      rw [hm]; simp only [start, save, Option.map_some, hl']
    have hg : ∀ k, noteOf m k = (givenValue l k).bind C.enc := by
      intro k
      rw [hm]
      show PyDict.lookupL k l' = _
      rw [encEntries_lookup C l l' hl', nodup_rev l hk]; rfl
    have hc : ∀ k, CounterKey k → ∀ inc : Nat, total C m k inc = .ok (inc + 0) := by
      intro k hk' inc
      have : noteOf m k = none := by
        rw [hg k]
        cases hv : givenValue l k with
        | none => rfl
        | some v => exact absurd hk' (hn _ (givenValue_mem l k v hv)).2
      unfold noteOf at this
      unfold total
      rw [this]
      simp
    rw [e]
    refine ⟨rfl, history C calls hh n seed 0 0 m ⟨?_, by rw [hm], by rw [hm], hc _ (Or.inl rfl), hc _ (Or.inr rfl)⟩ (fun k => givenValue l k) (fun k _ => hg k)⟩
    intro b hb
    rw [hm] at hb
    simp only [Option.some.injEq] at hb
    subst hb
    exact encEntries_idem C _ _ hl'

/-! ### what goes wrong -/

/-- The names of the counters are not protected: a user's entry `increased_trials` is taken for the number of trials added so far, so that a
plain resume runs other trials than the benchmark was started with. -/
theorem C132_name_clash_refuted (C : Codec J) (m : Content J) (hs : StoredContent C m) (n t : Int) (hn : m.nTrials = some n) (ht : t ≠ 0)
    (hI : ∀ inc : Nat, total C m "increased_iterations" inc = .ok inc) (h0 : ∀ inc : Nat, total C m "increased_trials" inc = .ok inc) :
    ∃ p, plans C (some (some m)) [.resume 0 0] = [.ok ⟨n, 0, m.seed⟩] ∧
      plans C (some (some m)) [.append [("increased_trials", C.num t)], .resume 0 0] = [.ok p] ∧ p.nTrials = n + t ∧ p.nTrials ≠ n := by
  obtain ⟨m1, m2, h1, h2, h3, h4, h5⟩ := append_num C m hs "increased_trials" t
  have hA : CountsAre C m n m.seed 0 0 := ⟨hs, hn, rfl, fun inc => by rw [h0, add_zero], fun inc => by rw [hI, add_zero]⟩
  have hB : CountsAre C m2 n m.seed t 0 := ⟨h2, h4.1.trans hn, h4.2.2, total_num C m2 _ _ (by rw [(h5 _).2, if_pos rfl]),
    fun inc => by rw [total_note C m m2 _ (by rw [(h5 _).2, if_neg (by decide)]), hI, add_zero]⟩
  obtain ⟨_, a, _, _⟩ := resume_ok C 0 0 n m.seed 0 0 m hA
  obtain ⟨_, b, _, _⟩ := resume_ok C 0 0 n m.seed t 0 m2 hB
  refine ⟨⟨n + t, 0, m.seed⟩, ?_, ?_, rfl, fun h => ht (by have h' : n + t = n := h; omega)⟩
  · simp [plans, a]
  · simp [plans, h1, b]

/-- The claim that a refused `append_metadata` leaves the directory as it was is refuted: an entry that JSON cannot represent makes it raise
`TypeError` with the metadata destroyed, and from then on, whatever is called, nothing can be appended or resumed. -/
theorem C132_failed_append_refuted (C : Codec J) (m : Content J) (e : List (String × J)) (k : String) (v : J) (hk : givenValue e k = some v)
    (hv : C.enc v = none) :
    Meta.append C e (some (some m)) = (some none, .error .typeError) ∧
    ∀ calls : List (Call J), Meta.after C (some none) calls = some none ∧
      plans C (some none) calls = (plans C (some none) calls).map (fun _ => .error .valueError) ∧
      ∀ e', (Meta.append C e' (Meta.after C (some none) calls)).2 = .error .jsonDecodeError := by
  constructor
  · have hn : encEntries C (Meta.update (m.bench.getD PyDict.empty) e).entries = none := by
      cases hl : encEntries C (Meta.update (m.bench.getD PyDict.empty) e).entries with
      | none => rfl
      | some l =>
        have hg := metaUpdate_get? e (m.bench.getD PyDict.empty) k
        rw [hk] at hg
        exact absurd hv (encEntries_mem C _ l hl _ (lookup_mem k v _ hg))
    simp only [Meta.append, load, save, hn]
  · intro calls
    have h : Meta.after C (some none) calls = some none ∧ plans C (some none) calls = (plans C (some none) calls).map (fun _ => .error .valueError) := by
      induction calls with
      | nil => exact ⟨rfl, rfl⟩
      | cons c l ih =>
        cases c with
        | append e => exact ih
        | resume i t =>
          refine ⟨ih.1, ?_⟩
          have e1 : plans C (some none) (.resume i t :: l) = .error .valueError :: plans C (some none) l := rfl
          rw [e1, List.map_cons, ← ih.2]
    refine ⟨h.1, h.2, fun e' => ?_⟩
    rw [h.1]; rfl

/-- The same at the very start: notes that JSON cannot represent leave a directory that is not empty and cannot be resumed. -/
theorem C132_failed_start (C : Codec J) (n : Int) (algs : J) (seed : Option Int) (l : List (String × J)) (kv : String × J) (hm : kv ∈ l)
    (hv : C.enc kv.2 = none) : start C n algs seed (some l) = (some none, .error .typeError) := by
  have hn : encEntries C l = none := by
    cases hl : encEntries C l with
    | none => rfl
    | some l' => exact absurd hv (encEntries_mem C _ l' hl _ hm)
  simp only [start, save, Option.map_some, hn]

/-- A counter that is not a number makes every resume raise `TypeError`. When iterations are concerned, the trials of that call have been
counted by then, although none of them has run. -/
theorem C132_not_a_number (C : Codec J) (m : Content J) (hs : StoredContent C m) (n : Int) (hn : m.nTrials = some n) (v : J)
    (hv : C.asInt v = none) :
    (noteOf m "increased_trials" = some v → ∀ i t, Meta.resume C i t (some (some m)) = (some (some m), .error .typeError)) ∧
    (noteOf m "increased_iterations" = some v → (∀ inc : Nat, total C m "increased_trials" inc = .ok inc) → ∀ i t, t ≠ 0 →
      ∃ m2, Meta.resume C i t (some (some m)) = (some (some m2), .error .typeError) ∧ noteOf m2 "increased_trials" = some (C.num t)) := by
  constructor
  · intro h i t
    unfold noteOf at h
    simp only [Meta.resume, load, hn, total, h, hv]
  · intro h hT i t ht
    obtain ⟨m1, m2, h1, h2, h3, h4, h5⟩ := append_num C m hs "increased_trials" t
    refine ⟨m2, ?_, by rw [(h5 _).2, if_pos rfl]⟩
    have h6 : noteOf m1 "increased_iterations" = some v := by rw [(h5 _).1, if_neg (by decide), h]
    unfold noteOf at h6
    simp only [Meta.resume, load, hn, hT, if_pos ht, h1, resumeIterations]
    rw [show total C m1 "increased_iterations" i = .error .typeError from by simp only [total, h6, hv]]

/-! ### a concrete codec -/

/-- numbers, strings, tuples (read back as lists), lists, and things JSON cannot represent -/
inductive Note where
  | int (i : Int) | str (s : String) | tuple (l : List Int) | list (l : List Int) | array
deriving DecidableEq

def noteCodec : Codec Note where
  enc
    | .tuple l => some (.list l)
    | .array => none
    | v => some v
  num := .int
  asInt
    | .int i => some i
    | _ => none
  enc_enc v u h := by cases v <;> simp at h <;> subst h <;> rfl
  enc_num _ := rfl
  asInt_num _ := rfl

example : HarmlessNotes noteCodec [("machine", .str "a"), ("sizes", .tuple [1, 2])] ∧
    plans noteCodec (start noteCodec 3 (.list []) (some 7) (some [("machine", .str "a")])).1
      [.append [("sizes", .tuple [1, 2])], .resume 5 0, .append [("machine", .str "b")], .resume 0 2, .resume 1 0] =
      [.ok ⟨3, 5, some 7⟩, .ok ⟨5, 0, some 7⟩, .ok ⟨5, 6, some 7⟩] := by
  constructor
  · intro kv h
    simp only [List.mem_cons, List.not_mem_nil, or_false] at h
    rcases h with rfl | rfl <;> exact ⟨by decide, by decide⟩
  · decide +kernel

example : Meta.append noteCodec [("model", .array)] (start noteCodec 3 (.list []) none none).1 = (some none, .error .typeError) := by
  exact (C132_failed_append_refuted noteCodec _ _ "model" .array (by decide +kernel) rfl).1

end Verif.Props
