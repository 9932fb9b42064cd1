import Verif.Props.Batch
import Verif.Props.Agent
import Verif.Props.Partition
/-!
# C49 (limits), C50 (observing a run), C56 (label encoding), C57 (explicit indices), C58 (proximal and batch size)
-/
set_option linter.unusedSectionVars false
namespace Verif.Props
open Verif Verif.Part Verif.Batch

variable {Ω : Type}

/-- a generator that never rearranges anything -/
def straight : Rng Unit where
  perm n _ := (List.range n, ())
  dirichlet _ _ := (fun _ => 1, ())
  choice l _ _ := (l.headD 0, ())

theorem straight_lawful : straight.Lawful :=
  ⟨fun n _ => List.Perm.refl _, fun l _ _ h => by
    cases l with
    | nil => exact absurd rfl h
    | cons a t => simp [straight]⟩

example : batchesOf (answers straight ⟨5, 2, [], none⟩ () [.batch, .all, .batch, .list [4], .batch, .batch]) =
    [[0, 1], [2, 3], [4, 0], [1, 2]] := rfl
example : batchesOf (answers reverser ⟨5, 2, [], none⟩ () [.batch, .batch, .int 1, .batch]) = [[4, 3], [2, 1], [0, 4]] := by decide +kernel

/-! ### C49: epochs, and what the scheme does not guarantee -/

/-- **C49.** Any window of consecutive uses that does not contain a sample twice is at most an epoch; the uses are planned
epoch by epoch: each epoch lists exactly once every sample other than those still owed from the end of the epoch before. -/
theorem C49_epochs {r : Rng Ω} (hr : r.Lawful) (n b : Nat) (hb : b < n) (calls : List Indices) (ω : Ω) :
    ∃ uses rest : List Nat, (batchesOf (answers r ⟨n, b, [], none⟩ ω calls)).flatten = uses.map (fun i : Nat => (i : Int)) ∧
      Planned n (uses ++ rest) := by
  obtain ⟨bs, h1, _, _, R, h4⟩ := answers_spec hr hb calls ⟨n, b, [], none⟩ ω rfl rfl [] Planned.nil ⟨List.nodup_nil, by simp⟩
  exact ⟨bs.flatten, R, by rw [h1, List.map_flatten], by simpa using h4⟩

/-- **C49 (limit of the scheme).** Epochs need not balance the samples: with three samples and batches of two, and a generator
that leaves the order alone, every batch contains sample 0, while samples 1 and 2 share the other place. -/
theorem C49_unbalanced (k : Nat) :
    (batchesOf (answers straight ⟨3, 2, [], none⟩ () (List.replicate k .batch))).length = k ∧
    ∀ l ∈ batchesOf (answers straight ⟨3, 2, [], none⟩ () (List.replicate k .batch)), (0 : Int) ∈ l := by
  have h1 : ∀ s : Sampler, s.n = 3 → s.batchSize = 2 → (s.remaining = [] ∨ s.remaining = [1] ∨ s.remaining = [2]) →
      ∃ s' l, sampleBatch straight s .batch () = (.ok l, s', ()) ∧ (0 : Int) ∈ l ∧ s'.n = 3 ∧ s'.batchSize = 2 ∧
        (s'.remaining = [] ∨ s'.remaining = [1] ∨ s'.remaining = [2]) := by
    rintro ⟨n, b, R, l⟩ rfl rfl (rfl | rfl | rfl)
    · exact ⟨_, _, rfl, by simp [draw, straight, shuffledSequence, List.range_succ], rfl, rfl, by simp [draw, straight, shuffledSequence, List.range_succ]⟩
    · exact ⟨_, _, rfl, by simp [draw, straight, shuffledSequence, List.range_succ], rfl, rfl, by simp [draw, straight, shuffledSequence, List.range_succ]⟩
    · exact ⟨_, _, rfl, by simp [draw, straight, shuffledSequence, List.range_succ], rfl, rfl, by simp [draw, straight, shuffledSequence, List.range_succ]⟩
  have h2 : ∀ (k : Nat) (s : Sampler), s.n = 3 → s.batchSize = 2 → (s.remaining = [] ∨ s.remaining = [1] ∨ s.remaining = [2]) →
      (batchesOf (answers straight s () (List.replicate k .batch))).length = k ∧
      ∀ l ∈ batchesOf (answers straight s () (List.replicate k .batch)), (0 : Int) ∈ l := by
    intro k
    induction k with
    | zero => intro s _ _ _; exact ⟨rfl, by simp [answers, batchesOf]⟩
    | succ k ih =>
      intro s a b c
      obtain ⟨s', l, he, hl, a', b', c'⟩ := h1 s a b c
      obtain ⟨i1, i2⟩ := ih s' a' b' c'
      have : batchesOf (answers straight s () (List.replicate (k + 1) .batch)) =
          l :: batchesOf (answers straight s' () (List.replicate k .batch)) := by
        simp only [List.replicate_succ, answers, he, batchesOf, List.filterMap_cons, if_true, Except.toOption]
      rw [this]
      refine ⟨by simp [i1], ?_⟩
      intro m hm
      rcases List.mem_cons.1 hm with rfl | hm
      · exact hl
      · exact i2 m hm
  exact h2 k _ rfl rfl (Or.inl rfl)

/-! ### C50 -/

/-- an algorithm with one agent that evaluates its cost once per iteration with the default batch; `x` records the batches -/
def recordStep (r : Rng Ω) (t : Trial Unit (List (List Int)) Ω) : Py (Trial Unit (List (List Int)) Ω) :=
  match sampleBatch r (t.costs ()) .batch t.rng with
  | (.error e, _, _) => .error e
  | (.ok l, s, ω) => .ok ⟨t.x ++ [l], fun _ => s, ω⟩

def start2 : Trial Unit (List (List Int)) Unit := ⟨[], fun _ => ⟨2, 1, [], none⟩, ()⟩

/-- the batches an undisturbed or monitored run uses -/
def batchesSeen (N : Int) (intervals : List Int) : Py (List (List Int)) :=
  match (trialOps straight [()] N intervals .ok (fun _ t => recordStep straight t)).run N 0 start2 with
  | .error e => .error e
  | .ok t => .ok t.x

example : batchesSeen 4 [] = .ok [[0], [1], [0], [1]] := rfl
example : batchesSeen 4 [1] = .ok [[0], [0], [0], [0]] := rfl
example : batchesSeen 4 [2] = .ok [[0], [0], [1], [1]] := rfl

/-- **C50 (refutation).** A monitored run is not the unmonitored one: with two samples and batches of one, the unmonitored
algorithm uses both samples; with one runtime loss metric at interval 1 it uses sample 0 in all of its iterations, however
many there are. -/
theorem C50_monitoring_changes_batches (N : Nat) (hN : 2 ≤ N) :
    batchesSeen N [1] = .ok (List.replicate N [0]) ∧
    ∃ bs, batchesSeen N [] = .ok bs ∧ [1] ∈ bs := by
  have hl : ∀ (m : Nat) (k : Int) (x : List (List Int)) (l : Option (List Int)),
      ∃ c, ((trialOps straight [()] (N : Int) [1] .ok (fun _ t => recordStep straight t)).loop N m k
        ⟨x, fun _ => ⟨2, 1, [], l⟩, ()⟩) = .ok ⟨x ++ List.replicate m [0], fun _ => ⟨2, 1, [], c⟩, ()⟩ := by
    intro m
    induction m with
    | zero => intro k x l; exact ⟨l, by simp [RunOps.loop]⟩
    | succ m ih =>
      intro k x l
      have hb : (trialOps straight [()] (N : Int) [1] .ok (fun _ t => recordStep straight t)).body N k
          ⟨x, fun _ => ⟨2, 1, [], l⟩, ()⟩ = .ok ⟨x ++ [[0]], fun _ => ⟨2, 1, [], some [1]⟩, ()⟩ := by
        have hu : (shouldUpdate 1 k || k + 1 == (N : Int)) = true := by simp [shouldUpdate]
        simp only [RunOps.body, trialOps, recordStep, bind, Except.bind, metricsCallback, List.foldl_cons, List.foldl_nil, hu,
          if_true, metricCompute, evalDefault]
        rfl
      obtain ⟨c, hc⟩ := ih (k + 1) (x ++ [[0]]) (some [1])
      refine ⟨c, ?_⟩
      simp only [RunOps.loop, hb, bind, Except.bind]
      rw [hc]
      simp [List.replicate_succ]
  have hx : ∀ (m : Nat) (k : Int) (t : Trial Unit (List (List Int)) Unit),
      (t.costs ()).n = 2 → (t.costs ()).batchSize = 1 →
      ∃ t' ys, ((trialOps straight [()] (N : Int) [] .ok (fun _ t => recordStep straight t)).loop N m k t) = .ok t' ∧
        t'.x = t.x ++ ys := by
    intro m
    induction m with
    | zero => intro k t _ _; exact ⟨t, [], rfl, by simp⟩
    | succ m ih =>
      intro k t h1 h2
      have hs : ∃ s l, sampleBatch straight (t.costs ()) .batch () = (.ok l, s, ()) ∧ s.n = 2 ∧ s.batchSize = 1 := by
        have : sampleBatch straight (t.costs ()) .batch () = (.ok ((draw straight (t.costs ()).n (t.costs ()).batchSize
            (t.costs ()).remaining ()).1.1.map (fun i : Nat => (i : Int))), { t.costs () with
              remaining := (draw straight (t.costs ()).n (t.costs ()).batchSize (t.costs ()).remaining ()).1.2,
              last := some ((draw straight (t.costs ()).n (t.costs ()).batchSize
            (t.costs ()).remaining ()).1.1.map (fun i : Nat => (i : Int))) }, ()) := by
          simp only [sampleBatch]; rw [if_pos (by omega)]
        exact ⟨_, _, this, h1, h2⟩
      obtain ⟨s, l, he, h3, h4⟩ := hs
      obtain ⟨t', ys, i1, i2⟩ := ih (k + 1) ⟨t.x ++ [l], fun _ => s, ()⟩ h3 h4
      refine ⟨t', [l] ++ ys, ?_, by rw [i2]; simp⟩
      simp only [RunOps.loop, RunOps.body, trialOps, recordStep, he, bind, Except.bind, metricsCallback, List.foldl_nil]
      exact i1
  obtain ⟨m, rfl⟩ : ∃ m, N = m + 2 := ⟨N - 2, by omega⟩
  constructor
  · obtain ⟨c, hc⟩ := hl (m + 2) 0 [] none
    have hr : (trialOps straight [()] ((m + 2 : Nat) : Int) [1] .ok (fun _ t => recordStep straight t)).run ((m + 2 : Nat) : Int) 0 start2
        = .ok ⟨[] ++ List.replicate (m + 2) [0], fun _ => ⟨2, 1, [], c⟩, ()⟩ := by
      simp only [RunOps.run]
      rw [if_neg (by omega)]
      simp only [if_true, bind, Except.bind]
      rw [← hc]
      rfl
    simp only [batchesSeen, hr, List.nil_append]
  · obtain ⟨t', ys, h1, h2⟩ := hx m 2 ⟨[[0], [1]], fun _ => ⟨2, 1, [], some [1]⟩, ()⟩ rfl rfl
    have hr : (trialOps straight [()] ((m + 2 : Nat) : Int) [] .ok (fun _ t => recordStep straight t)).run ((m + 2 : Nat) : Int) 0 start2
        = .ok t' := by
      simp only [RunOps.run]
      rw [if_neg (by omega)]
      simp only [if_true, bind, Except.bind]
      rw [← h1]
      rfl
    exact ⟨t'.x, by simp only [batchesSeen, hr], by rw [h2]; simp⟩

/-- a run that is checkpointed at iteration `c`, and the run resumed from that checkpoint -/
def straightAndResumed (N c : Int) (intervals : List Int) : Option (List (List Int) × List (List Int)) :=
  match (checkpointedOps straight [()] N intervals c .ok (fun _ t => recordStep straight t)).run N 0 (start2, none) with
  | .error _ => none
  | .ok (_, none) => none
  | .ok (t, some saved) =>
    match (trialOps straight [()] N intervals .ok (fun _ t => recordStep straight t)).run N (c + 1) saved with
    | .error _ => none
    | .ok t' => some (t.x, t'.x)

example : straightAndResumed 3 0 [] = some ([[0], [1], [0]], [[0], [1], [0]]) := rfl

/-- **C50 (refutation).** With mini-batches and a runtime metric, a resumed run is not the uninterrupted one: the checkpoint
is taken before the metric draws its batch, so the draw is missing after resuming. -/
theorem C50_resume_differs : ∃ N c intervals a b, straightAndResumed N c intervals = some (a, b) ∧ a ≠ b :=
  ⟨3, 0, [1], [[0], [0], [0]], [[0], [1], [1]], rfl, by decide⟩

section
variable {A X : Type} [DecidableEq A]

/-- the same trial up to what was evaluated last by the costs -/
structure Unobserved (t t' : Trial A X Ω) : Prop where
  x : t.x = t'.x
  rng : t.rng = t'.rng
  n : ∀ a, (t.costs a).n = (t'.costs a).n
  size : ∀ a, (t.costs a).batchSize = (t'.costs a).batchSize
  rem : ∀ a, (t.costs a).remaining = (t'.costs a).remaining

/-- no mini-batches: the batch size is the number of samples -/
def FullBatch (t : Trial A X Ω) : Prop := ∀ a, (t.costs a).n ≤ (t.costs a).batchSize

theorem Unobserved.full {t t' : Trial A X Ω} (h : Unobserved t t') (hf : FullBatch t) : FullBatch t' :=
  fun a => by rw [← h.n a, ← h.size a]; exact hf a

theorem evalDefault_same (r : Rng Ω) (a : A) {t t' : Trial A X Ω} (h : Unobserved t t') (hf : FullBatch t) :
    Unobserved (evalDefault r a t) t' := by
  have hs : sampleBatch r (t.costs a) .batch t.rng = (.ok ((List.range (t.costs a).n).map (fun i : Nat => (i : Int))),
      { t.costs a with last := some ((List.range (t.costs a).n).map (fun i : Nat => (i : Int))) }, t.rng) := by
    simp only [sampleBatch]
    rw [if_neg (by have := hf a; omega)]
  constructor
  · exact h.x
  · simp only [evalDefault, hs]; exact h.rng
  all_goals
    intro b
    simp only [evalDefault, hs]
    split
    · rename_i hb; subst hb; first | exact h.n b | exact h.size b | exact h.rem b
    · first | exact h.n b | exact h.size b | exact h.rem b

theorem Unobserved.refl (t : Trial A X Ω) : Unobserved t t := ⟨rfl, rfl, fun _ => rfl, fun _ => rfl, fun _ => rfl⟩
theorem Unobserved.symm {t t' : Trial A X Ω} (h : Unobserved t t') : Unobserved t' t :=
  ⟨h.x.symm, h.rng.symm, fun a => (h.n a).symm, fun a => (h.size a).symm, fun a => (h.rem a).symm⟩

theorem metricCompute_same (r : Rng Ω) (agents : List A) {t t' : Trial A X Ω} (h : Unobserved t t') (hf : FullBatch t) :
    Unobserved (metricCompute r agents t) t' := by
  induction agents generalizing t with
  | nil => exact h
  | cons a l ih =>
    have := evalDefault_same r a h hf
    exact ih this (this.symm.full (h.full hf))

theorem metricsCallback_same (r : Rng Ω) (agents : List A) (N : Int) (intervals : List Int) (k : Int) {t t' : Trial A X Ω}
    (h : Unobserved t t') (hf : FullBatch t) : Unobserved (metricsCallback r agents N intervals k t) t' := by
  induction intervals generalizing t with
  | nil => exact h
  | cons i l ih =>
    simp only [metricsCallback, List.foldl_cons]
    have h1 : Unobserved (if shouldUpdate i k || k + 1 == N then metricCompute r agents t else t) t' := by
      split
      · exact metricCompute_same r agents h hf
      · exact h
    exact ih h1 (h1.symm.full (h.full hf))

/-- **C50.** Without mini-batches monitoring is harmless: for every algorithm whose steps do not depend on what a cost
evaluated last, every set of runtime metrics, every number of iterations and every starting iteration, the monitored run
and the unmonitored one both fail or both end with the same algorithm state, random state and cost state. -/
theorem C50_full_batch_unaffected (r : Rng Ω) (agents : List A) (N start : Int) (intervals : List Int)
    (setup : Trial A X Ω → Py (Trial A X Ω)) (step : Int → Trial A X Ω → Py (Trial A X Ω))
    (hsetup : ∀ t t', Unobserved t t' → FullBatch t → ∀ u, setup t = .ok u → FullBatch u ∧ ∃ u', setup t' = .ok u' ∧ Unobserved u u')
    (hstep : ∀ k t t', Unobserved t t' → FullBatch t → ∀ u, step k t = .ok u →
      FullBatch u ∧ ∃ u', step k t' = .ok u' ∧ Unobserved u u')
    (t : Trial A X Ω) (hf : FullBatch t) :
    (∀ u, (trialOps r agents N intervals setup step).run N start t = .ok u →
      ∃ u', (trialOps r agents N [] setup step).run N start t = .ok u' ∧ Unobserved u u') ∧
    (∀ u', (trialOps r agents N [] setup step).run N start t = .ok u' →
      ∃ u, (trialOps r agents N intervals setup step).run N start t = .ok u ∧ Unobserved u u') := by
  -- both directions from a statement about two arbitrary metric lists
  have hloop : ∀ (is js : List Int) (m : Nat) (k : Int) (t t' : Trial A X Ω), Unobserved t t' → FullBatch t →
      ∀ u, (trialOps r agents N is setup step).loop N m k t = .ok u →
        ∃ u', (trialOps r agents N js setup step).loop N m k t' = .ok u' ∧ Unobserved u u' := by
    intro is js m
    induction m with
    | zero =>
      intro k t t' h _ u hu
      simp only [RunOps.loop, Except.ok.injEq] at hu ⊢
      subst hu
      exact ⟨t', rfl, h⟩
    | succ m ih =>
      intro k t t' h hf u hu
      simp only [RunOps.loop, RunOps.body, trialOps, bind, Except.bind] at hu ⊢
      cases hst : step k t with
      | error e => rw [hst] at hu; exact absurd hu (by simp)
      | ok v =>
        obtain ⟨hfv, v', hv', hvv⟩ := hstep k t t' h hf v hst
        rw [hst] at hu
        rw [hv']
        simp only at hu ⊢
        have h1 := metricsCallback_same r agents N is k hvv hfv
        have h2 := metricsCallback_same r agents N js k h1.symm (h1.full (h1.symm.full (hvv.full hfv)))
        exact ih (k + 1) _ _ h2.symm (h1.symm.full (hvv.full hfv)) u hu
  have hrun : ∀ (is js : List Int) (u : Trial A X Ω), (trialOps r agents N is setup step).run N start t = .ok u →
      ∃ u', (trialOps r agents N js setup step).run N start t = .ok u' ∧ Unobserved u u' := by
    intro is js u hu
    simp only [RunOps.run] at hu ⊢
    split at hu
    · exact absurd hu (by simp)
    · rename_i hs
      rw [if_neg hs]
      simp only [bind, Except.bind] at hu ⊢
      by_cases h0 : start = 0
      · rw [if_pos h0] at hu ⊢
        cases hse : setup t with
        | error e =>
          have : (trialOps r agents N is setup step).setup t = .error e := hse
          rw [this] at hu; exact absurd hu (by simp)
        | ok v =>
          obtain ⟨hfv, v', hv', hvv⟩ := hsetup t t (Unobserved.refl t) hf v hse
          have h1 : (trialOps r agents N is setup step).setup t = .ok v := hse
          have h2 : (trialOps r agents N js setup step).setup t = .ok v' := hv'
          rw [h1] at hu
          rw [h2]
          exact hloop is js _ _ v v' hvv hfv u hu
      · rw [if_neg h0] at hu ⊢
        exact hloop is js _ _ t t (Unobserved.refl t) hf u hu
  refine ⟨fun u hu => hrun intervals [] u hu, fun u' hu => ?_⟩
  obtain ⟨u, h1, h2⟩ := hrun [] intervals u' hu
  exact ⟨u, h1, h2.symm⟩

/-- the recording algorithm meets the hypotheses on steps -/
example (r : Rng Ω) (t t' : Trial Unit (List (List Int)) Ω) (h : Unobserved t t') (hf : FullBatch t) (u) (hu : recordStep r t = .ok u) :
    FullBatch u ∧ ∃ u', recordStep r t' = .ok u' ∧ Unobserved u u' := by
  have hs : ∀ t : Trial Unit (List (List Int)) Ω, FullBatch t → recordStep r t =
      .ok ⟨t.x ++ [(List.range (t.costs ()).n).map (fun i : Nat => (i : Int))], fun _ =>
        { t.costs () with last := some ((List.range (t.costs ()).n).map (fun i : Nat => (i : Int))) }, t.rng⟩ := by
    intro t hf
    have : sampleBatch r (t.costs ()) .batch t.rng = (.ok ((List.range (t.costs ()).n).map (fun i : Nat => (i : Int))),
        { t.costs () with last := some ((List.range (t.costs ()).n).map (fun i : Nat => (i : Int))) }, t.rng) := by
      simp only [sampleBatch]
      rw [if_neg (by have := hf (); omega)]
    simp only [recordStep, this]
  rw [hs t hf] at hu
  cases hu
  refine ⟨fun a => hf a, _, hs t' (h.full hf), ?_⟩
  exact ⟨by simp only [h.x, h.n], h.rng, fun a => h.n a, fun a => h.size a, fun a => h.rem a⟩

end

/-- **C50.** Monitoring leaves every counter of every monitored agent as it was, whatever a metric evaluates and even if it
raises (the callback swallows the exception). -/
theorem C50_counters {K A : Type} [DecidableEq K] [DecidableEq A] (own : K → Option A) (emp : K → Bool) (agents : List A)
    (metrics : List (Counting.Prog K A)) (s : Counting.State A) (hd : ∀ a, 0 ≤ s.depth a) (a : A) (ha : a ∈ agents)
    (m : Counting.Method) :
    let out := metrics.foldl (fun s p => (Counting.exec own emp (.tryExcept (.noCount agents p) .skip) s).1) s
    out.count a m = s.count a m ∧ ∀ b, out.depth b = s.depth b := by
  intro out
  have key : ∀ (l : List (Counting.Prog K A)) (s : Counting.State A), (∀ a, 0 ≤ s.depth a) →
      (l.foldl (fun s p => (Counting.exec own emp (.tryExcept (.noCount agents p) .skip) s).1) s).count a m = s.count a m ∧
      ∀ b, (l.foldl (fun s p => (Counting.exec own emp (.tryExcept (.noCount agents p) .skip) s).1) s).depth b = s.depth b := by
    intro l
    induction l with
    | nil => intro s _; exact ⟨rfl, fun _ => rfl⟩
    | cons p l ih =>
      intro s hd
      have h1 := C04_block_silent own emp agents p s hd a ha m
      have h2 := fun b => C04_depth_restored own emp (.noCount agents p) s hd b
      have he : (Counting.exec own emp (.tryExcept (.noCount agents p) .skip) s).1 =
          (Counting.exec own emp (.noCount agents p) s).1 := by
        simp only [Counting.exec]
        exact congrArg Prod.fst (ite_self (c := (Counting.exec own emp p (Counting.addDepth s agents 1)).2 = true)
          (Counting.addDepth (Counting.exec own emp p (Counting.addDepth s agents 1)).1 agents (-1), false))
      simp only [List.foldl_cons]
      rw [he]
      obtain ⟨i1, i2⟩ := ih _ (fun b => by rw [h2 b]; exact hd b)
      exact ⟨i1.trans h1, fun b => (i2 b).trans (h2 b)⟩
  exact key metrics s hd

/-! ### C56 -/

/-- **C56.** The encoding sends the first label to 0 and the second to 1 exactly when the second label is not 0. -/
theorem C56_encoding_correct_iff (l0 l1 : ℚ) (hne : l0 ≠ l1) :
    (relabelOne l0 l1 l0 = 0 ∧ relabelOne l0 l1 l1 = 1) ↔ l1 ≠ 0 := by
  unfold relabelOne
  constructor
  · rintro ⟨h1, _⟩ rfl
    simp at h1
  · intro h
    refine ⟨?_, ?_⟩
    · simp only [if_true]; rw [if_neg (fun h' => h h'.symm)]
    · simp only [if_neg hne.symm, if_true]

/-- **C56 (refutation).** If the label enumerated second is 0, every sample is encoded as class 1. -/
theorem C56_zero_second (l0 : ℚ) (data : List ℚ) (hdata : ∀ y ∈ data, y = l0 ∨ y = 0) :
    data.map (relabelOne l0 0) = List.replicate data.length 1 := by
  rw [List.eq_replicate_iff]
  refine ⟨by simp, ?_⟩
  intro y hy
  obtain ⟨z, hz, rfl⟩ := List.mem_map.1 hy
  rcases hdata z hz with rfl | rfl
  · simp [relabelOne]
  · by_cases h : (0 : ℚ) = l0
    · simp [relabelOne]
    · simp [relabelOne]

/-- **C56.** When the second label is not 0, encoding a data set of the two labels and decoding it with the labels used by
`predict` gives the data set back. -/
theorem C56_roundtrip (l0 l1 : ℚ) (hne : l0 ≠ l1) (h : l1 ≠ 0) (data : List ℚ) (hdata : ∀ y ∈ data, y = l0 ∨ y = l1) :
    (data.map (relabelOne l0 l1)).map (fun b => predictLabel l0 l1 (decide (b = 1))) = data := by
  rw [List.map_map]
  conv_rhs => rw [← List.map_id data]
  refine List.map_congr_left ?_
  intro y hy
  obtain ⟨h1, h2⟩ := (C56_encoding_correct_iff l0 l1 hne).2 h
  rcases hdata y hy with rfl | rfl
  · simp [h1, predictLabel]
  · simp [h2, predictLabel]

/-- **C56.** Exactly two classes are accepted. -/
theorem C56_two_classes (order : List ℚ) : (∃ p, labelMapping order = .ok p) ↔ order.length = 2 := by
  match order with
  | [] => simp [labelMapping]
  | [_] => simp [labelMapping]
  | [_, _] => simp [labelMapping]
  | _ :: _ :: _ :: _ => simp [labelMapping]

example : [8, 0, 0, 8].map (relabelOne 0 8) = [1, 0, 0, 1] := by decide +kernel
example : [8, 0, 0, 8].map (relabelOne 8 0) = [1, 1, 1, 1] := by decide +kernel
example : [-1, 1, 1].map (relabelOne 1 (-1)) = [1, 0, 0] := by decide +kernel

/-! ### C57 -/

/-- `x` is the sample a Python index names: counted from the end when negative -/
def SampleAt {X : Type} (data : List X) (i : Int) (x : X) : Prop :=
  (0 ≤ i ∧ data[i.toNat]? = some x) ∨ (i < 0 ∧ 0 ≤ i + data.length ∧ data[(i + data.length).toNat]? = some x)

theorem pyIndex_ok {X : Type} (data : List X) (i : Int) (x : X) : pyIndex data i = .ok x ↔ SampleAt data i x := by
  unfold pyIndex SampleAt
  by_cases h : i < 0
  · simp only [if_pos h]
    by_cases h2 : i + (data.length : Int) < 0
    · simp only [if_pos h2]; constructor
      · intro h; cases h
      · rintro (⟨h3, _⟩ | ⟨_, h3, _⟩) <;> omega
    · simp only [if_neg h2]
      cases hd : data[(i + (data.length : Int)).toNat]? with
      | none => simp; omega
      | some y =>
        simp only [Except.ok.injEq, Option.some.injEq]
        constructor
        · rintro rfl; exact Or.inr ⟨h, by omega, rfl⟩
        · rintro (⟨h3, _⟩ | ⟨_, _, h3⟩)
          · omega
          · exact h3
  · simp only [if_neg h]
    cases hd : data[i.toNat]? with
    | none => simp; omega
    | some y =>
      simp only [Except.ok.injEq, Option.some.injEq]
      constructor
      · rintro rfl; exact Or.inl ⟨by omega, rfl⟩
      · rintro (⟨_, h3⟩ | ⟨h3, _⟩)
        · exact h3
        · omega

theorem pyIndex_err {X : Type} (data : List X) (i : Int) (e : PyErr) (h : pyIndex data i = .error e) :
    e = .indexError ∧ (i < -(data.length : Int) ∨ (data.length : Int) ≤ i) := by
  unfold pyIndex at h
  by_cases h1 : i < 0
  · simp only [if_pos h1] at h
    split at h
    · cases h; exact ⟨rfl, Or.inl (by omega)⟩
    · rename_i h2
      split at h
      · rename_i h3
        rw [List.getElem?_eq_none_iff] at h3
        omega
      · cases h
  · simp only [if_neg h1] at h
    split at h
    · rename_i h3
      rw [List.getElem?_eq_none_iff] at h3
      cases h
      exact ⟨rfl, Or.inr (by omega)⟩
    · cases h

theorem readRows_ok {X : Type} (data : List X) (is : List Int) (rows : List X) :
    readRows data is = .ok rows ↔ List.Forall₂ (SampleAt data) is rows := by
  induction is generalizing rows with
  | nil => simp only [readRows, Except.ok.injEq, List.forall₂_nil_left_iff]; exact eq_comm
  | cons i is ih =>
    simp only [readRows]
    cases h : pyIndex data i with
    | error e =>
      simp only [reduceCtorEq, false_iff]
      intro hf
      obtain ⟨x, xs, hx, _, _⟩ := List.forall₂_cons_left_iff.1 hf
      rw [← pyIndex_ok, h] at hx
      cases hx
    | ok x =>
      simp only
      cases h2 : readRows data is with
      | error e =>
        simp only [reduceCtorEq, false_iff]
        intro hf
        obtain ⟨y, ys, _, hy, _⟩ := List.forall₂_cons_left_iff.1 hf
        rw [← ih, h2] at hy
        cases hy
      | ok xs =>
        simp only [Except.ok.injEq]
        constructor
        · rintro rfl
          exact List.Forall₂.cons ((pyIndex_ok data i x).1 h) ((ih xs).1 h2)
        · intro hf
          obtain ⟨y, ys, hy, hys, rfl⟩ := List.forall₂_cons_left_iff.1 hf
          rw [← pyIndex_ok, h] at hy
          rw [← ih, h2] at hys
          cases hy; cases hys; rfl

theorem readRows_err {X : Type} (data : List X) (is : List Int) (e : PyErr) (h : readRows data is = .error e) :
    e = .indexError ∧ ∃ i ∈ is, i < -(data.length : Int) ∨ (data.length : Int) ≤ i := by
  induction is with
  | nil => cases h
  | cons i is ih =>
    simp only [readRows] at h
    cases h1 : pyIndex data i with
    | error e' =>
      rw [h1] at h
      cases h
      obtain ⟨a, b⟩ := pyIndex_err data i _ h1
      exact ⟨a, i, by simp, b⟩
    | ok x =>
      rw [h1] at h
      simp only at h
      cases h2 : readRows data is with
      | error e' =>
        rw [h2] at h
        cases h
        obtain ⟨a, j, hj, b⟩ := ih h2
        exact ⟨a, j, by simp [hj], b⟩
      | ok xs => rw [h2] at h; cases h

/-- **C57.** An explicit list of another length than the data set selects exactly the listed samples, in order; it fails
exactly if an index is out of range, with an IndexError; `batch_used` is the list. -/
theorem C57_explicit_list {X : Type} (r : Rng Ω) (data : List X) (s : Sampler) (l : List Int) (hl : l.length ≠ data.length) (ω : Ω) :
    (∀ rows, (getBatchData r data s (.list l) ω).1 = .ok rows ↔ List.Forall₂ (SampleAt data) l rows) ∧
    (∀ e, (getBatchData r data s (.list l) ω).1 = .error e →
      e = .indexError ∧ ∃ i ∈ l, i < -(data.length : Int) ∨ (data.length : Int) ≤ i) ∧
    (getBatchData r data s (.list l) ω).2.1.batchUsed = .ok l := by
  simp only [getBatchData, sampleBatch, if_neg hl]
  exact ⟨readRows_ok data l, fun e h => readRows_err data l e h, rfl⟩

theorem sampleAt_range {X : Type} (data : List X) :
    List.Forall₂ (SampleAt data) ((List.range data.length).map (fun i : Nat => (i : Int))) data := by
  rw [List.forall₂_iff_get]
  refine ⟨by simp, ?_⟩
  intro i h1 h2
  left
  simp

/-- **C57.** Whatever the `indices` argument, except an explicit list (or single index) whose length is that of the data set:
the samples used are those named by `batch_used`, in that order, so per-sample gradients are aligned with it.  In
particular this holds for every drawn mini-batch and for `"all"`. -/
theorem C57_aligned {X : Type} {r : Rng Ω} (data : List X) (s : Sampler) (hs : s.n = data.length) (ix : Indices) (ω : Ω)
    (hlist : ∀ l, ix = .list l → l.length ≠ data.length) (hint : ∀ i, ix = .int i → data.length ≠ 1)
    (hb : s.batchSize < s.n → (draw r s.n s.batchSize s.remaining ω).1.1.length = s.batchSize)
    (rows : List X) (h : (getBatchData r data s ix ω).1 = .ok rows) :
    ∃ bu, (getBatchData r data s ix ω).2.1.batchUsed = .ok bu ∧ List.Forall₂ (SampleAt data) bu rows := by
  have full : ∀ (s' : Sampler), s'.last = some ((List.range s.n).map (fun i : Nat => (i : Int))) → rows = data →
      ∃ bu, s'.batchUsed = .ok bu ∧ List.Forall₂ (SampleAt data) bu rows := by
    intro s' h1 h2
    refine ⟨(List.range s.n).map (fun i : Nat => (i : Int)), by simp only [Sampler.batchUsed, h1], ?_⟩
    rw [h2, hs]
    exact sampleAt_range data
  cases ix with
  | int i =>
    have h1 : ([i] : List Int).length ≠ data.length := by have := hint i rfl; simp; omega
    simp only [getBatchData, sampleBatch, if_neg h1] at h ⊢
    exact ⟨[i], rfl, (readRows_ok data _ _).1 h⟩
  | list l =>
    have h1 := hlist l rfl
    simp only [getBatchData, sampleBatch, if_neg h1] at h ⊢
    exact ⟨l, rfl, (readRows_ok data _ _).1 h⟩
  | all =>
    have h1 : ((List.range s.n).map (fun i : Nat => (i : Int))).length = data.length := by simp [hs]
    simp only [getBatchData, sampleBatch, if_pos h1, Except.ok.injEq] at h ⊢
    exact full _ rfl h.symm
  | batch =>
    by_cases hlt : s.batchSize < s.n
    · have h1 : ((draw r s.n s.batchSize s.remaining ω).1.1.map (fun i : Nat => (i : Int))).length ≠ data.length := by
        rw [List.length_map, hb hlt]; omega
      simp only [getBatchData, sampleBatch, if_pos hlt, if_neg h1] at h ⊢
      exact ⟨_, rfl, (readRows_ok data _ _).1 h⟩
    · have h1 : ((List.range s.n).map (fun i : Nat => (i : Int))).length = data.length := by simp [hs]
      simp only [getBatchData, sampleBatch, if_neg hlt, if_pos h1, Except.ok.injEq] at h ⊢
      exact full _ rfl h.symm
  | str => simp [getBatchData, sampleBatch] at h

/-- the hypothesis on the draw holds for every lawful generator and valid sampler state (in particular all reachable ones) -/
example {r : Rng Ω} (hr : r.Lawful) (n b : Nat) (hb : b < n) (ω : Ω) : (draw r n b [] ω).1.1.length = b :=
  (draw_spec hr hb [] [] Planned.nil ⟨List.nodup_nil, by simp⟩ ω).1

/-- **C57 (refutation).** A list as long as the data set is ignored: the whole data set in storage order is used, whatever the
list says, although `batch_used` reports the list. -/
theorem C57_full_length_ignored {X : Type} (r : Rng Ω) (data : List X) (s : Sampler) (l : List Int) (hl : l.length = data.length) (ω : Ω) :
    (getBatchData r data s (.list l) ω).1 = .ok data ∧ (getBatchData r data s (.list l) ω).2.1.batchUsed = .ok l := by
  simp only [getBatchData, sampleBatch, if_pos hl]
  exact ⟨trivial, rfl⟩

/-- so repeated and permuted indices, and even indices out of range, give the wrong samples -/
theorem C57_full_length_wrong : ∃ (data : List Nat) (l l' : List Int) (s : Sampler), s.n = data.length ∧
    (∃ rows, (getBatchData straight data s (.list l) ()).1 = .ok rows ∧ ¬ List.Forall₂ (SampleAt data) l rows) ∧
    (∃ rows, (getBatchData straight data s (.list l') ()).1 = .ok rows ∧ ¬ List.Forall₂ (SampleAt data) l' rows) ∧
    l' = [1, 0] ∧ l = [0, 0] := by
  refine ⟨[7, 9], [0, 0], [1, 0], ⟨2, 2, [], none⟩, rfl, ⟨[7, 9], rfl, ?_⟩, ⟨[7, 9], rfl, ?_⟩, rfl, rfl⟩
  · intro h
    have := (readRows_ok _ _ _).2 h
    have h2 : readRows [7, 9] [0, 0] = .ok [7, 7] := rfl
    rw [h2] at this
    simp at this
  · intro h
    have := (readRows_ok _ _ _).2 h
    have h2 : readRows [7, 9] [1, 0] = .ok [9, 7] := rfl
    rw [h2] at this
    simp at this

example : (getBatchData straight [7, 9, 11] ⟨3, 3, [], none⟩ (.list [2, -3]) ()).1 = .ok [11, 7] := rfl
example : (getBatchData straight [7, 9, 11] ⟨3, 3, [], none⟩ (.list [3, 0]) ()).1 = .error .indexError := rfl
example : (getBatchData straight [7, 9, 11] ⟨3, 2, [2], none⟩ .batch ()).1 = .ok [11, 7] := rfl

/-! ### C58 -/

theorem evalTimes_full (r : Rng Ω) (m : Nat) (s : Sampler) (ω : Ω) (h : s.batchSize = s.n) :
    ∃ l, evalTimes r m (s, ω) = ({ s with last := l }, ω) := by
  induction m generalizing s with
  | zero => exact ⟨s.last, rfl⟩
  | succ m ih =>
    simp only [evalTimes]
    have : (sampleBatch r s .batch ω).2 = ({ s with last := some ((List.range s.n).map (fun i : Nat => (i : Int))) }, ω) := by
      simp only [sampleBatch]; rw [if_neg (by omega)]
    rw [this]
    exact ih { s with last := some ((List.range s.n).map (fun i : Nat => (i : Int))) } h

/-- **C58.** A successful proximal leaves the cost as it was: same batch size, same remaining indices, same random state; only
the record of what was evaluated last may change (it is the whole data set). -/
theorem C58_success {V : Type} (r : Rng Ω) (penalty : ℚ) (hp : 0 < penalty) (evals : Nat) (v : V) (s : Sampler) (ω : Ω) :
    ∃ l, logisticProximal (proximalSolver r penalty evals v) s ω = (.ok v, { s with last := l }, ω) := by
  obtain ⟨l, h⟩ := evalTimes_full r evals { s with batchSize := s.n } ω rfl
  refine ⟨l, ?_⟩
  simp only [logisticProximal, proximalSolver]
  rw [if_neg (by simpa using hp)]
  simp only [h]

/-- **C58.** Whatever solver is used: if it succeeds, the batch size is as before. -/
theorem C58_any_solver {V : Type} (solver : Sampler → Ω → Py V × Sampler × Ω) (s : Sampler) (ω : Ω) (v : V) (s' : Sampler) (ω' : Ω)
    (h : logisticProximal solver s ω = (.ok v, s', ω')) : s'.batchSize = s.batchSize := by
  simp only [logisticProximal] at h
  split at h
  · simp at h
  · simp only [Prod.mk.injEq] at h
    rw [← h.2.1]

/-- **C58 (refutation).** A refused penalty raises ValueError and leaves the cost with full batches: every later evaluation
with the default indices uses the whole data set instead of a mini-batch. -/
theorem C58_exception {V : Type} (r : Rng Ω) (penalty : ℚ) (hp : penalty ≤ 0) (evals : Nat) (v : V) (s : Sampler) (ω : Ω) :
    logisticProximal (proximalSolver r penalty evals v) s ω = (.error .valueError, { s with batchSize := s.n }, ω) ∧
    (sampleBatch r { s with batchSize := s.n } .batch ω).1 = .ok ((List.range s.n).map (fun i : Nat => (i : Int))) := by
  constructor
  · simp only [logisticProximal, proximalSolver, if_pos hp]
  · simp only [sampleBatch]; rw [if_neg (by omega)]

example : ((sampleBatch straight (logisticProximal (proximalSolver straight (-1) 5 ()) ⟨4, 1, [2, 3], none⟩ ()).2.1 .batch ()).1,
    (sampleBatch straight ⟨4, 1, [2, 3], none⟩ .batch ()).1) = (.ok [0, 1, 2, 3], .ok [2]) := rfl

end Verif.Props
