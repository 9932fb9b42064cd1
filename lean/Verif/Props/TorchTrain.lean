import Verif.Props.TorchEval
/-!
# C99: local training with a `PyTorchCost`
-/
set_option linter.unusedSectionVars false
namespace Verif.Props
open Verif Verif.Part Verif.Batch Verif.Torch

variable {Ω X σ : Type}

/-! ### specification -/

/-- how the documentation reads `regularization`, for `n` parameters: `pen x` is the gradient of the penalty added to the loss,
`corr x` the correction subtracted from the parameters after the optimizer's step; there is at most one of the two -/
structure RegDoc (reg : Reg) (n : Nat) (pen corr : List ℝ → List ℝ) : Prop where
  sizes : ∀ x, x.length = n → (pen x).length = n ∧ (corr x).length = n
  reads : ∀ x, x.length = n →
    (reg.value x = none ∧ pen x = List.replicate n 0 ∧ corr x = List.replicate n 0) ∨
    (∃ v, reg.value x = some (.tensor 0 [v] (pen x)) ∧ corr x = List.replicate n 0) ∨
    (n ≠ 1 ∧ ∃ g, reg.value x = some (.tensor 1 (corr x) g) ∧ pen x = List.replicate n 0)

/-- the optimizer returns as many parameters as it is given -/
def KeepsSize (o : Opt σ) : Prop := ∀ q x g, x.length = g.length → (o.step q x g).1.length = x.length

theorem sgd_keeps (lr : ℝ) : KeepsSize (sgd lr) := by
  intro q x g h
  simp [sgd, h]

/-- the gradient of the loss on some samples plus the penalty -/
noncomputable def docGrad (n : Nat) (dℓ : List ℝ → X → List ℝ) (pen : List ℝ → List ℝ) (x : List ℝ) (b : List X) : List ℝ :=
  (List.range n).map (fun k => sampleMean (b.map (fun p => (dℓ x p).getD k 0)) + (pen x).getD k 0)

/-- one training step on some samples: an optimizer step, then the correction -/
noncomputable def docTrain (o : Opt σ) (n : Nat) (dℓ : List ℝ → X → List ℝ) (pen corr : List ℝ → List ℝ) (s : List ℝ × σ) (b : List X) :
    List ℝ × σ :=
  (List.zipWith (fun u v => u - v) (o.step s.2 s.1 (docGrad n dℓ pen s.1 b)).1 (corr s.1), (o.step s.2 s.1 (docGrad n dℓ pen s.1 b)).2)

/-- the samples an iteration works on are those asked for -/
def AskedFor (c : Cfg X) (ix : Indices) (rows : List X) : Prop :=
  rows ≠ [] ∧ (ix = .all → rows = c.data) ∧ (ix = .batch → c.batchSize = c.data.length → rows = c.data) ∧
  (ix = .batch → c.useLoader = false → rows.length = c.batchSize) ∧
  ∀ l, explicitList ix = some l → l.length ≠ c.data.length → List.Forall₂ (SampleAt c.data) l rows

/-! ### one chunk -/

theorem list_ext_getD {a b : List ℝ} (h : a.length = b.length) (hk : ∀ k, a.getD k 0 = b.getD k 0) : a = b := by
  apply List.ext_getElem h
  intro k k1 k2
  have := hk k
  rwa [List.getD_eq_getElem _ _ k1, List.getD_eq_getElem _ _ k2] at this

theorem getD_mapRange (n : Nat) (f : Nat → ℝ) (k : Nat) : ((List.range n).map f).getD k 0 = if k < n then f k else 0 := by
  by_cases h : k < n
  · rw [List.getD_eq_getElem _ _ (by simpa using h), List.getElem_map, List.getElem_range, if_pos h]
  · rw [List.getD_eq_default _ _ (by simpa using h), if_neg h]

theorem docGrad_length (n : Nat) (dℓ : List ℝ → X → List ℝ) (pen : List ℝ → List ℝ) (x : List ℝ) (b : List X) :
    (docGrad n dℓ pen x b).length = n := by simp [docGrad]

theorem docTrain_length {o : Opt σ} (ho : KeepsSize o) {n : Nat} (dℓ : List ℝ → X → List ℝ) {pen corr : List ℝ → List ℝ}
    (hc : ∀ x, x.length = n → (corr x).length = n) (s : List ℝ × σ) (hs : s.1.length = n) (b : List X) :
    (docTrain o n dℓ pen corr s b).1.length = n := by
  unfold docTrain
  rw [List.length_zipWith, ho _ _ _ (by rw [hs, docGrad_length]), hs, hc _ hs, Nat.min_self]

theorem zipWith_sub_zeros (a : List ℝ) (n : Nat) (h : a.length = n) : List.zipWith (fun u v => u - v) a (List.replicate n 0) = a := by
  apply list_ext_getD
  · simp [h]
  · intro k
    rw [getD_zipWith _ (by simp) _ _ (by simp [h]), getD_zeros, sub_zero]

theorem chunk_gradient {net : Net X} {ℓ : List ℝ → X → ℝ} {dℓ : List ℝ → X → List ℝ} (ha : Averages net ℓ dℓ) {x : List ℝ}
    (hx : x.length = net.total) {b : List X} (hb : b ≠ []) {pen : List ℝ → List ℝ} :
    ((pen x).length = net.total → addL (net.grads (splitBy net.sizes x) b).flatten (pen x) = docGrad net.total dℓ pen x b) ∧
    (pen x = List.replicate net.total 0 → (net.grads (splitBy net.sizes x) b).flatten = docGrad net.total dℓ pen x b) := by
  have hlen : (net.grads (splitBy net.sizes x) b).flatten.length = net.total := by
    rw [List.length_flatten, ha.shape]; rfl
  constructor
  · intro hp
    apply list_ext_getD
    · rw [docGrad_length]; simp [addL, hlen, hp]
    · intro k
      unfold addL docGrad
      rw [getD_zipWith _ (by simp) _ _ (by rw [hlen, hp]), ha.slope x b hx hb k, getD_mapRange]
      split
      · rfl
      · rename_i hk
        rw [sampleMean_zero, List.getD_eq_default _ _ (by omega), add_zero]
        intro a ha'
        obtain ⟨p, _, rfl⟩ := List.mem_map.1 ha'
        rw [List.getD_eq_default _ _ (by rw [ha.len]; omega)]
  · intro hp
    apply list_ext_getD
    · rw [docGrad_length, hlen]
    · intro k
      unfold docGrad
      rw [ha.slope x b hx hb k, getD_mapRange, hp]
      split
      · rw [getD_zeros, add_zero]
      · rename_i hk
        rw [sampleMean_zero]
        intro a ha'
        obtain ⟨p, _, rfl⟩ := List.mem_map.1 ha'
        rw [List.getD_eq_default _ _ (by rw [ha.len]; omega)]

theorem trainChunk_doc {net : Net X} {ℓ : List ℝ → X → ℝ} {dℓ : List ℝ → X → List ℝ} (ha : Averages net ℓ dℓ) {o : Opt σ}
    (ho : KeepsSize o) {reg : Reg} {pen corr : List ℝ → List ℝ} (hreg : RegDoc reg net.total pen corr) (w : World X) (q : σ)
    (hx : (w.store w.params).length = net.total) {b : List X} (hb : b ≠ []) :
    trainChunk net o reg w q b = .ok (w.write (docTrain o net.total dℓ pen corr (w.store w.params, q) b).1,
      (docTrain o net.total dℓ pen corr (w.store w.params, q) b).2) := by
  have hfl : (w.tensors net).flatten = w.store w.params := splitBy_flatten _ _ hx
  have ht : w.tensors net = splitBy net.sizes (w.store w.params) := rfl
  obtain ⟨g1, g2⟩ := chunk_gradient ha hx hb (pen := pen)
  obtain ⟨z1, z2⟩ := hreg.sizes _ hx
  unfold trainChunk docTrain
  simp only [hfl]
  rcases hreg.reads _ hx with ⟨h1, h2, h3⟩ | ⟨v, h1, h3⟩ | ⟨hn, g, h1, h2⟩
  · have he : regEffect net.total (reg.value (w.store w.params)) = .ok (none, none) := by rw [h1]; rfl
    rw [he]
    simp only [addOpt, subOpt, ht]
    rw [g2 h2, h3, zipWith_sub_zeros _ _ (by rw [ho _ _ _ (by rw [docGrad_length, hx]), hx])]
  · have he : regEffect net.total (reg.value (w.store w.params)) = .ok (some (pen (w.store w.params)), none) := by
      rw [h1]
      simp [regEffect]
    rw [he]
    simp only [addOpt, subOpt, ht]
    rw [g1 z1, h3, zipWith_sub_zeros _ _ (by rw [ho _ _ _ (by rw [docGrad_length, hx]), hx])]
  · have he : regEffect net.total (reg.value (w.store w.params)) = .ok (none, some (corr (w.store w.params))) := by
      rw [h1]
      unfold regEffect
      simp only
      rw [if_neg (by rw [z2]; omega), if_neg (by rw [z2]; simp)]
    rw [he]
    simp only [addOpt, subOpt, ht]
    rw [g2 h2]
    rfl

theorem write_write (w : World X) (a b : List ℝ) : (w.write a).write b = w.write b := by
  unfold World.write
  congr 1
  funext i
  simp only
  split <;> rfl

theorem write_read (w : World X) (a : List ℝ) : (w.write a).store (w.write a).params = a := if_pos rfl

theorem write_same (w : World X) : w.write (w.store w.params) = w := by
  unfold World.write
  cases w with
  | mk st store params next =>
    congr 1
    funext i
    simp only
    split
    · rename_i h; rw [h]
    · rfl

theorem trainChunks_doc {net : Net X} {ℓ : List ℝ → X → ℝ} {dℓ : List ℝ → X → List ℝ} (ha : Averages net ℓ dℓ) {o : Opt σ}
    (ho : KeepsSize o) {reg : Reg} {pen corr : List ℝ → List ℝ} (hreg : RegDoc reg net.total pen corr) (bs : List (List X))
    (hbs : ∀ b ∈ bs, b ≠ []) (w : World X) (q : σ) (hx : (w.store w.params).length = net.total) :
    trainChunks net o reg bs w q = (.ok (), w.write (bs.foldl (docTrain o net.total dℓ pen corr) (w.store w.params, q)).1,
      (bs.foldl (docTrain o net.total dℓ pen corr) (w.store w.params, q)).2) ∧
    (bs.foldl (docTrain o net.total dℓ pen corr) (w.store w.params, q)).1.length = net.total := by
  induction bs generalizing w q with
  | nil => exact ⟨by simp only [trainChunks, List.foldl_nil, write_same], hx⟩
  | cons b bs ih =>
    have h1 := trainChunk_doc ha ho hreg w q hx (hbs b (by simp))
    have hl : (docTrain o net.total dℓ pen corr (w.store w.params, q) b).1.length = net.total :=
      docTrain_length ho dℓ (fun x hx => (hreg.sizes x hx).2) _ hx b
    obtain ⟨i1, i2⟩ := ih (fun b' hb' => hbs b' (by simp [hb'])) (w.write (docTrain o net.total dℓ pen corr (w.store w.params, q) b).1)
      (docTrain o net.total dℓ pen corr (w.store w.params, q) b).2 (by rw [write_read]; exact hl)
    rw [write_read, write_write] at i1
    rw [write_read] at i2
    simp only [trainChunks, h1, List.foldl_cons]
    exact ⟨i1, i2⟩

theorem asked_of_outcome {c : Cfg X} {ix : Indices} {rows : List X} {used : List Int} (h3 : readRows c.data used = .ok rows) (h4 : rows ≠ [])
    (h5 : (∃ is, listFor c ix = some is ∧ used = usedFor c is) ∨
       (ix = .batch ∧ c.batchSize < c.data.length ∧ ∃ q : List Nat, used = q.map (fun i : Nat => (i : Int)) ∧ q.Nodup ∧ q ≠ [] ∧
         q.length ≤ c.batchSize ∧ (c.useLoader = false → q.length = c.batchSize) ∧ ∀ i ∈ q, i < c.data.length))
    (hv : ValidSize c) : AskedFor c ix rows := by
  have hf := (readRows_ok _ _ _).1 h3
  rcases h5 with ⟨is, h5, h6⟩ | ⟨rfl, hlt, q, rfl, q1, q2, q3, q4, q5⟩
  · have hpos : used = positions c.data.length → rows = c.data := by
      rintro rfl
      rw [readRows_positions] at h3
      cases h3; rfl
    refine ⟨h4, ?_, ?_, ?_, ?_⟩
    · rintro rfl
      cases h5
      exact hpos (by rw [h6, usedFor_positions])
    · rintro rfl hb
      simp only [listFor] at h5
      rw [if_neg (by omega)] at h5
      cases h5
      exact hpos (by rw [h6, usedFor_positions])
    · rintro rfl _
      simp only [listFor] at h5
      split at h5
      · cases h5
      · rename_i hn
        cases h5
        rw [hpos (by rw [h6, usedFor_positions])]
        have := hv.2
        omega
    · intro l hl hlen
      have : l = is := by cases ix <;> simp_all [explicitList, listFor]
      subst this
      have hu : usedFor c l = l := by unfold usedFor; rw [if_neg]; rintro ⟨a, _⟩; exact hlen a
      rw [h6, hu] at hf
      exact hf
  · refine ⟨h4, fun h => (by cases h), fun _ h => (by omega), fun _ h => ?_, fun l hl => (by cases hl)⟩
    rw [← hf.length_eq, List.length_map]
    exact q4 h

/-! ### C99 -/

theorem trainLoop_doc {r : Rng Ω} (hr : r.Lawful) {c : Cfg X} (hv : ValidSize c) (hm : 0 < c.maxBatch) {net : Net X}
    {ℓ : List ℝ → X → ℝ} {dℓ : List ℝ → X → List ℝ} (ha : Averages net ℓ dℓ) {o : Opt σ} (ho : KeepsSize o) {reg : Reg}
    {pen corr : List ℝ → List ℝ} (hreg : RegDoc reg net.total pen corr) (ix : Indices) (n : Nat) :
    ∀ (w : World X) (q : σ) (calls : Nat) (ω : Ω), Inv c w.st → (w.store w.params).length = net.total →
    ∀ w' q' calls' ω', trainLoop r c net o reg ix n w q calls ω = (.ok (), w', q', calls', ω') →
    ∃ batches : List (List X), batches.length = n ∧ (∀ rows ∈ batches, AskedFor c ix rows) ∧
      let out := (batches.flatMap (chunks c.maxBatch.toNat)).foldl (docTrain o net.total dℓ pen corr) (w.store w.params, q)
      out.1.length = net.total ∧ q' = out.2 ∧ calls' = calls + batches.flatten.length ∧ w'.params = w.params ∧ w'.next = w.next ∧
        w'.store w.params = out.1 ∧ (∀ i, i ≠ w.params → w'.store i = w.store i) ∧ Inv c w'.st := by
  induction n with
  | zero =>
    intro w q calls ω hs hx w' q' calls' ω' h
    cases h
    exact ⟨[], rfl, by simp, hx, rfl, rfl, rfl, rfl, rfl, fun _ _ => rfl, hs⟩
  | succ n ih =>
    intro w q calls ω hs hx w' q' calls' ω' h
    have hinv := eval_inv hr hv hs ix ω
    simp only [trainLoop, trainIter] at h
    rcases eval_outcome hr hv hs ix ω with ⟨rows, used, s', ω1, h1, h2, h3, h4, h5⟩ | ⟨e, h1, _⟩
    · rw [h1] at hinv
      rw [h1, pyChunks_pos _ hm] at h
      simp only at h
      have hbs : ∀ b ∈ chunks c.maxBatch.toNat rows, b ≠ [] := fun b hb => (chunks_piece _ (by omega) rows b hb).1
      obtain ⟨t1, t2⟩ := trainChunks_doc ha ho hreg (chunks c.maxBatch.toNat rows) hbs { w with st := s' } q hx
      rw [t1] at h
      simp only at h
      have hused : s'.lastUsed.length = rows.length := by rw [h2]; exact ((readRows_ok _ _ _).1 h3).length_eq
      obtain ⟨batches, b1, b2, b3, b4, b5, b6, b7, b8, b9, b10⟩ := ih _ _ _ _ (show Inv c s' from hinv)
        (by exact (congrArg List.length (write_read _ _)).trans t2) w' q' calls' ω' h
      have hst : (World.write { w with st := s' } (List.foldl (docTrain o net.total dℓ pen corr) (w.store w.params, q) (chunks c.maxBatch.toNat rows)).1).store
          (World.write { w with st := s' } (List.foldl (docTrain o net.total dℓ pen corr) (w.store w.params, q) (chunks c.maxBatch.toNat rows)).1).params =
          (List.foldl (docTrain o net.total dℓ pen corr) (w.store w.params, q) (chunks c.maxBatch.toNat rows)).1 := write_read _ _
      have hfold : (List.flatMap (chunks c.maxBatch.toNat) (rows :: batches)).foldl (docTrain o net.total dℓ pen corr) (w.store w.params, q) =
          (List.flatMap (chunks c.maxBatch.toNat) batches).foldl (docTrain o net.total dℓ pen corr)
            ((List.foldl (docTrain o net.total dℓ pen corr) (w.store w.params, q) (chunks c.maxBatch.toNat rows)).1,
             (List.foldl (docTrain o net.total dℓ pen corr) (w.store w.params, q) (chunks c.maxBatch.toNat rows)).2) := by
        rw [List.flatMap_cons, List.foldl_append]
      refine ⟨rows :: batches, by simp [b1], ?_, ?_⟩
      · intro rows' hr'
        rcases List.mem_cons.1 hr' with rfl | hr'
        · exact asked_of_outcome h3 h4 h5 hv
        · exact b2 rows' hr'
      · rw [hst] at b3 b4 b8
        simp only [hfold]
        refine ⟨b3, b4, ?_, b6, b7, b8, ?_, b10⟩
        · rw [b5, hused, List.flatten_cons, List.length_append]; omega
        · intro i hi
          rw [b9 i hi]
          exact if_neg hi
    · rw [h1] at h
      cases h

/-- **C99.** Local training that succeeds performs, for each iteration, one batch of samples of the kind asked for, cut into
pieces of at most `max_batch_size`, and for each piece one optimizer step with the mean gradient (plus the penalty's gradient)
followed by the correction.  The agent's gradient counter grows by the number of samples, the scheduler is stepped once.
The result is a new tensor, and the caller's tensor `x` is overwritten with the same numbers; no other tensor changes. -/
theorem C99_training {r : Rng Ω} (hr : r.Lawful) {c : Cfg X} (hv : ValidSize c) (hm : 0 < c.maxBatch) {net : Net X}
    {ℓ : List ℝ → X → ℝ} {dℓ : List ℝ → X → List ℝ} (ha : Averages net ℓ dℓ) {o : Opt σ} (ho : KeepsSize o) {reg : Reg}
    {pen corr : List ℝ → List ℝ} (hreg : RegDoc reg net.total pen corr) (ix : Indices) (n : Nat)
    (t : TWorld X σ) (hs : BatchReached r c t.w.st) (q : σ) (hq : t.opt = some q) (x : Nat) (hx : x < t.w.next) (ω : Ω)
    (y : Nat) (t' : TWorld X σ) (ω' : Ω) (h : localTraining r c net o reg ix t x n ω = (.ok y, t', ω')) :
    ∃ batches : List (List X), batches.length = n ∧ (∀ rows ∈ batches, AskedFor c ix rows) ∧
      let out := (batches.flatMap (chunks c.maxBatch.toNat)).foldl (docTrain o net.total dℓ pen corr) (t.w.store x, q)
      t'.w.store y = out.1 ∧ t'.w.store x = out.1 ∧ t'.opt = some out.2 ∧ t'.calls = t.calls + batches.flatten.length ∧
      t'.sched = t.sched.map (· + 1) ∧ y ≠ x ∧ t.w.next ≤ y ∧ ∀ i, i ≠ x → i ≠ y → t'.w.store i = t.w.store i := by
  unfold localTraining at h
  rw [hq] at h
  simp only at h
  by_cases hsz : (t.w.store x).length = net.total
  · have hsp : setParams net t.w x = .ok { t.w with params := x } := by unfold setParams; rw [if_neg (by simpa using hsz)]
    rw [hsp] at h
    simp only at h
    rcases hloop : trainLoop r c net o reg ix n { t.w with params := x } q t.calls ω with ⟨e | u, w', q', calls', ω1⟩
    · rw [hloop] at h; cases h
    · rw [hloop] at h
      simp only [Prod.mk.injEq, Except.ok.injEq] at h
      obtain ⟨hy, ht, _⟩ := h
      obtain ⟨batches, b1, b2, b3, b4, b5, b6, b7, b8, b9, b10⟩ :=
        trainLoop_doc hr hv hm ha ho hreg ix n { t.w with params := x } q t.calls ω (hs.inv hr hv) hsz w' q' calls' ω1 hloop
      have hyn : y = t.w.next := by rw [← hy]; exact b7
      have hflat : (w'.tensors net).flatten = ((batches.flatMap (chunks c.maxBatch.toNat)).foldl (docTrain o net.total dℓ pen corr) (t.w.store x, q)).1 := by
        unfold World.tensors
        rw [b6]
        show (splitBy net.sizes (w'.store x)).flatten = _
        have b8' : w'.store x = _ := b8
        rw [b8', splitBy_flatten _ _ b3]
      refine ⟨batches, b1, b2, ?_⟩
      rw [← ht]
      refine ⟨?_, ?_, by rw [b4], b5, rfl, by omega, by omega, ?_⟩
      · show (if y = w'.next then _ else _) = _
        rw [if_pos (by rw [hyn, b7]), hflat]
      · show (if x = w'.next then _ else _) = _
        have hne : x ≠ w'.next := by
          rw [b7]
          show x ≠ t.w.next
          omega
        rw [if_neg hne]
        exact b8
      · intro i h1 h2
        show (if i = w'.next then _ else _) = _
        have hne : i ≠ w'.next := by
          rw [b7]
          show i ≠ t.w.next
          omega
        rw [if_neg hne]
        exact b9 i h1
  · have hsp : setParams net t.w x = .error .valueError := by unfold setParams; rw [if_pos hsz]
    rw [hsp] at h
    cases h

/-- evaluations with `"all"` and `"batch"` always find their samples -/
theorem eval_always {r : Rng Ω} (hr : r.Lawful) {c : Cfg X} (hv : ValidSize c) {s : St X} (hs : Inv c s) {ix : Indices}
    (hix : ix = .all ∨ ix = .batch) (ω : Ω) : ∃ rows s' ω', Torch.getBatchData r c s ix ω = (pyChunks c.maxBatch rows, s', ω') ∧ rows ≠ [] := by
  rcases eval_outcome hr hv hs ix ω with ⟨rows, used, s', ω1, h1, h2, h3, h4, h5⟩ | ⟨e, h1, h5⟩
  · exact ⟨rows, s', ω1, h1, h4⟩
  · exfalso
    have hlen : 1 ≤ c.data.length := hv.1.trans hv.2
    have hpos : ∃ p, select c (positions c.data.length) = .ok p := by
      apply select_in_range
      · intro h
        have := congrArg List.length h
        rw [positions_length, List.length_nil] at this
        omega
      · intro i hi
        simp only [positions, List.mem_map, List.mem_range] at hi
        obtain ⟨j, hj, rfl⟩ := hi
        omega
    obtain ⟨p, hp⟩ := hpos
    rcases h5 with ⟨rfl, _⟩ | ⟨is, h5, h6⟩
    · rcases hix with h | h <;> cases h
    · rcases hix with rfl | rfl
      · cases h5
        rw [hp] at h6; cases h6
      · simp only [listFor] at h5
        split at h5
        · cases h5
        · cases h5
          rw [hp] at h6; cases h6

/-- **C99.** Local training on the whole data set or on mini-batches succeeds whenever the optimizer is set up and `x` and the
regularization have the documented sizes; without an optimizer it raises RuntimeError and changes nothing, and for an `x` of the
wrong size it raises ValueError and changes nothing.  The optimizer can be set up once only. -/
theorem C99_when {r : Rng Ω} (hr : r.Lawful) {c : Cfg X} (hv : ValidSize c) (hm : 0 < c.maxBatch) {net : Net X}
    {ℓ : List ℝ → X → ℝ} {dℓ : List ℝ → X → List ℝ} (ha : Averages net ℓ dℓ) {o : Opt σ} (ho : KeepsSize o) {reg : Reg}
    {pen corr : List ℝ → List ℝ} (hreg : RegDoc reg net.total pen corr) (ix : Indices) (hix : ix = .all ∨ ix = .batch) (n : Nat)
    (t : TWorld X σ) (hs : BatchReached r c t.w.st) (x : Nat) (ω : Ω) :
    (t.opt = none → localTraining r c net o reg ix t x n ω = (.error .runtimeError, t, ω) ∧
      ∀ q sch, ∃ t', initTraining q sch t = .ok t' ∧ t'.opt = some q ∧ t'.w = t.w) ∧
    (∀ q, t.opt = some q → (∀ q' sch, initTraining q' sch t = .error .runtimeError) ∧
      ((t.w.store x).length = net.total → ∃ y t' ω', localTraining r c net o reg ix t x n ω = (.ok y, t', ω')) ∧
      ((t.w.store x).length ≠ net.total → localTraining r c net o reg ix t x n ω = (.error .valueError, t, ω))) := by
  constructor
  · intro h
    refine ⟨by simp only [localTraining, h], fun q sch => ?_⟩
    refine ⟨{ t with opt := some q, sched := if sch then some 0 else t.sched }, by simp only [initTraining, h], rfl, rfl⟩
  · intro q hq
    refine ⟨fun q' sch => by simp only [initTraining, hq], ?_, ?_⟩
    · intro hsz
      have hsp : setParams net t.w x = .ok { t.w with params := x } := by unfold setParams; rw [if_neg (by simpa using hsz)]
      have hloop : ∀ (n : Nat) (w : World X) (q : σ) (calls : Nat) (ω : Ω), Inv c w.st → (w.store w.params).length = net.total →
          ∃ w' q' calls' ω', trainLoop r c net o reg ix n w q calls ω = (.ok (), w', q', calls', ω') := by
        intro n
        induction n with
        | zero => intro w q calls ω _ _; exact ⟨_, _, _, _, rfl⟩
        | succ n ih =>
          intro w q calls ω hi hx
          have hinv := eval_inv hr hv hi ix ω
          obtain ⟨rows, s', ω1, h1, h2⟩ := eval_always hr hv hi hix ω
          rw [h1] at hinv
          have hbs : ∀ b ∈ chunks c.maxBatch.toNat rows, b ≠ [] := fun b hb => (chunks_piece _ (by omega) rows b hb).1
          obtain ⟨t1, t2⟩ := trainChunks_doc ha ho hreg (chunks c.maxBatch.toNat rows) hbs { w with st := s' } q hx
          simp only [trainLoop, trainIter, h1, pyChunks_pos _ hm, t1]
          exact ih _ _ _ _ hinv ((congrArg List.length (write_read _ _)).trans t2)
      obtain ⟨w', q', calls', ω', h⟩ := hloop n { t.w with params := x } q t.calls ω (hs.inv hr hv) hsz
      simp only [localTraining, hq, hsp, h]
      exact ⟨_, _, _, rfl⟩
    · intro hsz
      have hsp : setParams net t.w x = .error .valueError := by unfold setParams; rw [if_pos hsz]
      simp only [localTraining, hq, hsp]

/-! ### plain gradient descent -/

theorem sgd_entry (lr : ℝ) (n : Nat) (dℓ : List ℝ → X → List ℝ) (pen corr : List ℝ → List ℝ) (x : List ℝ) (hx : x.length = n)
    (hc : (corr x).length = n) (u : Unit) (b : List X) (k : Nat) (hk : k < n) :
    (docTrain (sgd lr) n dℓ pen corr (x, u) b).1.getD k 0 =
      x.getD k 0 - lr * (sampleMean (b.map (fun p => (dℓ x p).getD k 0)) + (pen x).getD k 0) - (corr x).getD k 0 := by
  unfold docTrain
  simp only [sgd]
  rw [getD_zipWith _ (by simp) _ _ (by simp [hx, docGrad_length, hc]), getD_zipWith _ (by simp) _ _ (by simp [hx, docGrad_length])]
  unfold docGrad
  rw [getD_mapRange, if_pos hk]

theorem regNone_doc (n : Nat) : RegDoc Reg.none n (fun _ => List.replicate n 0) (fun _ => List.replicate n 0) :=
  ⟨fun x _ => ⟨by simp, by simp⟩, fun x _ => Or.inl ⟨rfl, rfl, rfl⟩⟩

/-- a gradient step on the mean loss of the whole data set -/
noncomputable def wholeStep (lr : ℝ) (n : Nat) (data : List X) (dℓ : List ℝ → X → List ℝ) (x : List ℝ) : List ℝ :=
  (List.range n).map (fun k => x.getD k 0 - lr * sampleMean (data.map (fun p => (dℓ x p).getD k 0)))

/-- **C99.** With SGD, no regularization, `indices="all"` and a `max_batch_size` of at least the number of samples, local training
is gradient descent on the cost: `n` iterations give the `n`-th iterate. -/
theorem C99_gradient_descent {r : Rng Ω} (hr : r.Lawful) {c : Cfg X} (hv : ValidSize c) (hm : (c.data.length : Int) ≤ c.maxBatch) {net : Net X}
    {ℓ : List ℝ → X → ℝ} {dℓ : List ℝ → X → List ℝ} (ha : Averages net ℓ dℓ) (lr : ℝ) (n : Nat)
    (t : TWorld X Unit) (hs : BatchReached r c t.w.st) (hq : t.opt = some ()) (x : Nat) (hx : x < t.w.next) (hsz : (t.w.store x).length = net.total) (ω : Ω) :
    ∃ y t' ω', localTraining r c net (sgd lr) .none .all t x n ω = (.ok y, t', ω') ∧
      t'.w.store y = (wholeStep lr net.total c.data dℓ)^[n] (t.w.store x) ∧ t'.calls = t.calls + n * c.data.length := by
  have hlen : 1 ≤ c.data.length := hv.1.trans hv.2
  have hm0 : 0 < c.maxBatch := by omega
  have hreg := regNone_doc net.total
  obtain ⟨y, t', ω', h⟩ := ((C99_when hr hv hm0 ha (sgd_keeps lr) hreg .all (Or.inl rfl) n t hs x ω).2 () hq).2.1 hsz
  obtain ⟨batches, b1, b2, b3, _, _, b6, _⟩ := C99_training hr hv hm0 ha (sgd_keeps lr) hreg .all n t hs () hq x hx ω y t' ω' h
  have hall : batches = List.replicate n c.data := by
    rw [List.eq_replicate_iff]
    exact ⟨b1, fun rows hrows => (b2 rows hrows).2.1 rfl⟩
  refine ⟨y, t', ω', h, ?_, ?_⟩
  · rw [b3, hall]
    have hch : chunks c.maxBatch.toNat c.data = [c.data] := chunks_single _ _ (List.length_pos_iff.1 hlen) (by omega)
    have gen : ∀ (n : Nat) (z : List ℝ) (u : Unit), z.length = net.total →
        (((List.replicate n c.data).flatMap (chunks c.maxBatch.toNat)).foldl (docTrain (sgd lr) net.total dℓ (fun _ => List.replicate net.total 0)
          (fun _ => List.replicate net.total 0)) (z, u)).1 = (wholeStep lr net.total c.data dℓ)^[n] z := by
      intro n
      induction n with
      | zero => intro z u _; rfl
      | succ n ih =>
        intro z u hz
        have hstep : (docTrain (sgd lr) net.total dℓ (fun _ => List.replicate net.total 0) (fun _ => List.replicate net.total 0) (z, u) c.data).1 =
            wholeStep lr net.total c.data dℓ z := by
          have hl : (docTrain (sgd lr) net.total dℓ (fun _ => List.replicate net.total 0) (fun _ => List.replicate net.total 0) (z, u) c.data).1.length = net.total :=
            docTrain_length (sgd_keeps lr) dℓ (fun x _ => by simp) _ hz c.data
          apply list_ext_getD
          · rw [hl]; simp [wholeStep]
          · intro k
            unfold wholeStep
            rw [getD_mapRange]
            split
            · rename_i hk
              rw [sgd_entry lr net.total dℓ _ _ z hz (by simp) u c.data k hk, getD_zeros]
              ring
            · rename_i hk
              rw [List.getD_eq_default _ _ (by omega)]
        rw [List.replicate_succ, List.flatMap_cons, hch, List.singleton_append, List.foldl_cons, Function.iterate_succ_apply, ← hstep]
        exact ih _ _ (docTrain_length (sgd_keeps lr) dℓ (fun x _ => List.length_replicate) (z, u) hz c.data)
    exact gen n _ () hsz
  · rw [b6, hall]
    simp [List.length_flatten, List.sum_replicate]

/-! ### `max_batch_size` matters for training -/

/-- a flat correction for a model of `n ≠ 1` parameters, read as documented -/
theorem regConst_doc (corr : List ℝ) (g : List ℝ) (n : Nat) (hl : corr.length = n) (hn : n ≠ 1) :
    RegDoc (.const (.tensor 1 corr g)) n (fun _ => List.replicate n 0) (fun _ => corr) :=
  ⟨fun x _ => ⟨by simp, hl⟩, fun x _ => Or.inr (Or.inr ⟨hn, g, rfl, rfl⟩)⟩

/-- **C99 (refutation of "the result will still be the same").** When all samples have the same constant gradient `g`, `n`
iterations of SGD on the whole data set with a correction `ρ` take the parameters to `x - n · ⌈N / max_batch_size⌉ · (lr · g + ρ)`:
the result depends on `max_batch_size`, as does the number of times the correction is applied. -/
theorem C99_max_batch_size_matters {r : Rng Ω} (hr : r.Lawful) {c : Cfg X} (hv : ValidSize c) (hm : 0 < c.maxBatch) {net : Net X}
    {ℓ : List ℝ → X → ℝ} (g : List ℝ) (ha : Averages net ℓ (fun _ _ => g)) (lr : ℝ) (ρ gρ : List ℝ) (hρ : ρ.length = net.total)
    (htot : net.total ≠ 1) (n : Nat) (t : TWorld X Unit) (hs : BatchReached r c t.w.st) (hq : t.opt = some ()) (x : Nat) (hx : x < t.w.next)
    (hsz : (t.w.store x).length = net.total) (ω : Ω) :
    ∃ y t' ω', localTraining r c net (sgd lr) (.const (.tensor 1 ρ gρ)) .all t x n ω = (.ok y, t', ω') ∧
      ∀ k : Nat, k < net.total → (t'.w.store y).getD k 0 = (t.w.store x).getD k 0 -
        ((n * ((c.data.length + c.maxBatch.toNat - 1) / c.maxBatch.toNat) : Nat) : ℝ) * (lr * g.getD k 0 + ρ.getD k 0) := by
  have hreg := regConst_doc ρ gρ net.total hρ htot
  obtain ⟨y, t', ω', h⟩ := ((C99_when hr hv hm ha (sgd_keeps lr) hreg .all (Or.inl rfl) n t hs x ω).2 () hq).2.1 hsz
  obtain ⟨batches, b1, b2, b3, _⟩ := C99_training hr hv hm ha (sgd_keeps lr) hreg .all n t hs () hq x hx ω y t' ω' h
  have hall : batches = List.replicate n c.data := by
    rw [List.eq_replicate_iff]
    exact ⟨b1, fun rows hrows => (b2 rows hrows).2.1 rfl⟩
  refine ⟨y, t', ω', h, ?_⟩
  intro k hk
  rw [b3, hall]
  have gen : ∀ (bs : List (List X)) (z : List ℝ) (u : Unit), (∀ b ∈ bs, b ≠ []) → z.length = net.total →
      (bs.foldl (docTrain (sgd lr) net.total (fun _ _ => g) (fun _ => List.replicate net.total 0) (fun _ => ρ)) (z, u)).1.getD k 0 =
        z.getD k 0 - (bs.length : ℝ) * (lr * g.getD k 0 + ρ.getD k 0) := by
    intro bs
    induction bs with
    | nil => intro z u _ _; simp
    | cons b bs ih =>
      intro z u hb hz
      rw [List.foldl_cons]
      have e1 := sgd_entry lr net.total (fun _ _ => g) (fun _ => List.replicate net.total 0) (fun _ => ρ) z hz hρ u b k hk
      have hmean : sampleMean (b.map (fun _ : X => g.getD k 0)) = g.getD k 0 := by
        unfold sampleMean
        have : (b.length : ℝ) ≠ 0 := by
          have := List.length_pos_iff.2 (hb b (by simp))
          positivity
        rw [List.map_const', List.sum_replicate, List.length_replicate, nsmul_eq_mul]
        field_simp
      rw [ih _ _ (fun b' hb' => hb b' (by simp [hb'])) (docTrain_length (sgd_keeps lr) _ (fun _ _ => hρ) _ hz b), e1, hmean, getD_zeros,
        List.length_cons]
      push_cast
      ring
  rw [gen _ _ () ?_ hsz]
  · congr 2
    rw [List.length_flatMap, List.map_replicate, List.sum_replicate, chunks_length, smul_eq_mul]
  · intro b hb
    rw [List.mem_flatMap] at hb
    obtain ⟨rows, _, hb⟩ := hb
    exact (chunks_piece _ (by omega) rows b hb).1

/-- so two values of `max_batch_size` give different results as soon as they cut the data set differently and the step is not
zero -/
example : (1 * ((2 + (2 : Int).toNat - 1) / (2 : Int).toNat) : Nat) ≠ (1 * ((2 + (1 : Int).toNat - 1) / (1 : Int).toNat) : Nat) := by decide

/-! ### misread regularizations -/

/-- **C99 (refutation).** For a model with a single parameter the flat correction is taken for a scalar penalty: a constant
correction (whose gradient is zero) has no effect at all. -/
theorem C99_one_parameter (r : Rng Ω) (c : Cfg X) (net : Net X) (htot : net.total = 1)
    (hshape : ∀ θ b, (net.grads θ b).map List.length = net.sizes) (o : Opt σ) (ndim : Nat) (ρ : ℝ)
    (ix : Indices) (t : TWorld X σ) (x n : Nat) (ω : Ω) :
    localTraining r c net o (.const (.tensor ndim [ρ] [0])) ix t x n ω = localTraining r c net o .none ix t x n ω := by
  have hchunk : ∀ (w : World X) (q : σ) (b : List X), trainChunk net o (.const (.tensor ndim [ρ] [0])) w q b = trainChunk net o .none w q b := by
    intro w q b
    have h1 : regEffect net.total (Reg.value (.const (.tensor ndim [ρ] [0])) (w.tensors net).flatten) = .ok (some [0], none) :=
      if_pos (Or.inr rfl)
    have h2 : regEffect net.total (Reg.value .none (w.tensors net).flatten) = .ok (none, none) := rfl
    unfold trainChunk
    simp only [h1, h2, addOpt, subOpt]
    have hz : addL (net.grads (w.tensors net) b).flatten [0] = (net.grads (w.tensors net) b).flatten := by
      have hl : (net.grads (w.tensors net) b).flatten.length = 1 := by
        rw [List.length_flatten, hshape]; exact htot
      obtain ⟨a, ha⟩ := List.length_eq_one_iff.1 hl
      rw [ha]
      simp [addL]
    rw [hz]
  have hchunks : ∀ (bs : List (List X)) (w : World X) (q : σ),
      trainChunks net o (.const (.tensor ndim [ρ] [0])) bs w q = trainChunks net o .none bs w q := by
    intro bs
    induction bs with
    | nil => intro w q; rfl
    | cons b bs ih => intro w q; simp only [trainChunks, hchunk, ih]
  have hloop : ∀ (n : Nat) (w : World X) (q : σ) (calls : Nat) (ω : Ω),
      trainLoop r c net o (.const (.tensor ndim [ρ] [0])) ix n w q calls ω = trainLoop r c net o .none ix n w q calls ω := by
    intro n
    induction n with
    | zero => intro w q calls ω; rfl
    | succ n ih => intro w q calls ω; simp only [trainLoop, trainIter, hchunks, ih]
  unfold localTraining
  simp only [hloop]

/-- **C99.** A constant regularization of the wrong size (not a scalar, not as long as the parameters) is refused with ValueError,
anything but a tensor with TypeError, on the first sample trained on; by then no tensor has changed. -/
theorem C99_bad_regularization {r : Rng Ω} (hr : r.Lawful) {c : Cfg X} (hv : ValidSize c) (hm : 0 < c.maxBatch) (net : Net X) (o : Opt σ)
    (ix : Indices) (hix : ix = .all ∨ ix = .batch) (n : Nat) (t : TWorld X σ) (hs : BatchReached r c t.w.st) (q : σ) (hq : t.opt = some q) (x : Nat)
    (hsz : (t.w.store x).length = net.total) (ω : Ω) (ndim : Nat) (vals grad : List ℝ) (h1 : ndim ≠ 0) (h2 : vals.length ≠ 1) (h3 : vals.length ≠ net.total) :
    ((localTraining r c net o (.const (.tensor ndim vals grad)) ix t x (n + 1) ω).1 = .error .valueError ∧
     (localTraining r c net o (.const (.tensor ndim vals grad)) ix t x (n + 1) ω).2.1.w.store = t.w.store) ∧
    (localTraining r c net o (.const .other) ix t x (n + 1) ω).1 = .error .typeError ∧
    (localTraining r c net o (.const .other) ix t x (n + 1) ω).2.1.w.store = t.w.store := by
  have hsp : setParams net t.w x = .ok { t.w with params := x } := by unfold setParams; rw [if_neg (by simpa using hsz)]
  obtain ⟨rows, s', ω1, e1, e2⟩ := eval_always hr hv (hs.inv hr hv) hix ω
  obtain ⟨bs, b1, b2, b3, b4⟩ := chunks_facts hm e2
  obtain ⟨b, rest, rfl⟩ := List.exists_cons_of_ne_nil b3
  rw [b1] at e1
  have gen : ∀ (v : RegVal) (err : PyErr), (∀ z : List ℝ, regEffect net.total (Reg.value (.const v) z) = .error err) →
      (localTraining r c net o (.const v) ix t x (n + 1) ω).1 = .error err ∧
      (localTraining r c net o (.const v) ix t x (n + 1) ω).2.1.w.store = t.w.store := by
    intro v err hv'
    simp only [localTraining, hq, hsp, trainLoop, trainIter, e1, trainChunks, trainChunk, hv']
    exact ⟨trivial, trivial⟩
  refine ⟨gen _ _ (fun z => ?_), gen _ _ (fun z => rfl)⟩
  show regEffect net.total (some (.tensor ndim vals grad)) = _
  unfold regEffect
  simp only
  rw [if_neg (by omega), if_pos h3]

/-! ### a concrete case of the hypotheses -/

/-- the line fit of `TorchEval`, with SGD set up, on tensor 0 -/
noncomputable def lineTrain : TWorld (ℝ × ℝ) Unit := ⟨lineWorld, some (), none, 0⟩

example : ∃ y t' ω', localTraining straight lineCfg (avgNet [1, 1] lineLoss lineGrad) (sgd (1 / 2)) .none .batch lineTrain 0 3 () = (.ok y, t', ω') :=
  ((C99_when straight_lawful line_valid (by decide) (avgNet_averages [1, 1] lineLoss lineGrad (fun _ _ => rfl)) (sgd_keeps _) (regNone_doc 2) .batch
    (Or.inr rfl) 3 lineTrain (reached_fresh _ _ ()) 0 ()).2 () rfl).2.1 rfl

/-- a scalar penalty given by a callable is read as documented: `‖x‖² / 2`, with gradient `x` -/
example : RegDoc (.call (fun x => .tensor 0 [(x.map (fun a => a ^ 2)).sum / 2] x)) 2 (fun x => x) (fun _ => List.replicate 2 0) :=
  ⟨fun x hx => ⟨hx, by simp⟩, fun x _ => Or.inr (Or.inl ⟨_, rfl, rfl⟩)⟩

/-- a network with constant sample gradients -/
example : Averages (avgNet [1, 1] (fun x (_ : ℝ × ℝ) => x.getD 0 0 + x.getD 1 0) (fun _ _ => [1, 1])) (fun x _ => x.getD 0 0 + x.getD 1 0) (fun _ _ => [1, 1]) :=
  avgNet_averages _ _ _ (fun _ _ => rfl)

end Verif.Props
