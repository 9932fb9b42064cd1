import Verif.Props.TorchBatch
import Mathlib.Data.List.GetD
import Mathlib.Analysis.Calculus.Deriv.Add
import Mathlib.Analysis.Calculus.Deriv.Mul
import Mathlib.Tactic.Ring
import Mathlib.Tactic.FieldSimp
import Mathlib.Tactic.Linarith
import Mathlib.Tactic.NormNum
/-!
# C98: evaluating a `PyTorchCost`
-/
set_option linter.unusedSectionVars false
namespace Verif.Props
open Verif Verif.Part Verif.Batch Verif.Torch

variable {Ω X : Type}

/-! ### specification -/

/-- the batch state and the generator after a history -/
def stateAfter (r : Rng Ω) (c : Cfg X) : St X → Ω → List Event → St X × Ω
  | s, ω, [] => (s, ω)
  | s, ω, .pickle :: rest => stateAfter r c s.restored ω rest
  | s, ω, .use ix :: rest =>
    let a := Torch.getBatchData r c s ix ω
    stateAfter r c a.2.1 a.2.2 rest

/-- a batch state some history leads to -/
def BatchReached (r : Rng Ω) (c : Cfg X) (s : St X) : Prop := ∃ evs ω, s = (stateAfter r c St.fresh ω evs).1

theorem BatchReached.inv {r : Rng Ω} (hr : r.Lawful) {c : Cfg X} (hv : ValidSize c) {s : St X} (h : BatchReached r c s) : Inv c s := by
  obtain ⟨evs, ω, rfl⟩ := h
  have gen : ∀ (evs : List Event) (s : St X) (ω : Ω), Inv c s → Inv c (stateAfter r c s ω evs).1 := by
    intro evs
    induction evs with
    | nil => intro s ω hs; exact hs
    | cons ev rest ih =>
      intro s ω hs
      cases ev with
      | pickle => exact ih _ _ (inv_restored hs)
      | use ix => exact ih _ _ (eval_inv hr hv hs ix ω)
  exact gen evs _ _ (inv_fresh c)

theorem reached_fresh (r : Rng Ω) (c : Cfg X) (ω : Ω) : BatchReached r c St.fresh := ⟨[], ω, rfl⟩

/-- the mean of some numbers -/
noncomputable def sampleMean (l : List ℝ) : ℝ := l.sum / l.length

/-- A network whose loss function averages over the batch, the default of PyTorch's loss functions (`reduction="mean"`):
`ℓ x p` is the loss of the sample `p` at the flat parameters `x`, and `dℓ x p` its gradient. -/
structure Averages (net : Net X) (ℓ : List ℝ → X → ℝ) (dℓ : List ℝ → X → List ℝ) : Prop where
  loss : ∀ x b, x.length = net.total → b ≠ [] → net.loss (splitBy net.sizes x) b = sampleMean (b.map (ℓ x))
  shape : ∀ θ b, (net.grads θ b).map List.length = net.sizes
  len : ∀ x p, (dℓ x p).length = net.total
  slope : ∀ x b, x.length = net.total → b ≠ [] → ∀ k : Nat,
    (net.grads (splitBy net.sizes x) b).flatten.getD k 0 = sampleMean (b.map (fun p => (dℓ x p).getD k 0))

/-- the samples `batch_used` names -/
def Selected (c : Cfg X) (s : St X) (rows : List X) : Prop := rows ≠ [] ∧ List.Forall₂ (SampleAt c.data) s.lastUsed rows

/-! ### parameters -/

theorem splitBy_flatten (ks : List Nat) (x : List ℝ) (h : x.length = ks.sum) : (splitBy ks x).flatten = x := by
  induction ks generalizing x with
  | nil =>
    simp only [List.sum_nil] at h
    rw [List.eq_nil_of_length_eq_zero h]; rfl
  | cons k ks ih =>
    rw [splitBy, List.flatten_cons, ih (x.drop k) (by rw [List.length_drop, h, List.sum_cons]; omega), List.take_append_drop]

theorem splitBy_sizes (ks : List Nat) (x : List ℝ) (h : x.length = ks.sum) : (splitBy ks x).map List.length = ks := by
  induction ks generalizing x with
  | nil => rfl
  | cons k ks ih =>
    rw [List.sum_cons] at h
    rw [splitBy, List.map_cons, ih (x.drop k) (by rw [List.length_drop, h]; omega), List.length_take, Nat.min_eq_left (by omega)]

/-- the flat vector is cut into the model's tensors in order -/
theorem splitBy_unique (ks : List Nat) (θ : List (List ℝ)) (h : θ.map List.length = ks) : splitBy ks θ.flatten = θ := by
  induction ks generalizing θ with
  | nil => rw [List.map_eq_nil_iff] at h; subst h; rfl
  | cons k ks ih =>
    cases θ with
    | nil => cases h
    | cons t ts =>
      simp only [List.map_cons, List.cons.injEq] at h
      obtain ⟨rfl, h2⟩ := h
      rw [splitBy, List.flatten_cons, List.take_left', List.drop_left', ih ts h2] <;> rfl

/-- **C98.** The model takes any flat vector of the right size, and only those (ValueError); the vector is cut into the tensors in
order and reading the parameters back gives the same numbers in a new tensor, without touching any other. -/
theorem C98_parameters (net : Net X) (w : World X) (x : Nat) :
    ((w.store x).length ≠ net.total → setParams net w x = .error .valueError) ∧
    ((w.store x).length = net.total → ∃ w', setParams net w x = .ok w' ∧ w'.store = w.store ∧ w'.st = w.st ∧
      (w'.tensors net).map List.length = net.sizes ∧ (w'.tensors net).flatten = w.store x ∧
      (∀ θ : List (List ℝ), θ.map List.length = net.sizes → θ.flatten = w.store x → w'.tensors net = θ) ∧
      (getParams net w').2.store (getParams net w').1 = w.store x ∧
      ∀ y, y ≠ (getParams net w').1 → (getParams net w').2.store y = w.store y) := by
  constructor
  · intro h; unfold setParams; rw [if_pos h]
  · intro h
    refine ⟨{ w with params := x }, ?_, rfl, rfl, ?_, ?_, ?_, ?_, ?_⟩
    · unfold setParams; rw [if_neg (by simpa using h)]
    · exact splitBy_sizes _ _ h
    · exact splitBy_flatten _ _ h
    · intro θ h1 h2
      show splitBy net.sizes (w.store x) = θ
      rw [← h2, splitBy_unique _ _ h1]
    · exact (if_pos rfl).trans (splitBy_flatten _ _ h)
    · intro y hy
      exact if_neg hy

/-! ### sums over chunks -/

theorem sum_of_mean (l : List ℝ) (h : l ≠ []) : sampleMean l * l.length = l.sum := by
  unfold sampleMean
  have : (l.length : ℝ) ≠ 0 := by
    have := List.length_pos_iff.2 h
    positivity
  field_simp

theorem fold_losses (f : List X → ℝ) (ℓ : X → ℝ) (bs : List (List X)) (hf : ∀ b ∈ bs, f b * b.length = (b.map ℓ).sum) (a : ℝ) :
    bs.foldl (fun t b => t + f b * b.length) a = a + (bs.flatten.map ℓ).sum := by
  induction bs generalizing a with
  | nil => simp
  | cons b bs ih =>
    rw [List.foldl_cons, ih (fun b' hb' => hf b' (by simp [hb'])), hf b (by simp), List.flatten_cons, List.map_append, List.sum_append]
    ring

theorem meanLoss_eq {net : Net X} {ℓ : List ℝ → X → ℝ} {dℓ : List ℝ → X → List ℝ} (ha : Averages net ℓ dℓ) {x : List ℝ}
    (hx : x.length = net.total) (bs : List (List X)) (hbs : ∀ b ∈ bs, b ≠ []) (used : Nat) (hu : used = bs.flatten.length) :
    meanLoss net (splitBy net.sizes x) bs used = sampleMean (bs.flatten.map (ℓ x)) := by
  unfold meanLoss sampleMean
  rw [fold_losses (fun b => net.loss (splitBy net.sizes x) b) (ℓ x) bs, zero_add, List.length_map, hu]
  intro b hb
  rw [ha.loss x b hx (hbs b hb), ← List.length_map (as := b) (ℓ x), sum_of_mean]
  simpa using hbs b hb

theorem zipWith_flatten (f : ℝ → ℝ → ℝ) (a g : List (List ℝ)) (h : a.map List.length = g.map List.length) :
    (List.zipWith (List.zipWith f) a g).flatten = List.zipWith f a.flatten g.flatten ∧
    (List.zipWith (List.zipWith f) a g).map List.length = a.map List.length := by
  induction a generalizing g with
  | nil => simp
  | cons t ts ih =>
    cases g with
    | nil => cases h
    | cons u us =>
      simp only [List.map_cons, List.cons.injEq] at h
      obtain ⟨h1, h2⟩ := h
      obtain ⟨i1, i2⟩ := ih us h2
      constructor
      · rw [List.zipWith_cons_cons, List.flatten_cons, i1, List.flatten_cons, List.flatten_cons, List.zipWith_append h1]
      · rw [List.zipWith_cons_cons, List.map_cons, i2, List.map_cons, List.length_zipWith, ← h1, Nat.min_self]

theorem getD_zipWith (f : ℝ → ℝ → ℝ) (h0 : f 0 0 = 0) (a b : List ℝ) (h : a.length = b.length) (k : Nat) :
    (List.zipWith f a b).getD k 0 = f (a.getD k 0) (b.getD k 0) := by
  by_cases hk : k < a.length
  · have hk' : k < b.length := by omega
    have hz : k < (List.zipWith f a b).length := by rw [List.length_zipWith]; omega
    rw [List.getD_eq_getElem _ _ hz, List.getD_eq_getElem _ _ hk, List.getD_eq_getElem _ _ hk', List.getElem_zipWith]
  · have hz : (List.zipWith f a b).length ≤ k := by rw [List.length_zipWith]; omega
    rw [List.getD_eq_default _ _ hz, List.getD_eq_default _ _ (by omega), List.getD_eq_default _ _ (by omega), h0]

theorem flatten_length_of_shape {a g : List (List ℝ)} (h : a.map List.length = g.map List.length) : a.flatten.length = g.flatten.length := by
  rw [List.length_flatten, List.length_flatten, h]

theorem addScaled_spec (wt : ℝ) (a g : List (List ℝ)) (h : a.map List.length = g.map List.length) :
    (addScaled wt a g).map List.length = a.map List.length ∧
    ∀ k, (addScaled wt a g).flatten.getD k 0 = a.flatten.getD k 0 + wt * g.flatten.getD k 0 := by
  obtain ⟨h1, h2⟩ := zipWith_flatten (fun u v => u + wt * v) a g h
  refine ⟨h2, fun k => ?_⟩
  unfold addScaled
  rw [h1, getD_zipWith _ (by simp) _ _ (flatten_length_of_shape h)]

theorem zeros_shape (ks : List Nat) : (ks.map (fun k => List.replicate k (0 : ℝ))).map List.length = ks := by
  rw [List.map_map]
  conv_rhs => rw [← List.map_id ks]
  apply List.map_congr_left
  intro k _; simp

theorem zeros_flatten (ks : List Nat) : (ks.map (fun k => List.replicate k (0 : ℝ))).flatten = List.replicate ks.sum 0 := by
  induction ks with
  | nil => rfl
  | cons k ks ih => rw [List.map_cons, List.flatten_cons, ih, List.sum_cons, List.replicate_append_replicate]

theorem getD_zeros (n k : Nat) : (List.replicate n (0 : ℝ)).getD k 0 = 0 := by
  by_cases h : k < n
  · rw [List.getD_eq_getElem _ _ (by simpa using h), List.getElem_replicate]
  · rw [List.getD_eq_default _ _ (by simpa using h)]

/-- the accumulating loop over chunks -/
theorem fold_grads (net : Net X) (θ : List (List ℝ)) (hshape : ∀ b, (net.grads θ b).map List.length = net.sizes)
    (u : ℝ) (bs : List (List X)) (acc : List (List ℝ)) (hacc : acc.map List.length = net.sizes) :
    (bs.foldl (fun acc b => addScaled ((b.length : ℝ) * u) acc (net.grads θ b)) acc).map List.length = net.sizes ∧
    ∀ k, (bs.foldl (fun acc b => addScaled ((b.length : ℝ) * u) acc (net.grads θ b)) acc).flatten.getD k 0 =
      acc.flatten.getD k 0 + (bs.map (fun b => (b.length : ℝ) * u * (net.grads θ b).flatten.getD k 0)).sum := by
  induction bs generalizing acc with
  | nil => exact ⟨hacc, fun k => by simp⟩
  | cons b bs ih =>
    obtain ⟨h1, h2⟩ := addScaled_spec ((b.length : ℝ) * u) acc (net.grads θ b) (by rw [hacc, hshape])
    obtain ⟨i1, i2⟩ := ih (addScaled ((b.length : ℝ) * u) acc (net.grads θ b)) (by rw [h1, hacc])
    refine ⟨i1, fun k => ?_⟩
    rw [List.foldl_cons, i2 k, h2 k, List.map_cons, List.sum_cons]
    ring

theorem meanGrads_eq {net : Net X} {ℓ : List ℝ → X → ℝ} {dℓ : List ℝ → X → List ℝ} (ha : Averages net ℓ dℓ) {x : List ℝ}
    (hx : x.length = net.total) (bs : List (List X)) (hne : bs ≠ []) (hbs : ∀ b ∈ bs, b ≠ []) (used : Nat) (hu : used = bs.flatten.length) :
    (meanGrads net (splitBy net.sizes x) bs used).flatten.length = net.total ∧
    ∀ k, (meanGrads net (splitBy net.sizes x) bs used).flatten.getD k 0 = sampleMean (bs.flatten.map (fun p => (dℓ x p).getD k 0)) := by
  have hlen : ∀ θ : List (List ℝ), θ.map List.length = net.sizes → θ.flatten.length = net.total := by
    intro θ h; rw [List.length_flatten, h]; rfl
  by_cases h1 : ∃ b, bs = [b]
  · obtain ⟨b, rfl⟩ := h1
    show (net.grads _ b).flatten.length = _ ∧ ∀ k, (net.grads _ b).flatten.getD k 0 = _
    refine ⟨hlen _ (ha.shape _ _), fun k => ?_⟩
    rw [ha.slope x b hx (hbs b (by simp)) k]
    simp
  · have hm : meanGrads net (splitBy net.sizes x) bs used = bs.foldl (fun acc b => addScaled ((b.length : ℝ) * (1 / (used : ℝ))) acc (net.grads (splitBy net.sizes x) b))
        (net.sizes.map (fun k => List.replicate k 0)) := by
      unfold meanGrads
      split
      · rename_i b; exact absurd ⟨b, rfl⟩ h1
      · rfl
    obtain ⟨i1, i2⟩ := fold_grads net (splitBy net.sizes x) (ha.shape _) (1 / (used : ℝ)) bs _ (zeros_shape net.sizes)
    rw [hm]
    refine ⟨hlen _ i1, fun k => ?_⟩
    rw [i2 k, zeros_flatten, getD_zeros, zero_add]
    have key : ∀ (bs : List (List X)), (∀ b ∈ bs, b ≠ []) →
        (bs.map (fun b => (b.length : ℝ) * (1 / (used : ℝ)) * (net.grads (splitBy net.sizes x) b).flatten.getD k 0)).sum =
        (bs.flatten.map (fun p => (dℓ x p).getD k 0)).sum / used := by
      intro bs
      induction bs with
      | nil => intro _; simp
      | cons b bs ih =>
        intro h
        rw [List.map_cons, List.sum_cons, ih (fun b' hb' => h b' (by simp [hb'])), List.flatten_cons, List.map_append, List.sum_append,
          ha.slope x b hx (h b (by simp)) k]
        have := sum_of_mean (b.map (fun p => (dℓ x p).getD k 0)) (by simpa using h b (by simp))
        rw [List.length_map] at this
        rw [← this]
        ring
    rw [key bs hbs]
    unfold sampleMean
    rw [List.length_map, hu]

/-! ### evaluation -/

theorem chunks_facts {c : Cfg X} (hm : 0 < c.maxBatch) {rows : List X} (hne : rows ≠ []) :
    ∃ bs, pyChunks c.maxBatch rows = .ok bs ∧ bs.flatten = rows ∧ bs ≠ [] ∧ ∀ b ∈ bs, b ≠ [] := by
  refine ⟨chunks c.maxBatch.toNat rows, pyChunks_pos _ hm _, cut_flatten _ (by omega) _, ?_, ?_⟩
  · intro h
    have := cut_flatten c.maxBatch.toNat (by omega) rows
    rw [h] at this
    exact hne this.symm
  · intro b hb
    exact (chunks_piece _ (by omega) rows b hb).1

/-- an evaluation of batch data from a reachable state, with everything needed about it -/
theorem batch_facts {r : Rng Ω} (hr : r.Lawful) {c : Cfg X} (hv : ValidSize c) (hm : 0 < c.maxBatch) {s : St X} (hs : Inv c s)
    (ix : Indices) (ω : Ω) :
    (∃ rows bs s' ω', Torch.getBatchData r c s ix ω = (.ok bs, s', ω') ∧ Selected c s' rows ∧ bs.flatten = rows ∧ bs ≠ [] ∧
      (∀ b ∈ bs, b ≠ []) ∧ s'.lastUsed.length = rows.length ∧ bs = chunks c.maxBatch.toNat rows) ∨
    (∃ e, Torch.getBatchData r c s ix ω = (.error e, s, ω)) := by
  rcases eval_outcome hr hv hs ix ω with ⟨rows, used, s', ω', h1, h2, h3, h4, _⟩ | ⟨e, h1, _⟩
  · left
    obtain ⟨bs, b1, b2, b3, b4⟩ := chunks_facts hm h4
    have hf := (readRows_ok _ _ _).1 h3
    refine ⟨rows, bs, s', ω', by rw [h1, b1], ⟨h4, by rw [h2]; exact hf⟩, b2, b3, b4, by rw [h2]; exact hf.length_eq, ?_⟩
    rw [pyChunks_pos _ hm] at b1
    cases b1; rfl
  · exact Or.inr ⟨e, h1⟩

theorem tensors_set (net : Net X) (w : World X) (x : Nat) : World.tensors net { w with params := x } = splitBy net.sizes (w.store x) := rfl

/-- **C98.** `function` is the mean over the samples `batch_used` names of the sample losses at `x`, for every `max_batch_size`. -/
theorem C98_function {r : Rng Ω} (hr : r.Lawful) {c : Cfg X} (hv : ValidSize c) (hm : 0 < c.maxBatch) {net : Net X}
    {ℓ : List ℝ → X → ℝ} {dℓ : List ℝ → X → List ℝ} (ha : Averages net ℓ dℓ) (w : World X) (hs : BatchReached r c w.st) (x : Nat) (ix : Indices) (ω : Ω)
    (v : ℝ) (w' : World X) (ω' : Ω) (h : functionT r c net w x ix ω = (.ok v, w', ω')) :
    (∃ rows, Selected c w'.st rows ∧ v = sampleMean (rows.map (ℓ (w.store x)))) ∧ w'.store = w.store := by
  unfold functionT at h
  by_cases hx : (w.store x).length = net.total
  · have hsp : setParams net w x = .ok { w with params := x } := by unfold setParams; rw [if_neg (by simpa using hx)]
    rw [hsp] at h
    simp only at h
    rcases batch_facts hr hv hm (hs.inv hr hv) ix ω with ⟨rows, bs, s', ω'', h1, h2, h3, h4, h5, h6, _⟩ | ⟨e, h1⟩
    · rw [h1] at h
      cases h
      refine ⟨⟨rows, h2, ?_⟩, rfl⟩
      rw [tensors_set, meanLoss_eq ha hx bs h5 _ (by rw [h6, h3]), h3]
    · rw [h1] at h; cases h
  · have hsp : setParams net w x = .error .valueError := by unfold setParams; rw [if_pos hx]
    rw [hsp] at h
    cases h

/-- **C98.** `gradient` is, entry by entry, the mean over the same samples of the sample gradients at `x`. -/
theorem C98_gradient {r : Rng Ω} (hr : r.Lawful) {c : Cfg X} (hv : ValidSize c) (hm : 0 < c.maxBatch) {net : Net X}
    {ℓ : List ℝ → X → ℝ} {dℓ : List ℝ → X → List ℝ} (ha : Averages net ℓ dℓ) (w : World X) (hs : BatchReached r c w.st) (x : Nat) (ix : Indices) (ω : Ω)
    (g : List ℝ) (w' : World X) (ω' : Ω) (h : gradientT r c net w x ix ω = (.ok g, w', ω')) :
    (∃ rows, Selected c w'.st rows ∧ g.length = net.total ∧
      ∀ k : Nat, g.getD k 0 = sampleMean (rows.map (fun p => (dℓ (w.store x) p).getD k 0))) ∧ w'.store = w.store := by
  unfold gradientT at h
  by_cases hx : (w.store x).length = net.total
  · have hsp : setParams net w x = .ok { w with params := x } := by unfold setParams; rw [if_neg (by simpa using hx)]
    rw [hsp] at h
    simp only at h
    rcases batch_facts hr hv hm (hs.inv hr hv) ix ω with ⟨rows, bs, s', ω'', h1, h2, h3, h4, h5, h6, _⟩ | ⟨e, h1⟩
    · rw [h1] at h
      cases h
      obtain ⟨m1, m2⟩ := meanGrads_eq ha hx bs h4 h5 s'.lastUsed.length (by rw [h6, h3])
      refine ⟨⟨rows, h2, m1, fun k => ?_⟩, rfl⟩
      rw [tensors_set, m2 k, h3]
    · rw [h1] at h; cases h
  · have hsp : setParams net w x = .error .valueError := by unfold setParams; rw [if_pos hx]
    rw [hsp] at h
    cases h

/-- **C98.** `gradient(reduction=None)` has one row per entry of `batch_used`, in that order: the gradient of that sample. -/
theorem C98_per_sample {r : Rng Ω} (hr : r.Lawful) {c : Cfg X} (hv : ValidSize c) (hm : 0 < c.maxBatch) {net : Net X}
    {ℓ : List ℝ → X → ℝ} {dℓ : List ℝ → X → List ℝ} (ha : Averages net ℓ dℓ) (w : World X) (hs : BatchReached r c w.st) (x : Nat) (ix : Indices) (ω : Ω)
    (G : List (List ℝ)) (w' : World X) (ω' : Ω) (h : sampleGradsT r c net w x ix ω = (.ok G, w', ω')) :
    (∃ rows, Selected c w'.st rows ∧ G = rows.map (dℓ (w.store x))) ∧ w'.store = w.store := by
  unfold sampleGradsT at h
  by_cases hx : (w.store x).length = net.total
  · have hsp : setParams net w x = .ok { w with params := x } := by unfold setParams; rw [if_neg (by simpa using hx)]
    rw [hsp] at h
    simp only at h
    rcases batch_facts hr hv hm (hs.inv hr hv) ix ω with ⟨rows, bs, s', ω'', h1, h2, h3, h4, h5, h6, _⟩ | ⟨e, h1⟩
    · rw [h1] at h
      cases h
      refine ⟨⟨rows, h2, ?_⟩, rfl⟩
      have hone : ∀ p, (net.grads (World.tensors net { w with params := x }) [p]).flatten = dℓ (w.store x) p := by
        intro p
        rw [tensors_set]
        have hl : (net.grads (splitBy net.sizes (w.store x)) [p]).flatten.length = (dℓ (w.store x) p).length := by
          rw [List.length_flatten, ha.shape, ha.len]; rfl
        apply List.ext_getElem hl
        intro k k1 k2
        have := ha.slope (w.store x) [p] hx (by simp) k
        rw [List.getD_eq_getElem _ _ k1] at this
        rw [this]
        simp only [sampleMean, List.map_cons, List.map_nil, List.sum_cons, List.sum_nil, List.length_cons, List.length_nil, add_zero,
          Nat.zero_add, Nat.cast_one, div_one]
        rw [List.getD_eq_getElem _ _ k2]
      rw [← h3, List.map_flatten, List.flatMap]
      congr 1
      apply List.map_congr_left
      intro b _
      apply List.map_congr_left
      intro p _
      exact hone p
    · rw [h1] at h; cases h
  · have hsp : setParams net w x = .error .valueError := by unfold setParams; rw [if_pos hx]
    rw [hsp] at h
    cases h

/-- the same cost with another `max_batch_size` -/
def Cfg.withMax (c : Cfg X) (m : Int) : Cfg X := { c with maxBatch := m }

theorem handle_withMax (r : Rng Ω) (c : Cfg X) (m : Int) (s : St X) (ix : Indices) (ω : Ω) :
    handleIndices r (Cfg.withMax c m) s ix ω = handleIndices r c s ix ω := rfl

theorem batch_withMax (r : Rng Ω) (c : Cfg X) (m : Int) (s : St X) (ix : Indices) (ω : Ω) :
    (Torch.getBatchData r (Cfg.withMax c m) s ix ω).2 = (Torch.getBatchData r c s ix ω).2 := by
  unfold Torch.getBatchData
  rw [handle_withMax]
  rcases handleIndices r c s ix ω with ⟨p | p, s', ω'⟩ <;> rfl

theorem batch_withMax_err (r : Rng Ω) (c : Cfg X) (m : Int) (hm : 0 < m) (hc : 0 < c.maxBatch) (s : St X) (ix : Indices) (ω : Ω) (e : PyErr) :
    (Torch.getBatchData r (Cfg.withMax c m) s ix ω).1 = .error e ↔ (Torch.getBatchData r c s ix ω).1 = .error e := by
  unfold Torch.getBatchData
  rw [handle_withMax]
  rcases handleIndices r c s ix ω with ⟨p | p, s', ω'⟩
  · exact Iff.rfl
  · simp only [Cfg.withMax, pyChunks_pos _ hm, pyChunks_pos _ hc, reduceCtorEq]

theorem withMax_reached {r : Rng Ω} {c : Cfg X} (m : Int) {s : St X} (hs : BatchReached r c s) : BatchReached r (Cfg.withMax c m) s := by
  obtain ⟨evs, ω, rfl⟩ := hs
  refine ⟨evs, ω, ?_⟩
  have gen : ∀ (evs : List Event) (s : St X) (ω : Ω), stateAfter r (Cfg.withMax c m) s ω evs = stateAfter r c s ω evs := by
    intro evs
    induction evs with
    | nil => intro s ω; rfl
    | cons ev rest ih =>
      intro s ω
      cases ev with
      | pickle => exact ih _ _
      | use ix =>
        show stateAfter r (Cfg.withMax c m) _ _ rest = stateAfter r c _ _ rest
        rw [batch_withMax, ih]
  rw [gen]

/-- **C98.** "The result will still be the same": for a loss that averages over the batch, `max_batch_size` changes neither the
value, nor the gradient, nor the per-sample gradients, nor the batches drawn, nor any error. -/
theorem C98_max_batch_size_irrelevant {r : Rng Ω} (hr : r.Lawful) {c : Cfg X} (hv : ValidSize c) (hc : 0 < c.maxBatch) {net : Net X}
    {ℓ : List ℝ → X → ℝ} {dℓ : List ℝ → X → List ℝ} (ha : Averages net ℓ dℓ) (w : World X) (hs : BatchReached r c w.st) (x : Nat) (ix : Indices) (ω : Ω)
    (m : Int) (hm : 0 < m) :
    functionT r (Cfg.withMax c m) net w x ix ω = functionT r c net w x ix ω ∧
    gradientT r (Cfg.withMax c m) net w x ix ω = gradientT r c net w x ix ω ∧
    sampleGradsT r (Cfg.withMax c m) net w x ix ω = sampleGradsT r c net w x ix ω := by
  by_cases hx : (w.store x).length = net.total
  · have hsp : setParams net w x = .ok { w with params := x } := by unfold setParams; rw [if_neg (by simpa using hx)]
    unfold functionT gradientT sampleGradsT
    rw [hsp]
    simp only
    have hv' : ValidSize (Cfg.withMax c m) := hv
    rcases batch_facts hr hv hc (hs.inv hr hv) ix ω with ⟨rows, bs, s', ω'', h1, h2, h3, h4, h5, h6, _⟩ | ⟨e, h1⟩
    · have e2 := batch_withMax r c m w.st ix ω
      rcases batch_facts hr hv' (show 0 < (Cfg.withMax c m).maxBatch from hm) ((withMax_reached m hs).inv hr hv') ix ω with
        ⟨rows', bs', t', ω3, g1, g2, g3, g4, g5, g6, _⟩ | ⟨e, g1⟩
      · rw [h1, g1] at e2
        cases e2
        have hrows : rows' = rows := by
          have a1 := (readRows_ok _ _ _).2 h2.2
          have a2 := (readRows_ok _ _ _).2 g2.2
          rw [show (Cfg.withMax c m).data = c.data from rfl, a1] at a2
          cases a2; rfl
        subst hrows
        rw [h1, g1]
        simp only
        refine ⟨?_, ?_, ?_⟩
        · rw [tensors_set, meanLoss_eq ha hx bs h5 _ (by rw [h6, h3]), meanLoss_eq ha hx bs' g5 _ (by rw [h6, g3]), h3, g3]
        · obtain ⟨m1, m2⟩ := meanGrads_eq ha hx bs h4 h5 s'.lastUsed.length (by rw [h6, h3])
          obtain ⟨n1, n2⟩ := meanGrads_eq ha hx bs' g4 g5 s'.lastUsed.length (by rw [h6, g3])
          rw [tensors_set]
          congr 2
          apply List.ext_getElem (by rw [m1, n1])
          intro k k1 k2
          have := m2 k
          rw [List.getD_eq_getElem _ _ k2, h3] at this
          rw [this]
          have := n2 k
          rw [List.getD_eq_getElem _ _ k1, g3] at this
          rw [this]
        · congr 2
          rw [List.flatMap, List.flatMap, ← List.map_flatten, ← List.map_flatten, h3, g3]
      · exfalso
        have := (batch_withMax_err r c m hm hc w.st ix ω e).1 (by rw [g1])
        rw [h1] at this; cases this
    · have e2 := batch_withMax r c m w.st ix ω
      have e1 := (batch_withMax_err r c m hm hc w.st ix ω e).2 (by rw [h1])
      have : Torch.getBatchData r (Cfg.withMax c m) w.st ix ω = Torch.getBatchData r c w.st ix ω := by
        apply Prod.ext
        · rw [e1, h1]
        · exact e2
      rw [this]
      exact ⟨rfl, rfl, rfl⟩
  · have hsp : setParams net w x = .error .valueError := by unfold setParams; rw [if_pos hx]
    unfold functionT gradientT sampleGradsT
    rw [hsp]
    exact ⟨rfl, rfl, rfl⟩

theorem hasDeriv_sum {P : Type} (f : ℝ → P → ℝ) (f' : P → ℝ) (t : ℝ) (rows : List P) (h : ∀ p ∈ rows, HasDerivAt (fun u => f u p) (f' p) t) :
    HasDerivAt (fun u => (rows.map (f u)).sum) (rows.map f').sum t := by
  induction rows with
  | nil => simpa using hasDerivAt_const t (0 : ℝ)
  | cons p rows ih =>
    simp only [List.map_cons, List.sum_cons]
    exact (h p (by simp)).add (ih (fun q hq => h q (by simp [hq])))

/-- **C98.** If the sample gradients are the partial derivatives of the sample losses, the entries of `gradient` are the partial
derivatives of the value `function` would give on the same batch when the parameters vary. -/
theorem C98_gradient_is_slope {r : Rng Ω} (hr : r.Lawful) {c : Cfg X} (hv : ValidSize c) (hm : 0 < c.maxBatch) {net : Net X}
    {ℓ : List ℝ → X → ℝ} {dℓ : List ℝ → X → List ℝ} (ha : Averages net ℓ dℓ)
    (hd : ∀ y p, ∀ k : Nat, k < y.length → HasDerivAt (fun t => ℓ (y.set k t) p) ((dℓ y p).getD k 0) (y.getD k 0))
    (w : World X) (hs : BatchReached r c w.st) (x : Nat) (ix : Indices) (ω : Ω)
    (g : List ℝ) (w' : World X) (ω' : Ω) (h : gradientT r c net w x ix ω = (.ok g, w', ω')) :
    ∃ F : List ℝ → ℝ,
      (∀ y, y.length = net.total →
        (functionT r c net { w with store := fun i => if i = x then y else w.store i } x ix ω).1 = .ok (F y)) ∧
      ∀ k : Nat, k < net.total → HasDerivAt (fun t => F ((w.store x).set k t)) (g.getD k 0) ((w.store x).getD k 0) := by
  unfold gradientT at h
  by_cases hx : (w.store x).length = net.total
  · have hsp : setParams net w x = .ok { w with params := x } := by unfold setParams; rw [if_neg (by simpa using hx)]
    rw [hsp] at h
    simp only at h
    rcases batch_facts hr hv hm (hs.inv hr hv) ix ω with ⟨rows, bs, s', ω'', h1, h2, h3, h4, h5, h6, _⟩ | ⟨e, h1⟩
    · rw [h1] at h
      cases h
      refine ⟨fun y => sampleMean (rows.map (ℓ y)), ?_, ?_⟩
      · intro y hy
        have hst : (if x = x then y else w.store x) = y := if_pos rfl
        have hsp' : setParams net { w with store := fun i => if i = x then y else w.store i } x =
            .ok { w with store := fun i => if i = x then y else w.store i, params := x } := by
          unfold setParams; simp only [hst]; rw [if_neg (by simpa using hy)]
        unfold functionT
        rw [hsp']
        simp only
        rw [h1]
        have ht : World.tensors net { w with store := fun i => if i = x then y else w.store i, params := x } = splitBy net.sizes y := by
          show splitBy net.sizes (if x = x then y else w.store x) = _
          rw [hst]
        rw [ht]
        dsimp only
        rw [meanLoss_eq ha hy bs h5 _ (by rw [h6, h3]), h3]
      · intro k hk
        obtain ⟨m1, m2⟩ := meanGrads_eq ha hx bs h4 h5 s'.lastUsed.length (by rw [h6, h3])
        rw [tensors_set, m2 k, h3]
        unfold sampleMean
        simp only [List.length_map]
        apply HasDerivAt.div_const
        exact hasDeriv_sum (fun t p => ℓ ((w.store x).set k t) p) (fun p => (dℓ (w.store x) p).getD k 0) _ rows
          (fun p _ => hd (w.store x) p k (by rw [hx]; exact hk))
    · rw [h1] at h; cases h
  · have hsp : setParams net w x = .error .valueError := by unfold setParams; rw [if_pos hx]
    rw [hsp] at h
    cases h

/-! ### values of `max_batch_size` that are accepted and should not be -/

/-- **C98 (refutation).** `max_batch_size` is not checked.  With 0 no evaluation ever succeeds; with a negative number every
evaluation that finds its samples returns the value 0 and a zero gradient, whatever the network and the data. -/
theorem C98_bad_max_batch_size (r : Rng Ω) (c : Cfg X) (net : Net X) (w : World X) (x : Nat) (ix : Indices) (ω : Ω) :
    (c.maxBatch = 0 → (∀ v, (functionT r c net w x ix ω).1 ≠ .ok v) ∧ ∀ g, (gradientT r c net w x ix ω).1 ≠ .ok g) ∧
    (c.maxBatch < 0 → (∀ v, (functionT r c net w x ix ω).1 = .ok v → v = 0) ∧
      ∀ g, (gradientT r c net w x ix ω).1 = .ok g → g = List.replicate net.total 0) := by
  have hcases : ∀ s : St X, (∃ e s' ω', Torch.getBatchData r c s ix ω = (.error e, s', ω')) ∨
      ∃ rows s' ω', Torch.getBatchData r c s ix ω = (pyChunks c.maxBatch rows, s', ω') := by
    intro s
    unfold Torch.getBatchData
    rcases handleIndices r c s ix ω with ⟨p | p, s', ω'⟩
    · exact Or.inl ⟨_, _, _, rfl⟩
    · exact Or.inr ⟨p.1, _, _, rfl⟩
  constructor
  · intro h0
    have hz : ∀ rows : List X, pyChunks c.maxBatch rows = .error .valueError := by intro rows; unfold pyChunks; rw [if_pos h0]
    constructor
    · intro v h
      unfold functionT at h
      cases hsp : setParams net w x with
      | error e => rw [hsp] at h; cases h
      | ok w1 =>
        rw [hsp] at h; simp only at h
        rcases hcases w1.st with ⟨e, s', ω', h1⟩ | ⟨rows, s', ω', h1⟩
        · rw [h1] at h; cases h
        · rw [h1, hz] at h; cases h
    · intro v h
      unfold gradientT at h
      cases hsp : setParams net w x with
      | error e => rw [hsp] at h; cases h
      | ok w1 =>
        rw [hsp] at h; simp only at h
        rcases hcases w1.st with ⟨e, s', ω', h1⟩ | ⟨rows, s', ω', h1⟩
        · rw [h1] at h; cases h
        · rw [h1, hz] at h; cases h
  · intro hneg
    have hz : ∀ rows : List X, pyChunks c.maxBatch rows = .ok [] := by
      intro rows; unfold pyChunks; rw [if_neg (by omega), if_pos hneg]
    constructor
    · intro v h
      unfold functionT at h
      cases hsp : setParams net w x with
      | error e => rw [hsp] at h; cases h
      | ok w1 =>
        rw [hsp] at h; simp only at h
        rcases hcases w1.st with ⟨e, s', ω', h1⟩ | ⟨rows, s', ω', h1⟩
        · rw [h1] at h; cases h
        · rw [h1, hz] at h
          simp only [meanLoss, List.foldl_nil, zero_div, Except.ok.injEq] at h
          exact h.symm
    · intro v h
      unfold gradientT at h
      cases hsp : setParams net w x with
      | error e => rw [hsp] at h; cases h
      | ok w1 =>
        rw [hsp] at h; simp only at h
        rcases hcases w1.st with ⟨e, s', ω', h1⟩ | ⟨rows, s', ω', h1⟩
        · rw [h1] at h; cases h
        · rw [h1, hz] at h
          simp only [meanGrads, List.foldl_nil, zeros_flatten, Except.ok.injEq] at h
          exact h.symm

/-- **C98 (limit).** The averaging hypothesis matters: for a loss that sums over the batch, `function` on the whole data set is
the sum of the sample losses when the data fit in one chunk, but their mean when `max_batch_size` is 1. -/
theorem C98_sum_reduction (r : Rng Ω) {c : Cfg X} (hv : ValidSize c) (net : Net X) (ℓ : List ℝ → X → ℝ)
    (hsum : ∀ x b, x.length = net.total → net.loss (splitBy net.sizes x) b = (b.map (ℓ x)).sum)
    (w : World X) (hw : w.st = St.fresh) (x : Nat) (hx : (w.store x).length = net.total) (ω : Ω) :
    (functionT r (Cfg.withMax c c.data.length) net w x .all ω).1 = .ok (c.data.map (ℓ (w.store x))).sum ∧
    (functionT r (Cfg.withMax c 1) net w x .all ω).1 = .ok (sampleMean (c.data.map (ℓ (w.store x)))) := by
  have hlen : 1 ≤ c.data.length := hv.1.trans hv.2
  have hne : c.data ≠ [] := List.length_pos_iff.1 hlen
  have hsp : setParams net w x = .ok { w with params := x } := by unfold setParams; rw [if_neg (by simpa using hx)]
  have hb : ∀ m : Int, Torch.getBatchData r (Cfg.withMax c m) w.st .all ω =
      (pyChunks m c.data, St.keep w.st (c.data, positions c.data.length), ω) := by
    intro m
    have hsel : select (Cfg.withMax c m) (positions c.data.length) = .ok (c.data, positions c.data.length) := by
      cases hs : select (Cfg.withMax c m) (positions c.data.length) with
      | ok p =>
        obtain ⟨a1, a2, _⟩ := select_ok hs
        have hu : usedFor (Cfg.withMax c m) (positions c.data.length) = positions c.data.length := usedFor_positions (Cfg.withMax c m)
        rw [hu] at a1 a2
        rw [show (Cfg.withMax c m).data = c.data from rfl, readRows_positions] at a2
        rw [Except.ok.injEq] at a2
        rw [← a1, a2]
      | error e =>
        exfalso
        obtain ⟨p, hp⟩ := select_in_range (c := Cfg.withMax c m) (is := positions c.data.length) (by
          intro h
          have := congrArg List.length h
          rw [positions_length, List.length_nil] at this
          omega) (by
          intro i hi
          simp only [positions, List.mem_map, List.mem_range] at hi
          obtain ⟨j, hj, rfl⟩ := hi
          show -(c.data.length : Int) ≤ _ ∧ _ < (c.data.length : Int)
          omega)
        rw [hp] at hs; cases hs
    have hinv : Inv (Cfg.withMax c m) w.st := by rw [hw]; exact inv_fresh _
    rcases eval_list (r := r) hinv .all (positions c.data.length) rfl ω with ⟨p, h1, h2⟩ | ⟨e, h1, _⟩
    · rw [hsel] at h1
      cases h1
      exact h2
    · rw [hsel] at h1; cases h1
  have hpl : (positions c.data.length).length = c.data.length := positions_length _
  have hpos : (c.data.length : ℝ) ≠ 0 := by positivity
  constructor
  · unfold functionT
    rw [hsp]
    simp only
    rw [hb, pyChunks_pos _ (by omega : (0 : Int) < (c.data.length : Int)), chunks_single _ _ hne (by simp)]
    simp only [tensors_set, meanLoss, List.foldl_cons, List.foldl_nil, zero_add, St.keep, hpl]
    rw [hsum _ _ hx, mul_div_assoc, div_self hpos, mul_one]
  · unfold functionT
    rw [hsp]
    simp only
    rw [hb, pyChunks_pos _ (by omega : (0 : Int) < 1)]
    have hone : ∀ b ∈ chunks (1 : Int).toNat c.data, b.length = 1 := by
      intro b hb
      obtain ⟨b1, b2⟩ := chunks_piece 1 (le_refl _) c.data b hb
      have := List.length_pos_iff.2 b1
      omega
    have hfold := fold_losses (fun b => net.loss (splitBy net.sizes (w.store x)) b) (ℓ (w.store x)) (chunks (1 : Int).toNat c.data) (by
      intro b hb
      rw [hone b hb, hsum _ _ hx]; simp) 0
    simp only [tensors_set, meanLoss, St.keep, hpl]
    rw [hfold, zero_add, show (1 : Int).toNat = 1 from rfl, cut_flatten 1 (le_refl _)]
    unfold sampleMean
    rw [List.length_map]

/-- **C98.** `predict` of a network that treats the samples of a batch independently gives one output per input, in order, for
every `max_batch_size`; it changes no tensor. -/
theorem C98_predict {I Y : Type} (c : Cfg X) (hm : 0 < c.maxBatch) (net : Net X) (fwd : List (List ℝ) → List I → List Y)
    (f : List ℝ → I → Y) (hf : ∀ y b, y.length = net.total → fwd (splitBy net.sizes y) b = b.map (f y)) (w : World X) (x : Nat) (inputs : List I) :
    ((w.store x).length = net.total → (predictT c net fwd w x inputs).1 = .ok (inputs.map (f (w.store x)))) ∧
    ((w.store x).length ≠ net.total → (predictT c net fwd w x inputs).1 = .error .valueError) ∧
    (predictT c net fwd w x inputs).2.store = w.store ∧ (predictT c net fwd w x inputs).2.st = w.st := by
  by_cases hx : (w.store x).length = net.total
  · have hsp : setParams net w x = .ok { w with params := x } := by unfold setParams; rw [if_neg (by simpa using hx)]
    have hp : predictT c net fwd w x inputs = (.ok (inputs.map (f (w.store x))), { w with params := x }) := by
      unfold predictT
      rw [hsp]
      simp only [pyChunks_pos _ hm, tensors_set]
      congr 2
      have : (chunks c.maxBatch.toNat inputs).flatMap (fwd (splitBy net.sizes (w.store x))) =
          ((chunks c.maxBatch.toNat inputs).flatten).map (f (w.store x)) := by
        rw [List.flatMap, List.map_flatten]
        congr 1
        apply List.map_congr_left
        intro b _
        exact hf _ b hx
      rw [this, cut_flatten _ (by omega)]
    rw [hp]
    exact ⟨fun _ => rfl, fun h => absurd hx h, rfl, rfl⟩
  · have hsp : setParams net w x = .error .valueError := by unfold setParams; rw [if_pos hx]
    have hp : predictT c net fwd w x inputs = (.error .valueError, w) := by
      unfold predictT; rw [hsp]
    rw [hp]
    exact ⟨fun h => absurd h hx, fun _ => rfl, rfl, rfl⟩

/-! ### networks that satisfy the hypotheses -/

/-- the network with given parameter sizes whose loss averages given sample losses -/
noncomputable def avgNet (sizes : List Nat) (ℓ : List ℝ → X → ℝ) (dℓ : List ℝ → X → List ℝ) : Net X where
  sizes := sizes
  loss θ b := sampleMean (b.map (ℓ θ.flatten))
  grads θ b := splitBy sizes ((List.range sizes.sum).map (fun k => sampleMean (b.map (fun p => (dℓ θ.flatten p).getD k 0))))

theorem sampleMean_zero (l : List ℝ) (h : ∀ a ∈ l, a = 0) : sampleMean l = 0 := by
  unfold sampleMean
  rw [List.sum_eq_zero h, zero_div]

theorem avgNet_averages (sizes : List Nat) (ℓ : List ℝ → X → ℝ) (dℓ : List ℝ → X → List ℝ) (hl : ∀ x p, (dℓ x p).length = sizes.sum) :
    Averages (avgNet sizes ℓ dℓ) ℓ dℓ := by
  refine ⟨?_, ?_, hl, ?_⟩
  · intro x b hx _
    show sampleMean (b.map (ℓ (splitBy sizes x).flatten)) = _
    rw [splitBy_flatten sizes x hx]
  · intro θ b
    exact splitBy_sizes _ _ (by simp)
  · intro x b hx hb k
    show (splitBy sizes _).flatten.getD k 0 = _
    rw [splitBy_flatten _ _ (by simp)]
    have hx' : (splitBy sizes x).flatten = x := splitBy_flatten _ _ hx
    by_cases hk : k < sizes.sum
    · rw [List.getD_eq_getElem _ _ (by simpa using hk), List.getElem_map, List.getElem_range]
      rw [show (splitBy (avgNet sizes ℓ dℓ).sizes x).flatten = x from hx']
    · rw [List.getD_eq_default _ _ (by simpa using hk), sampleMean_zero]
      intro a ha
      obtain ⟨p, _, rfl⟩ := List.mem_map.1 ha
      rw [List.getD_eq_default _ _ (by rw [hl]; omega)]

/-- linear regression `w · a + b ≈ t` on one feature with squared error, as a network with a weight and a bias -/
noncomputable def lineLoss (x : List ℝ) (p : ℝ × ℝ) : ℝ := (x.getD 0 0 * p.1 + x.getD 1 0 - p.2) ^ 2
noncomputable def lineGrad (x : List ℝ) (p : ℝ × ℝ) : List ℝ :=
  [2 * (x.getD 0 0 * p.1 + x.getD 1 0 - p.2) * p.1, 2 * (x.getD 0 0 * p.1 + x.getD 1 0 - p.2)]

example : Averages (avgNet [1, 1] lineLoss lineGrad) lineLoss lineGrad := avgNet_averages _ _ _ (fun _ _ => rfl)

/-- three points, mini-batches of two, computed one at a time; the parameters are tensor 0 -/
noncomputable def lineCfg : Cfg (ℝ × ℝ) := ⟨[(1, 2), (2, 3), (3, 5)], 2, 1, false, true, false, true⟩
noncomputable def lineWorld : World (ℝ × ℝ) := ⟨St.fresh, fun _ => [1, 0], 0, 1⟩

theorem line_valid : ValidSize lineCfg := ⟨by decide, by decide⟩

/-- an evaluation that succeeds: the first mini-batch, from a reachable state -/
example : BatchReached straight lineCfg lineWorld.st ∧ ∃ v w', functionT straight lineCfg (avgNet [1, 1] lineLoss lineGrad) lineWorld 0 .batch () = (.ok v, w', ()) ∧
    w'.st.lastUsed = [0, 1] := by
  refine ⟨reached_fresh _ _ (), ?_⟩
  refine ⟨_, _, rfl, rfl⟩

/-- its value by the theorem: the mean of `(1·1 - 2)²` and `(1·2 - 3)²` -/
example : sampleMean ([((1 : ℝ), (2 : ℝ)), (2, 3)].map (lineLoss [1, 0])) = 1 := by
  norm_num [sampleMean, lineLoss]

end Verif.Props
