import Mathlib.Tactic.Linarith
import Mathlib.Tactic.Ring
import Mathlib.Tactic.FieldSimp
import Mathlib.Tactic.Positivity
import Mathlib.Data.Fintype.BigOperators
import Mathlib.Data.Finset.Powerset
import Mathlib.Combinatorics.Enumerative.DoubleCounting
import Mathlib.MeasureTheory.Integral.Pi
import Mathlib.MeasureTheory.Integral.IntervalIntegral.Basic
import Verif.Model.Compression
import Verif.Lemmas.Exchange
set_option linter.unusedSectionVars false
/-!
# C18, C19, C20: compression
-/
namespace Verif.Props
open Verif.Compression

section
variable {n : Nat}

/-- documented contract of `np.argpartition(w, -k)` (kth = n-k): a permutation of the positions in which every entry among
the last `k` is at least every other entry -/
def ArgPartOK (part : (Fin n → ℝ) → Nat → List (Fin n)) : Prop :=
  ∀ w k, 1 ≤ k → k ≤ n → (part w k).Nodup ∧ (part w k).length = n ∧
    ∀ a ∈ (part w k).take (n - k), ∀ b ∈ (part w k).drop (n - k), w a ≤ w b

/-- `choice(n, size=k, replace=False)` -/
def ChoiceOK (choice : Nat → List (Fin n)) : Prop :=
  ∀ k, k ≤ n → (choice k).Nodup ∧ (choice k).length = k

/-- documented number of transmitted elements: `k`, or the fraction rounded up (at least one), never more than available -/
def KeptCount (k : KParam) (n m : Nat) : Prop :=
  match k with
  | .int k => (m : Int) = min k n
  | .frac f => f * n ≤ m ∧ (m : ℝ) < f * n + 1

theorem kCount_spec (k k' : KParam) (hk : ctor k = .ok k') (hn : 0 < n) :
    KeptCount k' n (kCount k' n) ∧ 1 ≤ kCount k' n ∧ kCount k' n ≤ n := by
  cases k with
  | int k =>
    simp only [ctor] at hk
    split_ifs at hk with h
    obtain rfl := Except.ok.inj hk
    simp only [KeptCount, kCount]
    omega
  | frac f =>
    simp only [ctor] at hk
    split_ifs at hk with h
    obtain rfl := Except.ok.inj hk
    push Not at h
    simp only [KeptCount, kCount]
    have hn' : (0 : ℝ) < n := by exact_mod_cast hn
    have hpos : 0 < f * n := mul_pos h.1 hn'
    have hle : f * n ≤ n := by nlinarith [h.2]
    have hc1 : 0 < ⌈f * (n : ℝ)⌉ := Int.ceil_pos.2 hpos
    have hc2 : ⌈f * (n : ℝ)⌉ ≤ n := by rw [Int.ceil_le]; exact_mod_cast hle
    obtain ⟨q, hq⟩ := Int.eq_ofNat_of_zero_le hc1.le
    have hmax : max 1 (Int.toNat ⌈f * (n : ℝ)⌉) = q := by rw [hq]; simp; omega
    rw [hmax]
    have h1 := Int.le_ceil (f * (n : ℝ))
    have h2 := Int.ceil_lt_add_one (f * (n : ℝ))
    rw [hq] at h1 h2
    refine ⟨⟨by exact_mod_cast h1, by exact_mod_cast h2⟩, by omega, by omega⟩

/-- Specification of "keeps a set `S` of positions". -/
def Keeps (v out : Fin n → ℝ) (S : Finset (Fin n)) : Prop := (∀ i ∈ S, out i = v i) ∧ ∀ i, i ∉ S → out i = 0

theorem scatter_keeps (v : Fin n → ℝ) (idx : List (Fin n)) : Keeps v (scatter v idx) idx.toFinset := by
  constructor
  · intro i hi; simp [scatter, List.mem_toFinset.1 hi]
  · intro i hi; simp only [scatter]; rw [if_neg (by simpa using hi)]

theorem topK_set (k k' : KParam) (hk : ctor k = .ok k') (hn : 0 < n) (part : (Fin n → ℝ) → Nat → List (Fin n))
    (hp : ArgPartOK part) (v : Fin n → ℝ) :
    ∃ S : Finset (Fin n), S.card = kCount k' n ∧ Keeps v (topK k' part v) S ∧ ∀ i ∈ S, ∀ j, j ∉ S → |v j| ≤ |v i| := by
  obtain ⟨_, h1, h2⟩ := kCount_spec k k' hk hn
  obtain ⟨hnd, hlen, hord⟩ := hp (fun i => |v i|) (kCount k' n) h1 h2
  set p := part (fun i => |v i|) (kCount k' n) with hpdef
  refine ⟨(p.drop (n - kCount k' n)).toFinset, ?_, ?_, ?_⟩
  · rw [List.toFinset_card_of_nodup (hnd.sublist (List.drop_sublist _ _)), List.length_drop, hlen]; omega
  · have := scatter_keeps v (p.drop (p.length - kCount k' n))
    rw [hlen] at this
    simpa [topK, ← hpdef, hlen] using this
  · intro i hi j hj
    have hi' := List.mem_toFinset.1 hi
    have hj' : j ∉ p.drop (n - kCount k' n) := by simpa using hj
    have hjp : j ∈ p := by
      have : p.toFinset = Finset.univ := by
        apply Finset.eq_univ_of_card
        rw [List.toFinset_card_of_nodup hnd, hlen, Fintype.card_fin]
      have : j ∈ p.toFinset := by rw [this]; simp
      simpa using this
    have hjt : j ∈ p.take (n - kCount k' n) := by
      rw [← List.take_append_drop (n - kCount k' n) p, List.mem_append] at hjp
      exact hjp.resolve_right hj'
    exact hord j hjt i hi'

/-- TopK keeps exactly the documented number of positions, a set of largest magnitude, and zeroes the rest. -/
theorem C18_topk (k k' : KParam) (hk : ctor k = .ok k') (hn : 0 < n) (part : (Fin n → ℝ) → Nat → List (Fin n))
    (hp : ArgPartOK part) (v : Fin n → ℝ) :
    ∃ S : Finset (Fin n), KeptCount k' n S.card ∧ 1 ≤ S.card ∧ Keeps v (topK k' part v) S ∧
      ∀ i ∈ S, ∀ j, j ∉ S → |v j| ≤ |v i| := by
  obtain ⟨S, hc, h1, h2⟩ := topK_set k k' hk hn part hp v
  obtain ⟨ht, h3, _⟩ := kCount_spec k k' hk hn
  exact ⟨S, hc ▸ ht, hc ▸ h3, h1, h2⟩

/-- squared error between two messages -/
noncomputable def sqErr (v w : Fin n → ℝ) : ℝ := ∑ i, (v i - w i) ^ 2

theorem sqErr_keeps (v out : Fin n → ℝ) (S : Finset (Fin n)) (h : Keeps v out S) : sqErr v out = ∑ i ∈ Sᶜ, v i ^ 2 := by
  unfold sqErr
  rw [← Finset.sum_add_sum_compl S]
  have h1 : ∑ i ∈ S, (v i - out i) ^ 2 = 0 := Finset.sum_eq_zero (fun i hi => by rw [h.1 i hi]; ring)
  rw [h1, zero_add]
  exact Finset.sum_congr rfl (fun i hi => by rw [h.2 i (by simpa using hi)]; ring)

/-- No vector with at most as many non-zeros as TopK transmits is closer to the message. -/
theorem C18_topk_best (k k' : KParam) (hk : ctor k = .ok k') (hn : 0 < n) (part : (Fin n → ℝ) → Nat → List (Fin n))
    (hp : ArgPartOK part) (v w : Fin n → ℝ)
    (hw : (Finset.univ.filter (fun i => w i ≠ 0)).card ≤ kCount k' n) :
    sqErr v (topK k' part v) ≤ sqErr v w := by
  obtain ⟨S, hc, hkeep, hord⟩ := topK_set k k' hk hn part hp v
  have hle := (kCount_spec k k' hk hn).2.2
  rw [sqErr_keeps v _ S hkeep]
  obtain ⟨T, hT1, hT2⟩ := Finset.exists_superset_card_eq (s := Finset.univ.filter (fun i => w i ≠ 0))
    (n := kCount k' n) hw (by simpa using hle)
  have h1 : ∑ i ∈ Tᶜ, v i ^ 2 ≤ sqErr v w := by
    unfold sqErr
    rw [← Finset.sum_add_sum_compl T]
    have : ∑ i ∈ Tᶜ, (v i - w i) ^ 2 = ∑ i ∈ Tᶜ, v i ^ 2 := by
      refine Finset.sum_congr rfl (fun i hi => ?_)
      have : w i = 0 := by
        by_contra hne
        exact (Finset.mem_compl.1 hi) (hT1 (by simp [hne]))
      rw [this]; ring
    rw [this]
    have : 0 ≤ ∑ i ∈ T, (v i - w i) ^ 2 := Finset.sum_nonneg (fun i _ => sq_nonneg _)
    linarith
  refine le_trans ?_ h1
  apply sum_le_of_exchange
  · rw [Finset.card_compl, Finset.card_compl, hc, hT2]
  · intro a ha b hb hb'
    have hbS : b ∈ S := by simpa using hb'
    have haS : a ∉ S := by simpa using ha
    have := hord b hbS a haS
    exact sq_le_sq.2 this

/-- TopK is a contraction: `n * error <= (n - k) * |v|^2`. -/
theorem C18_topk_contraction (k k' : KParam) (hk : ctor k = .ok k') (hn : 0 < n)
    (part : (Fin n → ℝ) → Nat → List (Fin n)) (hp : ArgPartOK part) (v : Fin n → ℝ) :
    (n : ℝ) * sqErr v (topK k' part v) ≤ ((n : ℝ) - kCount k' n) * ∑ i, v i ^ 2 := by
  obtain ⟨S, hc, hkeep, hord⟩ := topK_set k k' hk hn part hp v
  have hle := (kCount_spec k k' hk hn).2.2
  rw [sqErr_keeps v _ S hkeep, ← Finset.sum_add_sum_compl S (fun i => v i ^ 2)]
  have hcc : (Sᶜ.card : ℝ) = n - kCount k' n := by
    rw [Finset.card_compl, Fintype.card_fin, hc, Nat.cast_sub hle]
  have key : (S.card : ℝ) * ∑ j ∈ Sᶜ, v j ^ 2 ≤ (Sᶜ.card : ℝ) * ∑ i ∈ S, v i ^ 2 := by
    have h1 : ∑ i ∈ S, ∑ j ∈ Sᶜ, v j ^ 2 ≤ ∑ i ∈ S, ∑ j ∈ Sᶜ, v i ^ 2 :=
      Finset.sum_le_sum (fun i hi => Finset.sum_le_sum (fun j hj => sq_le_sq.2 (hord i hi j (by simpa using hj))))
    simp only [Finset.sum_const, nsmul_eq_mul] at h1
    rw [← Finset.mul_sum] at h1
    exact h1
  rw [hcc, hc] at key
  nlinarith

/-- a concrete partition oracle meeting the contract: sort the positions by value -/
theorem argPart_exists : ArgPartOK (n := n) (fun w _ => (List.finRange n).insertionSort (fun a b => w a ≤ w b)) := by
  intro w k _ _
  have hperm := List.perm_insertionSort (fun a b => w a ≤ w b) (List.finRange n)
  refine ⟨hperm.nodup_iff.2 (List.nodup_finRange n), by simp, ?_⟩
  intro a ha b hb
  have : Std.Total (fun a b : Fin n => w a ≤ w b) := ⟨fun a b => le_total _ _⟩
  have : IsTrans (Fin n) (fun a b : Fin n => w a ≤ w b) := ⟨fun a b c => le_trans⟩
  exact take_le_drop (List.pairwise_insertionSort (fun a b => w a ≤ w b) (List.finRange n)) _ ha hb

example : ∃ part, ArgPartOK (n := 5) part := ⟨_, argPart_exists⟩
example : ctor (.int 3) = .ok (.int 3) := by simp [ctor]

/-- RandK keeps exactly the drawn positions, the documented number of them. -/
theorem C18_randk (k k' : KParam) (hk : ctor k = .ok k') (hn : 0 < n) (choice : Nat → List (Fin n))
    (hp : ChoiceOK choice) (v : Fin n → ℝ) :
    ∃ S : Finset (Fin n), KeptCount k' n S.card ∧ 1 ≤ S.card ∧ Keeps v (randK k' choice v) S ∧
      ∀ i, i ∈ S ↔ i ∈ choice (kCount k' n) := by
  obtain ⟨ht, h3, h4⟩ := kCount_spec k k' hk hn
  obtain ⟨hnd, hlen⟩ := hp _ h4
  refine ⟨(choice (kCount k' n)).toFinset, ?_, ?_, scatter_keeps v _, by simp⟩
  · rw [List.toFinset_card_of_nodup hnd, hlen]; exact ht
  · rw [List.toFinset_card_of_nodup hnd, hlen]; exact h3

example : ChoiceOK (n := 4) (fun k => (List.finRange 4).take k) :=
  fun k hk => ⟨(List.nodup_finRange 4).sublist (List.take_sublist _ _), by simp; omega⟩

/-- RandK does not rescale: averaged over all equally likely draws, the transmitted message is `k/n` times the message
(so it is biased unless `k = n`), and the squared error is `(1 - k/n) |v|^2`. -/
theorem C18_randk_mean (m : Nat) (v : Fin n → ℝ) (i : Fin n) :
    (n : ℝ) * ∑ S ∈ Finset.powersetCard m (Finset.univ : Finset (Fin n)), scatter v S.toList i =
      (m : ℝ) * v i * (Finset.powersetCard m (Finset.univ : Finset (Fin n))).card := by
  have h1 : ∀ S : Finset (Fin n), scatter v S.toList i = if i ∈ S then v i else 0 := by
    intro S; simp [scatter]
  simp only [h1]
  rw [← Finset.sum_filter, Finset.sum_const, nsmul_eq_mul]
  -- number of sets containing i: n * N_i = m * C(n,m), by symmetry via double counting
  have hcount : ∀ j : Fin n, ((Finset.powersetCard m (Finset.univ : Finset (Fin n))).filter (fun S => j ∈ S)).card =
      ((Finset.powersetCard m (Finset.univ : Finset (Fin n))).filter (fun S => i ∈ S)).card := by
    intro j
    let e := Equiv.swap i j
    refine Finset.card_bij (fun S _ => S.map e.toEmbedding) ?_ ?_ ?_
    · intro S hS
      simp only [Finset.mem_filter, Finset.mem_powersetCard, Finset.subset_univ, true_and] at hS ⊢
      refine ⟨by rw [Finset.card_map]; exact hS.1, ?_⟩
      rw [Finset.mem_map]
      exact ⟨j, hS.2, by simp [e]⟩
    · intro S _ S' _ h
      exact Finset.map_injective _ h
    · intro S hS
      simp only [Finset.mem_filter, Finset.mem_powersetCard, Finset.subset_univ, true_and] at hS
      refine ⟨S.map e.toEmbedding, ?_, ?_⟩
      · simp only [Finset.mem_filter, Finset.mem_powersetCard, Finset.subset_univ, true_and]
        refine ⟨by rw [Finset.card_map]; exact hS.1, ?_⟩
        rw [Finset.mem_map]
        exact ⟨i, hS.2, by simp [e]⟩
      · ext x; simp [e]
  have hdc : ∑ j : Fin n, ((Finset.powersetCard m (Finset.univ : Finset (Fin n))).filter (fun S => j ∈ S)).card =
      m * (Finset.powersetCard m (Finset.univ : Finset (Fin n))).card := by
    have h2 : ∀ j : Fin n, ((Finset.powersetCard m (Finset.univ : Finset (Fin n))).filter (fun S => j ∈ S)).card =
        ∑ S ∈ Finset.powersetCard m (Finset.univ : Finset (Fin n)), if j ∈ S then 1 else 0 := by
      intro j; rw [Finset.card_filter]
    simp only [h2]
    rw [Finset.sum_comm]
    have h3 : ∀ S ∈ Finset.powersetCard m (Finset.univ : Finset (Fin n)), (∑ j : Fin n, if j ∈ S then 1 else 0) = m := by
      intro S hS
      rw [← (Finset.mem_powersetCard.1 hS).2]; simp
    rw [Finset.sum_congr rfl h3, Finset.sum_const, smul_eq_mul, mul_comm]
  simp only [hcount] at hdc
  rw [Finset.sum_const, Finset.card_univ, Fintype.card_fin, smul_eq_mul] at hdc
  have hdc' : (n : ℝ) * ((Finset.powersetCard m (Finset.univ : Finset (Fin n))).filter (fun S => i ∈ S)).card =
      m * (Finset.powersetCard m (Finset.univ : Finset (Fin n))).card := by exact_mod_cast hdc
  rw [← mul_assoc, hdc']; ring

/-! ## C19 -/

/-- The declared size is the number of transmitted entries when an integer `k` does not exceed the message length, and
always for fractions. -/
theorem C19_declared_size (k k' : KParam) (hk : ctor k = .ok k') (hn : 0 < n)
    (hle : ∀ m : Int, k' = .int m → m ≤ n) : declaredSize k' n = kCount k' n := by
  cases k with
  | int k =>
    simp only [ctor] at hk
    split_ifs at hk with h
    obtain rfl := Except.ok.inj hk
    have := hle k rfl
    simp only [declaredSize, kCount]; omega
  | frac f =>
    simp only [ctor] at hk
    split_ifs at hk with h
    obtain rfl := Except.ok.inj hk
    push Not at h
    simp only [declaredSize, kCount]
    have hpos : 0 < f * n := mul_pos h.1 (by exact_mod_cast hn)
    have := Int.ceil_pos.2 hpos
    omega

/-- Refutation: for every message shorter than an integer `k`, the scheme declares more than the whole uncompressed
message, although it transmits just the message: sent-message counters overcount. -/
theorem C19_overcount (k : Int) (hk : (n : Int) < k) (hn : 0 < n) :
    ctor (.int k) = .ok (.int k) ∧ baseSize n < declaredSize (.int k) n ∧ (kCount (.int k) n : Int) = baseSize n := by
  refine ⟨?_, ?_, ?_⟩
  · simp only [ctor]; rw [if_neg (by omega)]
  · simpa [baseSize, declaredSize] using hk
  · simp only [kCount, baseSize]; omega

example : (4 : Int) < 10 := by decide

/-! ## C20 -/

theorem rint_spec (x : ℝ) : |(rint x : ℝ) - x| ≤ 1 / 2 := by
  have h1 := Int.floor_le x
  have h2 := Int.lt_floor_add_one x
  unfold rint
  simp only
  rw [abs_le]
  split_ifs with ha hb hc <;> push_cast <;> constructor <;> linarith

theorem rint_int (z : ℤ) : rint (z : ℝ) = z := by
  unfold rint; simp

/-- Quantization moves every entry by at most half a step, onto the grid, and is idempotent. -/
theorem C20_quantization (step step' : ℝ) (hs : quantCtor step = .ok step') (v : Fin n → ℝ) :
    (∀ i, |quantize step' v i - v i| ≤ step / 2) ∧ (∀ i, ∃ z : ℤ, quantize step' v i = step * z) ∧
    quantize step' (quantize step' v) = quantize step' v := by
  unfold quantCtor at hs
  split_ifs at hs with h
  obtain rfl := Except.ok.inj hs
  push Not at h
  refine ⟨?_, fun i => ⟨_, rfl⟩, ?_⟩
  · intro i
    have := rint_spec (v i / step)
    have h2 : quantize step v i - v i = step * ((rint (v i / step) : ℝ) - v i / step) := by
      unfold quantize; field_simp
    rw [h2, abs_mul, abs_of_pos h]
    nlinarith
  · funext i
    unfold quantize
    have : step * (rint (v i / step) : ℝ) / step = (rint (v i / step) : ℝ) := by field_simp
    rw [this, rint_int]

/-- An entry exactly half-way between two grid points goes to the even one (`np.rint`), so quantization has no upward
bias on ties. -/
theorem C20_quantization_ties (step step' : ℝ) (hs : quantCtor step = .ok step') (v : Fin n → ℝ) (i : Fin n) (z : ℤ)
    (hz : v i = step * ((z : ℝ) + 1 / 2)) : ∃ w : ℤ, quantize step' v i = step * (2 * w : ℤ) := by
  unfold quantCtor at hs
  split_ifs at hs with h
  obtain rfl := Except.ok.inj hs
  push Not at h
  have e : v i / step = (z : ℝ) + 1 / 2 := by rw [hz]; field_simp
  have hf : ⌊(z : ℝ) + 1 / 2⌋ = z := by
    rw [Int.floor_eq_iff]; constructor <;> linarith
  unfold quantize
  rw [e]
  unfold rint
  simp only [hf]
  rw [if_neg (by linarith), if_neg (by linarith)]
  split_ifs with hm
  · exact ⟨z / 2, by rw [show (2 * (z / 2) : ℤ) = z by omega]⟩
  · exact ⟨(z + 1) / 2, by rw [show (2 * ((z + 1) / 2) : ℤ) = z + 1 by omega]⟩

example : quantCtor (1/4) = .ok (1/4) := by unfold quantCtor; rw [if_neg (by norm_num)]

theorem norm2_nonneg (v : Fin n → ℝ) : 0 ≤ norm2 v := Real.sqrt_nonneg _

theorem abs_le_norm2 (v : Fin n → ℝ) (i : Fin n) : |v i| ≤ norm2 v := by
  unfold norm2
  rw [← Real.sqrt_sq_eq_abs]
  apply Real.sqrt_le_sqrt
  exact Finset.single_le_sum (f := fun i => v i ^ 2) (fun j _ => sq_nonneg _) (Finset.mem_univ i)

theorem pySign_mul_abs (x : ℝ) : pySign x * |x| = x := by
  unfold pySign
  split_ifs with h1 h2
  · rw [abs_of_neg h1]; ring
  · rw [abs_of_pos h2]; ring
  · have : x = 0 := le_antisymm (not_lt.1 h2) (not_lt.1 h1)
    simp [this]

theorem stochCoord_eq (L : Nat) (hL : 0 < L) (nrm x u : ℝ) (hn : 0 < nrm) :
    stochCoord L nrm x u = x + nrm / L * pySign x *
      ((if u < (L * |x| / nrm) - ⌊(L : ℝ) * |x| / nrm⌋ then 1 else 0) - ((L * |x| / nrm) - ⌊(L : ℝ) * |x| / nrm⌋)) := by
  have hL' : (0 : ℝ) < L := by exact_mod_cast hL
  have hx := pySign_mul_abs x
  unfold stochCoord
  simp only
  have e : nrm / L * pySign x * (L * |x| / nrm) = x := by
    rw [show nrm / L * pySign x * (L * |x| / nrm) = pySign x * |x| by field_simp]; exact hx
  rw [mul_sub, mul_sub, e]
  ring

theorem stoch_prob (L : Nat) (nrm x : ℝ) :
    0 ≤ (L * |x| / nrm) - ⌊(L : ℝ) * |x| / nrm⌋ ∧ (L * |x| / nrm) - ⌊(L : ℝ) * |x| / nrm⌋ < 1 := by
  have h1 := Int.floor_le ((L : ℝ) * |x| / nrm)
  have h2 := Int.lt_floor_add_one ((L : ℝ) * |x| / nrm)
  constructor <;> linarith

theorem abs_pySign_le (x : ℝ) : |pySign x| ≤ 1 := by
  unfold pySign; split_ifs <;> simp

theorem norm2_pos_of_ne (v : Fin n → ℝ) (h : norm2 v ≠ 0) : 0 < norm2 v := lt_of_le_of_ne (norm2_nonneg v) (Ne.symm h)

/-- Stochastic quantization, for every outcome of the random draws: errs by at most `norm / n_levels` per entry, keeps
zeros and signs, lands on the grid of `n_levels` levels and never exceeds the norm. -/
theorem C20_stochastic (L : Nat) (hL : 0 < L) (u v : Fin n → ℝ) (i : Fin n) :
    |stochQuantize L u v i - v i| ≤ norm2 v / L ∧
    (v i = 0 → stochQuantize L u v i = 0) ∧
    0 ≤ stochQuantize L u v i * v i ∧
    (∃ z : ℤ, stochQuantize L u v i = norm2 v * z / L ∧ |z| ≤ L + 1) ∧
    ((∀ j, 0 ≤ u j) → |stochQuantize L u v i| ≤ norm2 v) := by
  have hL' : (0 : ℝ) < L := by exact_mod_cast hL
  unfold stochQuantize
  split_ifs with h0
  · have hv : v i = 0 := by
      have := abs_le_norm2 v i; rw [h0] at this
      exact abs_eq_zero.1 (le_antisymm this (abs_nonneg _))
    refine ⟨by simp [hv, h0], fun _ => rfl, by simp, ⟨0, by simp, by simp; omega⟩, by simp [h0]⟩
  · have hpos := norm2_pos_of_ne v h0
    set N := norm2 v
    obtain ⟨hp0, hp1⟩ := stoch_prob L N (v i)
    have hq0 : (0 : ℝ) ≤ ⌊(L : ℝ) * |v i| / N⌋ := by
      have : 0 ≤ ⌊(L : ℝ) * |v i| / N⌋ := Int.floor_nonneg.2 (by positivity)
      exact_mod_cast this
    have hscaled : (L : ℝ) * |v i| / N ≤ L := by
      rw [div_le_iff₀ hpos]; exact mul_le_mul_of_nonneg_left (abs_le_norm2 v i) hL'.le
    have hfl : ⌊(L : ℝ) * |v i| / N⌋ ≤ L := by
      have := Int.floor_le ((L : ℝ) * |v i| / N)
      exact_mod_cast this.trans hscaled
    have hsg := abs_pySign_le (v i)
    refine ⟨?_, ?_, ?_, ?_, ?_⟩
    · show |stochCoord L N (v i) (u i) - v i| ≤ _
      rw [stochCoord_eq L hL N _ _ hpos, add_sub_cancel_left, abs_mul, abs_mul, abs_of_pos (div_pos hpos hL')]
      have h2 : |(if u i < (L * |v i| / N) - ⌊(L : ℝ) * |v i| / N⌋ then (1 : ℝ) else 0) -
          ((L * |v i| / N) - ⌊(L : ℝ) * |v i| / N⌋)| ≤ 1 := by
        rw [abs_le]; split_ifs <;> constructor <;> linarith
      have hNL : 0 ≤ N / L := by positivity
      calc N / L * |pySign (v i)| * _ ≤ N / L * 1 * 1 := by
            apply mul_le_mul _ h2 (abs_nonneg _) (by linarith)
            exact mul_le_mul_of_nonneg_left hsg hNL
        _ = N / L := by ring
    · intro hz; simp [stochCoord, pySign, hz]
    · have hq : 0 ≤ (⌊(L : ℝ) * |v i| / N⌋ : ℝ) + (if u i < (L * |v i| / N) - ⌊(L : ℝ) * |v i| / N⌋ then (1:ℝ) else 0) := by
        split_ifs <;> linarith
      have hs : 0 ≤ pySign (v i) * v i := by
        have := pySign_mul_abs (v i)
        unfold pySign; split_ifs with h1 h2
        · linarith
        · linarith
        · simp
      unfold stochCoord; simp only
      have : N * pySign (v i) * ((⌊(L : ℝ) * |v i| / N⌋ : ℝ) + (if u i < (L * |v i| / N) - ⌊(L : ℝ) * |v i| / N⌋ then (1:ℝ) else 0)) / L * v i
          = N * ((⌊(L : ℝ) * |v i| / N⌋ : ℝ) + (if u i < (L * |v i| / N) - ⌊(L : ℝ) * |v i| / N⌋ then (1:ℝ) else 0)) / L * (pySign (v i) * v i) := by ring
      rw [this]
      positivity
    · have hfl0 : 0 ≤ ⌊(L : ℝ) * |v i| / N⌋ := by exact_mod_cast hq0
      set q : ℤ := ⌊(L : ℝ) * |v i| / N⌋ + (if u i < (L * |v i| / N) - ⌊(L : ℝ) * |v i| / N⌋ then 1 else 0) with hq
      have hqr : (q : ℝ) = (⌊(L : ℝ) * |v i| / N⌋ : ℝ) + (if u i < (L * |v i| / N) - ⌊(L : ℝ) * |v i| / N⌋ then (1:ℝ) else 0) := by
        rw [hq]; push_cast; rfl
      have hqb : 0 ≤ q ∧ q ≤ L + 1 := by rw [hq]; split_ifs <;> constructor <;> omega
      unfold stochCoord pySign; simp only
      rw [← hqr]
      split_ifs with h1 h2
      · exact ⟨-q, by push_cast; ring, by rw [abs_neg, abs_of_nonneg hqb.1]; exact hqb.2⟩
      · exact ⟨q, by ring, by rw [abs_of_nonneg hqb.1]; exact hqb.2⟩
      · exact ⟨0, by simp, by simp; omega⟩
    · intro hu
      have hq : (⌊(L : ℝ) * |v i| / N⌋ : ℝ) + (if u i < (L * |v i| / N) - ⌊(L : ℝ) * |v i| / N⌋ then (1:ℝ) else 0) ≤ L := by
        split_ifs with hlt
        · have hprob : 0 < (L * |v i| / N) - ⌊(L : ℝ) * |v i| / N⌋ := lt_of_le_of_lt (hu i) hlt
          have : (⌊(L : ℝ) * |v i| / N⌋ : ℝ) < L := by linarith
          have : ⌊(L : ℝ) * |v i| / N⌋ < L := by exact_mod_cast this
          have : ⌊(L : ℝ) * |v i| / N⌋ + 1 ≤ L := by omega
          exact_mod_cast this
        · have : ((⌊(L : ℝ) * |v i| / N⌋ : ℤ) : ℝ) ≤ ((L : ℤ) : ℝ) := by exact_mod_cast hfl
          simpa using this
      have hq' : 0 ≤ (⌊(L : ℝ) * |v i| / N⌋ : ℝ) + (if u i < (L * |v i| / N) - ⌊(L : ℝ) * |v i| / N⌋ then (1:ℝ) else 0) := by
        split_ifs <;> linarith
      unfold stochCoord; simp only
      rw [abs_div, abs_mul, abs_mul, abs_of_pos hpos, abs_of_nonneg hq', abs_of_pos hL', div_le_iff₀ hL']
      have h1 : N * |pySign (v i)| ≤ N := by nlinarith
      calc _ ≤ N * _ := mul_le_mul_of_nonneg_right h1 hq'
        _ ≤ N * L := mul_le_mul_of_nonneg_left hq hpos.le

open MeasureTheory in
/-- Stochastic quantization is unbiased: its expectation over independent draws uniform on `[0,1)` is the message. -/
theorem C20_unbiased (L : Nat) (hL : 0 < L) (v : Fin n → ℝ) (i : Fin n) :
    ∫ u : Fin n → ℝ, stochQuantize L u v i ∂(Measure.pi (fun _ => (volume : Measure ℝ).restrict (Set.Ico 0 1))) = v i := by
  have hprob : IsProbabilityMeasure ((volume : Measure ℝ).restrict (Set.Ico 0 1)) := ⟨by simp⟩
  by_cases h0 : norm2 v = 0
  · have hv : v i = 0 := by
      have := abs_le_norm2 v i; rw [h0] at this
      exact abs_eq_zero.1 (le_antisymm this (abs_nonneg _))
    simp [stochQuantize, h0, hv]
  · have hpos := norm2_pos_of_ne v h0
    obtain ⟨hp0, hp1⟩ := stoch_prob L (norm2 v) (v i)
    have hS : ∀ u : Fin n → ℝ, stochQuantize L u v i = stochCoord L (norm2 v) (v i) (u i) := by
      intro u; simp [stochQuantize, h0]
    simp only [hS]
    set p := (L * |v i| / norm2 v) - ⌊(L : ℝ) * |v i| / norm2 v⌋ with hp
    have hfun : ∀ t, stochCoord L (norm2 v) (v i) t =
        v i + norm2 v / L * pySign (v i) * (Set.indicator (Set.Iio p) (fun _ => (1 : ℝ)) t - p) := by
      intro t
      rw [stochCoord_eq L hL _ _ _ hpos]
      simp only [Set.indicator, Set.mem_Iio, ← hp]
    have hmeas : AEStronglyMeasurable (fun t => stochCoord L (norm2 v) (v i) t) ((volume : Measure ℝ).restrict (Set.Ico 0 1)) := by
      have : (fun t => stochCoord L (norm2 v) (v i) t) = fun t =>
        v i + norm2 v / L * pySign (v i) * (Set.indicator (Set.Iio p) (fun _ => (1 : ℝ)) t - p) := funext hfun
      rw [this]
      exact (((measurable_const.indicator measurableSet_Iio).sub_const p).const_mul _).const_add _ |>.aestronglyMeasurable
    have hcomp := integral_comp_eval (ι := Fin n) (X := fun _ => ℝ)
      (μ := fun _ => (volume : Measure ℝ).restrict (Set.Ico 0 1)) (i := i)
      (f := fun t : ℝ => stochCoord L (norm2 v) (v i) t) hmeas
    rw [hcomp]
    simp only [hfun]
    have hind : Integrable (Set.indicator (Set.Iio p) (fun _ => (1 : ℝ))) ((volume : Measure ℝ).restrict (Set.Ico 0 1)) :=
      (integrable_const 1).indicator measurableSet_Iio
    have hsub : Integrable (fun x => norm2 v / L * pySign (v i) * ((Set.Iio p).indicator (fun _ => (1 : ℝ)) x - p))
        ((volume : Measure ℝ).restrict (Set.Ico 0 1)) := (hind.sub (integrable_const p)).const_mul _
    rw [integral_add (integrable_const _) hsub, integral_const_mul,
      integral_sub hind (integrable_const p), integral_indicator measurableSet_Iio]
    have hset : Set.Iio p ∩ Set.Ico (0:ℝ) 1 = Set.Ico 0 p := by
      ext t; simp only [Set.mem_inter_iff, Set.mem_Iio, Set.mem_Ico]
      constructor
      · rintro ⟨h1, h2, _⟩; exact ⟨h2, h1⟩
      · rintro ⟨h1, h2⟩; exact ⟨h2, h1, by linarith⟩
    rw [Measure.restrict_restrict measurableSet_Iio, hset]
    simp [hp0]

example : (0 : Nat) < 4 := by decide

end
end Verif.Props
