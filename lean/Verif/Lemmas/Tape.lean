import Mathlib.Probability.Independence.InfinitePi
import Mathlib.Probability.StrongLaw
import Mathlib.MeasureTheory.Measure.Real
import Mathlib.MeasureTheory.Measure.Lebesgue.Basic
import Mathlib.MeasureTheory.Function.Floor
set_option linter.unusedSectionVars false
/-!
# Independent uniform draws, read one after the other by a program

`Uniform P U`: the draws `U 0, U 1, …` are independent and uniform on `[0,1)`. `past U n` are the events decided by the first `n` draws. The main
lemma `draw_next`: a draw made at a position the program has reached is uniform and independent of everything that happened before, also when the
position is random.
-/
namespace Verif.Tape
open MeasureTheory ProbabilityTheory
open scoped Topology

variable {Ω : Type} [mΩ : MeasurableSpace Ω] {P : Measure Ω} {U : ℕ → Ω → ℝ}

/-- SPEC: an endless sequence of independent draws, each uniform on `[0,1)` -/
structure Uniform (P : Measure Ω) (U : ℕ → Ω → ℝ) : Prop where
  prob : IsProbabilityMeasure P
  meas : ∀ n, Measurable (U n)
  indep : iIndepFun U P
  range : ∀ n ω, 0 ≤ U n ω ∧ U n ω < 1
  law : ∀ n, P.map (U n) = volume.restrict (Set.Ico 0 1)

/-- the events decided by the first `n` draws -/
def past (U : ℕ → Ω → ℝ) (n : ℕ) : MeasurableSpace Ω := ⨆ i ∈ Set.Iio n, MeasurableSpace.comap (U i) inferInstance

theorem past_mono {n m : ℕ} (h : n ≤ m) : past U n ≤ past U m :=
  biSup_mono fun _ hi => lt_of_lt_of_le hi h

theorem past_draw {n m : ℕ} (h : n < m) {B : Set ℝ} (hB : MeasurableSet B) : MeasurableSet[past U m] {ω | U n ω ∈ B} := by
  have h1 : MeasurableSpace.comap (U n) inferInstance ≤ past U m := le_biSup (f := fun i => MeasurableSpace.comap (U i) inferInstance) h
  exact h1 _ ⟨B, hB, rfl⟩

theorem Uniform.past_le (h : Uniform P U) (n : ℕ) : past U n ≤ mΩ := iSup₂_le fun i _ => (h.meas i).comap_le

theorem Uniform.chance_lt (h : Uniform P U) (n : ℕ) {p : ℝ} (h0 : 0 ≤ p) (h1 : p ≤ 1) : P.real {ω | U n ω < p} = p := by
  have e : {ω | U n ω < p} = U n ⁻¹' Set.Iio p := rfl
  rw [e, ← map_measureReal_apply (h.meas n) measurableSet_Iio, h.law n, measureReal_def, Measure.restrict_apply measurableSet_Iio]
  have : Set.Iio p ∩ Set.Ico (0 : ℝ) 1 = Set.Ico 0 p := by
    ext x; simp only [Set.mem_inter_iff, Set.mem_Iio, Set.mem_Ico]
    exact ⟨fun ⟨a, b, _⟩ => ⟨b, a⟩, fun ⟨a, b⟩ => ⟨b, a, by linarith⟩⟩
  rw [this, Real.volume_Ico, sub_zero, ENNReal.toReal_ofReal h0]

theorem Uniform.chance_ge (h : Uniform P U) (n : ℕ) {p : ℝ} (h0 : 0 ≤ p) (h1 : p ≤ 1) : P.real {ω | p ≤ U n ω} = 1 - p := by
  have := h.prob
  have e : {ω | p ≤ U n ω} = {ω | U n ω < p}ᶜ := by ext ω; simp
  rw [e, probReal_compl_eq_one_sub (show MeasurableSet {ω | U n ω < p} from (h.meas n) measurableSet_Iio), h.chance_lt n h0 h1]

theorem Uniform.same (h : Uniform P U) (n : ℕ) {B : Set ℝ} (hB : MeasurableSet B) : P.real {ω | U n ω ∈ B} = P.real {ω | U 0 ω ∈ B} := by
  have e : ∀ k, P.real {ω | U k ω ∈ B} = (volume.restrict (Set.Ico (0 : ℝ) 1)).real B := by
    intro k
    rw [← h.law k, map_measureReal_apply (h.meas k) hB]; rfl
  rw [e, e]

theorem Uniform.fresh (h : Uniform P U) {n : ℕ} {A : Set Ω} (hA : MeasurableSet[past U n] A) {B : Set ℝ} (hB : MeasurableSet B) :
    P.real (A ∩ {ω | U n ω ∈ B}) = P.real A * P.real {ω | U 0 ω ∈ B} := by
  have hd : Disjoint (Set.Iio n) ({n} : Set ℕ) := by simp
  have hi := indep_iSup_of_disjoint (fun i => (h.meas i).comap_le) h.indep.iIndep hd
  have hn : MeasurableSet[⨆ i ∈ ({n} : Set ℕ), MeasurableSpace.comap (U i) inferInstance] {ω | U n ω ∈ B} := by
    have h1 : MeasurableSpace.comap (U n) inferInstance ≤ ⨆ i ∈ ({n} : Set ℕ), MeasurableSpace.comap (U i) inferInstance :=
      le_biSup (f := fun i => MeasurableSpace.comap (U i) inferInstance) rfl
    exact h1 _ ⟨B, hB, rfl⟩
  have := (Indep_iff _ _ P).1 hi A _ hA hn
  rw [measureReal_def, this, ENNReal.toReal_mul, ← measureReal_def, ← measureReal_def, h.same n hB]

/-- a draw at a reached position is uniform and independent of the past -/
theorem Uniform.draw_next (h : Uniform P U) {E : Ω → Prop} {pos : Ω → ℕ} (N : ℕ) (hN : ∀ ω, pos ω ≤ N)
    (hE : ∀ n, MeasurableSet[past U n] {ω | E ω ∧ pos ω = n}) {B : Set ℝ} (hB : MeasurableSet B) :
    P.real {ω | E ω ∧ U (pos ω) ω ∈ B} = P.real {ω | E ω} * P.real {ω | U 0 ω ∈ B} := by
  have := h.prob
  have hE' : ∀ n, MeasurableSet {ω | E ω ∧ pos ω = n} := fun n => h.past_le n _ (hE n)
  have e1 : {ω | E ω ∧ U (pos ω) ω ∈ B} = ⋃ n ∈ Finset.range (N + 1), ({ω | E ω ∧ pos ω = n} ∩ {ω | U n ω ∈ B}) := by
    ext ω
    simp only [Set.mem_ofPred_eq, Set.mem_iUnion, Finset.mem_range, Set.mem_inter_iff, exists_prop]
    constructor
    · rintro ⟨a, b⟩
      exact ⟨pos ω, by have := hN ω; omega, ⟨a, rfl⟩, b⟩
    · rintro ⟨n, _, ⟨a, rfl⟩, b⟩
      exact ⟨a, b⟩
  have e2 : {ω | E ω} = ⋃ n ∈ Finset.range (N + 1), {ω | E ω ∧ pos ω = n} := by
    ext ω
    simp only [Set.mem_ofPred_eq, Set.mem_iUnion, Finset.mem_range, exists_prop]
    constructor
    · intro a
      exact ⟨pos ω, by have := hN ω; omega, a, rfl⟩
    · rintro ⟨n, _, a, _⟩
      exact a
  have d2 : Set.PairwiseDisjoint (↑(Finset.range (N + 1)) : Set ℕ) (fun n => {ω | E ω ∧ pos ω = n}) := by
    intro i _ j _ hij
    refine Set.disjoint_left.2 fun ω h1 h2 => hij ?_
    exact h1.2.symm.trans h2.2
  have d1 : Set.PairwiseDisjoint (↑(Finset.range (N + 1)) : Set ℕ) (fun n => {ω | E ω ∧ pos ω = n} ∩ {ω | U n ω ∈ B}) :=
    d2.mono fun n => Set.inter_subset_left
  rw [e1, e2, measureReal_biUnion_finset d1 (fun n _ => (hE' n).inter ((h.meas n) hB)), measureReal_biUnion_finset d2 (fun n _ => hE' n), Finset.sum_mul]
  exact Finset.sum_congr rfl fun n _ => h.fresh (hE n) hB

/-- such draws exist -/
theorem exists_uniform : ∃ (P : Measure (ℕ → ℝ)) (U : ℕ → (ℕ → ℝ) → ℝ), Uniform P U := by
  have hp : IsProbabilityMeasure (volume.restrict (Set.Ico (0 : ℝ) 1)) := ⟨by simp⟩
  have hm : Measurable (Int.fract : ℝ → ℝ) := measurable_fract
  refine ⟨Measure.infinitePi (fun _ => volume.restrict (Set.Ico (0 : ℝ) 1)), fun n ω => Int.fract (ω n), inferInstance, fun n => by fun_prop, ?_,
    fun n ω => ⟨Int.fract_nonneg _, Int.fract_lt_one _⟩, fun n => ?_⟩
  · exact iIndepFun_infinitePi (X := fun _ x => Int.fract x) fun _ => hm
  · have e : (fun ω : ℕ → ℝ => Int.fract (ω n)) = Int.fract ∘ (fun ω => ω n) := rfl
    rw [e, ← Measure.map_map hm (by fun_prop), Measure.infinitePi_map_eval]
    have : (Int.fract : ℝ → ℝ) =ᵐ[volume.restrict (Set.Ico (0 : ℝ) 1)] id := by
      filter_upwards [ae_restrict_mem measurableSet_Ico] with x hx
      exact Int.fract_eq_self.2 hx
    rw [Measure.map_congr this, Measure.map_id]

end Verif.Tape
