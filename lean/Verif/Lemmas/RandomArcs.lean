import Verif.Lemmas.Arcs
import Mathlib.Tactic.FieldSimp
set_option linter.unusedSectionVars false
/-! # The relaxed splitting when a random part of the arcs is updated: linear convergence in mean square (for C111) -/
namespace Verif.Arcs
open Verif Costs Consensus
open scoped InnerProductSpace

section graph
variable {ι κ : Type} [Fintype ι] [DecidableEq ι] [Fintype κ] [DecidableEq κ] {d : Nat}
variable {src : κ → ι} {flip : κ → κ} {ρ α L m : ℝ} {ξ : Stack κ d → Stack ι d} {f : ι → Vec d → ℝ} {G : ι → Vec d → Vec d}

/-- one relaxed step reduces the squared distance to every fixed point by a multiple of a quantity that controls both the distance to the
nearest fixed point and the distance of the local solutions to the optimum -/
theorem relax_facts [Nonempty κ] (hf : ∀ a, flip (flip a) = a) (hρ : 0 < ρ) (hα0 : 0 < α) (hα1 : α < 1) (hm : 0 < m) (hL : 0 < L)
    (hu : ∀ i, Upper (f i) (G i) L) (hl : ∀ i, Lower (f i) (G i) m) (hξ : Resolves src ρ G ξ)
    (hinj : ∀ z p, outSum src z = outSum src p → ξ z = ξ p) (zs : Stack κ d) (hzs : reflect src flip ρ ξ zs = zs) :
    ∃ (D : Stack κ d → ℝ) (b : ℝ), 0 < b ∧ (∀ z, 4 * ρ * m * ‖ξ z - ξ zs‖ ^ 2 ≤ D z) ∧ ∀ p, probe src flip (p - zs) = 0 → ∀ z,
      ‖relax src flip ρ α ξ z - p‖ ^ 2 ≤ ‖z - p‖ ^ 2 - α * D z ∧ ‖probe src flip (z - p)‖ ^ 2 ≤ b * D z := by
  set N : ℝ := (Fintype.card κ : ℝ) with hN
  have hN1 : 1 ≤ N := by rw [hN]; exact_mod_cast Fintype.card_pos
  set D : Stack κ d → Stack κ d → ℝ := fun z p => 4 * ρ * ⟪gradAt G (ξ z) - gradAt G (ξ p), ξ z - ξ p⟫_ℝ + (1 - α) * ‖z - reflect src flip ρ ξ z‖ ^ 2 with hD
  -- fixed points
  have hfix : ∀ p, probe src flip (p - zs) = 0 → ξ p = ξ zs ∧ reflect src flip ρ ξ p = p := by
    intro p hp
    obtain ⟨h1, h2⟩ := probe_zero.1 hp
    have hx : ξ p = ξ zs := hinj _ _ (by rw [map_sub, sub_eq_zero] at h2; exact h2)
    refine ⟨hx, ?_⟩
    apply stack_ext; intro a
    have h3 : (p a - zs a) + (p (flip a) - zs (flip a)) = 0 := by
      have := congrArg (fun v : Stack κ d => v a) h1
      exact this
    have h4 : (2 * ρ) • ξ zs (src (flip a)) - zs (flip a) = zs a := by
      have := congrArg (fun v : Stack κ d => v a) hzs
      exact this
    show (2 * ρ) • ξ p (src (flip a)) - p (flip a) = p a
    rw [hx]
    have e : (2 * ρ) • ξ zs (src (flip a)) - p (flip a) = ((2 * ρ) • ξ zs (src (flip a)) - zs (flip a)) - zs a + p a - ((p a - zs a) + (p (flip a) - zs (flip a))) := by module
    rw [e, h3, h4]; module
  have hdrop : ∀ p, probe src flip (p - zs) = 0 → ∀ z, ‖relax src flip ρ α ξ z - p‖ ^ 2 ≤ ‖z - p‖ ^ 2 - α * D z p := by
    intro p hp z
    obtain ⟨hx, hr⟩ := hfix p hp
    have e : relax src flip ρ α ξ z - p = (1 - α) • (z - p) + α • (reflect src flip ρ ξ z - reflect src flip ρ ξ p) := by
      rw [relax]; rw [hr]; module
    have e2 : (z - p) - (reflect src flip ρ ξ z - reflect src flip ρ ξ p) = z - reflect src flip ρ ξ z := by
      rw [hr]; abel
    rw [e, combo_sq, reflect_sq hf hξ, e2, hD]
    simp only
    apply le_of_eq; ring
  have hT : ∀ p, probe src flip (p - zs) = 0 → ∀ z, ‖probe src flip (z - p)‖ ^ 2 ≤
      (2 / (1 - α) + (2 * ρ * N / m + (ρ * N ^ 2 / (2 * m) + L / (2 * ρ)))) * D z p := by
    intro p hp z
    obtain ⟨hx, hr⟩ := hfix p hp
    set Q := ⟪gradAt G (ξ z) - gradAt G (ξ p), ξ z - ξ p⟫_ℝ with hQ
    have hmono : m * ‖ξ z - ξ p‖ ^ 2 ≤ Q := stack_monotone hl _ _
    have hΔ : ‖ξ z - ξ p‖ ^ 2 ≤ Q / m := by rw [le_div_iff₀ hm]; linarith
    have hg : ‖gradAt G (ξ z) - gradAt G (ξ p)‖ ^ 2 ≤ L * Q := stack_cocoercive hL hu (fun i => (hl i).mono hm.le) _ _
    have hQ0 : 0 ≤ Q := le_trans (by positivity) hmono
    have h1 : ‖symPart flip (z - p)‖ ^ 2 ≤ 2 * ‖z - reflect src flip ρ ξ z‖ ^ 2 + 8 * ρ ^ 2 * (N * ‖ξ z - ξ p‖ ^ 2) := by
      have e : symPart flip (z - p) = (z - reflect src flip ρ ξ z) + (2 * ρ) • (stack fun a => spread src (ξ z - ξ p) (flip a)) := by
        apply stack_ext; intro a
        have h4 : p a = (2 * ρ) • ξ p (src (flip a)) - p (flip a) := by
          have := congrArg (fun v : Stack κ d => v a) hr
          exact this.symm
        show (z a - p a) + (z (flip a) - p (flip a)) = (z a - ((2 * ρ) • ξ z (src (flip a)) - z (flip a))) + (2 * ρ) • (ξ z (src (flip a)) - ξ p (src (flip a)))
        rw [h4]; module
      rw [e]
      have t := parallelogram_le (z - reflect src flip ρ ξ z) ((2 * ρ) • (stack fun a => spread src (ξ z - ξ p) (flip a)))
      have t2 : ‖(2 * ρ) • (stack fun a => spread src (ξ z - ξ p) (flip a) : Stack κ d)‖ ^ 2 = 4 * ρ ^ 2 * ‖spread src (ξ z - ξ p)‖ ^ 2 := by
        rw [norm_smul, mul_pow, norm_flip flip hf, Real.norm_eq_abs, sq_abs]; ring
      have t3 := spread_norm_le src (ξ z - ξ p)
      have t4 := mul_le_mul_of_nonneg_left t3 (show 0 ≤ 8 * ρ ^ 2 by positivity)
      rw [t2] at t
      linarith
    have h2 : ‖outSum src (z - p)‖ ^ 2 ≤ 2 * ρ ^ 2 * (N ^ 2 * ‖ξ z - ξ p‖ ^ 2) + 2 * ‖gradAt G (ξ z) - gradAt G (ξ p)‖ ^ 2 := by
      rw [stack_norm_sq, stack_norm_sq, stack_norm_sq, Finset.mul_sum, Finset.mul_sum, Finset.mul_sum, ← Finset.sum_add_distrib]
      apply Finset.sum_le_sum
      intro i _
      have e : outSum src (z - p) i = (ρ * deg src i) • (ξ z - ξ p) i + (gradAt G (ξ z) - gradAt G (ξ p)) i := by
        rw [map_sub]
        show outSum src z i - outSum src p i = (ρ * deg src i) • (ξ z i - ξ p i) + (G i (ξ z i) - G i (ξ p i))
        rw [← hξ z i, ← hξ p i]; module
      rw [e]
      have t := parallelogram_le ((ρ * deg src i) • (ξ z - ξ p) i) ((gradAt G (ξ z) - gradAt G (ξ p)) i)
      have t2 : ‖(ρ * deg src i) • (ξ z - ξ p) i‖ ^ 2 = ρ ^ 2 * (deg src i ^ 2 * ‖(ξ z - ξ p) i‖ ^ 2) := by
        rw [norm_smul, mul_pow, Real.norm_eq_abs, sq_abs]; ring
      have t3 : deg src i ^ 2 * ‖(ξ z - ξ p) i‖ ^ 2 ≤ N ^ 2 * ‖(ξ z - ξ p) i‖ ^ 2 :=
        mul_le_mul_of_nonneg_right (pow_le_pow_left₀ (deg_nonneg src i) (deg_le src i) 2) (sq_nonneg _)
      have t4 := mul_le_mul_of_nonneg_left t3 (show 0 ≤ 2 * ρ ^ 2 by positivity)
      rw [t2] at t
      linarith
    have h3 : ‖probe src flip (z - p)‖ ^ 2 ≤ ‖symPart flip (z - p)‖ ^ 2 + ‖outSum src (z - p)‖ ^ 2 := by
      have : probe src flip (z - p) = (symPart flip (z - p), outSum src (z - p)) := rfl
      rw [this, Prod.norm_def]
      rcases max_choice ‖symPart flip (z - p)‖ ‖outSum src (z - p)‖ with e | e
      · simp only; rw [e]; nlinarith [sq_nonneg ‖outSum src (z - p)‖]
      · simp only; rw [e]; nlinarith [sq_nonneg ‖symPart flip (z - p)‖]
    have h1α : 0 < 1 - α := by linarith
    set Rz := ‖z - reflect src flip ρ ξ z‖ ^ 2 with hRz
    have hRz0 : 0 ≤ Rz := sq_nonneg _
    have k1 : 8 * ρ ^ 2 * (N * ‖ξ z - ξ p‖ ^ 2) ≤ 2 * ρ * N / m * (4 * ρ * Q) := by
      have := mul_le_mul_of_nonneg_left hΔ (show 0 ≤ 8 * ρ ^ 2 * N by positivity)
      have e : 8 * ρ ^ 2 * N * (Q / m) = 2 * ρ * N / m * (4 * ρ * Q) := by field_simp; ring
      linarith
    have k2 : 2 * ρ ^ 2 * (N ^ 2 * ‖ξ z - ξ p‖ ^ 2) ≤ ρ * N ^ 2 / (2 * m) * (4 * ρ * Q) := by
      have := mul_le_mul_of_nonneg_left hΔ (show 0 ≤ 2 * ρ ^ 2 * N ^ 2 by positivity)
      have e : 2 * ρ ^ 2 * N ^ 2 * (Q / m) = ρ * N ^ 2 / (2 * m) * (4 * ρ * Q) := by field_simp; ring
      linarith
    have k3 : 2 * ‖gradAt G (ξ z) - gradAt G (ξ p)‖ ^ 2 ≤ L / (2 * ρ) * (4 * ρ * Q) := by
      have e : L / (2 * ρ) * (4 * ρ * Q) = 2 * (L * Q) := by field_simp; ring
      linarith
    have k4 : 2 * Rz = 2 / (1 - α) * ((1 - α) * Rz) := by field_simp
    have p1 : 0 ≤ 2 / (1 - α) * (4 * ρ * Q) := by positivity
    have p2 : 0 ≤ (2 * ρ * N / m + (ρ * N ^ 2 / (2 * m) + L / (2 * ρ))) * ((1 - α) * Rz) := by positivity
    have expand : (2 / (1 - α) + (2 * ρ * N / m + (ρ * N ^ 2 / (2 * m) + L / (2 * ρ)))) * (4 * ρ * Q + (1 - α) * Rz) =
        2 / (1 - α) * ((1 - α) * Rz) + (2 * ρ * N / m * (4 * ρ * Q) + ρ * N ^ 2 / (2 * m) * (4 * ρ * Q) + L / (2 * ρ) * (4 * ρ * Q)) +
        2 / (1 - α) * (4 * ρ * Q) + (2 * ρ * N / m + (ρ * N ^ 2 / (2 * m) + L / (2 * ρ))) * ((1 - α) * Rz) := by ring
    show _ ≤ (2 / (1 - α) + (2 * ρ * N / m + (ρ * N ^ 2 / (2 * m) + L / (2 * ρ)))) * (4 * ρ * Q + (1 - α) * Rz)
    rw [expand]
    linarith
  have hpos : 0 < (2 / (1 - α) + (2 * ρ * N / m + (ρ * N ^ 2 / (2 * m) + L / (2 * ρ)))) := by
    have : 0 < 1 - α := by linarith
    positivity
  refine ⟨fun z => D z zs, _, hpos, fun z => ?_, fun p hp z => ?_⟩
  · have hmono : m * ‖ξ z - ξ zs‖ ^ 2 ≤ ⟪gradAt G (ξ z) - gradAt G (ξ zs), ξ z - ξ zs⟫_ℝ := stack_monotone hl _ _
    have h1 := mul_le_mul_of_nonneg_left hmono (show 0 ≤ 4 * ρ by positivity)
    have h2 : 0 ≤ (1 - α) * ‖z - reflect src flip ρ ξ z‖ ^ 2 := mul_nonneg (by linarith) (sq_nonneg _)
    show _ ≤ 4 * ρ * _ + _
    linarith
  · have e : D z p = D z zs := by
      show 4 * ρ * ⟪gradAt G (ξ z) - gradAt G (ξ p), ξ z - ξ p⟫_ℝ + _ = 4 * ρ * ⟪gradAt G (ξ z) - gradAt G (ξ zs), ξ z - ξ zs⟫_ℝ + _
      rw [(hfix p hp).1]
    have h1 := hdrop p hp z
    have h2 := hT p hp z
    rw [e] at h1 h2
    exact ⟨h1, h2⟩

/-! ### a random part of the arcs -/
variable {Θ : Type} [Fintype Θ]

/-- the state after a round in which the arcs `U` and the agents `act` are updated -/
noncomputable def partialStep (ξ : Stack κ d → Stack ι d) (S : Stack κ d → Stack κ d) (U : κ → Prop) (act : ι → Prop)
    [DecidablePred U] [DecidablePred act] (s : Stack ι d × Stack κ d) : Stack ι d × Stack κ d :=
  (stack fun i => if act i then ξ s.2 i else s.1 i, stack fun a => if U a then S s.2 a else s.2 a)

/-- the mean over the outcomes of a quantity that takes one value when `U` holds and another when it does not -/
theorem mean_ite (q : Θ → ℝ) (hq : ∑ θ, q θ = 1) (U : Θ → Prop) [DecidablePred U] (x y : ℝ) :
    ∑ θ, q θ * (if U θ then x else y) = (∑ θ, if U θ then q θ else 0) * x + (1 - ∑ θ, if U θ then q θ else 0) * y := by
  have : ∀ θ, q θ * (if U θ then x else y) = (if U θ then q θ else 0) * x + (q θ * y - (if U θ then q θ else 0) * y) := by
    intro θ; split <;> ring
  rw [Finset.sum_congr rfl (fun θ _ => this θ), Finset.sum_add_distrib, Finset.sum_sub_distrib, ← Finset.sum_mul, ← Finset.sum_mul, ← Finset.sum_mul, hq]
  ring

/-- the smallest of finitely many positive numbers is positive -/
theorem exists_floor {β : Type} [Fintype β] (P : β → ℝ) (hP : ∀ b, 0 < P b) : ∃ c : ℝ, 0 < c ∧ c ≤ 1 ∧ ∀ b, c ≤ P b := by
  classical
  have : ∀ s : Finset β, ∃ c : ℝ, 0 < c ∧ c ≤ 1 ∧ ∀ b ∈ s, c ≤ P b := by
    intro s
    induction s using Finset.induction_on with
    | empty => exact ⟨1, one_pos, le_rfl, fun b hb => absurd hb (Finset.notMem_empty b)⟩
    | insert a s _ ih =>
      obtain ⟨c, h0, h1, h2⟩ := ih
      refine ⟨min c (P a), lt_min h0 (hP a), (min_le_left _ _).trans h1, fun b hb => ?_⟩
      rcases Finset.mem_insert.1 hb with rfl | hb
      · exact min_le_right _ _
      · exact (min_le_left _ _).trans (h2 b hb)
  obtain ⟨c, h0, h1, h2⟩ := this Finset.univ
  exact ⟨c, h0, h1, fun b => h2 b (Finset.mem_univ b)⟩

/-- Linear convergence in mean square when each arc is updated with positive probability and each agent is active with positive
probability: a nonnegative potential that controls the error decreases by a constant factor on average. -/
theorem random_relax [Nonempty κ] (hf : ∀ a, flip (flip a) = a) (hρ : 0 < ρ) (hα0 : 0 < α) (hα1 : α < 1) (hm : 0 < m) (hL : 0 < L)
    (hu : ∀ i, Upper (f i) (G i) L) (hl : ∀ i, Lower (f i) (G i) m) (hξ : Resolves src ρ G ξ)
    (hinj : ∀ z p, outSum src z = outSum src p → ξ z = ξ p) (zs : Stack κ d) (hzs : reflect src flip ρ ξ zs = zs)
    (q : Θ → ℝ) (hq0 : ∀ θ, 0 ≤ q θ) (hq : ∑ θ, q θ = 1) (U : Θ → κ → Prop) (act : Θ → ι → Prop)
    [∀ θ, DecidablePred (U θ)] [∀ θ, DecidablePred (act θ)]
    (hU : ∀ a, 0 < ∑ θ, if U θ a then q θ else 0) (hact : ∀ i, 0 < ∑ θ, if act θ i then q θ else 0) :
    ∃ (r c : ℝ) (Φ : Stack ι d × Stack κ d → ℝ), 0 < r ∧ r < 1 ∧ 0 ≤ c ∧ (∀ s, 0 ≤ Φ s) ∧ (∀ s, ‖s.1 - ξ zs‖ ^ 2 ≤ c * Φ s) ∧
      ∀ s, ∑ θ, q θ * Φ (partialStep ξ (relax src flip ρ α ξ) (U θ) (act θ) s) ≤ r * Φ s := by
  obtain ⟨D, b, hb, hDx, hD⟩ := relax_facts hf hρ hα0 hα1 hm hL hu hl hξ hinj zs hzs
  set S := relax src flip ρ α ξ with hS
  set P : κ → ℝ := fun a => ∑ θ, if U θ a then q θ else 0 with hP
  set t : ι → ℝ := fun i => ∑ θ, if act θ i then q θ else 0 with ht
  obtain ⟨pm, hpm0, hpm1, hpm⟩ := exists_floor P hU
  obtain ⟨tm, htm0, htm1, htm⟩ := exists_floor t hact
  have ht1 : ∀ i, t i ≤ 1 := by
    intro i
    rw [← hq]
    exact Finset.sum_le_sum fun θ _ => by split; exact le_rfl; exact hq0 θ
  obtain ⟨K, hK, hbd⟩ := bounded_below (probe (d := d) src flip)
  have hD0 : ∀ z, 0 ≤ D z := fun z => le_trans (by positivity) (hDx z)
  -- the weighted distance to a fixed point
  set Wn : Stack κ d → ℝ := fun v => ∑ a, (1 / P a) * ‖v a‖ ^ 2 with hWn
  have hWn0 : ∀ v, 0 ≤ Wn v := fun v => Finset.sum_nonneg fun a _ => mul_nonneg (one_div_nonneg.2 (hU a).le) (sq_nonneg _)
  have hWnle : ∀ v, Wn v ≤ 1 / pm * ‖v‖ ^ 2 := by
    intro v
    rw [stack_norm_sq, Finset.mul_sum]
    exact Finset.sum_le_sum fun a _ => mul_le_mul_of_nonneg_right (one_div_le_one_div_of_le hpm0 (hpm a)) (sq_nonneg _)
  set FixP := {p : Stack κ d // probe src flip (p - zs) = 0} with hFix
  have hne : Nonempty FixP := ⟨⟨zs, by rw [sub_self, map_zero]⟩⟩
  set V : Stack κ d → ℝ := fun z => ⨅ p : FixP, Wn (z - p.1) with hV
  have hVbdd : ∀ z, BddBelow (Set.range fun p : FixP => Wn (z - p.1)) := fun z => ⟨0, by rintro _ ⟨p, rfl⟩; exact hWn0 _⟩
  have hVle : ∀ z (p : FixP), V z ≤ Wn (z - p.1) := fun z p => ciInf_le (hVbdd z) p
  have hV0 : ∀ z, 0 ≤ V z := fun z => le_ciInf fun p => hWn0 _
  -- one round, on average
  set nxt : Θ → Stack κ d → Stack κ d := fun θ z => stack fun a => if U θ a then S z a else z a with hnxt
  have hmeanW : ∀ z (p : FixP), ∑ θ, q θ * Wn (nxt θ z - p.1) ≤ Wn (z - p.1) - α * D z := by
    intro z p
    have h1 := (hD p.1 p.2 z).1
    have e1 : ∑ θ, q θ * Wn (nxt θ z - p.1) = ∑ a, (1 / P a) * ∑ θ, q θ * (if U θ a then ‖(S z - p.1) a‖ ^ 2 else ‖(z - p.1) a‖ ^ 2) := by
      have : ∀ θ, q θ * Wn (nxt θ z - p.1) = ∑ a, (1 / P a) * (q θ * (if U θ a then ‖(S z - p.1) a‖ ^ 2 else ‖(z - p.1) a‖ ^ 2)) := by
        intro θ
        show q θ * (∑ a, (1 / P a) * ‖(nxt θ z - p.1) a‖ ^ 2) = _
        rw [Finset.mul_sum]
        apply Finset.sum_congr rfl
        intro a _
        have e : (nxt θ z - p.1) a = if U θ a then (S z - p.1) a else (z - p.1) a := by
          show (if U θ a then S z a else z a) - p.1 a = _
          split <;> rfl
        rw [e]
        split <;> ring
      rw [Finset.sum_congr rfl (fun θ _ => this θ), Finset.sum_comm]
      apply Finset.sum_congr rfl
      intro a _
      rw [Finset.mul_sum]
    have e2 : ∀ a, (1 / P a) * ∑ θ, q θ * (if U θ a then ‖(S z - p.1) a‖ ^ 2 else ‖(z - p.1) a‖ ^ 2) =
        ‖(S z - p.1) a‖ ^ 2 + ((1 / P a) * ‖(z - p.1) a‖ ^ 2 - ‖(z - p.1) a‖ ^ 2) := by
      intro a
      rw [mean_ite q hq (fun θ => U θ a)]
      have : P a ≠ 0 := (hU a).ne'
      show 1 / P a * (P a * _ + (1 - P a) * _) = _
      field_simp
    rw [e1, Finset.sum_congr rfl (fun a _ => e2 a), Finset.sum_add_distrib, Finset.sum_sub_distrib, ← stack_norm_sq, ← stack_norm_sq]
    show _ + (Wn (z - p.1) - _) ≤ _
    linarith
  have hdropV : ∀ z, ∑ θ, q θ * V (nxt θ z) ≤ V z - α * D z := by
    intro z
    rw [le_sub_iff_add_le]
    refine le_ciInf fun p => ?_
    have h1 := hmeanW z p
    have h2 : ∑ θ, q θ * V (nxt θ z) ≤ ∑ θ, q θ * Wn (nxt θ z - p.1) :=
      Finset.sum_le_sum fun θ _ => mul_le_mul_of_nonneg_left (hVle _ p) (hq0 θ)
    linarith
  have hVD : ∀ z, V z ≤ K ^ 2 * b / pm * D z := by
    intro z
    obtain ⟨y, hy, v, hv, hyv⟩ := Submodule.exists_add_mem_mem_orthogonal (K := LinearMap.ker (probe (d := d) src flip)) (z - zs)
    have hp : probe src flip (zs + y - zs) = 0 := by rw [add_sub_cancel_left]; exact LinearMap.mem_ker.1 hy
    have h0 : z - (zs + y) = v := by rw [← sub_sub, hyv, add_sub_cancel_left]
    have h1 := (hD _ hp z).2
    have h2 := hbd v (fun k hk => (Submodule.mem_orthogonal _ _).1 hv k (LinearMap.mem_ker.2 hk))
    rw [h0] at h1
    have h3 : ‖v‖ ^ 2 ≤ K ^ 2 * ‖probe src flip v‖ ^ 2 := by
      have := pow_le_pow_left₀ (norm_nonneg _) h2 2
      rwa [mul_pow] at this
    have h4 := hVle z ⟨zs + y, hp⟩
    dsimp only at h4
    rw [h0] at h4
    have h5 := hWnle v
    have h6 : K ^ 2 * ‖probe src flip v‖ ^ 2 ≤ K ^ 2 * (b * D z) := mul_le_mul_of_nonneg_left h1 (by positivity)
    have h7 : 1 / pm * ‖v‖ ^ 2 ≤ 1 / pm * (K ^ 2 * (b * D z)) := mul_le_mul_of_nonneg_left (h3.trans h6) (by positivity)
    refine (h4.trans (h5.trans h7)).trans (le_of_eq ?_)
    ring
  obtain ⟨k, hk⟩ : ∃ k, k = α * pm / (K ^ 2 * b) := ⟨_, rfl⟩
  have hk0 : 0 < k := by rw [hk]; positivity
  have hkD : ∀ z, k * V z ≤ α * D z := by
    intro z
    have := mul_le_mul_of_nonneg_left (hVD z) hk0.le
    refine this.trans (le_of_eq ?_)
    rw [hk]; field_simp
  obtain ⟨r, hr⟩ : ∃ r, r = max (1 / 2) (1 - k) := ⟨_, rfl⟩
  have hr0 : 0 < r := by rw [hr]; exact lt_max_of_lt_left (by norm_num)
  have hr1 : r < 1 := by rw [hr]; exact max_lt (by norm_num) (by linarith)
  have hrV : ∀ z, ∑ θ, q θ * V (nxt θ z) ≤ r * V z := by
    intro z
    have h1 := hdropV z
    have h2 := hkD z
    have h3 : (1 - k) * V z ≤ r * V z := mul_le_mul_of_nonneg_right (by rw [hr]; exact le_max_right _ _) (hV0 z)
    linarith
  have hαD : ∀ z, α * D z ≤ V z := by
    intro z
    have h1 := hdropV z
    have h2 : 0 ≤ ∑ θ, q θ * V (nxt θ z) := Finset.sum_nonneg fun θ _ => mul_nonneg (hq0 θ) (hV0 _)
    linarith
  obtain ⟨c, hc⟩ : ∃ c, c = 1 / (4 * ρ * m * α) := ⟨_, rfl⟩
  have hc0 : 0 < c := by rw [hc]; positivity
  have hxV : ∀ z, ‖ξ z - ξ zs‖ ^ 2 ≤ c * V z := by
    intro z
    have h1 := mul_le_mul_of_nonneg_left (hDx z) hα0.le
    have h2 := h1.trans (hαD z)
    rw [hc, one_div, inv_mul_eq_div, le_div_iff₀ (by positivity)]
    linarith
  -- the potential
  obtain ⟨η, hη⟩ : ∃ η, η = (1 - r) / (2 * c) := ⟨_, rfl⟩
  have hη0 : 0 < η := by rw [hη]; exact div_pos (by linarith) (by positivity)
  have hηc : η * c = (1 - r) / 2 := by rw [hη]; field_simp
  obtain ⟨R, hR⟩ : ∃ R, R = max ((1 + r) / 2) (1 - tm) := ⟨_, rfl⟩
  have hR0 : 0 < R := by rw [hR]; exact lt_max_of_lt_left (by linarith)
  have hR1 : R < 1 := by rw [hR]; exact max_lt (by linarith) (by linarith)
  refine ⟨R, 1 / η, fun s => V s.2 + η * ‖s.1 - ξ zs‖ ^ 2, hR0, hR1, by positivity, fun s => ?_, fun s => ?_, fun s => ?_⟩
  · exact add_nonneg (hV0 _) (by positivity)
  · have h1 : 1 / η * (V s.2 + η * ‖s.1 - ξ zs‖ ^ 2) = 1 / η * V s.2 + ‖s.1 - ξ zs‖ ^ 2 := by field_simp
    have h2 : 0 ≤ 1 / η * V s.2 := mul_nonneg (by positivity) (hV0 _)
    rw [h1]; linarith
  · obtain ⟨x, z⟩ := s
    have ez : ∀ θ, (partialStep ξ S (U θ) (act θ) (x, z)).2 = nxt θ z := by
      intro θ
      apply stack_ext; intro a
      rfl
    have ex : ∀ θ i, ‖((partialStep ξ S (U θ) (act θ) (x, z)).1 - ξ zs) i‖ ^ 2 = if act θ i then ‖(ξ z - ξ zs) i‖ ^ 2 else ‖(x - ξ zs) i‖ ^ 2 := by
      intro θ i
      have e : ((partialStep ξ S (U θ) (act θ) (x, z)).1 - ξ zs) i = if act θ i then (ξ z - ξ zs) i else (x - ξ zs) i := by
        show (if act θ i then ξ z i else x i) - ξ zs i = _
        split <;> rfl
      rw [e]
      split <;> rfl
    have hxmean : ∑ θ, q θ * ‖(partialStep ξ S (U θ) (act θ) (x, z)).1 - ξ zs‖ ^ 2 ≤ ‖ξ z - ξ zs‖ ^ 2 + (1 - tm) * ‖x - ξ zs‖ ^ 2 := by
      have e1 : ∑ θ, q θ * ‖(partialStep ξ S (U θ) (act θ) (x, z)).1 - ξ zs‖ ^ 2 =
          ∑ i, ∑ θ, q θ * (if act θ i then ‖(ξ z - ξ zs) i‖ ^ 2 else ‖(x - ξ zs) i‖ ^ 2) := by
        rw [Finset.sum_comm]
        apply Finset.sum_congr rfl
        intro θ _
        rw [stack_norm_sq, Finset.mul_sum]
        exact Finset.sum_congr rfl fun i _ => by rw [ex θ i]
      rw [e1, stack_norm_sq, stack_norm_sq, Finset.mul_sum, ← Finset.sum_add_distrib]
      apply Finset.sum_le_sum
      intro i _
      rw [mean_ite q hq (fun θ => act θ i)]
      have h1 : t i * ‖(ξ z - ξ zs) i‖ ^ 2 ≤ 1 * ‖(ξ z - ξ zs) i‖ ^ 2 := mul_le_mul_of_nonneg_right (ht1 i) (sq_nonneg _)
      have h2 : (1 - t i) * ‖(x - ξ zs) i‖ ^ 2 ≤ (1 - tm) * ‖(x - ξ zs) i‖ ^ 2 :=
        mul_le_mul_of_nonneg_right (by linarith [htm i]) (sq_nonneg _)
      show t i * _ + (1 - t i) * _ ≤ _
      linarith
    have e3 : ∑ θ, q θ * (V (partialStep ξ S (U θ) (act θ) (x, z)).2 + η * ‖(partialStep ξ S (U θ) (act θ) (x, z)).1 - ξ zs‖ ^ 2) =
        ∑ θ, q θ * V (nxt θ z) + η * ∑ θ, q θ * ‖(partialStep ξ S (U θ) (act θ) (x, z)).1 - ξ zs‖ ^ 2 := by
      rw [Finset.mul_sum, ← Finset.sum_add_distrib]
      apply Finset.sum_congr rfl
      intro θ _
      rw [ez θ]; ring
    show ∑ θ, q θ * (V (partialStep ξ S (U θ) (act θ) (x, z)).2 + η * ‖(partialStep ξ S (U θ) (act θ) (x, z)).1 - ξ zs‖ ^ 2) ≤ R * (V z + η * ‖x - ξ zs‖ ^ 2)
    rw [e3]
    have h1 := hrV z
    have h2 := mul_le_mul_of_nonneg_left hxmean hη0.le
    have h3 := mul_le_mul_of_nonneg_left (hxV z) hη0.le
    have h4 : η * (c * V z) = (1 - r) / 2 * V z := by rw [← mul_assoc, hηc]
    have h5 : (1 + r) / 2 * V z ≤ R * V z := mul_le_mul_of_nonneg_right (by rw [hR]; exact le_max_left _ _) (hV0 z)
    have h6 : (1 - tm) * (η * ‖x - ξ zs‖ ^ 2) ≤ R * (η * ‖x - ξ zs‖ ^ 2) := mul_le_mul_of_nonneg_right (by rw [hR]; exact le_max_right _ _) (by positivity)
    linarith

end graph
end Verif.Arcs
