import Verif.Lemmas.P2PSteps2
import Mathlib.Algebra.BigOperators.Group.Finset.Basic
import Mathlib.GroupTheory.Perm.Basic
import Mathlib.Data.Fintype.Perm
import Mathlib.Algebra.BigOperators.Fin
import Mathlib.Tactic.Abel
import Mathlib.Tactic.Module
set_option linter.unusedSectionVars false
/-!
# Lemmas for the variance-reduced methods
-/
namespace Verif.P2P
open Verif Sys
variable {A E Ω : Type} [DecidableEq A] [AddCommGroup E] [Module ℝ E]

/-- one iteration of GT-VR, with the snapshot coin of each agent -/
theorem gtVr_step_coin {w : World A E Ω} {n : Net A} (h : Lossless w n) (c : Emp A E Ω) (coin : Ω → Bool × Ω) (W : A → A → ℝ)
    (hs : Supported n W) (ρ : ℝ) (k : Int) (s : Sys A E Ω (Vr E)) :
    ∃ s', ∃ ωs ωc : A → Ω, (gtVr c coin W ρ).step w n k (adv n k s) = .ok s' ∧ ∀ i ∈ n.nodes,
      (s'.loc i).x = applyW n W (fun j => (s.loc j).x - ρ • (s.loc j).y) i ∧
      ((coin (ωc i)).1 = true ∧ (s'.loc i).tau = (s'.loc i).x ∧ (s'.loc i).fullTau = c.all i (s'.loc i).x ∨
        (coin (ωc i)).1 = false ∧ (s'.loc i).tau = (s.loc i).tau ∧ (s'.loc i).fullTau = (s.loc i).fullTau) ∧
      (s'.loc i).v = (c.batch i (s'.loc i).x (ωs i)).1.1 - c.at_ i (s'.loc i).tau (c.batch i (s'.loc i).x (ωs i)).1.2
        + (s'.loc i).fullTau ∧
      (s'.loc i).y = applyW n W (fun j => (s.loc j).y + (s'.loc j).v - (s.loc j).v) i := by
  obtain ⟨s1, h1, g1, l1, m1, _⟩ := say_mix h (fun _ (a : Vr E) => { a with xMsg := a.x - ρ • a.y }) .state
    (fun a : Vr E => a.xMsg) (adv n k s) (good_step n _ k)
  obtain ⟨s2, ωs2, h2, g2, i2, l2⟩ := forActive_own h.ideal h.wf (fun i inbox (a : Vr E) ω =>
    ({ a with x := mix W i a.xMsg (inbox.byChannel .state) }, ω)) s1 g1
  obtain ⟨s3, ωs3, h3, g3, i3, l3⟩ := forActive_own h.ideal h.wf (fun i _ (a : Vr E) ω =>
      let θ := coin ω
      (if θ.1 then { a with tau := a.x, fullTau := c.all i a.x } else a, θ.2)) s2 g2
  obtain ⟨s4, ωs4, h4, g4, i4, l4⟩ := forActive_own h.ideal h.wf (fun i _ (a : Vr E) ω =>
      let r := c.batch i a.x ω
      ({ a with vOld := a.v, v := r.1.1 - c.at_ i a.tau r.1.2 + a.fullTau }, r.2)) s3 g3
  obtain ⟨s5, h5, g5, l5, m5, _⟩ := say_mix h (fun _ (a : Vr E) => { a with yMsg := a.y + a.v - a.vOld }) .tracker
    (fun a : Vr E => a.yMsg) s4 g4
  obtain ⟨s6, ωs6, h6, g6, i6, l6⟩ := forActive_own h.ideal h.wf (fun i inbox (a : Vr E) ω =>
    ({ a with y := mix W i a.yMsg (inbox.byChannel .tracker) }, ω)) s5 g5
  have e6 : ∀ i ∈ n.nodes, (s6.loc i).x = (s4.loc i).x ∧ (s6.loc i).tau = (s4.loc i).tau ∧
      (s6.loc i).fullTau = (s4.loc i).fullTau ∧ (s6.loc i).v = (s4.loc i).v := by
    intro i hi; rw [l6 i hi, l5 i hi]; exact ⟨rfl, rfl, rfl, rfl⟩
  have e4 : ∀ i ∈ n.nodes, (s4.loc i).x = (s3.loc i).x ∧ (s4.loc i).tau = (s3.loc i).tau ∧
      (s4.loc i).fullTau = (s3.loc i).fullTau ∧ (s4.loc i).vOld = (s3.loc i).v ∧ (s4.loc i).y = (s3.loc i).y ∧
      (s4.loc i).v = (c.batch i (s3.loc i).x (ωs4 i)).1.1 - c.at_ i (s3.loc i).tau (c.batch i (s3.loc i).x (ωs4 i)).1.2
        + (s3.loc i).fullTau := by
    intro i hi; rw [l4 i hi]; exact ⟨rfl, rfl, rfl, rfl, rfl, rfl⟩
  have e3 : ∀ i ∈ n.nodes, (s3.loc i).x = (s2.loc i).x ∧ (s3.loc i).v = (s2.loc i).v ∧ (s3.loc i).y = (s2.loc i).y ∧
      ((coin (ωs3 i)).1 = true ∧ (s3.loc i).tau = (s2.loc i).x ∧ (s3.loc i).fullTau = c.all i (s2.loc i).x ∨
        (coin (ωs3 i)).1 = false ∧ (s3.loc i).tau = (s2.loc i).tau ∧ (s3.loc i).fullTau = (s2.loc i).fullTau) := by
    intro i hi
    rw [l3 i hi]
    try simp only
    by_cases hc : (coin (ωs3 i)).1 = true <;> simp [hc]
  have e2 : ∀ i ∈ n.nodes, (s2.loc i).x = applyW n W (fun j => (s.loc j).x - ρ • (s.loc j).y) i ∧
      (s2.loc i).v = (s.loc i).v ∧ (s2.loc i).y = (s.loc i).y ∧ (s2.loc i).tau = (s.loc i).tau ∧
      (s2.loc i).fullTau = (s.loc i).fullTau := by
    intro i hi
    have hm := m1 W hs i hi
    rw [l2 i hi, l1 i hi]
    try simp only
    refine ⟨hm, rfl, rfl, rfl, rfl⟩
  refine ⟨s6, ωs4, ωs3, ?_, fun i hi => ?_⟩
  · simp only [gtVr, h1, h2, h3, h4, h5, bind, Except.bind]; exact h6
  · obtain ⟨a1, a2, a3, a4⟩ := e6 i hi
    obtain ⟨b1, b2, b3, b4, b5, b6⟩ := e4 i hi
    obtain ⟨c1, c2, c3, c4⟩ := e3 i hi
    obtain ⟨d1, d2, d3, d4, d5⟩ := e2 i hi
    refine ⟨by rw [a1, b1, c1, d1], ?_, ?_, ?_⟩
    · rcases c4 with ⟨t0, t1, t2⟩ | ⟨t0, t1, t2⟩
      · left; rw [a1, a2, a3, b1, b2, b3, c1, t1, t2]; exact ⟨t0, rfl, rfl⟩
      · right; rw [a2, a3, b2, b3, t1, t2, d4, d5]; exact ⟨t0, rfl, rfl⟩
    · rw [a1, a2, a3, a4, b6, b1, b2, b3]
    · have hm := m5 W hs i hi
      try simp only at hm
      have e : (s6.loc i).y = mix W i (s5.loc i).yMsg ((s5.net.inbox i).byChannel .tracker) := by rw [l6 i hi]
      rw [e, l5 i hi]
      try simp only
      rw [hm]
      exact applyW_congr n W (fun j hj => by
        rw [(e6 j hj).2.2.2, (e4 j hj).2.2.2.1, (e4 j hj).2.2.2.2.1, (e3 j hj).2.1, (e3 j hj).2.2.1, (e2 j hj).2.1,
          (e2 j hj).2.2.1]) i


theorem meanAt_congr {u v : Nat → E} {l : List Nat} (h : ∀ j ∈ l, u j = v j) : meanAt u l = meanAt v l := by
  unfold meanAt; rw [List.map_congr_left h]

theorem meanAt_sub (u v : Nat → E) (l : List Nat) : meanAt (fun j => u j - v j) l = meanAt u l - meanAt v l := by
  unfold meanAt
  rw [← smul_sub]; congr 1
  induction l with
  | nil => simp
  | cons a l ih => simp only [List.map_cons, List.sum_cons, ih]; abel

/-- at any list of positions, a uniformly random permutation shows the average value on average -/
theorem perm_mean {m : Nat} (hm : 0 < m) (u : Nat → E) (l : List (Fin m)) (hl : l ≠ []) :
    ∑ π : Equiv.Perm (Fin m), meanAt u (l.map (fun i => (π i).val)) = (Nat.factorial m : ℝ) • meanAt u (List.range m) := by
  have T : ∀ i j : Fin m, ∑ π : Equiv.Perm (Fin m), u (π i).val = ∑ π : Equiv.Perm (Fin m), u (π j).val := by
    intro i j
    rw [← Equiv.sum_comp (Equiv.mulRight (Equiv.swap i j)) (fun π : Equiv.Perm (Fin m) => u (π j).val)]
    apply Finset.sum_congr rfl
    intro π _
    simp
  have i0 : Fin m := ⟨0, hm⟩
  have hm' : (m : ℝ) ≠ 0 := by exact_mod_cast hm.ne'
  have hT : (m : ℝ) • ∑ π : Equiv.Perm (Fin m), u (π i0).val = (Nat.factorial m : ℝ) • ∑ j : Fin m, u j.val := by
    have h1 : ∑ i : Fin m, ∑ π : Equiv.Perm (Fin m), u (π i).val = (m : ℝ) • ∑ π : Equiv.Perm (Fin m), u (π i0).val := by
      rw [Finset.sum_congr rfl (fun i _ => T i i0), Finset.sum_const, Finset.card_univ, Fintype.card_fin, Nat.cast_smul_eq_nsmul]
    have h2 : ∑ π : Equiv.Perm (Fin m), ∑ i : Fin m, u (π i).val = (Nat.factorial m : ℝ) • ∑ j : Fin m, u j.val := by
      rw [Finset.sum_congr rfl (fun π _ => Equiv.sum_comp π (fun j : Fin m => u j.val)), Finset.sum_const, Finset.card_univ, Fintype.card_perm,
        Fintype.card_fin, Nat.cast_smul_eq_nsmul]
    rw [← h1, Finset.sum_comm, h2]
  have hl' : (l.length : ℝ) ≠ 0 := by
    have : l.length ≠ 0 := fun h => hl (List.length_eq_zero_iff.1 h)
    exact_mod_cast this
  have hsum : ∑ π : Equiv.Perm (Fin m), ((l.map (fun i => (π i).val)).map u).sum = (l.length : ℝ) • ∑ π : Equiv.Perm (Fin m), u (π i0).val := by
    clear hl hl'
    induction l with
    | nil => simp
    | cons a l ih =>
      simp only [List.map_cons, List.sum_cons, Finset.sum_add_distrib, List.length_cons, Nat.cast_add, Nat.cast_one, add_smul, one_smul]
      rw [ih, T a i0]; abel
  have hr : ((List.range m).map u).sum = ∑ j : Fin m, u j.val := by
    rw [← List.map_coe_finRange_eq_range, List.map_map, ← Fin.sum_univ_def]; rfl
  unfold meanAt
  simp only [List.length_map, List.length_range]
  rw [← Finset.smul_sum, hsum, hr, smul_smul, one_div_mul_cancel hl', one_smul, smul_smul, mul_comm (Nat.factorial m : ℝ), ← smul_smul, ← hT, smul_smul,
    one_div_mul_cancel hm', one_smul]

end Verif.P2P
