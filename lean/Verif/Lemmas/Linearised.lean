import Verif.Model.Linearised
import Verif.Lemmas.P2PSteps
import Verif.Lemmas.Consensus
set_option linter.unusedSectionVars false
/-! # DLM and DiNNO: one iteration on a lossless network, and the linear rate -/
namespace Verif.P2P
open NetState Sys

section
variable {A E Ω α : Type} [DecidableEq A] [AddCommGroup E] [Module ℝ E]

theorem sumFresh_eq (l : List (A × E)) : sumFresh l = if l = [] then none else some ((l.map (fun e => e.2)).sum) := by
  cases l with
  | nil => rfl
  | cons e t =>
    have key : ∀ (t : List (A × E)) (z : E), t.foldl (fun s v => s + v.2) z = z + (t.map (fun e => e.2)).sum := by
      intro t
      induction t with
      | nil => intro z; simp
      | cons a t ih => intro z; rw [List.foldl_cons, ih, List.map_cons, List.sum_cons, add_assoc]
    rw [if_neg (List.cons_ne_nil _ _)]
    simp only [sumFresh, key, List.map_cons, List.sum_cons]

/-- what is in the inbox after everybody has broadcast -/
theorem heard_all (n : Net A) (hw : n.WF) (s : NetState A Chan E Ω) (hg : Good n s) (i : A) (hi : i ∈ n.nodes) (ch : Chan) (m : A → E)
    (hm : ∀ j ∈ n.nbrs i, (s.inbox i).abs ch j = some (m j)) :
    ((s.inbox i).byChannel ch).entries.length = (n.nbrs i).length ∧
    sumFresh ((s.inbox i).byChannel ch).entries = if n.nbrs i = [] then none else some (((n.nbrs i).map m).sum) := by
  have hget : ∀ j, ((s.inbox i).byChannel ch).get? j = if j ∈ n.nbrs i then some (m j) else none := by
    intro j
    rw [Inbox.get?_byChannel]
    by_cases h : j ∈ n.nbrs i
    · rw [if_pos h, hm j h]
    · rw [if_neg h]
      by_contra hne
      exact h (hg.nbr i hi ch j hne)
  have hwf : ((s.inbox i).byChannel ch).WF := by
    unfold Inbox.byChannel
    cases hc : (s.inbox i).messages.get? ch with
    | none => exact PyDict.wf_empty
    | some d => exact (hg.inbox i hi).bucket _ _ hc
  have hperm : ((s.inbox i).byChannel ch).keys.Perm (n.nbrs i) := by
    rw [List.perm_ext_iff_of_nodup hwf (hw.nbrs_nodup i)]
    intro a
    rw [PyDict.mem_keys_iff, hget]
    by_cases h : a ∈ n.nbrs i <;> simp [h]
  have hlen : ((s.inbox i).byChannel ch).entries.length = (n.nbrs i).length := by
    rw [← hperm.length_eq]; unfold PyDict.keys; rw [List.length_map]
  refine ⟨hlen, ?_⟩
  rw [sumFresh_eq, sum_entries _ hwf (n.nbrs i) (hw.nbrs_nodup i) m hget (fun _ v => v)]
  by_cases he : n.nbrs i = []
  · rw [if_pos he, if_pos]
    rw [he, List.length_nil] at hlen
    exact List.length_eq_zero_iff.1 hlen
  · rw [if_neg he, if_neg]
    intro e
    rw [e, List.length_nil] at hlen
    exact he (List.length_eq_zero_iff.1 hlen.symm)

theorem sum_gap (l : List A) (c : E) (f : A → E) : (l.map (fun j => c - f j)).sum = l.length • c - (l.map f).sum := by
  induction l with
  | nil => simp
  | cons a t ih => simp only [List.map_cons, List.sum_cons, List.length_cons, ih, add_smul, one_smul]; abel

/-- the difference to the neighbours -/
def gapSum (n : Net A) (x : A → E) (i : A) : E := ((n.nbrs i).map (fun j => x i - x j)).sum

theorem gapSum_congr {n : Net A} (hw : n.WF) {x y : A → E} (h : ∀ i ∈ n.nodes, x i = y i) (i : A) (hi : i ∈ n.nodes) : gapSum n x i = gapSum n y i := by
  unfold gapSum
  congr 1
  exact List.map_congr_left fun j hj => by rw [h i hi, h j (hw.nbrs_mem i j hj)]

theorem gapTo_all (n : Net A) (hw : n.WF) (s : NetState A Chan E Ω) (hg : Good n s) (i : A) (hi : i ∈ n.nodes) (ch : Chan) (m : A → E)
    (hm : ∀ j ∈ n.nbrs i, (s.inbox i).abs ch j = some (m j)) :
    gapTo (m i) ((s.inbox i).byChannel ch) = if n.nbrs i = [] then none else some (gapSum n m i) := by
  obtain ⟨h1, h2⟩ := heard_all n hw s hg i hi ch m hm
  unfold gapTo gapSum
  rw [h1, h2, sum_gap]
  by_cases he : n.nbrs i = [] <;> simp [he]

theorem gapSum_alone {n : Net A} {x : A → E} {i : A} (h : n.nbrs i = []) : gapSum n x i = 0 := by simp [gapSum, h]

/-- after a broadcast of everybody's `x` every inbox holds the neighbours' `x` -/
theorem say_x {w : World A E Ω} {n : Net A} (h : Lossless w n) (x : α → E) (s : Sys A E Ω α) (hg : Good n s.net) :
    ∃ s', forActive w n (say w n (fun _ a => a) (fun _ a => [(Chan.dflt, x a)])) s = .ok s' ∧ Good n s'.net ∧ (∀ i ∈ n.nodes, s'.loc i = s.loc i) ∧
      ∀ i ∈ n.nodes, ∀ j ∈ n.nbrs i, (s'.net.inbox i).abs .dflt j = some (x (s.loc j)) := by
  obtain ⟨s', h1, g1, l1, a1⟩ := forActive_say h.ideal h.wf (fun _ a => a) (fun _ a => [(Chan.dflt, x a)]) s hg
  refine ⟨s', h1, g1, l1, fun i hi j hj => ?_⟩
  rw [a1 i hi .dflt j hj]
  simp [lastOn]

theorem dlm_first {w : World A E Ω} {n : Net A} (h : Lossless w n) (grad : Grad A E Ω) (μ ρ : ℝ) (s : Sys A E Ω (DlmLoc E)) :
    ∃ s', (dlm grad μ ρ).step w n 0 (adv n 0 s) = .ok s' ∧ ∀ i ∈ n.nodes, (s'.loc i).x = (s.loc i).x ∧ (s'.loc i).y = (s.loc i).y ∧
      (s'.loc i).s = if n.nbrs i = [] then (s.loc i).s else gapSum n (fun j => (s.loc j).x) i := by
  obtain ⟨s1, h1, g1, l1, m1⟩ := say_x h (fun a : DlmLoc E => a.x) (adv n 0 s) (good_step n _ 0)
  obtain ⟨s2, ωs, h2, g2, i2, l2⟩ := forActive_own h.ideal h.wf (fun _ inbox (a : DlmLoc E) ω =>
    ({ a with s := (gapTo a.x (inbox.byChannel .dflt)).getD a.s }, ω)) s1 g1
  refine ⟨s2, ?_, fun i hi => ?_⟩
  · simp only [dlm, if_true, bind, Except.bind, h1]; exact h2
  · have e := gapTo_all n h.wf s1.net g1 i hi .dflt (fun j => (s.loc j).x) (fun j hj => m1 i hi j hj)
    rw [l2 i hi, l1 i hi]
    refine ⟨rfl, rfl, ?_⟩
    show (gapTo (s.loc i).x ((s1.net.inbox i).byChannel .dflt)).getD (s.loc i).s = _
    rw [e]
    by_cases he : n.nbrs i = [] <;> simp [he]

theorem dlm_later {w : World A E Ω} {n : Net A} (h : Lossless w n) (grad : Grad A E Ω) (μ ρ : ℝ) (k : Int) (hk : k ≠ 0) (s : Sys A E Ω (DlmLoc E)) :
    ∃ s', ∃ ωs : A → Ω, (dlm grad μ ρ).step w n k (adv n k s) = .ok s' ∧ ∀ i ∈ n.nodes,
      (s'.loc i).x = (s.loc i).x - μ • ((grad i (s.loc i).x (ωs i)).1 + ρ • (s.loc i).s + (s.loc i).y) ∧
      (s'.loc i).s = (if n.nbrs i = [] then (s.loc i).s else gapSum n (fun j => (s'.loc j).x) i) ∧
      (s'.loc i).y = (s.loc i).y + ρ • (s'.loc i).s := by
  obtain ⟨s0, ωs, h0, g0, i0, l0⟩ := forActive_own h.ideal h.wf (fun i _ (a : DlmLoc E) ω =>
    let g := grad i a.x ω
    ({ a with x := a.x - μ • (g.1 + ρ • a.s + a.y) }, g.2)) (adv n k s) (good_step n _ k)
  obtain ⟨s1, h1, g1, l1, m1⟩ := say_x h (fun a : DlmLoc E => a.x) s0 g0
  obtain ⟨s2, ωs2, h2, g2, i2, l2⟩ := forActive_own h.ideal h.wf (fun _ inbox (a : DlmLoc E) ω =>
    ({ a with s := (gapTo a.x (inbox.byChannel .dflt)).getD a.s }, ω)) s1 g1
  obtain ⟨s3, ωs3, h3, g3, i3, l3⟩ := forActive_own h.ideal h.wf (fun _ _ (a : DlmLoc E) ω => ({ a with y := a.y + ρ • a.s }, ω)) s2 g2
  have ex : ∀ i ∈ n.nodes, (s3.loc i).x = (s0.loc i).x := fun i hi => by rw [l3 i hi, l2 i hi, l1 i hi]
  refine ⟨s3, ωs, ?_, fun i hi => ⟨?_, ?_, ?_⟩⟩
  · simp only [dlm, if_neg hk, bind, Except.bind, h0, h1, h2]; exact h3
  · rw [ex i hi, l0 i hi]; rfl
  · have e := gapTo_all n h.wf s1.net g1 i hi .dflt (fun j => (s0.loc j).x) (fun j hj => m1 i hi j hj)
    rw [gapSum_congr h.wf ex i hi, l3 i hi, l2 i hi, l1 i hi]
    show (gapTo (s0.loc i).x ((s1.net.inbox i).byChannel .dflt)).getD (s0.loc i).s = _
    rw [e, show (s0.loc i).s = (s.loc i).s by rw [l0 i hi]; rfl]
    by_cases he : n.nbrs i = [] <;> simp [he]
  · have e : (s3.loc i).s = (s2.loc i).s := by rw [l3 i hi]
    rw [e, l3 i hi]
    show (s2.loc i).y + ρ • (s2.loc i).s = _
    congr 1
    rw [l2 i hi, l1 i hi, l0 i hi]
    rfl

theorem dinno_step {w : World A E Ω} {n : Net A} (h : Lossless w n) (grad : Grad A E Ω) (μ ρ : ℝ) (B : Nat) (k : Int) (s : Sys A E Ω (DinnoLoc E)) :
    ∃ s', ∃ ωs : A → Ω, (dinno grad μ ρ B).step w n k (adv n k s) = .ok s' ∧ ∀ i ∈ n.nodes,
      (s'.loc i).p = (s.loc i).p + ρ • gapSum n (fun j => (s.loc j).x) i ∧
      (s'.loc i).x = (dinnoTrain (grad i) μ ρ (n.nbrs i).length (s.loc i).x (s'.loc i).p
        (if n.nbrs i = [] then none else some ((1 / 2 : ℝ) • ((n.nbrs i).map (fun j => (s.loc j).x)).sum)) B (s.loc i).x (ωs i)).1 := by
  obtain ⟨s1, h1, g1, l1, m1⟩ := say_x h (fun a : DinnoLoc E => a.x) (adv n k s) (good_step n _ k)
  obtain ⟨s2, ωs2, h2, g2, i2, l2⟩ := forActive_own h.ideal h.wf (fun _ inbox (a : DinnoLoc E) ω =>
      ({ a with p := dinnoP ρ a.p (gapTo a.x (inbox.byChannel .dflt)) }, ω)) s1 g1
  obtain ⟨s3, ωs, h3, g3, i3, l3⟩ := forActive_own h.ideal h.wf (fun i inbox (a : DinnoLoc E) ω =>
      let d := inbox.byChannel .dflt
      let r := dinnoTrain (grad i) μ ρ d.entries.length a.x a.p ((sumFresh d.entries).map (fun s => (1 / 2 : ℝ) • s)) B a.x ω
      ({ a with x := r.1 }, r.2)) s2 g2
  refine ⟨s3, ωs, ?_, fun i hi => ?_⟩
  · simp only [dinno, bind, Except.bind, h1, h2]; exact h3
  · have e := gapTo_all n h.wf s1.net g1 i hi .dflt (fun j => (s.loc j).x) (fun j hj => m1 i hi j hj)
    obtain ⟨e1, e2⟩ := heard_all n h.wf s1.net g1 i hi .dflt (fun j => (s.loc j).x) (fun j hj => m1 i hi j hj)
    have hp3 : (s3.loc i).p = (s2.loc i).p := by rw [l3 i hi]
    have hx2 : (s2.loc i).x = (s.loc i).x := by rw [l2 i hi, l1 i hi]; rfl
    constructor
    · rw [hp3, l2 i hi, l1 i hi]
      show dinnoP ρ (s.loc i).p (gapTo (s.loc i).x ((s1.net.inbox i).byChannel .dflt)) = _
      rw [e]
      by_cases he : n.nbrs i = []
      · rw [if_pos he, gapSum_alone he]; simp [dinnoP]
      · rw [if_neg he]; rfl
    · rw [hp3, l3 i hi]
      dsimp only
      rw [i2, e1, e2, hx2]
      by_cases he : n.nbrs i = []
      · rw [if_pos he, if_pos he]; rfl
      · rw [if_neg he, if_neg he]; rfl

end

/-! ### the rate -/
section
open Consensus Costs
open scoped InnerProductSpace
variable {H : Type} [NormedAddCommGroup H] [InnerProductSpace ℝ H]

/-- consequence of the two parabola bounds at three points -/
def ThreePoint (g : H → H) (L m : ℝ) : Prop :=
  ∀ x y z, m / 2 * (‖x - z‖ ^ 2 + ‖y - z‖ ^ 2) - L / 2 * ‖y - x‖ ^ 2 ≤ ⟪y - z, g x - g z⟫_ℝ

/-- one iteration of the linearised method of multipliers -/
theorem linearised_drop (M : H →ₗ[ℝ] H) (hs : ∀ u v, ⟪M u, v⟫_ℝ = ⟪u, M v⟫_ℝ) (hp : ∀ v, 0 ≤ ⟪v, M v⟫_ℝ) {g : H → H} {L m l μ ρ : ℝ} (hμ : 0 < μ) (hρ : 0 < ρ)
    (hl : ∀ v, ‖M v‖ ≤ l * ‖v‖) (hg : ThreePoint g L m) {xs us x u : H} (hM : M xs = 0) (hopt : g xs + M us = 0) :
    let x' := x - μ • (g x + ρ • M x + M u)
    let u' := u + ρ • x'
    (1 / μ * ‖x' - xs‖ ^ 2 - ρ * ⟪x' - xs, M (x' - xs)⟫_ℝ + 1 / ρ * ⟪u' - us, M (u' - us)⟫_ℝ) + (1 / μ - ρ * l - L) * ‖x' - x‖ ^ 2
        + m * (‖x - xs‖ ^ 2 + ‖x' - xs‖ ^ 2) ≤
      1 / μ * ‖x - xs‖ ^ 2 - ρ * ⟪x - xs, M (x - xs)⟫_ℝ + 1 / ρ * ⟪u - us, M (u - us)⟫_ℝ := by
  intro x' u'
  obtain ⟨e, he⟩ : ∃ e, e = x - xs := ⟨_, rfl⟩
  obtain ⟨e', he'⟩ : ∃ e', e' = x' - xs := ⟨_, rfl⟩
  obtain ⟨v, hv⟩ : ∃ v, v = u - us := ⟨_, rfl⟩
  obtain ⟨q, hq⟩ : ∃ q, q = g x - g xs := ⟨_, rfl⟩
  have hΔ : x' - x = e' - e := by rw [he, he']; abel
  have hv' : u' - us = v + ρ • (e' + xs) := by rw [hv, he']; show u + ρ • x' - us = _; module
  have hstep : (1 / μ) • (e' - e) = -(q + ρ • M e + M v) := by
    rw [← hΔ]
    have h1 : x' - x = -(μ • (g x + ρ • M x + M u)) := by show x - μ • (g x + ρ • M x + M u) - x = _; abel
    have h2 : M e = M x := by rw [he, map_sub, hM, sub_zero]
    have h3 : q + M v = g x + M u := by
      rw [hq, hv, map_sub]
      have : g xs = -M us := eq_neg_of_add_eq_zero_left hopt
      rw [this]; abel
    have h4 : q + ρ • M e + M v = g x + ρ • M x + M u := by
      rw [h2]
      calc q + ρ • M x + M v = (q + M v) + ρ • M x := by abel
        _ = (g x + M u) + ρ • M x := by rw [h3]
        _ = _ := by abel
    rw [h1, h4, smul_neg, smul_smul, one_div_mul_cancel hμ.ne', one_smul]
  have h3 := hg x x' xs
  rw [← he, ← he', hΔ, ← hq] at h3
  have hin : 1 / μ * ⟪e', e' - e⟫_ℝ = -(⟪e', q⟫_ℝ + ρ * ⟪e', M e⟫_ℝ + ⟪e', M v⟫_ℝ) := by
    rw [← inner_smul_right, hstep, inner_neg_right, inner_add_right, inner_add_right, inner_smul_right]
  have hd : ‖e'‖ ^ 2 - ‖e‖ ^ 2 = 2 * ⟪e', e' - e⟫_ℝ - ‖e' - e‖ ^ 2 := by
    rw [norm_sub_sq_real, inner_sub_right, real_inner_self_eq_norm_sq]; ring
  have hMM : ⟪e' - e, M (e' - e)⟫_ℝ = ⟪e', M e'⟫_ℝ - 2 * ⟪e', M e⟫_ℝ + ⟪e, M e⟫_ℝ := by
    have : ⟪e, M e'⟫_ℝ = ⟪e', M e⟫_ℝ := by rw [← hs, real_inner_comm]
    rw [map_sub, inner_sub_left, inner_sub_right, inner_sub_right, this]; ring
  have hle : ⟪e' - e, M (e' - e)⟫_ℝ ≤ l * ‖e' - e‖ ^ 2 := by
    refine (real_inner_le_norm _ _).trans ?_
    calc ‖e' - e‖ * ‖M (e' - e)‖ ≤ ‖e' - e‖ * (l * ‖e' - e‖) := mul_le_mul_of_nonneg_left (hl _) (norm_nonneg _)
      _ = _ := by ring
  have hvv : ⟪v + ρ • (e' + xs), M (v + ρ • (e' + xs))⟫_ℝ = ⟪v, M v⟫_ℝ + 2 * ρ * ⟪e', M v⟫_ℝ + ρ ^ 2 * ⟪e', M e'⟫_ℝ := by
    have a1 : M (e' + xs) = M e' := by rw [map_add, hM, add_zero]
    have a2 : ∀ z, ⟪e' + xs, M z⟫_ℝ = ⟪e', M z⟫_ℝ := fun z => by rw [inner_add_left, ← hs xs z, hM, inner_zero_left, add_zero]
    have a3 : ⟪v, M e'⟫_ℝ = ⟪e', M v⟫_ℝ := by rw [← hs, real_inner_comm]
    rw [map_add, map_smul, a1, inner_add_left, inner_add_right, inner_add_right, inner_smul_left, inner_smul_left, inner_smul_right, inner_smul_right, a2, a2, a3]
    simp only [conj_trivial]
    ring
  rw [← he, ← he', ← hv, hΔ, hv', hvv]
  have hρ1 : 1 / ρ * (⟪v, M v⟫_ℝ + 2 * ρ * ⟪e', M v⟫_ℝ + ρ ^ 2 * ⟪e', M e'⟫_ℝ) = 1 / ρ * ⟪v, M v⟫_ℝ + 2 * ⟪e', M v⟫_ℝ + ρ * ⟪e', M e'⟫_ℝ := by
    field_simp
  rw [hρ1]
  have hle' := mul_le_mul_of_nonneg_left hle hρ.le
  rw [hMM] at hle'
  have hd' : 1 / μ * ‖e'‖ ^ 2 = 1 / μ * ‖e‖ ^ 2 + 2 * (1 / μ * ⟪e', e' - e⟫_ℝ) - 1 / μ * ‖e' - e‖ ^ 2 := by
    have : ‖e'‖ ^ 2 = ‖e‖ ^ 2 + 2 * ⟪e', e' - e⟫_ℝ - ‖e' - e‖ ^ 2 := by linarith
    rw [this]; ring
  rw [hd', hin]
  have hpe := mul_nonneg hρ.le (hp e')
  have e1 : (1 / μ - ρ * l - L) * ‖e' - e‖ ^ 2 = 1 / μ * ‖e' - e‖ ^ 2 - ρ * (l * ‖e' - e‖ ^ 2) - L * ‖e' - e‖ ^ 2 := by ring
  have e2 : ρ * (⟪e', M e'⟫_ℝ - 2 * ⟪e', M e⟫_ℝ + ⟪e, M e⟫_ℝ) = ρ * ⟪e', M e'⟫_ℝ - 2 * (ρ * ⟪e', M e⟫_ℝ) + ρ * ⟪e, M e⟫_ℝ := by ring
  rw [e1]
  rw [e2] at hle'
  linarith

/-- linear convergence of the linearised method of multipliers -/
theorem linearised_rate (M : H →ₗ[ℝ] H) (hs : ∀ u v, ⟪M u, v⟫_ℝ = ⟪u, M v⟫_ℝ) (hp : ∀ v, 0 ≤ ⟪v, M v⟫_ℝ) (L m l c μ ρ : ℝ) (hL : 0 < L) (hm : 0 < m) (hl0 : 0 ≤ l)
    (hμ : 0 < μ) (hρ : 0 < ρ) (hl : ∀ v, ‖M v‖ ≤ l * ‖v‖) (hc : 0 < c) (hgap : ∀ v, c * ⟪v, M v⟫_ℝ ≤ ‖M v‖ ^ 2) (hsmall : μ * (L + ρ * l) < 1) :
    ∃ r : ℝ, 0 < r ∧ r < 1 ∧ ∀ (g : H → H), ThreePoint g L m → (∀ x y, ‖g x - g y‖ ≤ L * ‖x - y‖) → ∀ xs us : H, M xs = 0 → g xs + M us = 0 →
      ∀ x u : Nat → H, (∀ k, x (k + 1) = x k - μ • (g (x k) + ρ • M (x k) + M (u k))) → (∀ k, u (k + 1) = u k + ρ • x (k + 1)) →
      ∃ C : ℝ, ∀ k, ‖x k - xs‖ ^ 2 ≤ C * r ^ k := by
  have hδ : 0 < 1 / μ - ρ * l - L := by
    have : L + ρ * l < 1 / μ := by rw [lt_div_iff₀ hμ]; linarith
    linarith
  obtain ⟨δ, hδe⟩ : ∃ δ, δ = 1 / μ - ρ * l - L := ⟨_, rfl⟩
  rw [← hδe] at hδ
  obtain ⟨q, hq⟩ : ∃ q, q = min δ m := ⟨_, rfl⟩
  have hq0 : 0 < q := by rw [hq]; exact lt_min hδ hm
  obtain ⟨a, ha⟩ : ∃ a, a = 1 / μ + ρ * l := ⟨_, rfl⟩
  have ha0 : 0 < a := by rw [ha]; positivity
  obtain ⟨Q, hQ⟩ : ∃ Q, Q = 1 / μ + 1 / (ρ * c) * (2 * L ^ 2) + 1 / (ρ * c) * (2 * a ^ 2) := ⟨_, rfl⟩
  have hQ0 : 0 < Q := by rw [hQ]; positivity
  refine ⟨1 / (1 + q / Q), by positivity, ?_, ?_⟩
  · rw [div_lt_one (by positivity)]; have := div_pos hq0 hQ0; linarith
  intro g hg hlip xs us hM hopt x u hx hu
  obtain ⟨V, hV⟩ : ∃ V : Nat → ℝ, V = fun k => 1 / μ * ‖x k - xs‖ ^ 2 - ρ * ⟪x k - xs, M (x k - xs)⟫_ℝ + 1 / ρ * ⟪u k - us, M (u k - us)⟫_ℝ := ⟨_, rfl⟩
  have hVge : ∀ k, L * ‖x k - xs‖ ^ 2 ≤ V k := by
    intro k
    have h1 : ⟪x k - xs, M (x k - xs)⟫_ℝ ≤ l * ‖x k - xs‖ ^ 2 := by
      refine (real_inner_le_norm _ _).trans ?_
      calc ‖x k - xs‖ * ‖M (x k - xs)‖ ≤ ‖x k - xs‖ * (l * ‖x k - xs‖) := mul_le_mul_of_nonneg_left (hl _) (norm_nonneg _)
        _ = _ := by ring
    have h2 := mul_le_mul_of_nonneg_left h1 hρ.le
    have h3 := mul_nonneg (one_div_nonneg.2 hρ.le) (hp (u k - us))
    have h4 := mul_nonneg hδ.le (sq_nonneg ‖x k - xs‖)
    have h5 : δ * ‖x k - xs‖ ^ 2 = 1 / μ * ‖x k - xs‖ ^ 2 - ρ * (l * ‖x k - xs‖ ^ 2) - L * ‖x k - xs‖ ^ 2 := by rw [hδe]; ring
    rw [hV]; dsimp only
    linarith
  have hdrop : ∀ k, V (k + 1) + δ * ‖x (k + 1) - x k‖ ^ 2 + m * (‖x k - xs‖ ^ 2 + ‖x (k + 1) - xs‖ ^ 2) ≤ V k := by
    intro k
    have := linearised_drop M hs hp hμ hρ hl hg (x := x k) (u := u k) hM hopt
    dsimp only at this
    rw [← hx k, ← hu k] at this
    rw [hV, hδe]; exact this
  have hupper : ∀ k, V (k + 1) ≤ Q * (‖x (k + 1) - x k‖ ^ 2 + (‖x k - xs‖ ^ 2 + ‖x (k + 1) - xs‖ ^ 2)) := by
    intro k
    have hMv : M (u (k + 1) - us) = -(g (x k) - g xs) - (1 / μ) • (x (k + 1) - x k) + ρ • M (x (k + 1) - x k) := by
      have h1 : (1 / μ) • (x (k + 1) - x k) = -(g (x k) + ρ • M (x k) + M (u k)) := by
        rw [hx k, sub_sub_cancel_left, smul_neg, smul_smul, one_div_mul_cancel hμ.ne', one_smul]
      have h2 : g xs = -M us := eq_neg_of_add_eq_zero_left hopt
      rw [h1, hu k, map_sub, map_add, map_smul, map_sub, h2, smul_sub]
      abel
    have hn : ‖M (u (k + 1) - us)‖ ≤ L * ‖x k - xs‖ + a * ‖x (k + 1) - x k‖ := by
      rw [hMv]
      refine (norm_add_le _ _).trans ?_
      have h1 := norm_sub_le (-(g (x k) - g xs)) ((1 / μ) • (x (k + 1) - x k))
      rw [norm_neg, norm_smul, Real.norm_eq_abs, abs_of_pos (one_div_pos.2 hμ)] at h1
      have h2 := hlip (x k) xs
      have h3 : ‖ρ • M (x (k + 1) - x k)‖ ≤ ρ * (l * ‖x (k + 1) - x k‖) := by
        rw [norm_smul, Real.norm_eq_abs, abs_of_pos hρ]
        exact mul_le_mul_of_nonneg_left (hl _) hρ.le
      have h4 : a * ‖x (k + 1) - x k‖ = 1 / μ * ‖x (k + 1) - x k‖ + ρ * (l * ‖x (k + 1) - x k‖) := by rw [ha]; ring
      linarith
    have hsq : ‖M (u (k + 1) - us)‖ ^ 2 ≤ 2 * L ^ 2 * ‖x k - xs‖ ^ 2 + 2 * a ^ 2 * ‖x (k + 1) - x k‖ ^ 2 := by
      have h1 := pow_le_pow_left₀ (norm_nonneg _) hn 2
      have h2 := sq_nonneg (L * ‖x k - xs‖ - a * ‖x (k + 1) - x k‖)
      have h3 : (L * ‖x k - xs‖ + a * ‖x (k + 1) - x k‖) ^ 2 + (L * ‖x k - xs‖ - a * ‖x (k + 1) - x k‖) ^ 2 =
        2 * L ^ 2 * ‖x k - xs‖ ^ 2 + 2 * a ^ 2 * ‖x (k + 1) - x k‖ ^ 2 := by ring
      linarith
    have hin : 1 / ρ * ⟪u (k + 1) - us, M (u (k + 1) - us)⟫_ℝ ≤ 1 / (ρ * c) * ‖M (u (k + 1) - us)‖ ^ 2 := by
      have h1 := mul_le_mul_of_nonneg_left (hgap (u (k + 1) - us)) (show 0 ≤ 1 / (ρ * c) by positivity)
      have h2 : 1 / (ρ * c) * (c * ⟪u (k + 1) - us, M (u (k + 1) - us)⟫_ℝ) = 1 / ρ * ⟪u (k + 1) - us, M (u (k + 1) - us)⟫_ℝ := by
        field_simp
      linarith
    have hin2 := mul_le_mul_of_nonneg_left hsq (show 0 ≤ 1 / (ρ * c) by positivity)
    have hneg := mul_nonneg hρ.le (hp (x (k + 1) - xs))
    have b1 : 1 / (ρ * c) * (2 * L ^ 2 * ‖x k - xs‖ ^ 2 + 2 * a ^ 2 * ‖x (k + 1) - x k‖ ^ 2) =
      1 / (ρ * c) * (2 * L ^ 2) * ‖x k - xs‖ ^ 2 + 1 / (ρ * c) * (2 * a ^ 2) * ‖x (k + 1) - x k‖ ^ 2 := by ring
    obtain ⟨q1, hq1⟩ : ∃ q1, q1 = 1 / (ρ * c) * (2 * L ^ 2) := ⟨_, rfl⟩
    obtain ⟨q2, hq2⟩ : ∃ q2, q2 = 1 / (ρ * c) * (2 * a ^ 2) := ⟨_, rfl⟩
    have hq1' : 0 ≤ q1 := by rw [hq1]; positivity
    have hq2' : 0 ≤ q2 := by rw [hq2]; positivity
    have hμ' : 0 ≤ 1 / μ := by positivity
    rw [b1, ← hq1, ← hq2] at hin2
    rw [← hq1, ← hq2] at hQ
    have s1 := sq_nonneg ‖x k - xs‖
    have s2 := sq_nonneg ‖x (k + 1) - x k‖
    have s3 := sq_nonneg ‖x (k + 1) - xs‖
    have t1 : Q * (‖x (k + 1) - x k‖ ^ 2 + (‖x k - xs‖ ^ 2 + ‖x (k + 1) - xs‖ ^ 2)) =
      (1 / μ * ‖x (k + 1) - xs‖ ^ 2 + q1 * ‖x k - xs‖ ^ 2 + q2 * ‖x (k + 1) - x k‖ ^ 2) +
      (1 / μ * (‖x (k + 1) - x k‖ ^ 2 + ‖x k - xs‖ ^ 2) + q1 * (‖x (k + 1) - x k‖ ^ 2 + ‖x (k + 1) - xs‖ ^ 2) + q2 * (‖x k - xs‖ ^ 2 + ‖x (k + 1) - xs‖ ^ 2)) := by
      rw [hQ]; ring
    have t2 : 0 ≤ 1 / μ * (‖x (k + 1) - x k‖ ^ 2 + ‖x k - xs‖ ^ 2) + q1 * (‖x (k + 1) - x k‖ ^ 2 + ‖x (k + 1) - xs‖ ^ 2) + q2 * (‖x k - xs‖ ^ 2 + ‖x (k + 1) - xs‖ ^ 2) := by
      positivity
    rw [t1, hV]; dsimp only
    linarith
  have hstep : ∀ k, V (k + 1) ≤ 1 / (1 + q / Q) * V k := by
    intro k
    have h1 := hdrop k
    have h2 := hupper k
    have s2 := sq_nonneg ‖x (k + 1) - x k‖
    have s4 : 0 ≤ ‖x k - xs‖ ^ 2 + ‖x (k + 1) - xs‖ ^ 2 := by positivity
    have h3 : q * (‖x (k + 1) - x k‖ ^ 2 + (‖x k - xs‖ ^ 2 + ‖x (k + 1) - xs‖ ^ 2)) ≤
        δ * ‖x (k + 1) - x k‖ ^ 2 + m * (‖x k - xs‖ ^ 2 + ‖x (k + 1) - xs‖ ^ 2) := by
      have a1 := mul_le_mul_of_nonneg_right (show q ≤ δ by rw [hq]; exact min_le_left _ _) s2
      have a2 := mul_le_mul_of_nonneg_right (show q ≤ m by rw [hq]; exact min_le_right _ _) s4
      rw [mul_add]; linarith
    have h4 : q / Q * V (k + 1) ≤ q * (‖x (k + 1) - x k‖ ^ 2 + (‖x k - xs‖ ^ 2 + ‖x (k + 1) - xs‖ ^ 2)) := by
      have := mul_le_mul_of_nonneg_left h2 (show 0 ≤ q / Q by positivity)
      have e : q / Q * (Q * (‖x (k + 1) - x k‖ ^ 2 + (‖x k - xs‖ ^ 2 + ‖x (k + 1) - xs‖ ^ 2))) =
        q * (‖x (k + 1) - x k‖ ^ 2 + (‖x k - xs‖ ^ 2 + ‖x (k + 1) - xs‖ ^ 2)) := by field_simp
      linarith
    rw [one_div, le_inv_mul_iff₀ (by positivity)]
    linarith
  refine ⟨V 0 / L, fun k => ?_⟩
  have hk : V k ≤ V 0 * (1 / (1 + q / Q)) ^ k := by
    induction k with
    | zero => simp
    | succ k ih =>
      refine (hstep k).trans ?_
      rw [pow_succ]
      have := mul_le_mul_of_nonneg_left ih (show 0 ≤ 1 / (1 + q / Q) by positivity)
      linarith
  have h1 := (hVge k).trans hk
  rw [div_mul_eq_mul_div, le_div_iff₀ hL]
  linarith

end
end Verif.P2P
