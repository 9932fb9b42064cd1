import Verif.Lemmas.P2PSteps
set_option linter.unusedSectionVars false
/-! # Matrix form of K-GT and the variance-reduced methods -/
namespace Verif
open NetState Sys P2P
variable {A E Ω : Type} [DecidableEq A] [AddCommGroup E] [Module ℝ E]

theorem foldl_senders (W : A → A → ℝ) (i : A) (f : A → E) (l : List A) (z : E) :
    l.foldl (fun acc j => acc + W i j • f j) z = z + (l.map (fun j => W i j • f j)).sum := by
  induction l generalizing z with
  | nil => simp
  | cons e t ih => rw [List.foldl_cons, ih, List.map_cons, List.sum_cons, add_assoc]

theorem byChannel_wf {n : Net A} {s : NetState A Chan E Ω} (hg : Good n s) (i : A) (hi : i ∈ n.nodes) (ch : Chan) :
    ((s.inbox i).byChannel ch).WF := by
  unfold Inbox.byChannel
  cases hc : (s.inbox i).messages.get? ch with
  | none => exact PyDict.wf_empty
  | some d => exact (hg.inbox i hi).bucket _ _ hc

/-- both channels heard from all neighbours -/
theorem mixOver_eq (n : Net A) (hw : n.WF) (hl : NoLoops n) (s : NetState A Chan E Ω) (hg : Good n s) (W : A → A → ℝ)
    (hs : Supported n W) (i : A) (hi : i ∈ n.nodes) (c1 c2 ch : Chan) (hch : ch = c1 ∨ ch = c2) (m m' : A → E)
    (hm1 : ∀ j ∈ n.nbrs i, ((s.inbox i).abs c1 j).isSome = true)
    (hm2 : ∀ j ∈ n.nbrs i, ((s.inbox i).abs c2 j).isSome = true)
    (hm : ∀ j ∈ n.nbrs i, (s.inbox i).abs ch j = some (m j)) :
    mixOver W i (m i) ((s.inbox i).byChannel ch) (heardBoth (s.inbox i) c1 c2) = applyW n W m i := by
  have hnone : ∀ c j, j ∉ n.nbrs i → (s.inbox i).abs c j = none := by
    intro c j h
    by_contra hne
    exact h (hg.nbr i hi c j hne)
  have hperm : (heardBoth (s.inbox i) c1 c2).Perm (n.nbrs i) := by
    unfold heardBoth
    rw [List.perm_ext_iff_of_nodup ((byChannel_wf hg i hi c1).filter _) (hw.nbrs_nodup i)]
    intro j
    rw [List.mem_filter, PyDict.mem_keys_iff, Inbox.get?_byChannel]
    unfold PyDict.contains
    rw [Inbox.get?_byChannel]
    by_cases h : j ∈ n.nbrs i
    · simp [h, hm1 j h, hm2 j h]
    · simp [h, hnone]
  unfold mixOver
  rw [foldl_senders W i (fun j => (((s.inbox i).byChannel ch).get? j).getD 0), (hperm.map _).sum_eq,
    sum_split n hw hl i hi W hs m]
  congr 2
  apply List.map_congr_left
  intro j hj
  rw [Inbox.get?_byChannel, hm j hj]; rfl

theorem kgt_step {w : World A E Ω} {n : Net A} (h : Lossless w n) (grad : Grad A E Ω) (W : A → A → ℝ)
    (hs : Supported n W) (ρ β : ℝ) (K : Nat) (k : Int) (s : Sys A E Ω (Kgt E)) :
    ∃ s', ∃ ωs : A → Ω, (kgt grad W ρ β K).step w n k (adv n k s) = .ok s' ∧ ∀ i ∈ n.nodes,
      (s'.loc i).z = (1 / ((K : ℝ) * ρ)) • ((s.loc i).x -
        (repeatN (fun x ω => let g := grad i x ω; (x - ρ • (g.1 + (s.loc i).c), g.2)) K (s.loc i).x (ωs i)).1) ∧
      (s'.loc i).c = (s.loc i).c - (s'.loc i).z + applyW n W (fun j => (s'.loc j).z) i ∧
      (s'.loc i).x = applyW n W (fun j => (s.loc j).x - ((K : ℝ) * β * ρ) • (s'.loc j).z) i := by
  obtain ⟨s1, ωs, h1, g1, i1, l1⟩ := forActive_own h.ideal h.wf (fun i _ (a : Kgt E) ω =>
      let r := repeatN (fun x ω => let g := grad i x ω; (x - ρ • (g.1 + a.c), g.2)) K a.x ω
      ({ a with before := a.x, x := r.1 }, r.2)) (adv n k s) (good_step n _ k)
  obtain ⟨s2, h2, g2, l2, a2⟩ := forActive_say h.ideal h.wf (fun _ (a : Kgt E) =>
        let z := (1 / ((K : ℝ) * ρ)) • (a.before - a.x)
        { a with z := z, msg := a.before - ((K : ℝ) * β * ρ) • z })
      (fun _ a => [(.state, a.msg), (.tracker, a.z)]) s1 g1
  obtain ⟨s3, ωs3, h3, g3, i3, l3⟩ := forActive_own h.ideal h.wf (fun i inbox (a : Kgt E) ω =>
      let both := heardBoth inbox .state .tracker
      let wz := mixOver W i a.z (inbox.byChannel .tracker) both
      let wx := mixOver W i a.msg (inbox.byChannel .state) both
      ({ a with c := a.c - a.z + wz, x := wx }, ω)) s2 g2
  have hst : ∀ i ∈ n.nodes, ∀ j ∈ n.nbrs i, (s2.net.inbox i).abs .state j = some (s2.loc j).msg := by
    intro i hi j hj
    rw [a2 i hi .state j hj, l2 j (h.wf.nbrs_mem i j hj)]; simp [lastOn]
  have htr : ∀ i ∈ n.nodes, ∀ j ∈ n.nbrs i, (s2.net.inbox i).abs .tracker j = some (s2.loc j).z := by
    intro i hi j hj
    rw [a2 i hi .tracker j hj, l2 j (h.wf.nbrs_mem i j hj)]; simp [lastOn]
  have ez : ∀ i ∈ n.nodes, (s3.loc i).z = (s2.loc i).z := by intro i hi; rw [l3 i hi]
  have e2 : ∀ i ∈ n.nodes, (s2.loc i).msg = (s.loc i).x - ((K : ℝ) * β * ρ) • (s2.loc i).z := by
    intro i hi; rw [l2 i hi, l1 i hi]; rfl
  refine ⟨s3, ωs, ?_, fun i hi => ?_⟩
  · simp only [kgt, h1, h2, bind, Except.bind]; exact h3
  · have mz := mixOver_eq n h.wf h.noLoops s2.net g2 W hs i hi .state .tracker .tracker (Or.inr rfl)
      (fun j => (s2.loc j).z) (fun j => (s2.loc j).z) (fun j hj => by rw [hst i hi j hj]; rfl)
      (fun j hj => by rw [htr i hi j hj]; rfl) (htr i hi)
    have mx := mixOver_eq n h.wf h.noLoops s2.net g2 W hs i hi .state .tracker .state (Or.inl rfl)
      (fun j => (s2.loc j).msg) (fun j => (s2.loc j).msg) (fun j hj => by rw [hst i hi j hj]; rfl)
      (fun j hj => by rw [htr i hi j hj]; rfl) (hst i hi)
    refine ⟨?_, ?_, ?_⟩
    · rw [ez i hi, l2 i hi, l1 i hi]; rfl
    · have ec : (s3.loc i).c = (s2.loc i).c - (s2.loc i).z +
          mixOver W i (s2.loc i).z ((s2.net.inbox i).byChannel .tracker) (heardBoth (s2.net.inbox i) .state .tracker) := by
        rw [l3 i hi]
      rw [ec, mz, ez i hi]
      have : (s2.loc i).c = (s.loc i).c := by rw [l2 i hi, l1 i hi]; rfl
      rw [this]
      congr 1
      exact applyW_congr n W (fun j hj => (ez j hj).symm) i
    · have ex : (s3.loc i).x =
          mixOver W i (s2.loc i).msg ((s2.net.inbox i).byChannel .state) (heardBoth (s2.net.inbox i) .state .tracker) := by
        rw [l3 i hi]
      rw [ex, mx]
      exact applyW_congr n W (fun j hj => by rw [e2 j hj, ez j hj]) i

theorem gtSaga_step {w : World A E Ω} {n : Net A} (h : Lossless w n) (c : Emp A E Ω) (W : A → A → ℝ)
    (hs : Supported n W) (ρ : ℝ) (k : Int) (s : Sys A E Ω (Saga E)) :
    ∃ s', ∃ ωs ωs' : A → Ω, (gtSaga c W ρ).step w n k (adv n k s) = .ok s' ∧ ∀ i ∈ n.nodes,
      (s'.loc i).g = (c.batch i (s.loc i).x (ωs i)).1.1 - meanAt (s.loc i).table (c.batch i (s.loc i).x (ωs i)).1.2
        + meanAt (s.loc i).table (List.range (c.size i)) ∧
      (s'.loc i).y = applyW n W (fun j => (s.loc j).y + (s'.loc j).g - (s.loc j).g) i ∧
      (s'.loc i).x = applyW n W (fun j => (s.loc j).x - ρ • (s'.loc j).y) i ∧
      (s'.loc i).table = fun j => if j ∈ (c.batch i (s'.loc i).x (ωs' i)).1.2 then c.sample i (s'.loc i).x j
        else (s.loc i).table j := by
  obtain ⟨s1, ωs, h1, g1, i1, l1⟩ := forActive_own h.ideal h.wf (fun i _ (a : Saga E) ω =>
      let r := c.batch i a.x ω
      ({ a with gOld := a.g,
                g := r.1.1 - meanAt a.table r.1.2 + meanAt a.table (List.range (c.size i)) }, r.2)) (adv n k s)
      (good_step n _ k)
  obtain ⟨s2, h2, g2, l2, m2, _⟩ := say_mix h (fun _ (a : Saga E) => { a with yMsg := a.y + a.g - a.gOld }) .tracker
    (fun a : Saga E => a.yMsg) s1 g1
  obtain ⟨s3, ωs3, h3, g3, i3, l3⟩ := forActive_own h.ideal h.wf (fun i inbox (a : Saga E) ω =>
    ({ a with y := mix W i a.yMsg (inbox.byChannel .tracker) }, ω)) s2 g2
  obtain ⟨s4, h4, g4, l4, m4, _⟩ := say_mix h (fun _ (a : Saga E) => { a with xMsg := a.x - ρ • a.y }) .state
    (fun a : Saga E => a.xMsg) s3 g3
  obtain ⟨s5, ωs5, h5, g5, i5, l5⟩ := forActive_own h.ideal h.wf (fun i inbox (a : Saga E) ω =>
    ({ a with x := mix W i a.xMsg (inbox.byChannel .state) }, ω)) s4 g4
  obtain ⟨s6, ωs6, h6, g6, i6, l6⟩ := forActive_own h.ideal h.wf (fun i _ (a : Saga E) ω =>
      let r := c.batch i a.x ω
      ({ a with table := fun j => if j ∈ r.1.2 then c.sample i a.x j else a.table j }, r.2)) s5 g5
  have eg : ∀ i ∈ n.nodes, (s6.loc i).g = (s1.loc i).g := by
    intro i hi; rw [l6 i hi, l5 i hi, l4 i hi, l3 i hi, l2 i hi]
  have ey : ∀ i ∈ n.nodes, (s6.loc i).y = (s3.loc i).y := by
    intro i hi; rw [l6 i hi, l5 i hi, l4 i hi]
  have ex : ∀ i ∈ n.nodes, (s6.loc i).x = (s5.loc i).x := by intro i hi; rw [l6 i hi]
  refine ⟨s6, ωs, ωs6, ?_, fun i hi => ⟨?_, ?_, ?_, ?_⟩⟩
  · simp only [gtSaga, h1, h2, h3, h4, h5, bind, Except.bind]; exact h6
  · rw [eg i hi, l1 i hi]; rfl
  · have hm := m2 W hs i hi
    try simp only at hm
    have e3 : (s3.loc i).y = mix W i (s2.loc i).yMsg ((s2.net.inbox i).byChannel .tracker) := by rw [l3 i hi]
    rw [ey i hi, e3, l2 i hi]
    try simp only
    rw [hm]
    exact applyW_congr n W (fun j hj => by rw [eg j hj, l1 j hj]; rfl) i
  · have hm := m4 W hs i hi
    try simp only at hm
    have e5 : (s5.loc i).x = mix W i (s4.loc i).xMsg ((s4.net.inbox i).byChannel .state) := by rw [l5 i hi]
    rw [ex i hi, e5, l4 i hi]
    try simp only
    rw [hm]
    exact applyW_congr n W (fun j hj => by
      rw [ey j hj]
      congr 1
      rw [l3 j hj, l2 j hj, l1 j hj]; rfl) i
  · have e6 : (s6.loc i).table = fun j => if j ∈ (c.batch i (s5.loc i).x (ωs6 i)).1.2 then c.sample i (s5.loc i).x j
        else (s5.loc i).table j := by rw [l6 i hi]
    have e5 : (s5.loc i).table = (s.loc i).table := by
      rw [l5 i hi, l4 i hi, l3 i hi, l2 i hi, l1 i hi]; rfl
    rw [e6, e5, ex i hi]

theorem gtVr_step {w : World A E Ω} {n : Net A} (h : Lossless w n) (c : Emp A E Ω) (coin : Ω → Bool × Ω) (W : A → A → ℝ)
    (hs : Supported n W) (ρ : ℝ) (k : Int) (s : Sys A E Ω (Vr E)) :
    ∃ s', ∃ ωs : A → Ω, (gtVr c coin W ρ).step w n k (adv n k s) = .ok s' ∧ ∀ i ∈ n.nodes,
      (s'.loc i).x = applyW n W (fun j => (s.loc j).x - ρ • (s.loc j).y) i ∧
      ((s'.loc i).tau = (s'.loc i).x ∧ (s'.loc i).fullTau = c.all i (s'.loc i).x ∨
        (s'.loc i).tau = (s.loc i).tau ∧ (s'.loc i).fullTau = (s.loc i).fullTau) ∧
      (s'.loc i).v = (c.batch i (s'.loc i).x (ωs i)).1.1 - c.at_ i (s'.loc i).tau (c.batch i (s'.loc i).x (ωs i)).1.2
        + (s'.loc i).fullTau ∧
      (s'.loc i).y = applyW n W (fun j => (s.loc j).y + (s'.loc j).v - (s.loc j).v) i := by
  obtain ⟨s1, h1, g1, l1, m1, _⟩ := say_mix h (fun _ (a : Vr E) => { a with xMsg := a.x - ρ • a.y }) .state
    (fun a : Vr E => a.xMsg) (adv n k s) (good_step n _ k)
  obtain ⟨s2, ωs2, h2, g2, i2, l2⟩ := forActive_own h.ideal h.wf (fun i inbox (a : Vr E) ω =>
    ({ a with x := mix W i a.xMsg (inbox.byChannel .state) }, ω)) s1 g1
  obtain ⟨s3, ωs3, h3, g3, i3, l3⟩ := forActive_own h.ideal h.wf (fun i _ (a : Vr E) ω =>
      let θ := coin ω
      (if θ.1 then { a with tau := a.x, fullTau := c.all i a.x } else a, θ.2)) s2 g2
  obtain ⟨s4, ωs4, h4, g4, i4, l4⟩ := forActive_own h.ideal h.wf (fun i _ (a : Vr E) ω =>
      let r := c.batch i a.x ω
      ({ a with vOld := a.v, v := r.1.1 - c.at_ i a.tau r.1.2 + a.fullTau }, r.2)) s3 g3
  obtain ⟨s5, h5, g5, l5, m5, _⟩ := say_mix h (fun _ (a : Vr E) => { a with yMsg := a.y + a.v - a.vOld }) .tracker
    (fun a : Vr E => a.yMsg) s4 g4
  obtain ⟨s6, ωs6, h6, g6, i6, l6⟩ := forActive_own h.ideal h.wf (fun i inbox (a : Vr E) ω =>
    ({ a with y := mix W i a.yMsg (inbox.byChannel .tracker) }, ω)) s5 g5
  have e6 : ∀ i ∈ n.nodes, (s6.loc i).x = (s4.loc i).x ∧ (s6.loc i).tau = (s4.loc i).tau ∧
      (s6.loc i).fullTau = (s4.loc i).fullTau ∧ (s6.loc i).v = (s4.loc i).v := by
    intro i hi; rw [l6 i hi, l5 i hi]; exact ⟨rfl, rfl, rfl, rfl⟩
  have e4 : ∀ i ∈ n.nodes, (s4.loc i).x = (s3.loc i).x ∧ (s4.loc i).tau = (s3.loc i).tau ∧
      (s4.loc i).fullTau = (s3.loc i).fullTau ∧ (s4.loc i).vOld = (s3.loc i).v ∧ (s4.loc i).y = (s3.loc i).y ∧
      (s4.loc i).v = (c.batch i (s3.loc i).x (ωs4 i)).1.1 - c.at_ i (s3.loc i).tau (c.batch i (s3.loc i).x (ωs4 i)).1.2
        + (s3.loc i).fullTau := by
    intro i hi; rw [l4 i hi]; exact ⟨rfl, rfl, rfl, rfl, rfl, rfl⟩
  have e3 : ∀ i ∈ n.nodes, (s3.loc i).x = (s2.loc i).x ∧ (s3.loc i).v = (s2.loc i).v ∧ (s3.loc i).y = (s2.loc i).y ∧
      ((s3.loc i).tau = (s2.loc i).x ∧ (s3.loc i).fullTau = c.all i (s2.loc i).x ∨
        (s3.loc i).tau = (s2.loc i).tau ∧ (s3.loc i).fullTau = (s2.loc i).fullTau) := by
    intro i hi
    rw [l3 i hi]
    try simp only
    by_cases hc : (coin (ωs3 i)).1 = true <;> simp [hc]
  have e2 : ∀ i ∈ n.nodes, (s2.loc i).x = applyW n W (fun j => (s.loc j).x - ρ • (s.loc j).y) i ∧
      (s2.loc i).v = (s.loc i).v ∧ (s2.loc i).y = (s.loc i).y ∧ (s2.loc i).tau = (s.loc i).tau ∧
      (s2.loc i).fullTau = (s.loc i).fullTau := by
    intro i hi
    have hm := m1 W hs i hi
    rw [l2 i hi, l1 i hi]
    try simp only
    refine ⟨hm, rfl, rfl, rfl, rfl⟩
  refine ⟨s6, ωs4, ?_, fun i hi => ?_⟩
  · simp only [gtVr, h1, h2, h3, h4, h5, bind, Except.bind]; exact h6
  · obtain ⟨a1, a2, a3, a4⟩ := e6 i hi
    obtain ⟨b1, b2, b3, b4, b5, b6⟩ := e4 i hi
    obtain ⟨c1, c2, c3, c4⟩ := e3 i hi
    obtain ⟨d1, d2, d3, d4, d5⟩ := e2 i hi
    refine ⟨by rw [a1, b1, c1, d1], ?_, ?_, ?_⟩
    · rcases c4 with ⟨t1, t2⟩ | ⟨t1, t2⟩
      · left; rw [a1, a2, a3, b1, b2, b3, c1, t1, t2]; exact ⟨rfl, rfl⟩
      · right; rw [a2, a3, b2, b3, t1, t2, d4, d5]; exact ⟨rfl, rfl⟩
    · rw [a1, a2, a3, a4, b6, b1, b2, b3]
    · have hm := m5 W hs i hi
      try simp only at hm
      have e : (s6.loc i).y = mix W i (s5.loc i).yMsg ((s5.net.inbox i).byChannel .tracker) := by rw [l6 i hi]
      rw [e, l5 i hi]
      try simp only
      rw [hm]
      exact applyW_congr n W (fun j hj => by
        rw [(e6 j hj).2.2.2, (e4 j hj).2.2.2.1, (e4 j hj).2.2.2.2.1, (e3 j hj).2.1, (e3 j hj).2.2.1, (e2 j hj).2.1,
          (e2 j hj).2.2.1]) i

theorem sarahRound_step {w : World A E Ω} {n : Net A} (h : Lossless w n) (W : A → A → ℝ)
    (hs : Supported n W) (ρ : ℝ) (s : Sys A E Ω (Sarah E)) (hg : Good n s.net) :
    ∃ s', sarahRound W ρ w n s = .ok s' ∧ Good n s'.net ∧ ∀ i ∈ n.nodes,
      (s'.loc i).y = applyW n W (fun j => (s.loc j).y) i + (s.loc i).v - (s.loc i).vPrev ∧
      (s'.loc i).x = applyW n W (fun j => (s.loc j).x) i - ρ • (s'.loc i).y ∧
      (s'.loc i).xPrev = (s.loc i).x ∧ (s'.loc i).v = (s.loc i).v := by
  obtain ⟨s1, h1, g1, l1, m1, _⟩ := say_mix h (fun _ a => a) .tracker (fun a : Sarah E => a.y) s hg
  obtain ⟨s2, ωs2, h2, g2, i2, l2⟩ := forActive_own h.ideal h.wf (fun i inbox (a : Sarah E) ω =>
    ({ a with y := mix W i a.y (inbox.byChannel .tracker) + a.v - a.vPrev }, ω)) s1 g1
  obtain ⟨s3, h3, g3, l3, m3, _⟩ := say_mix h (fun _ a => a) .state (fun a : Sarah E => a.x) s2 g2
  obtain ⟨s4, ωs4, h4, g4, i4, l4⟩ := forActive_own h.ideal h.wf (fun i inbox (a : Sarah E) ω =>
    ({ a with xPrev := a.x, x := mix W i a.x (inbox.byChannel .state) - ρ • a.y }, ω)) s3 g3
  refine ⟨s4, ?_, g4, fun i hi => ?_⟩
  · simp only [sarahRound, h1, h2, h3, bind, Except.bind]; exact h4
  · have hm1 := m1 W hs i hi
    have hm3 := m3 W hs i hi
    try simp only at hm1 hm3
    have e2x : ∀ j ∈ n.nodes, (s2.loc j).x = (s.loc j).x := by intro j hj; rw [l2 j hj, l1 j hj]
    have e2y : (s2.loc i).y = applyW n W (fun j => (s.loc j).y) i + (s.loc i).v - (s.loc i).vPrev := by
      rw [l2 i hi, l1 i hi]
      try simp only
      rw [hm1]
    have e4y : (s4.loc i).y = (s2.loc i).y := by rw [l4 i hi, l3 i hi]
    have e4x : (s4.loc i).x = mix W i (s2.loc i).x ((s3.net.inbox i).byChannel .state) - ρ • (s2.loc i).y := by
      rw [l4 i hi, l3 i hi]
    refine ⟨by rw [e4y, e2y], ?_, ?_, ?_⟩
    · rw [e4x, hm3, e4y]
      congr 1
      exact applyW_congr n W e2x i
    · rw [l4 i hi, l3 i hi]; exact e2x i hi
    · rw [l4 i hi, l3 i hi, l2 i hi, l1 i hi]

end Verif
