import Verif.Lemmas.Lossy
import Verif.Lemmas.Admm
import Verif.Lemmas.Fed
set_option linter.unusedSectionVars false
/-! # One DGD or ATC iteration for arbitrary activation, loss, compression and noise -/
namespace Verif
open NetState Sys P2P

section
variable {A E Ω α : Type} [DecidableEq A]

/-- a broadcast: some active neighbours get the message, possibly altered; nothing else changes -/
theorem send_all_any {w : World A E Ω} {n : Net A} (act : List A) (s : NetState A Chan E Ω)
    (hg : LGood n act s) (i : A) (hi : i ∈ n.nodes) (m : E) (ch : Chan) :
    ∃ (s' : NetState A Chan E Ω) (D : List A), s.send w n i .none (some m) ch = (s', .ok ()) ∧ LGood n act s' ∧
      (∀ b ∈ D, b ∈ n.nbrs i ∧ b ∈ act ∧ ∃ ω, (w.shouldDrop i ω).1 = false) ∧
      ((∀ ω, (w.shouldDrop i ω).1 = false) → ∀ b ∈ n.nbrs i, b ∈ act → b ∈ D) ∧
      (∀ b c a, ¬ (b ∈ D ∧ c = ch ∧ a = i) → (s'.inbox b).abs c a = (s.inbox b).abs c a) ∧
      (∀ b ∈ D, ∃ v, (s'.inbox b).abs ch i = some v ∧ Fed.Arrives w i m v) := by
  obtain ⟨c1, c2, c3, c4, c5, c6⟩ := activeConnected_spec w n i s hg.cinv
  have hnow : s.activeNow w n = act := activeNow_of_cache w n s act hg.cache
  set L := (n.nbrs i).filter (fun b => decide (b ∈ act)) with hL
  have hl : (s.activeConnected w n i).1 = L := by rw [c1, hnow]
  set s0 := (s.activeConnected w n i).2 with hs0
  obtain ⟨d1, d2, d3, d4, d5, d6⟩ := activeConnected_spec w n i s0 c4
  have hnow0 : s0.activeNow w n = act := by rw [activeNow_of_cache w n s0 _ c2, hnow]
  have hl0 : (s0.activeConnected w n i).1 = L := by rw [d1, hnow0]
  set s1 := (s0.activeConnected w n i).2 with hs1
  have hsend : s.send w n i .none (some m) ch = (s1.deliver w i L m ch, .ok ()) := by
    unfold send sendBase allowedBase
    simp only [hi, not_true_eq_false, if_false]
    rw [← hs0, hl, ← hs1]
    simp [hl0]
  obtain ⟨g1, g2, g3, g4, g5, _, g7, g8, g9⟩ := deliver_spec w i L m ch s1
  have hin : s1.inbox = s.inbox := (c3.trans d3).inbox
  refine ⟨_, (confirm w i L s1.ω).1, hsend, ⟨deliver_cinv w n i _ m ch s1 d4, ?_, ?_⟩, ?_, ?_, ?_, ?_⟩
  · rw [g3, d2, hnow0]
  · intro a ha
    unfold deliver
    apply transmit_inv
    simp only
    rw [hin]; exact hg.inbox a ha
  · intro b hb
    have hbL := confirm_sub w i L s1.ω b hb
    rw [hL, List.mem_filter] at hbL
    exact ⟨hbL.1, by simpa using hbL.2, confirm_mem' w i L s1.ω b hb⟩
  · intro hd b hb hba
    exact confirm_mem w i L s1.ω b (by rw [hL, List.mem_filter]; exact ⟨hb, by simpa using hba⟩) hd
  · intro b c a hn
    by_cases hca : c = ch ∧ a = i
    · have hb : b ∉ (confirm w i L s1.ω).1 := fun hb => hn ⟨hb, hca⟩
      rw [g7 b hb, hin]
    · rw [g8 b c a hca, hin]
  · intro b hb
    obtain ⟨j, _, _, hv⟩ := g9 b hb
    exact ⟨_, hv, _, _, j, rfl⟩

/-- a loop of broadcasts of one message each, on one channel -/
theorem sayLoop_any {w : World A E Ω} {n : Net A} (act : List A) (ch : Chan) (msg : α → E)
    (l : List A) (hl : l.Nodup) (hsub : ∀ a ∈ l, a ∈ n.nodes) (s : Sys A E Ω α) (hg : LGood n act s.net) :
    ∃ (s' : Sys A E Ω α) (D : A → List A),
      l.foldlM (fun s i => say w n (fun _ a => a) (fun _ a => [(ch, msg a)]) i s) s = .ok s' ∧
      LGood n act s'.net ∧ s'.loc = s.loc ∧
      (∀ i ∈ l, (∀ b ∈ D i, b ∈ n.nbrs i ∧ b ∈ act ∧ ∃ ω, (w.shouldDrop i ω).1 = false) ∧
        ((∀ ω, (w.shouldDrop i ω).1 = false) → ∀ b ∈ n.nbrs i, b ∈ act → b ∈ D i)) ∧
      (∀ b c a, ¬ (a ∈ l ∧ b ∈ D a ∧ c = ch) → (s'.net.inbox b).abs c a = (s.net.inbox b).abs c a) ∧
      (∀ a ∈ l, ∀ b ∈ D a, ∃ v, (s'.net.inbox b).abs ch a = some v ∧ Fed.Arrives w a (msg (s.loc a)) v) := by
  induction l generalizing s with
  | nil => exact ⟨s, fun _ => [], rfl, hg, rfl, by simp, by simp, by simp⟩
  | cons i t ih =>
    have hit := (List.nodup_cons.1 hl).1
    obtain ⟨s1, D1, h1, g1, p1, q1, a1, b1⟩ := send_all_any (w := w) act s.net hg i (hsub i (by simp)) (msg (s.loc i)) ch
    have hupd : upd s.loc i (s.loc i) = s.loc := by funext x; simp only [upd]; split <;> simp [*]
    obtain ⟨s2, D, h2, g2, l2, p2, a2, b2⟩ := ih (List.nodup_cons.1 hl).2 (fun a ha => hsub a (by simp [ha])) ⟨s1, s.loc⟩ g1
    refine ⟨s2, upd D i D1, ?_, g2, l2, ?_, ?_, ?_⟩
    · rw [List.foldlM_cons]
      have : say w n (fun _ a => a) (fun _ a => [(ch, msg a)]) i s = .ok ⟨s1, s.loc⟩ := by
        unfold say
        simp only [List.foldlM_cons, List.foldlM_nil, hupd, Sys.broadcast, h1]
        rfl
      rw [this]; exact h2
    · intro j hj
      by_cases hji : j = i
      · subst hji; rw [upd_same]; exact ⟨p1, q1⟩
      · rw [upd_ne _ _ hji]; exact p2 j (by simpa [hji] using hj)
    · intro b c a hn
      by_cases hai : a = i
      · subst hai
        rw [a2 b c a (fun hh => hit hh.1)]
        exact a1 b c a (fun hh => hn ⟨by simp, by rw [upd_same]; exact hh.1, hh.2.1⟩)
      · rw [a2 b c a (fun hh => hn ⟨by simp [hh.1], by rw [upd_ne _ _ hai]; exact hh.2⟩)]
        exact a1 b c a (fun hh => hai hh.2.2)
    · intro a ha b hb
      by_cases hai : a = i
      · subst hai
        rw [upd_same] at hb
        obtain ⟨v, hv, hr⟩ := b1 b hb
        exact ⟨v, by rw [a2 b ch a (fun hh => hit hh.1)]; exact hv, hr⟩
      · rw [upd_ne _ _ hai] at hb
        exact b2 a (by simpa [hai] using ha) b hb

/-- the first loop over `active_agents` in an iteration fixes the active agents, with empty inboxes -/
theorem forActive_first {w : World A E Ω} {n : Net A} (hq : n.queryAgents = n.nodes) (hw : n.WF) (k : Int) (s : Sys A E Ω α) :
    ∃ (s0 : Sys A E Ω α) (act : List A), ActiveIn w n k act ∧ LGood n act s0.net ∧ s0.loc = s.loc ∧
      (∀ i ∈ n.nodes, ∀ c j, (s0.net.inbox i).abs c j = none) ∧
      ∀ body, forActive w n body (adv n k s) = act.foldlM (fun s i => body i s) s0 := by
  set sa := adv n k s with hsa
  have hc0 : CInv n sa.net := cinv_of_empty n _ rfl rfl
  obtain ⟨r1, r2, r3, r4, r5, r6, r7⟩ := activeAgents_spec w n sa.net hc0
  set act := (sa.net.activeAgents w n).1 with hact
  have hq' : ∀ a ∈ act, a ∈ n.nodes := fun a ha => by rw [← hq]; exact r6 a ha
  have hfa : act = (filterActive w k n.queryAgents s.net.ω).1 := rfl
  have hnd : act.Nodup := by rw [hfa]; exact hw.query_nodup.sublist (filterActive_sublist w k _ _)
  have hempty : ∀ a ∈ n.nodes, ∀ c j, (sa.net.inbox a).abs c j = none := by
    intro a ha c j
    simp [hsa, adv, step, ha, Inbox.clear, Inbox.abs]
  refine ⟨{ sa with net := (sa.net.activeAgents w n).2 }, act, ⟨hnd, hq', fun a ha => ?_, fun a ha hh => ?_⟩,
    ⟨r3, r1, fun a ha => ?_⟩, rfl, ?_, fun body => rfl⟩
  · rw [hfa] at ha; exact filterActive_mem' w k _ _ a ha
  · rw [hfa]; exact filterActive_mem w k _ _ a (by rw [hq]; exact ha) hh
  · rw [r2.inbox]
    simp only [hsa, adv, step, if_pos ha]; exact Inbox.inv_empty
  · intro i hi c j
    simp only [r2.inbox]
    exact hempty i hi c j

theorem forActive_later {w : World A E Ω} {n : Net A} (act : List A) (s : Sys A E Ω α) (hg : LGood n act s.net) (body) :
    forActive w n body s = act.foldlM (fun s i => body i s) s := by
  obtain ⟨q1, q2, q3, q4, q5, q6, q7⟩ := activeAgents_spec w n s.net hg.cinv
  have hfix : s.net.activeAgents w n = (act, s.net) := q7 act hg.cache
  simp only [forActive, hfix]

/-- what every agent has in its inbox after all active agents broadcast `m j`: messages `M i j` from the agents `R i` -/
structure HeardAll (w : World A E Ω) (n : Net A) (act : List A) (m : A → E) (inbox : A → Inbox Chan A E) (R : A → List A)
    (M : A → A → E) : Prop where
  keys : ∀ i, R i = ((inbox i).byChannel .dflt).keys
  wf : ∀ i ∈ n.nodes, ((inbox i).byChannel .dflt).WF
  nodup : ∀ i ∈ n.nodes, (R i).Nodup
  sender : ∀ i ∈ n.nodes, ∀ j ∈ R i, j ∈ n.nbrs i ∧ j ∈ act ∧ i ∈ act ∧ ∃ ω, (w.shouldDrop j ω).1 = false
  complete : ∀ i ∈ n.nodes, ∀ j ∈ n.nbrs i, j ∈ act → i ∈ act → (∀ ω, (w.shouldDrop j ω).1 = false) → j ∈ R i
  value : ∀ i ∈ n.nodes, ∀ j ∈ R i, ((inbox i).byChannel .dflt).get? j = some (M i j)
  arrives : ∀ i ∈ n.nodes, ∀ j ∈ R i, Fed.Arrives w j (m j) (M i j)

/-- a loop in which every active agent broadcasts, from empty inboxes -/
theorem say_round {w : World A E Ω} {n : Net A} (hw : n.WF) [Nonempty E] {k : Int} {act : List A} (ha : ActiveIn w n k act)
    (msg : α → E) (s : Sys A E Ω α) (hg : LGood n act s.net) (hempty : ∀ i ∈ n.nodes, ∀ c j, (s.net.inbox i).abs c j = none) :
    ∃ (s' : Sys A E Ω α) (R : A → List A) (M : A → A → E),
      act.foldlM (fun s i => say w n (fun _ a => a) (fun _ a => [(.dflt, msg a)]) i s) s = .ok s' ∧
      LGood n act s'.net ∧ s'.loc = s.loc ∧ HeardAll w n act (fun j => msg (s.loc j)) s'.net.inbox R M := by
  obtain ⟨s1, D, h1, g1, l1, p1, a1, b1⟩ := sayLoop_any (w := w) act .dflt msg act ha.nodup ha.sub s hg
  have key : ∀ i ∈ n.nodes, ∀ j, j ∈ ((s1.net.inbox i).byChannel .dflt).keys ↔ j ∈ act ∧ i ∈ D j := by
    intro i hi j
    rw [PyDict.mem_keys_iff, Inbox.get?_byChannel]
    by_cases hh : j ∈ act ∧ i ∈ D j
    · obtain ⟨v, hv, _⟩ := b1 j hh.1 i hh.2
      simp [hv, hh]
    · rw [a1 i .dflt j (fun hx => hh ⟨hx.1, hx.2.1⟩), hempty i hi]
      simp [hh]
  have hwf : ∀ i ∈ n.nodes, ((s1.net.inbox i).byChannel .dflt).WF := by
    intro i hi
    unfold Inbox.byChannel
    cases hc : (s1.net.inbox i).messages.get? .dflt with
    | none => exact PyDict.wf_empty
    | some d => exact (g1.inbox i hi).bucket _ _ hc
  have hval : ∀ i j, ∃ v, i ∈ n.nodes → j ∈ ((s1.net.inbox i).byChannel .dflt).keys →
      ((s1.net.inbox i).byChannel .dflt).get? j = some v ∧ Fed.Arrives w j (msg (s.loc j)) v := by
    intro i j
    by_cases hh : i ∈ n.nodes ∧ j ∈ ((s1.net.inbox i).byChannel .dflt).keys
    · obtain ⟨x1, x2⟩ := (key i hh.1 j).1 hh.2
      obtain ⟨v, hv, hr⟩ := b1 j x1 i x2
      exact ⟨v, fun _ _ => ⟨by rw [Inbox.get?_byChannel]; exact hv, hr⟩⟩
    · exact ⟨Classical.arbitrary E, fun x y => absurd ⟨x, y⟩ hh⟩
  choose M hM using hval
  refine ⟨s1, fun i => ((s1.net.inbox i).byChannel .dflt).keys, M, h1, g1, l1, fun _ => rfl, hwf, hwf, ?_, ?_, ?_, ?_⟩
  · intro i hi j hj
    obtain ⟨x1, x2⟩ := (key i hi j).1 hj
    obtain ⟨y1, y2, y3⟩ := (p1 j x1).1 i x2
    exact ⟨hw.symm j i y1, x1, y2, y3⟩
  · intro i hi j hj hja hia hd
    exact (key i hi j).2 ⟨hja, (p1 j hja).2 hd i (hw.symm i j hj) hia⟩
  · intro i hi j hj
    exact (hM i j hi hj).1
  · intro i hi j hj
    exact (hM i j hi hj).2

end

section
variable {A E Ω : Type} [DecidableEq A] [AddCommGroup E] [Module ℝ E]

theorem mix_heard {w : World A E Ω} {n : Net A} {act : List A} {m : A → E} {inbox : A → Inbox Chan A E} {R : A → List A}
    {M : A → A → E} (h : HeardAll w n act m inbox R M) (W : A → A → ℝ) (i : A) (hi : i ∈ n.nodes) (own : E) :
    mix W i own ((inbox i).byChannel .dflt) = W i i • own + ((R i).map (fun j => W i j • M i j)).sum := by
  unfold mix
  rw [foldl_add_eq, h.keys i]
  congr 1
  apply sum_entries _ (h.wf i hi) _ (h.wf i hi) (fun j => M i j) (fun j => ?_) (fun j v => W i j • v)
  by_cases hk : j ∈ ((inbox i).byChannel .dflt).keys
  · rw [if_pos hk]
    exact h.value i hi j (by rw [h.keys]; exact hk)
  · rw [if_neg hk]
    rw [PyDict.mem_keys_iff] at hk
    simpa using hk

/-- One DGD iteration, whatever the schemes of the network do. -/
theorem dgd_step_any {w : World A E Ω} {n : Net A} (hq : n.queryAgents = n.nodes) (hw : n.WF) (grad : Grad A E Ω) (W : A → A → ℝ)
    (ρ : ℝ) (k : Int) (s : Sys A E Ω (Dgd E)) :
    ∃ (s' : Sys A E Ω (Dgd E)) (act : List A) (R : A → List A) (M : A → A → E) (ωs : A → Ω),
      (dgd grad W ρ).step w n k (adv n k s) = .ok s' ∧ ActiveIn w n k act ∧
      HeardAll w n act (fun j => (s.loc j).x) s'.net.inbox R M ∧
      (∀ i ∈ n.nodes, (s'.loc i).x =
        if i ∈ act then W i i • (s.loc i).x + ((R i).map (fun j => W i j • M i j)).sum - ρ • (grad i (s.loc i).x (ωs i)).1
        else (s.loc i).x) := by
  have : Nonempty E := ⟨0⟩
  obtain ⟨s0, act, ha, g0, l0, e0, f0⟩ := forActive_first (α := Dgd E) (w := w) hq hw k s
  obtain ⟨s1, R, M, h1, g1, l1, hh⟩ := say_round hw ha (fun a : Dgd E => a.x) s0 g0 e0
  obtain ⟨s2, ωs, h2, g2, i2, l2⟩ := ownLoop_lossy n act (fun i inbox a ω =>
      let avg := mix W i a.x (inbox.byChannel .dflt)
      let g := grad i a.x ω
      ((⟨avg - ρ • g.1⟩ : Dgd E), g.2)) act ha.nodup s1 g1
  refine ⟨s2, act, R, M, ωs, ?_, ha, ?_, ?_⟩
  · simp only [dgd, bind, Except.bind]
    rw [f0, h1]
    simp only
    rw [forActive_later act s1 g1]
    exact h2
  · rw [i2, ← l0]; exact hh
  · intro i hi
    rw [l2 i, l1, l0]
    split
    · rw [mix_heard hh W i hi]
    · rfl

/-- One ATC iteration, whatever the schemes of the network do. -/
theorem atc_step_any {w : World A E Ω} {n : Net A} (hq : n.queryAgents = n.nodes) (hw : n.WF) (grad : Grad A E Ω) (W : A → A → ℝ)
    (ρ : ℝ) (k : Int) (s : Sys A E Ω (Atc E)) :
    ∃ (s' : Sys A E Ω (Atc E)) (act : List A) (R : A → List A) (M : A → A → E) (ωs : A → Ω),
      (atc grad W ρ).step w n k (adv n k s) = .ok s' ∧ ActiveIn w n k act ∧
      HeardAll w n act (fun j => if j ∈ act then (s.loc j).x - ρ • (grad j (s.loc j).x (ωs j)).1 else (s.loc j).y) s'.net.inbox R M ∧
      (∀ i ∈ n.nodes, (s'.loc i).x =
        if i ∈ act then W i i • (s.loc i).x + ((R i).map (fun j => W i j • M i j)).sum else (s.loc i).x) := by
  have : Nonempty E := ⟨0⟩
  obtain ⟨s0, act, ha, g0, l0, e0, f0⟩ := forActive_first (α := Atc E) (w := w) hq hw k s
  obtain ⟨s1, ωs, h1, g1, i1, l1⟩ := ownLoop_lossy n act (fun i _ a ω =>
      let g := grad i a.x ω
      (({ a with y := a.x - ρ • g.1 } : Atc E), g.2)) act ha.nodup s0 g0
  obtain ⟨s2, R, M, h2, g2, l2, hh⟩ := say_round hw ha (fun a : Atc E => a.y) s1 g1 (by rw [i1]; exact e0)
  obtain ⟨s3, ωs', h3, g3, i3, l3⟩ := ownLoop_lossy n act (fun i inbox a ω =>
      (({ a with x := mix W i a.x (inbox.byChannel .dflt) } : Atc E), ω)) act ha.nodup s2 g2
  refine ⟨s3, act, R, M, ωs, ?_, ha, ?_, ?_⟩
  · simp only [atc, bind, Except.bind]
    rw [f0, h1]
    simp only
    rw [forActive_later act s1 g1, h2]
    simp only
    rw [forActive_later act s2 g2]
    exact h3
  · rw [i3]
    have e : (fun j => (s1.loc j).y) =
        (fun j => if j ∈ act then (s.loc j).x - ρ • (grad j (s.loc j).x (ωs j)).1 else (s.loc j).y) := by
      funext j
      rw [l1 j, l0]
      split <;> rfl
    rw [← e]; exact hh
  · intro i hi
    have hx : (s1.loc i).x = (s.loc i).x := by rw [l1 i, l0]; split <;> rfl
    rw [l3 i, l2]
    split
    · rw [mix_heard hh W i hi, hx]
    · exact hx

end
end Verif
