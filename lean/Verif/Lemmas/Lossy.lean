import Verif.Lemmas.P2PSteps
set_option linter.unusedSectionVars false
/-! # One DGD iteration under arbitrary activation and message loss -/
namespace Verif
open NetState Sys P2P

/-- messages may be lost and agents inactive, but messages that arrive are unchanged; `agents()` returns all nodes -/
structure Plain {A E Ω : Type} (w : World A E Ω) (n : Net A) : Prop where
  exact_ : ∀ a v ω, (w.compress a v ω).1 = v
  clean : ∀ a k v ω, (w.makeNoise a k v ω).1 = none
  query : n.queryAgents = n.nodes

section
variable {A E Ω α : Type} [DecidableEq A]

structure LGood (n : Net A) (act : List A) (s : NetState A Chan E Ω) : Prop where
  cinv : CInv n s
  cache : s.activeCache = some act
  inbox : ∀ a ∈ n.nodes, (s.inbox a).Inv

theorem filterActive_mem (w : World A E Ω) (it : Int) (l : List A) (ω : Ω) (a : A) (ha : a ∈ l)
    (h : ∀ ω, (w.isActive a it ω).1 = true) : a ∈ (filterActive w it l ω).1 := by
  induction l generalizing ω with
  | nil => cases ha
  | cons b t ih =>
    simp only [filterActive]
    by_cases hb : a = b
    · subst hb; simp [h]
    · have := ih (w.isActive b it ω).2 (by simpa [hb] using ha)
      split <;> simp [this]

theorem filterActive_mem' (w : World A E Ω) (it : Int) (l : List A) (ω : Ω) (a : A)
    (h : a ∈ (filterActive w it l ω).1) : ∃ ω, (w.isActive a it ω).1 = true := by
  induction l generalizing ω with
  | nil => simp [filterActive] at h
  | cons b t ih =>
    simp only [filterActive] at h
    by_cases hb : (w.isActive b it ω).1 = true
    · rw [if_pos hb] at h
      rcases List.mem_cons.1 h with rfl | h
      · exact ⟨ω, hb⟩
      · exact ih _ h
    · rw [if_neg hb] at h
      exact ih _ h

theorem confirm_mem (w : World A E Ω) (a : A) (l : List A) (ω : Ω) (b : A) (hb : b ∈ l)
    (h : ∀ ω, (w.shouldDrop a ω).1 = false) : b ∈ (confirm w a l ω).1 := by
  induction l generalizing ω with
  | nil => cases hb
  | cons c t ih =>
    simp only [confirm, h, Bool.false_eq_true, if_false]
    rcases List.mem_cons.1 hb with rfl | hb
    · simp
    · exact List.mem_cons_of_mem _ (ih _ hb)

theorem confirm_mem' (w : World A E Ω) (a : A) (l : List A) (ω : Ω) (b : A) (hb : b ∈ (confirm w a l ω).1) :
    ∃ ω, (w.shouldDrop a ω).1 = false := by
  induction l generalizing ω with
  | nil => simp [confirm] at hb
  | cons c t ih =>
    simp only [confirm] at hb
    by_cases hd : (w.shouldDrop a ω).1 = true
    · rw [if_pos hd] at hb; exact ih _ hb
    · exact ⟨ω, by simpa using hd⟩

/-- a broadcast under losses: some active neighbours get the message, nothing else changes -/
theorem send_all_lossy {w : World A E Ω} {n : Net A} (h : Plain w n) (hw : n.WF) (act : List A) (s : NetState A Chan E Ω)
    (hg : LGood n act s) (i : A) (hi : i ∈ n.nodes) (m : E) (ch : Chan) :
    ∃ (s' : NetState A Chan E Ω) (D : List A), s.send w n i .none (some m) ch = (s', .ok ()) ∧ LGood n act s' ∧
      (∀ b ∈ D, b ∈ n.nbrs i ∧ b ∈ act ∧ ∃ ω, (w.shouldDrop i ω).1 = false) ∧
      ((∀ ω, (w.shouldDrop i ω).1 = false) → ∀ b ∈ n.nbrs i, b ∈ act → b ∈ D) ∧
      ∀ b c a, (s'.inbox b).abs c a = if b ∈ D ∧ c = ch ∧ a = i then some m else (s.inbox b).abs c a := by
  obtain ⟨c1, c2, c3, c4, c5, c6⟩ := activeConnected_spec w n i s hg.cinv
  have hnow : s.activeNow w n = act := activeNow_of_cache w n s act hg.cache
  set L := (n.nbrs i).filter (fun b => decide (b ∈ act)) with hL
  have hl : (s.activeConnected w n i).1 = L := by rw [c1, hnow]
  set s0 := (s.activeConnected w n i).2 with hs0
  obtain ⟨d1, d2, d3, d4, d5, d6⟩ := activeConnected_spec w n i s0 c4
  have hnow0 : s0.activeNow w n = act := by rw [activeNow_of_cache w n s0 _ c2, hnow]
  have hl0 : (s0.activeConnected w n i).1 = L := by rw [d1, hnow0]
  set s1 := (s0.activeConnected w n i).2 with hs1
  have hsend : s.send w n i .none (some m) ch = (s1.deliver w i L m ch, .ok ()) := by
    unfold send sendBase allowedBase
    simp only [hi, not_true_eq_false, if_false]
    rw [← hs0, hl, ← hs1]
    simp [hl0]
  obtain ⟨g1, g2, g3, g4, g5, _, g7, g8, g9⟩ := deliver_spec w i L m ch s1
  have hin : s1.inbox = s.inbox := (c3.trans d3).inbox
  refine ⟨_, (confirm w i L s1.ω).1, hsend, ⟨deliver_cinv w n i _ m ch s1 d4, ?_, ?_⟩, ?_, ?_, ?_⟩
  · rw [g3, d2, hnow0]
  · intro a ha
    unfold deliver
    apply transmit_inv
    simp only
    rw [hin]; exact hg.inbox a ha
  · intro b hb
    have hbL := confirm_sub w i L s1.ω b hb
    rw [hL, List.mem_filter] at hbL
    exact ⟨hbL.1, by simpa using hbL.2, confirm_mem' w i L s1.ω b hb⟩
  · intro hd b hb hba
    exact confirm_mem w i L s1.ω b (by rw [hL, List.mem_filter]; exact ⟨hb, by simpa using hba⟩) hd
  · intro b c a
    by_cases hca : c = ch ∧ a = i
    · obtain ⟨rfl, rfl⟩ := hca
      by_cases hb : b ∈ (confirm w a L s1.ω).1
      · obtain ⟨j, _, _, hv⟩ := g9 b hb
        rw [hv, h.clean]
        simp [sentMsg, h.exact_, hb]
      · rw [g7 b hb, hin]; simp [hb]
    · rw [g8 b c a hca, hin, if_neg (fun hh => hca hh.2)]

/-- a loop of broadcasts of one message each, on one channel -/
theorem sayLoop_lossy {w : World A E Ω} {n : Net A} (h : Plain w n) (hw : n.WF) (act : List A) (ch : Chan) (msg : α → E)
    (l : List A) (hl : l.Nodup) (hsub : ∀ a ∈ l, a ∈ n.nodes) (s : Sys A E Ω α) (hg : LGood n act s.net) :
    ∃ (s' : Sys A E Ω α) (D : A → List A),
      l.foldlM (fun s i => say w n (fun _ a => a) (fun _ a => [(ch, msg a)]) i s) s = .ok s' ∧
      LGood n act s'.net ∧ s'.loc = s.loc ∧
      (∀ i ∈ l, (∀ b ∈ D i, b ∈ n.nbrs i ∧ b ∈ act ∧ ∃ ω, (w.shouldDrop i ω).1 = false) ∧
        ((∀ ω, (w.shouldDrop i ω).1 = false) → ∀ b ∈ n.nbrs i, b ∈ act → b ∈ D i)) ∧
      ∀ b c a, (s'.net.inbox b).abs c a =
        if a ∈ l ∧ b ∈ D a ∧ c = ch then some (msg (s.loc a)) else (s.net.inbox b).abs c a := by
  induction l generalizing s with
  | nil => exact ⟨s, fun _ => [], rfl, hg, rfl, by simp, by simp⟩
  | cons i t ih =>
    have hit := (List.nodup_cons.1 hl).1
    obtain ⟨s1, D1, h1, g1, p1, q1, a1⟩ := send_all_lossy h hw act s.net hg i (hsub i (by simp)) (msg (s.loc i)) ch
    have hupd : upd s.loc i (s.loc i) = s.loc := by funext x; simp only [upd]; split <;> simp [*]
    obtain ⟨s2, D, h2, g2, l2, p2, a2⟩ := ih (List.nodup_cons.1 hl).2 (fun a ha => hsub a (by simp [ha])) ⟨s1, s.loc⟩ g1
    refine ⟨s2, upd D i D1, ?_, g2, l2, ?_, ?_⟩
    · rw [List.foldlM_cons]
      have : say w n (fun _ a => a) (fun _ a => [(ch, msg a)]) i s = .ok ⟨s1, s.loc⟩ := by
        unfold say
        simp only [List.foldlM_cons, List.foldlM_nil, hupd, Sys.broadcast, h1]
        rfl
      rw [this]; exact h2
    · intro j hj
      by_cases hji : j = i
      · subst hji; rw [upd_same]; exact ⟨p1, q1⟩
      · rw [upd_ne _ _ hji]; exact p2 j (by simpa [hji] using hj)
    · intro b c a
      rw [a2 b c a]
      simp only [a1 b c a]
      by_cases hai : a = i
      · subst hai
        simp [hit, upd_same]
      · simp [hai, upd_ne _ _ hai]

theorem ownLoop_lossy (n : Net A) (act : List A) (f : A → Inbox Chan A E → α → Ω → α × Ω) (l : List A) (hl : l.Nodup)
    (s : Sys A E Ω α) (hg : LGood n act s.net) :
    ∃ (s' : Sys A E Ω α) (ωs : A → Ω), l.foldlM (fun s i => own f i s) s = .ok s' ∧ LGood n act s'.net ∧
      s'.net.inbox = s.net.inbox ∧
      (∀ i, s'.loc i = if i ∈ l then (f i (s.net.inbox i) (s.loc i) (ωs i)).1 else s.loc i) := by
  induction l generalizing s with
  | nil => exact ⟨s, fun _ => s.net.ω, rfl, hg, rfl, by simp⟩
  | cons i t ih =>
    have hit := (List.nodup_cons.1 hl).1
    obtain ⟨s1, ωs, h1, g1, i1, l1⟩ := ih (List.nodup_cons.1 hl).2
      { net := { s.net with ω := (f i (s.net.inbox i) (s.loc i) s.net.ω).2 },
        loc := upd s.loc i (f i (s.net.inbox i) (s.loc i) s.net.ω).1 }
      ⟨⟨hg.cinv.active, hg.cinv.conn⟩, hg.cache, hg.inbox⟩
    refine ⟨s1, upd ωs i s.net.ω, ?_, g1, i1, ?_⟩
    · rw [List.foldlM_cons]; exact h1
    · intro j
      rw [l1 j]
      by_cases hj : j = i
      · subst hj; simp [hit, upd]
      · simp [hj, upd]

end

section
variable {A E Ω : Type} [DecidableEq A] [AddCommGroup E] [Module ℝ E]

/-- One DGD iteration under arbitrary activation and losses: `act` are the active agents, `R i` the neighbours agent `i`
heard. -/
theorem dgd_step_lossy {w : World A E Ω} {n : Net A} (h : Plain w n) (hw : n.WF) (grad : Grad A E Ω) (W : A → A → ℝ)
    (ρ : ℝ) (k : Int) (s : Sys A E Ω (Dgd E)) :
    ∃ (s' : Sys A E Ω (Dgd E)) (act : List A) (R : A → List A) (ωs : A → Ω),
      (dgd grad W ρ).step w n k (adv n k s) = .ok s' ∧
      (∀ a ∈ act, a ∈ n.nodes ∧ ∃ ω, (w.isActive a k ω).1 = true) ∧
      (∀ a ∈ n.nodes, (∀ ω, (w.isActive a k ω).1 = true) → a ∈ act) ∧
      (s'.net.activeCache = some act) ∧ (∀ i, R i = ((s'.net.inbox i).byChannel .dflt).keys) ∧
      (∀ i ∈ n.nodes, (R i).Nodup ∧
        (∀ j ∈ R i, j ∈ n.nbrs i ∧ j ∈ act ∧ i ∈ act ∧ ∃ ω, (w.shouldDrop j ω).1 = false) ∧
        (∀ j ∈ n.nbrs i, j ∈ act → i ∈ act → (∀ ω, (w.shouldDrop j ω).1 = false) → j ∈ R i)) ∧
      (∀ i ∈ n.nodes, (s'.loc i).x =
        if i ∈ act then W i i • (s.loc i).x + ((R i).map (fun j => W i j • (s.loc j).x)).sum
          - ρ • (grad i (s.loc i).x (ωs i)).1
        else (s.loc i).x) := by
  set sa := adv n k s with hsa
  have hc0 : CInv n sa.net := cinv_of_empty n _ rfl rfl
  obtain ⟨r1, r2, r3, r4, r5, r6, r7⟩ := activeAgents_spec w n sa.net hc0
  set act := (sa.net.activeAgents w n).1 with hact
  have hq : ∀ a ∈ act, a ∈ n.nodes := fun a ha => by rw [← h.query]; exact r6 a ha
  have hfa : act = (filterActive w k n.queryAgents s.net.ω).1 := rfl
  have hnd : act.Nodup := by
    have hsl : ∀ (l : List A) (ω : Ω), List.Sublist (filterActive w k l ω).1 l := by
      intro l; induction l with
      | nil => intro ω; exact List.Sublist.refl _
      | cons a t ih =>
        intro ω
        simp only [filterActive]
        split
        · exact (ih _).cons_cons a
        · exact (ih _).cons a
    rw [hfa]
    exact hw.query_nodup.sublist (hsl _ _)
  have hempty : ∀ a ∈ n.nodes, ∀ c j, (sa.net.inbox a).abs c j = none := by
    intro a ha c j
    simp [hsa, adv, step, ha, Inbox.clear, Inbox.abs]
  have hg0 : LGood n act (sa.net.activeAgents w n).2 := by
    refine ⟨r3, r1, fun a ha => ?_⟩
    rw [r2.inbox]
    simp only [hsa, adv, step, if_pos ha]; exact Inbox.inv_empty
  obtain ⟨s1, D, h1, g1, l1, p1, a1⟩ := sayLoop_lossy h hw act .dflt (fun a : Dgd E => a.x) act hnd hq
    { sa with net := (sa.net.activeAgents w n).2 } hg0
  obtain ⟨q1, q2, q3, q4, q5, q6, q7⟩ := activeAgents_spec w n s1.net g1.cinv
  have hfix : s1.net.activeAgents w n = (act, s1.net) := q7 act g1.cache
  obtain ⟨s2, ωs, h2, g2, i2, l2⟩ := ownLoop_lossy n act (fun i inbox a ω =>
      let avg := mix W i a.x (inbox.byChannel .dflt)
      let g := grad i a.x ω
      ((⟨avg - ρ • g.1⟩ : Dgd E), g.2)) act hnd s1 g1
  have habs : ∀ i ∈ n.nodes, ∀ j, (s1.net.inbox i).abs .dflt j =
      if j ∈ act ∧ i ∈ D j then some (s.loc j).x else none := by
    intro i hi j
    rw [a1 i .dflt j]
    simp only [and_true]
    split
    · rfl
    · rw [r2.inbox]; exact hempty i hi _ _
  refine ⟨s2, act, fun i => ((s1.net.inbox i).byChannel .dflt).keys, ωs, ?_, fun a ha => ⟨hq a ha, ?_⟩, ?_, g2.cache,
    fun i => by rw [i2], ?_, ?_⟩
  · simp only [dgd, bind, Except.bind, forActive]
    rw [h1]
    simp only [hfix]
    exact h2
  · exact filterActive_mem' w k _ _ a (by rw [hfa] at ha; exact ha)
  · intro a ha hact'
    rw [hfa]
    exact filterActive_mem w k _ _ a (by rw [h.query]; exact ha) hact'
  · intro i hi
    have hwf : ((s1.net.inbox i).byChannel .dflt).WF := by
      unfold Inbox.byChannel
      cases hc : (s1.net.inbox i).messages.get? .dflt with
      | none => exact PyDict.wf_empty
      | some d => exact (g1.inbox i hi).bucket _ _ hc
    refine ⟨hwf, fun j hj => ?_, fun j hj hja hia hd => ?_⟩
    · rw [PyDict.mem_keys_iff, Inbox.get?_byChannel, habs i hi j] at hj
      by_cases hh : j ∈ act ∧ i ∈ D j
      · obtain ⟨x1, x2, x3⟩ := (p1 j hh.1).1 i hh.2
        exact ⟨hw.symm j i x1, hh.1, x2, x3⟩
      · rw [if_neg hh] at hj; simp at hj
    · rw [PyDict.mem_keys_iff, Inbox.get?_byChannel, habs i hi j]
      have := (p1 j hja).2 hd i (hw.symm i j hj) hia
      simp [hja, this]
  · intro i hi
    rw [l2 i]
    split
    · rename_i hia
      have hwf : ((s1.net.inbox i).byChannel .dflt).WF := by
        unfold Inbox.byChannel
        cases hc : (s1.net.inbox i).messages.get? .dflt with
        | none => exact PyDict.wf_empty
        | some d => exact (g1.inbox i hi).bucket _ _ hc
      have hl1 : s1.loc i = s.loc i := by rw [l1]; rfl
      simp only [hl1]
      have hmix : mix W i (s.loc i).x ((s1.net.inbox i).byChannel .dflt) = W i i • (s.loc i).x +
          ((((s1.net.inbox i).byChannel .dflt).keys).map (fun j => W i j • (s.loc j).x)).sum := by
        unfold mix
        rw [foldl_add_eq]
        congr 1
        apply sum_entries _ hwf _ hwf (fun j => (s.loc j).x) (fun j => ?_) (fun j v => W i j • v)
        rw [Inbox.get?_byChannel]
        by_cases hk : j ∈ ((s1.net.inbox i).byChannel .dflt).keys
        · rw [if_pos hk]
          rw [PyDict.mem_keys_iff, Inbox.get?_byChannel, habs i hi j] at hk
          rw [habs i hi j]
          by_cases hh : j ∈ act ∧ i ∈ D j
          · rw [if_pos hh]
          · rw [if_neg hh] at hk; simp at hk
        · rw [if_neg hk]
          rw [PyDict.mem_keys_iff, Inbox.get?_byChannel] at hk
          simpa using hk
      rw [hmix]
    · rw [l1]; rfl

end
end Verif
