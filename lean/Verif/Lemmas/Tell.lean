import Verif.Lemmas.Lossy
set_option linter.unusedSectionVars false
/-! # Rounds of individual messages (`network.send(i, j, ...)`) under arbitrary activation and message loss -/
namespace Verif
open NetState Sys P2P

section
variable {A E Ω α : Type} [DecidableEq A]

/-- one `send` to an active neighbour: it arrives unchanged or not at all -/
theorem send_one_lossy {w : World A E Ω} {n : Net A} (h : Plain w n) (act : List A) (s : NetState A Chan E Ω)
    (hg : LGood n act s) (i j : A) (hi : i ∈ n.nodes) (hj : j ∈ n.nbrs i) (hja : j ∈ act) (m : E) (ch : Chan) :
    ∃ (s' : NetState A Chan E Ω) (got : Bool), s.send w n i (.one j) (some m) ch = (s', .ok ()) ∧ LGood n act s' ∧
      ((∀ ω, (w.shouldDrop i ω).1 = false) → got = true) ∧
      ∀ b c a, (s'.inbox b).abs c a = if got = true ∧ b = j ∧ c = ch ∧ a = i then some m else (s.inbox b).abs c a := by
  obtain ⟨c1, c2, c3, c4, c5, c6⟩ := activeConnected_spec w n i s hg.cinv
  have hnow : s.activeNow w n = act := activeNow_of_cache w n s act hg.cache
  have hl : (s.activeConnected w n i).1 = (n.nbrs i).filter (fun b => decide (b ∈ act)) := by rw [c1, hnow]
  set s1 := (s.activeConnected w n i).2 with hs1
  have hsend : s.send w n i (.one j) (some m) ch = (s1.deliver w i [j] m ch, .ok ()) := by
    unfold send sendBase allowedBase
    simp only [hi, not_true_eq_false, if_false, hj]
    rw [← hs1]
    simp [hl, hj, hja]
  obtain ⟨g1, g2, g3, g4, g5, _, g7, g8, g9⟩ := deliver_spec w i [j] m ch s1
  have hin : s1.inbox = s.inbox := c3.inbox
  refine ⟨_, decide (j ∈ (confirm w i [j] s1.ω).1), hsend, ⟨deliver_cinv w n i _ m ch s1 c4, ?_, ?_⟩, ?_, ?_⟩
  · rw [g3, c2, hnow]
  · intro a ha
    unfold deliver
    apply transmit_inv
    simp only
    rw [hin]; exact hg.inbox a ha
  · intro hd
    exact decide_eq_true (confirm_mem w i [j] s1.ω j (by simp) hd)
  · intro b c a
    by_cases hca : c = ch ∧ a = i
    · obtain ⟨rfl, rfl⟩ := hca
      by_cases hb : b ∈ (confirm w a [j] s1.ω).1
      · have hbj : b = j := by simpa using confirm_sub w a [j] s1.ω b hb
        obtain ⟨k, _, _, hv⟩ := g9 b hb
        rw [hv, h.clean]
        subst hbj
        simp [sentMsg, h.exact_, hb]
      · rw [g7 b hb, hin, if_neg]
        rintro ⟨hgot, rfl, -, -⟩
        exact hb (of_decide_eq_true hgot)
    · rw [g8 b c a hca, hin, if_neg (fun hh => hca ⟨hh.2.2.1, hh.2.2.2⟩)]

/-- what a batch of messages from `i` can do to the inboxes -/
structure Told (w : World A E Ω) (i : A) (dest : A → List (Chan × E)) (reached : A → Prop) (s s' : NetState A Chan E Ω) : Prop where
  weak : ∀ b c a, (s'.inbox b).abs c a = (s.inbox b).abs c a ∨ (a = i ∧ reached b ∧ ∃ m, (c, m) ∈ dest b ∧ (s'.inbox b).abs c a = some m)
  strong : (∀ ω, (w.shouldDrop i ω).1 = false) → ∀ b, reached b → ∀ c, (s'.inbox b).abs c i = (lastOn c (dest b)).orElse (fun _ => (s.inbox b).abs c i)

theorem sendList_lossy {w : World A E Ω} {n : Net A} (h : Plain w n) (act : List A) (i j : A) (hi : i ∈ n.nodes) (hj : j ∈ n.nbrs i)
    (hja : j ∈ act) (l : List (Chan × E)) (s : Sys A E Ω α) (hg : LGood n act s.net) :
    ∃ s', l.foldlM (fun s m => sendOne w n m.1 m.2 i j s) s = .ok s' ∧ LGood n act s'.net ∧ s'.loc = s.loc ∧
      Told w i (fun _ => l) (fun b => b = j) s.net s'.net := by
  induction l generalizing s with
  | nil => exact ⟨s, rfl, hg, rfl, fun _ _ _ => Or.inl rfl, fun _ b hb c => by simp [lastOn]⟩
  | cons m t ih =>
    obtain ⟨s1, got, h1, g1, d1, a1⟩ := send_one_lossy h act s.net hg i j hi hj hja m.2 m.1
    have hb : sendOne w n m.1 m.2 i j s = .ok { s with net := s1 } := by unfold sendOne; rw [h1]
    obtain ⟨s2, h2, g2, l2, t2⟩ := ih { s with net := s1 } g1
    refine ⟨s2, ?_, g2, l2, ?_, ?_⟩
    · rw [List.foldlM_cons, hb]; exact h2
    · intro b c a
      rcases t2.weak b c a with e | ⟨e1, e2, m', e3, e4⟩
      · rw [e]
        simp only [a1 b c a]
        split
        · rename_i hh
          exact Or.inr ⟨hh.2.2.2, hh.2.1, m.2, by rw [hh.2.2.1]; simp, rfl⟩
        · exact Or.inl rfl
      · exact Or.inr ⟨e1, e2, m', List.mem_cons_of_mem _ e3, e4⟩
    · intro hd b hb' c
      have e := t2.strong hd b hb' c
      have hbj : b = j := hb'
      subst hbj
      rw [e, lastOn_cons]
      simp only [a1 b c i, d1 hd]
      cases lastOn c t with
      | some v => rfl
      | none =>
        by_cases hc : m.1 = c
        · subst hc; simp
        · have hc' : c ≠ m.1 := fun e => hc e.symm
          simp [hc, hc']

theorem nbrLoop_lossy {w : World A E Ω} {n : Net A} (h : Plain w n) (act : List A) (msgs : A → α → A → List (Chan × E)) (i : A)
    (hi : i ∈ n.nodes) (L : List A) (hL : L.Nodup) (hsub : ∀ b ∈ L, b ∈ n.nbrs i ∧ b ∈ act) (s : Sys A E Ω α) (hg : LGood n act s.net) :
    ∃ s', L.foldlM (fun s j => (msgs i (s.loc i) j).foldlM (fun s m => sendOne w n m.1 m.2 i j s) s) s = .ok s' ∧
      LGood n act s'.net ∧ s'.loc = s.loc ∧ Told w i (msgs i (s.loc i)) (fun b => b ∈ L) s.net s'.net := by
  induction L generalizing s with
  | nil => exact ⟨s, rfl, hg, rfl, fun _ _ _ => Or.inl rfl, fun _ b hb => absurd hb (by simp)⟩
  | cons j t ih =>
    have hjt := (List.nodup_cons.1 hL).1
    obtain ⟨s1, h1, g1, l1, t1⟩ := sendList_lossy h act i j hi (hsub j (by simp)).1 (hsub j (by simp)).2 (msgs i (s.loc i) j) s hg
    obtain ⟨s2, h2, g2, l2, t2⟩ := ih (List.nodup_cons.1 hL).2 (fun b hb => hsub b (by simp [hb])) s1 g1
    rw [l1] at t2
    refine ⟨s2, ?_, g2, l2.trans l1, ?_, ?_⟩
    · rw [List.foldlM_cons, h1]; exact h2
    · intro b c a
      rcases t2.weak b c a with e | ⟨e1, e2, m', e3, e4⟩
      · rw [e]
        rcases t1.weak b c a with e' | ⟨e1, e2, m', e3, e4⟩
        · exact Or.inl e'
        · exact Or.inr ⟨e1, by rw [e2]; simp, m', by rw [e2]; exact e3, e4⟩
      · exact Or.inr ⟨e1, List.mem_cons_of_mem _ e2, m', e3, e4⟩
    · intro hd b hb c
      by_cases hbj : b = j
      · subst hbj
        rcases t2.weak b c i with e | ⟨_, e2, _⟩
        · rw [e, t1.strong hd b rfl c]
        · exact absurd e2 hjt
      · have hbt : b ∈ t := by simpa [hbj] using hb
        rw [t2.strong hd b hbt c]
        rcases t1.weak b c i with e | ⟨_, e2, _⟩
        · rw [e]
        · exact absurd e2 hbj

/-- what a whole round of `tellEach` does -/
structure ToldAll (w : World A E Ω) (n : Net A) (act l : List A) (dest : A → A → List (Chan × E)) (s s' : NetState A Chan E Ω) : Prop where
  weak : ∀ b c a, (s'.inbox b).abs c a = (s.inbox b).abs c a ∨
    (a ∈ l ∧ b ∈ n.nbrs a ∧ b ∈ act ∧ ∃ m, (c, m) ∈ dest a b ∧ (s'.inbox b).abs c a = some m)
  strong : ∀ a ∈ l, (∀ ω, (w.shouldDrop a ω).1 = false) → ∀ b ∈ n.nbrs a, b ∈ act → ∀ c,
    (s'.inbox b).abs c a = (lastOn c (dest a b)).orElse (fun _ => (s.inbox b).abs c a)

theorem tellLoop_lossy {w : World A E Ω} {n : Net A} (h : Plain w n) (hw : n.WF) (act : List A) (msgs : A → α → A → List (Chan × E))
    (l : List A) (hl : l.Nodup) (hsub : ∀ a ∈ l, a ∈ n.nodes) (s : Sys A E Ω α) (hg : LGood n act s.net) :
    ∃ s', l.foldlM (fun s i => tellEach w n msgs i s) s = .ok s' ∧ LGood n act s'.net ∧ s'.loc = s.loc ∧
      ToldAll w n act l (fun a b => msgs a (s.loc a) b) s.net s'.net := by
  induction l generalizing s with
  | nil => exact ⟨s, rfl, hg, rfl, fun _ _ _ => Or.inl rfl, fun a ha => absurd ha (by simp)⟩
  | cons i t ih =>
    have hit := (List.nodup_cons.1 hl).1
    obtain ⟨c1, c2, c3, c4, c5, c6⟩ := activeConnected_spec w n i s.net hg.cinv
    have hnow : s.net.activeNow w n = act := activeNow_of_cache w n s.net act hg.cache
    rw [hnow] at c1 c2
    set L := (n.nbrs i).filter (fun b => decide (b ∈ act)) with hL
    have g0 : LGood n act (s.net.activeConnected w n i).2 := ⟨c4, c2, fun a ha => by rw [c3.inbox]; exact hg.inbox a ha⟩
    have hLm : ∀ b, b ∈ L ↔ b ∈ n.nbrs i ∧ b ∈ act := by intro b; rw [hL, List.mem_filter]; simp
    obtain ⟨s1, h1, g1, l1, t1⟩ := nbrLoop_lossy h act msgs i (hsub i (by simp)) L ((hw.nbrs_nodup i).filter _) (fun b hb => (hLm b).1 hb)
      { s with net := (s.net.activeConnected w n i).2 } g0
    obtain ⟨s2, h2, g2, l2, t2⟩ := ih (List.nodup_cons.1 hl).2 (fun a ha => hsub a (by simp [ha])) s1 g1
    rw [l1] at t2
    refine ⟨s2, ?_, g2, l2.trans l1, ?_, ?_⟩
    · rw [List.foldlM_cons]
      have e : tellEach w n msgs i s = .ok s1 := by unfold tellEach; simp only; rw [c1]; exact h1
      rw [e]; exact h2
    · intro b c a
      rcases t2.weak b c a with e | ⟨e1, e2, e3, m', e4, e5⟩
      · rw [e]
        rcases t1.weak b c a with e' | ⟨e1, e2, m', e3, e4⟩
        · left; rw [e']; simp only [c3.inbox]
        · right
          subst e1
          exact ⟨by simp, ((hLm b).1 e2).1, ((hLm b).1 e2).2, m', e3, e4⟩
      · exact Or.inr ⟨List.mem_cons_of_mem _ e1, e2, e3, m', e4, e5⟩
    · intro a ha hd b hb hba c
      by_cases hai : a = i
      · subst hai
        rcases t2.weak b c a with e | ⟨e1, _⟩
        · rw [e, t1.strong hd b ((hLm b).2 ⟨hb, hba⟩) c]; simp only [c3.inbox]
        · exact absurd e1 hit
      · have hat : a ∈ t := by simpa [hai] using ha
        rw [t2.strong a hat hd b hb hba c]
        rcases t1.weak b c a with e | ⟨e1, _⟩
        · rw [e]; simp only [c3.inbox]
        · exact absurd e1 hai

theorem Ideal.plain {w : World A E Ω} {n : Net A} (h : Ideal w n) : Plain w n := ⟨h.exact_, h.clean, h.query⟩

/-- a round of `tellEach` on an ideal network: every neighbour hears its own message -/
theorem forActive_tell {w : World A E Ω} {n : Net A} (h : Ideal w n) (hw : n.WF) (msgs : A → α → A → List (Chan × E))
    (s : Sys A E Ω α) (hg : Good n s.net) :
    ∃ s', forActive w n (tellEach w n msgs) s = .ok s' ∧ Good n s'.net ∧ s'.loc = s.loc ∧
      (∀ b ∈ n.nodes, ∀ c a, a ∈ n.nbrs b → (s'.net.inbox b).abs c a =
        (lastOn c (msgs a (s.loc a) b)).orElse (fun _ => (s.net.inbox b).abs c a)) := by
  obtain ⟨r1, r2, r3, _⟩ := activeAgents_spec w n s.net hg.cinv
  have hall := activeAgents_ideal h s.net hg
  have g0 : LGood n n.nodes (s.net.activeAgents w n).2 := ⟨r3, by rw [r1, hall], fun a ha => by rw [r2.inbox]; exact hg.inbox a ha⟩
  obtain ⟨s', h1, g1, l1, t1⟩ := tellLoop_lossy h.plain hw n.nodes msgs n.nodes hw.nodup (fun _ ha => ha) { s with net := (s.net.activeAgents w n).2 } g0
  refine ⟨s', ?_, ⟨g1.cinv, g1.inbox, ?_, ?_⟩, l1, ?_⟩
  · unfold forActive; simp only; rw [hall]; exact h1
  · intro b hb c a hne
    rcases t1.weak b c a with e | ⟨_, e2, _⟩
    · rw [e] at hne; simp only [r2.inbox] at hne; exact hg.nbr b hb c a hne
    · exact hw.symm a b e2
  · intro act hact
    rw [g1.cache] at hact; exact (Option.some.inj hact).symm
  · intro b hb c a hab
    rw [t1.strong a (hw.nbrs_mem b a hab) (h.nodrop a) b (hw.symm b a hab) hb c]
    simp only [r2.inbox]

end
end Verif
