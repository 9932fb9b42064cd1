import Mathlib.Algebra.BigOperators.Group.List.Basic
import Mathlib.Algebra.Module.BigOperators
import Mathlib.Data.List.Perm.Basic
import Verif.Model.P2PAlgos
import Verif.Lemmas.Network
import Verif.Lemmas.Inbox
set_option linter.unusedSectionVars false
/-! # Reduction of network rounds to matrix products on lossless networks -/
namespace Verif
open NetState Sys

/-- all agents always active, no drops, no compression, no noise; `agents()` returns all nodes (a `P2PNetwork`) -/
structure Ideal {A E Ω : Type} (w : World A E Ω) (n : Net A) : Prop where
  active : ∀ a it ω, (w.isActive a it ω).1 = true
  nodrop : ∀ a ω, (w.shouldDrop a ω).1 = false
  exact_ : ∀ a v ω, (w.compress a v ω).1 = v
  clean : ∀ a k v ω, (w.makeNoise a k v ω).1 = none
  query : n.queryAgents = n.nodes

section
variable {A E Ω α : Type} [DecidableEq A]

/-- network invariant used between loops -/
structure Good (n : Net A) (s : NetState A Chan E Ω) : Prop where
  cinv : CInv n s
  inbox : ∀ a ∈ n.nodes, (s.inbox a).Inv
  nbr : ∀ b ∈ n.nodes, ∀ c a, (s.inbox b).abs c a ≠ none → a ∈ n.nbrs b
  full : ∀ act, s.activeCache = some act → act = n.nodes

theorem filterActive_ideal {w : World A E Ω} {n : Net A} (h : Ideal w n) (it : Int) (l : List A) (ω : Ω) :
    (filterActive w it l ω).1 = l := by
  induction l generalizing ω with
  | nil => rfl
  | cons a t ih => simp [filterActive, h.active, ih]

theorem activeAgents_ideal {w : World A E Ω} {n : Net A} (h : Ideal w n) (s : NetState A Chan E Ω) (hg : Good n s) :
    (s.activeAgents w n).1 = n.nodes := by
  unfold activeAgents
  cases hc : s.activeCache with
  | some l => exact hg.full l hc
  | none => simp only; rw [filterActive_ideal h, h.query]

theorem confirm_ideal {w : World A E Ω} {n : Net A} (h : Ideal w n) (a : A) (l : List A) (ω : Ω) :
    (confirm w a l ω).1 = l := by
  induction l generalizing ω with
  | nil => rfl
  | cons b t ih => simp [confirm, h.nodrop, ih]

theorem good_activeAgents {w : World A E Ω} {n : Net A} (h : Ideal w n) (s : NetState A Chan E Ω) (hg : Good n s) :
    Good n (s.activeAgents w n).2 ∧ (s.activeAgents w n).2.inbox = s.inbox := by
  obtain ⟨h1, h2, h3, _⟩ := activeAgents_spec w n s hg.cinv
  refine ⟨⟨h3, fun a ha => by rw [h2.inbox]; exact hg.inbox a ha, fun b hb c a => by rw [h2.inbox]; exact hg.nbr b hb c a, ?_⟩,
    h2.inbox⟩
  intro act hact
  rw [h1] at hact
  cases hact
  exact activeAgents_ideal h s hg

theorem transmit_inv (w : World A E Ω) (sender : A) (ch : Chan) (inc : Rat) (msg : E) (ν : Option (Nat → E)) (l : List A)
    (i : Nat) (t : NetState A Chan E Ω) (a : A) (ht : (t.inbox a).Inv) :
    ((transmit w sender ch inc msg ν i l t).inbox a).Inv := by
  induction l generalizing i t with
  | nil => exact ht
  | cons r q ih =>
    refine ih (i + 1) _ ?_
    dsimp only
    by_cases ha : a = r
    · subst ha; rw [upd_same]; exact Inbox.inv_put _ _ _ _ ht
    · rw [upd_ne _ _ ha]; exact ht

/-- a broadcast on an ideal network reaches exactly the neighbours, unchanged -/
theorem send_all_ideal {w : World A E Ω} {n : Net A} (h : Ideal w n) (hw : n.WF) (s : NetState A Chan E Ω) (hg : Good n s)
    (i : A) (hi : i ∈ n.nodes) (m : E) (ch : Chan) :
    ∃ s', s.send w n i .none (some m) ch = (s', .ok ()) ∧ Good n s' ∧
      ∀ b c a, (s'.inbox b).abs c a = if b ∈ n.nbrs i ∧ c = ch ∧ a = i then some m else (s.inbox b).abs c a := by
  have hal := allowedBase_ok (C := Chan) w n hw
  obtain ⟨c1, c2, c3, c4, c5, c6⟩ := activeConnected_spec w n i s hg.cinv
  have hnow : s.activeNow w n = n.nodes := activeAgents_ideal h s hg
  have hl : (s.activeConnected w n i).1 = n.nbrs i := by
    rw [c1, hnow]
    apply List.filter_eq_self.2
    intro b hb
    simpa using hw.nbrs_mem i b hb
  set s0 := (s.activeConnected w n i).2 with hs0
  obtain ⟨d1, d2, d3, d4, d5, d6⟩ := activeConnected_spec w n i s0 c4
  have hnow0 : s0.activeNow w n = n.nodes := by
    rw [activeNow_of_cache w n s0 _ c2, hnow]
  have hl0 : (s0.activeConnected w n i).1 = n.nbrs i := by
    rw [d1, hnow0]
    apply List.filter_eq_self.2
    intro b hb
    simpa using hw.nbrs_mem i b hb
  set s1 := (s0.activeConnected w n i).2 with hs1
  have hsend : s.send w n i .none (some m) ch = (s1.deliver w i (n.nbrs i) m ch, .ok ()) := by
    unfold send sendBase allowedBase
    simp only [hi, not_true_eq_false, if_false]
    rw [← hs0, hl, ← hs1]
    simp [hl0]
  obtain ⟨g1, g2, g3, g4, g5, _, g7, g8, g9⟩ := deliver_spec w i (n.nbrs i) m ch s1
  have hin : s1.inbox = s.inbox := (c3.trans d3).inbox
  have habs : ∀ b c a, ((s1.deliver w i (n.nbrs i) m ch).inbox b).abs c a =
      if b ∈ n.nbrs i ∧ c = ch ∧ a = i then some m else (s.inbox b).abs c a := by
    intro b c a
    by_cases hca : c = ch ∧ a = i
    · obtain ⟨rfl, rfl⟩ := hca
      by_cases hb : b ∈ n.nbrs a
      · obtain ⟨j, _, _, hv⟩ := g9 b (by rw [confirm_ideal h]; exact hb)
        rw [hv, h.clean]
        simp [sentMsg, h.exact_, hb]
      · rw [g7 b (by rw [confirm_ideal h]; exact hb), hin]; simp [hb]
    · rw [g8 b c a hca, hin]
      rw [if_neg (fun hh => hca hh.2)]
  refine ⟨_, hsend, ⟨deliver_cinv w n i _ m ch s1 d4, ?_, ?_, ?_⟩, habs⟩
  · intro a ha
    unfold deliver
    apply transmit_inv
    simp only
    rw [hin]; exact hg.inbox a ha
  · intro b hb c a hne
    rw [habs] at hne
    split at hne
    · rename_i hh
      rw [hh.2.2]; exact hw.symm i b hh.1
    · exact hg.nbr b hb c a hne
  · intro act hact
    rw [g3] at hact
    rw [d2, hnow0] at hact
    exact (Option.some.inj hact).symm

/-- the last message sent on a channel -/
def lastOn (ch : Chan) (l : List (Chan × E)) : Option E := (l.reverse.find? (fun e => decide (e.1 = ch))).map Prod.snd

theorem lastOn_cons (ch : Chan) (e : Chan × E) (l : List (Chan × E)) :
    lastOn ch (e :: l) = (lastOn ch l).orElse (fun _ => if e.1 = ch then some e.2 else none) := by
  unfold lastOn
  rw [List.reverse_cons, List.find?_append]
  cases List.find? (fun e => decide (e.1 = ch)) l.reverse with
  | some v => rfl
  | none => by_cases h : e.1 = ch <;> simp [h]

theorem broadcasts_ideal {w : World A E Ω} {n : Net A} (h : Ideal w n) (hw : n.WF) (i : A) (hi : i ∈ n.nodes)
    (l : List (Chan × E)) (s : Sys A E Ω α) (hg : Good n s.net) :
    ∃ s', l.foldlM (fun s m => broadcast w n m.1 m.2 i s) s = .ok s' ∧ Good n s'.net ∧ s'.loc = s.loc ∧
      ∀ b c a, (s'.net.inbox b).abs c a =
        if b ∈ n.nbrs i ∧ a = i then (lastOn c l).orElse (fun _ => (s.net.inbox b).abs c a)
        else (s.net.inbox b).abs c a := by
  induction l generalizing s with
  | nil => exact ⟨s, rfl, hg, rfl, fun b c a => by simp [lastOn]⟩
  | cons m t ih =>
    obtain ⟨s1, h1, g1, a1⟩ := send_all_ideal h hw s.net hg i hi m.2 m.1
    have hb : broadcast w n m.1 m.2 i s = .ok { s with net := s1 } := by
      unfold broadcast; rw [h1]
    obtain ⟨s2, h2, g2, l2, a2⟩ := ih { s with net := s1 } g1
    refine ⟨s2, ?_, g2, l2, ?_⟩
    · rw [List.foldlM_cons, hb]; exact h2
    · intro b c a
      rw [a2 b c a, lastOn_cons]
      simp only [a1 b c a]
      by_cases hba : b ∈ n.nbrs i ∧ a = i
      · rw [if_pos hba, if_pos hba]
        cases lastOn c t with
        | some v => rfl
        | none =>
          by_cases hc : m.1 = c
          · subst hc; simp [hba]
          · have hc' : c ≠ m.1 := fun e => hc e.symm
            simp [hc, hc']
      · rw [if_neg hba, if_neg hba]
        rw [if_neg (fun hh => hba ⟨hh.1, hh.2.2⟩)]

/-- a round of `say` on an ideal network -/
theorem sayLoop_ideal {w : World A E Ω} {n : Net A} (h : Ideal w n) (hw : n.WF) (g : A → α → α)
    (msgs : A → α → List (Chan × E)) (l : List A) (hl : l.Nodup) (hsub : ∀ a ∈ l, a ∈ n.nodes) (s : Sys A E Ω α)
    (hg : Good n s.net) :
    ∃ s', l.foldlM (fun s i => say w n g msgs i s) s = .ok s' ∧ Good n s'.net ∧
      (∀ i, s'.loc i = if i ∈ l then g i (s.loc i) else s.loc i) ∧
      ∀ b c a, (s'.net.inbox b).abs c a =
        if b ∈ n.nbrs a ∧ a ∈ l then (lastOn c (msgs a (g a (s.loc a)))).orElse (fun _ => (s.net.inbox b).abs c a)
        else (s.net.inbox b).abs c a := by
  induction l generalizing s with
  | nil => exact ⟨s, rfl, hg, by simp, by simp⟩
  | cons i t ih =>
    have hit := (List.nodup_cons.1 hl).1
    obtain ⟨s1, h1, g1, l1, a1⟩ := broadcasts_ideal h hw i (hsub i (by simp)) (msgs i (g i (s.loc i)))
      { s with loc := upd s.loc i (g i (s.loc i)) } hg
    obtain ⟨s2, h2, g2, l2, a2⟩ := ih (List.nodup_cons.1 hl).2 (fun a ha => hsub a (by simp [ha])) s1 g1
    refine ⟨s2, ?_, g2, ?_, ?_⟩
    · rw [List.foldlM_cons]
      have : say w n g msgs i s = .ok s1 := by unfold say; exact h1
      rw [this]; exact h2
    · intro j
      rw [l2 j, l1]
      by_cases hj : j = i
      · subst hj; simp [hit, upd]
      · simp [hj, upd]
    · intro b c a
      rw [a2 b c a]
      simp only [l1, a1 b c a]
      by_cases hai : a = i
      · subst hai
        simp [hit]
      · simp [hai, upd]

theorem forActive_say {w : World A E Ω} {n : Net A} (h : Ideal w n) (hw : n.WF) (g : A → α → α)
    (msgs : A → α → List (Chan × E)) (s : Sys A E Ω α) (hg : Good n s.net) :
    ∃ s', forActive w n (say w n g msgs) s = .ok s' ∧ Good n s'.net ∧
      (∀ i ∈ n.nodes, s'.loc i = g i (s.loc i)) ∧
      (∀ b ∈ n.nodes, ∀ c a, a ∈ n.nbrs b → (s'.net.inbox b).abs c a =
        (lastOn c (msgs a (g a (s.loc a)))).orElse (fun _ => (s.net.inbox b).abs c a)) := by
  obtain ⟨ga, hin⟩ := good_activeAgents h s.net hg
  obtain ⟨s', h1, g1, l1, a1⟩ := sayLoop_ideal h hw g msgs n.nodes hw.nodup (fun _ ha => ha)
    { s with net := (s.net.activeAgents w n).2 } ga
  refine ⟨s', ?_, g1, ?_, ?_⟩
  · unfold forActive; simp only; rw [activeAgents_ideal h s.net hg]; exact h1
  · intro i hi; rw [l1 i, if_pos hi]
  · intro b hb c a hab
    rw [a1 b c a, if_pos ⟨hw.symm b a hab, hw.nbrs_mem b a hab⟩]
    simp only [hin]

theorem ownLoop (n : Net A) (f : A → Inbox Chan A E → α → Ω → α × Ω) (l : List A) (hl : l.Nodup) (s : Sys A E Ω α)
    (hg : Good n s.net) :
    ∃ (s' : Sys A E Ω α) (ωs : A → Ω), l.foldlM (fun s i => own f i s) s = .ok s' ∧ Good n s'.net ∧
      s'.net.inbox = s.net.inbox ∧
      (∀ i, s'.loc i = if i ∈ l then (f i (s.net.inbox i) (s.loc i) (ωs i)).1 else s.loc i) := by
  induction l generalizing s with
  | nil => exact ⟨s, fun _ => s.net.ω, rfl, hg, rfl, by simp⟩
  | cons i t ih =>
    have hit := (List.nodup_cons.1 hl).1
    obtain ⟨s1, ωs, h1, g1, i1, l1⟩ := ih (List.nodup_cons.1 hl).2
      { net := { s.net with ω := (f i (s.net.inbox i) (s.loc i) s.net.ω).2 },
        loc := upd s.loc i (f i (s.net.inbox i) (s.loc i) s.net.ω).1 }
      ⟨⟨hg.cinv.active, hg.cinv.conn⟩, hg.inbox, hg.nbr, hg.full⟩
    refine ⟨s1, upd ωs i s.net.ω, ?_, g1, i1, ?_⟩
    · rw [List.foldlM_cons]; exact h1
    · intro j
      rw [l1 j]
      by_cases hj : j = i
      · subst hj; simp [hit, upd]
      · simp [hj, upd]

theorem forActive_own {w : World A E Ω} {n : Net A} (h : Ideal w n) (hw : n.WF)
    (f : A → Inbox Chan A E → α → Ω → α × Ω) (s : Sys A E Ω α) (hg : Good n s.net) :
    ∃ (s' : Sys A E Ω α) (ωs : A → Ω), forActive w n (own f) s = .ok s' ∧ Good n s'.net ∧ s'.net.inbox = s.net.inbox ∧
      (∀ i ∈ n.nodes, s'.loc i = (f i (s.net.inbox i) (s.loc i) (ωs i)).1) := by
  obtain ⟨ga, hin⟩ := good_activeAgents h s.net hg
  obtain ⟨s', ωs, h1, g1, i1, l1⟩ := ownLoop n f n.nodes hw.nodup { s with net := (s.net.activeAgents w n).2 } ga
  refine ⟨s', ωs, ?_, g1, i1.trans hin, ?_⟩
  · unfold forActive; simp only; rw [activeAgents_ideal h s.net hg]; exact h1
  · intro i hi; rw [l1 i, if_pos hi]; simp only [hin]

theorem good_step (n : Net A) (s : NetState A Chan E Ω) (k : Int) : Good n (s.step n k) := by
  refine ⟨cinv_of_empty n _ rfl rfl, ?_, ?_, by simp [step]⟩
  · intro a ha; simp only [step, if_pos ha]; exact Inbox.inv_empty
  · intro b hb c a hne
    exfalso
    apply hne
    simp [step, hb, Inbox.clear, Inbox.abs]

end

/-! ### sums -/
section sums
variable {A E : Type} [DecidableEq A] [AddCommGroup E] [Module ℝ E]

/-- `∑_{j ∈ nodes} W i j • m j` -/
noncomputable def applyW (n : Net A) (W : A → A → ℝ) (m : A → E) (i : A) : E := (n.nodes.map (fun j => W i j • m j)).sum

/-- weights vanish off the diagonal and the edges -/
def Supported (n : Net A) (W : A → A → ℝ) : Prop := ∀ i ∈ n.nodes, ∀ j ∈ n.nodes, i ≠ j → j ∉ n.nbrs i → W i j = 0

/-- every column sums to `c` -/
def ColSum (n : Net A) (W : A → A → ℝ) (c : ℝ) : Prop := ∀ j ∈ n.nodes, (n.nodes.map (fun i => W i j)).sum = c

/-- no agent is its own neighbour -/
def NoLoops (n : Net A) : Prop := ∀ a, a ∉ n.nbrs a

theorem foldl_add_eq (W : A → A → ℝ) (i : A) (l : List (A × E)) (z : E) :
    l.foldl (fun acc e => acc + W i e.1 • e.2) z = z + (l.map (fun e => W i e.1 • e.2)).sum := by
  induction l generalizing z with
  | nil => simp
  | cons e t ih => rw [List.foldl_cons, ih, List.map_cons, List.sum_cons, add_assoc]

/-- sum over a dictionary whose keys are exactly `keys` -/
theorem sum_entries (d : PyDict A E) (hd : d.WF) (keys : List A) (hk : keys.Nodup) (m : A → E)
    (hget : ∀ j, d.get? j = if j ∈ keys then some (m j) else none) (f : A → E → E) :
    (d.entries.map (fun e => f e.1 e.2)).sum = (keys.map (fun j => f j (m j))).sum := by
  have hperm : d.keys.Perm keys := by
    rw [List.perm_ext_iff_of_nodup hd hk]
    intro a
    rw [PyDict.mem_keys_iff, hget]
    by_cases h : a ∈ keys <;> simp [h]
  have e1 : d.entries.map (fun e => f e.1 e.2) = d.keys.map (fun j => f j (m j)) := by
    unfold PyDict.keys
    rw [List.map_map]
    apply List.map_congr_left
    intro e he
    have := (PyDict.mem_entries_iff d hd e.1 e.2).1 he
    rw [hget] at this
    split at this
    · simp only [Function.comp]; rw [Option.some.inj this]
    · cases this
  rw [e1]
  exact (hperm.map _).sum_eq

theorem sum_split (n : Net A) (hw : n.WF) (hl : NoLoops n) (i : A) (hi : i ∈ n.nodes) (W : A → A → ℝ)
    (hs : Supported n W) (m : A → E) :
    applyW n W m i = W i i • m i + ((n.nbrs i).map (fun j => W i j • m j)).sum := by
  unfold applyW
  have hper : n.nodes.Perm (i :: n.nodes.erase i) := List.perm_cons_erase hi
  rw [(hper.map _).sum_eq, List.map_cons, List.sum_cons]
  congr 1
  have hnd : (n.nodes.erase i).Nodup := hw.nodup.erase i
  have hsub : (n.nbrs i).Subperm (n.nodes.erase i) := by
    apply List.subperm_of_subset (hw.nbrs_nodup i)
    intro j hj
    rw [hw.nodup.mem_erase_iff]
    exact ⟨fun e => hl i (e ▸ hj), hw.nbrs_mem i j hj⟩
  -- split the rest into neighbours and non-neighbours
  have hp2 : ((n.nodes.erase i).filter (fun j => decide (j ∈ n.nbrs i)) ++
      (n.nodes.erase i).filter (fun j => !decide (j ∈ n.nbrs i))).Perm (n.nodes.erase i) := List.filter_append_perm _ _
  rw [← (hp2.map _).sum_eq, List.map_append, List.sum_append]
  have hz : (((n.nodes.erase i).filter (fun j => !decide (j ∈ n.nbrs i))).map (fun j => W i j • m j)).sum = 0 := by
    apply List.sum_eq_zero
    intro x hx
    obtain ⟨j, hj, rfl⟩ := List.mem_map.1 hx
    rw [List.mem_filter, hw.nodup.mem_erase_iff] at hj
    rw [hs i hi j hj.1.2 (fun e => hj.1.1 e.symm) (by simpa using hj.2), zero_smul]
  rw [hz, add_zero]
  have hp3 : ((n.nodes.erase i).filter (fun j => decide (j ∈ n.nbrs i))).Perm (n.nbrs i) := by
    rw [List.perm_ext_iff_of_nodup (hnd.filter _) (hw.nbrs_nodup i)]
    intro j
    rw [List.mem_filter]
    constructor
    · intro h; simpa using h.2
    · intro h; exact ⟨hsub.subset h, by simpa using h⟩
  exact (hp3.map _).sum_eq

variable {Ω : Type}

/-- mixing after all neighbours were heard is a row of the matrix product -/
theorem mix_eq (n : Net A) (hw : n.WF) (hl : NoLoops n) (s : NetState A Chan E Ω) (hg : Good n s) (W : A → A → ℝ)
    (hs : Supported n W) (i : A) (hi : i ∈ n.nodes) (ch : Chan) (m : A → E)
    (hm : ∀ j ∈ n.nbrs i, (s.inbox i).abs ch j = some (m j)) :
    mix W i (m i) ((s.inbox i).byChannel ch) = applyW n W m i := by
  have hget : ∀ j, ((s.inbox i).byChannel ch).get? j = if j ∈ n.nbrs i then some (m j) else none := by
    intro j
    rw [Inbox.get?_byChannel]
    by_cases h : j ∈ n.nbrs i
    · rw [if_pos h, hm j h]
    · rw [if_neg h]
      by_contra hne
      exact h (hg.nbr i hi ch j hne)
  have hwf : ((s.inbox i).byChannel ch).WF := by
    unfold Inbox.byChannel
    cases hc : (s.inbox i).messages.get? ch with
    | none => exact PyDict.wf_empty
    | some d => exact (hg.inbox i hi).bucket _ _ hc
  unfold mix
  rw [foldl_add_eq, sum_entries _ hwf (n.nbrs i) (hw.nbrs_nodup i) m hget (fun j v => W i j • v),
    sum_split n hw hl i hi W hs m]

/-- column sums: mixing preserves (c times) the total -/
theorem sum_applyW (n : Net A) (W : A → A → ℝ) (c : ℝ) (hc : ColSum n W c) (m : A → E) :
    (n.nodes.map (fun i => applyW n W m i)).sum = c • (n.nodes.map m).sum := by
  unfold applyW
  have gen : ∀ (l : List A), (∀ j ∈ l, j ∈ n.nodes) →
      (n.nodes.map (fun i => (l.map (fun j => W i j • m j)).sum)).sum = c • (l.map m).sum := by
    intro l
    induction l with
    | nil => intro _; simp
    | cons j t ih =>
      intro hsub
      simp only [List.map_cons, List.sum_cons]
      rw [List.sum_map_add, ih (fun a ha => hsub a (by simp [ha])), smul_add]
      congr 1
      rw [← hc j (hsub j (by simp)), List.sum_smul]
      simp [List.map_map, Function.comp_def]
  exact gen n.nodes (fun _ h => h)

end sums
end Verif
