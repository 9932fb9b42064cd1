import Verif.Model.Admm
import Verif.Lemmas.P2PSteps2
import Verif.Lemmas.Tell
set_option linter.unusedSectionVars false
/-! # One iteration of the ADMM family on a lossless network -/
namespace Verif
open NetState Sys P2P
variable {A E Ω : Type} [DecidableEq A] [AddCommGroup E] [Module ℝ E]

theorem absorb_list (α : ℝ) (l : List (A × E)) (hl : (l.map Prod.fst).Nodup) (z : A → E) (j : A) :
    l.foldl (fun z e => upd z e.1 ((1 - α) • z e.1 - α • e.2)) z j =
      match PyDict.lookupL j l with
      | some m => (1 - α) • z j - α • m
      | none => z j := by
  induction l generalizing z with
  | nil => rfl
  | cons e t ih =>
    simp only [List.map_cons, List.nodup_cons] at hl
    rw [List.foldl_cons, ih hl.2]
    obtain ⟨e1, e2⟩ := e
    by_cases h : e1 = j
    · have hnone : PyDict.lookupL j t = none := by
        by_contra hne
        obtain ⟨v, hv⟩ := Option.ne_none_iff_exists'.1 hne
        have hm := (PyDict.mem_entries_iff ⟨t⟩ hl.2 j v).2 hv
        exact hl.1 (List.mem_map.2 ⟨(j, v), hm, h.symm⟩)
      rw [hnone]
      subst h
      simp [PyDict.lookupL, upd]
    · have hj : j ≠ e1 := fun h' => h h'.symm
      simp [PyDict.lookupL, h, upd, hj]

theorem absorb_get (α : ℝ) (d : PyDict A E) (hd : d.WF) (z : A → E) (j : A) :
    absorb α d z j = match d.get? j with
      | some m => (1 - α) • z j - α • m
      | none => z j :=
  absorb_list α d.entries hd z j

/-- the message round and the update of `z` shared by ADMM, LT-ADMM and LT-ADMM-VR -/
theorem exchangeZ {β : Type} {w : World A E Ω} {n : Net A} (h : Lossless w n) (ρ α : ℝ) (x : β → E) (z : β → A → E) (put : β → (A → E) → β)
    (hput : ∀ b f, z (put b f) = f) (s : Sys A E Ω β) (hg : Good n s.net) :
    ∃ s', ((do
      let s ← forActive w n (tellEach w n (fun _ a j => [(.dflt, z a j - (2 * ρ) • x a)])) s
      forActive w n (own (fun _ inbox a ω => (put a (absorb α (inbox.byChannel .dflt) (z a)), ω))) s) : Py _) = .ok s' ∧
      ∀ i ∈ n.nodes, (∃ f, s'.loc i = put (s.loc i) f) ∧ ∀ j, z (s'.loc i) j =
        if j ∈ n.nbrs i then (1 - α) • z (s.loc i) j - α • (z (s.loc j) i - (2 * ρ) • x (s.loc j)) else z (s.loc i) j := by
  obtain ⟨s1, h1, g1, l1, a1⟩ := forActive_tell h.ideal h.wf (fun _ a j => [(Chan.dflt, z a j - (2 * ρ) • x a)]) s hg
  obtain ⟨s2, ωs, h2, g2, i2, l2⟩ := forActive_own h.ideal h.wf (fun _ inbox a ω => (put a (absorb α (inbox.byChannel .dflt) (z a)), ω)) s1 g1
  refine ⟨s2, ?_, fun i hi => ⟨⟨absorb α ((s1.net.inbox i).byChannel .dflt) (z (s.loc i)), ?_⟩, fun j => ?_⟩⟩
  · simp only [h1, bind, Except.bind]; exact h2
  · rw [l2 i hi, l1]
  · rw [l2 i hi, l1]
    simp only
    rw [hput, absorb_get α _ (byChannel_wf g1 i hi .dflt), Inbox.get?_byChannel]
    by_cases hj : j ∈ n.nbrs i
    · rw [a1 i hi .dflt j hj]
      simp [lastOn, hj]
    · have : (s1.net.inbox i).abs .dflt j = none := by
        by_contra hne
        exact hj (g1.nbr i hi .dflt j hne)
      rw [this]; simp [hj]

theorem admm_step {w : World A E Ω} {n : Net A} (h : Lossless w n) (prox : Prox A E Ω) (n0 : Net A) (ρ α : ℝ) (z0 : A → E) (b : Bool)
    (k : Int) (s : Sys A E Ω (Admm A E)) :
    ∃ s', ∃ ωs : A → Ω, (admm prox n0 ρ α z0 b).step w n k (adv n k s) = .ok s' ∧ ∀ i ∈ n.nodes,
      (s'.loc i).x = (prox i (admmRho n ρ i • rowSumZ n i (s.loc i).z) (admmRho n ρ i) (ωs i)).1 ∧
      ∀ j, (s'.loc i).z j = if j ∈ n.nbrs i then (1 - α) • (s.loc i).z j - α • ((s.loc j).z i - (2 * ρ) • (s'.loc j).x) else (s.loc i).z j := by
  obtain ⟨s1, ωs, h1, g1, i1, l1⟩ := forActive_own h.ideal h.wf (fun i _ (a : Admm A E) ω =>
      let r := prox i (admmRho n ρ i • rowSumZ n i a.z) (admmRho n ρ i) ω
      ({ a with x := r.1 }, r.2)) (adv n k s) (good_step n _ k)
  obtain ⟨s2, h2, p2⟩ := exchangeZ h ρ α (fun a : Admm A E => a.x) (fun a => a.z) (fun a f => { a with z := f }) (fun _ _ => rfl) s1 g1
  have hx : ∀ i ∈ n.nodes, (s2.loc i).x = (s1.loc i).x := by
    intro i hi
    obtain ⟨⟨f, hf⟩, _⟩ := p2 i hi
    rw [hf]
  refine ⟨s2, ωs, ?_, fun i hi => ⟨?_, fun j => ?_⟩⟩
  · simp only [admm, h1, bind, Except.bind]; exact h2
  · rw [hx i hi, l1 i hi]; rfl
  · rw [(p2 i hi).2 j]
    split
    · rename_i hj
      have hjn := h.wf.nbrs_mem i j hj
      rw [hx j hjn, l1 i hi, l1 j hjn]; rfl
    · rw [l1 i hi]; rfl

/-- one iteration of LT-ADMM -/
theorem ltAdmm_step {w : World A E Ω} {n : Net A} (h : Lossless w n) (grad : Grad A E Ω) (ρ α γ β : ℝ) (τ : Nat)
    (k : Int) (s : Sys A E Ω (LtAdmm A E)) :
    ∃ s', ∃ ωs : A → Ω, (ltAdmm grad ρ α γ β τ).step w n k (adv n k s) = .ok s' ∧ ∀ i ∈ n.nodes,
      (s'.loc i).x = (repeatN (fun phi ω => let g := grad i phi ω
        (phi - (γ • g.1 + β • ((ρ * ((n.nbrs i).length : ℝ)) • (s.loc i).x - rowSumZ n i (s.loc i).z)), g.2)) τ (s.loc i).x (ωs i)).1 ∧
      ∀ j, (s'.loc i).z j = if j ∈ n.nbrs i then (1 - α) • (s.loc i).z j - α • ((s.loc j).z i - (2 * ρ) • (s'.loc j).x) else (s.loc i).z j := by
  obtain ⟨s1, ωs, h1, g1, i1, l1⟩ := forActive_own h.ideal h.wf (fun i _ (a : LtAdmm A E) ω =>
      let correction := β • ((ρ * ((n.nbrs i).length : ℝ)) • a.x - rowSumZ n i a.z)
      let r := repeatN (fun phi ω => let g := grad i phi ω; (phi - (γ • g.1 + correction), g.2)) τ a.x ω
      ({ a with phi := r.1, x := r.1 }, r.2)) (adv n k s) (good_step n _ k)
  obtain ⟨s2, h2, p2⟩ := exchangeZ h ρ α (fun a : LtAdmm A E => a.x) (fun a => a.z) (fun a f => { a with z := f }) (fun _ _ => rfl) s1 g1
  have hx : ∀ i ∈ n.nodes, (s2.loc i).x = (s1.loc i).x := by
    intro i hi
    obtain ⟨⟨f, hf⟩, _⟩ := p2 i hi
    rw [hf]
  refine ⟨s2, ωs, ?_, fun i hi => ⟨?_, fun j => ?_⟩⟩
  · simp only [ltAdmm, h1, bind, Except.bind]; exact h2
  · rw [hx i hi, l1 i hi]; rfl
  · rw [(p2 i hi).2 j]
    split
    · rename_i hj
      have hjn := h.wf.nbrs_mem i j hj
      rw [hx j hjn, l1 i hi, l1 j hjn]; rfl
    · rw [l1 i hi]; rfl

end Verif

namespace Verif
open NetState Sys P2P
section
variable {A E Ω α : Type} [DecidableEq A]

theorem filterActive_sublist (w : World A E Ω) (k : Int) (l : List A) (ω : Ω) : List.Sublist (filterActive w k l ω).1 l := by
  induction l generalizing ω with
  | nil => exact List.Sublist.refl _
  | cons a t ih =>
    simp only [filterActive]
    split
    · exact (ih _).cons_cons a
    · exact (ih _).cons a

/-- the active agents of iteration `k`, computed once and cached -/
structure ActiveIn (w : World A E Ω) (n : Net A) (k : Int) (act : List A) : Prop where
  nodup : act.Nodup
  sub : ∀ a ∈ act, a ∈ n.nodes
  some_ : ∀ a ∈ act, ∃ ω, (w.isActive a k ω).1 = true
  always : ∀ a ∈ n.nodes, (∀ ω, (w.isActive a k ω).1 = true) → a ∈ act

/-- the first round of an iteration fixes the active agents -/
theorem first_round {w : World A E Ω} {n : Net A} (h : Plain w n) (hw : n.WF) (f : A → Inbox Chan A E → α → Ω → α × Ω) (k : Int) (s : Sys A E Ω α) :
    ∃ (s' : Sys A E Ω α) (act : List A) (ωs : A → Ω), forActive w n (own f) (adv n k s) = .ok s' ∧ ActiveIn w n k act ∧ LGood n act s'.net ∧
      (∀ i ∈ n.nodes, ∀ c j, (s'.net.inbox i).abs c j = none) ∧
      (∀ i, s'.loc i = if i ∈ act then (f i ((adv n k s).net.inbox i) (s.loc i) (ωs i)).1 else s.loc i) := by
  set sa := adv n k s with hsa
  have hc0 : CInv n sa.net := cinv_of_empty n _ rfl rfl
  obtain ⟨r1, r2, r3, r4, r5, r6, r7⟩ := activeAgents_spec w n sa.net hc0
  set act := (sa.net.activeAgents w n).1 with hact
  have hq : ∀ a ∈ act, a ∈ n.nodes := fun a ha => by rw [← h.query]; exact r6 a ha
  have hfa : act = (filterActive w k n.queryAgents s.net.ω).1 := rfl
  have hnd : act.Nodup := by rw [hfa]; exact hw.query_nodup.sublist (filterActive_sublist w k _ _)
  have hempty : ∀ a ∈ n.nodes, ∀ c j, (sa.net.inbox a).abs c j = none := by
    intro a ha c j
    simp [hsa, adv, step, ha, Inbox.clear, Inbox.abs]
  have hg0 : LGood n act (sa.net.activeAgents w n).2 := by
    refine ⟨r3, r1, fun a ha => ?_⟩
    rw [r2.inbox]
    simp only [hsa, adv, step, if_pos ha]; exact Inbox.inv_empty
  obtain ⟨s1, ωs, h1, g1, i1, l1⟩ := ownLoop_lossy n act f act hnd { sa with net := (sa.net.activeAgents w n).2 } hg0
  refine ⟨s1, act, ωs, h1, ⟨hnd, hq, fun a ha => ?_, fun a ha hh => ?_⟩, g1, ?_, fun i => ?_⟩
  · rw [hfa] at ha; exact filterActive_mem' w k _ _ a ha
  · rw [hfa]; exact filterActive_mem w k _ _ a (by rw [h.query]; exact ha) hh
  · intro i hi c j
    rw [i1]
    simp only [r2.inbox]
    exact hempty i hi c j
  · rw [l1 i]
    simp only [r2.inbox]
    rfl

theorem later_round {w : World A E Ω} {n : Net A} (f : A → Inbox Chan A E → α → Ω → α × Ω) (act : List A) (hn : act.Nodup)
    (s : Sys A E Ω α) (hg : LGood n act s.net) :
    ∃ (s' : Sys A E Ω α) (ωs : A → Ω), forActive w n (own f) s = .ok s' ∧ LGood n act s'.net ∧ s'.net.inbox = s.net.inbox ∧
      (∀ i, s'.loc i = if i ∈ act then (f i (s.net.inbox i) (s.loc i) (ωs i)).1 else s.loc i) := by
  obtain ⟨q1, q2, q3, q4, q5, q6, q7⟩ := activeAgents_spec w n s.net hg.cinv
  have hfix : s.net.activeAgents w n = (act, s.net) := q7 act hg.cache
  obtain ⟨s2, ωs, h2, g2, i2, l2⟩ := ownLoop_lossy n act f act hn s hg
  refine ⟨s2, ωs, ?_, g2, i2, l2⟩
  simp only [forActive, hfix]; exact h2

theorem later_tell {w : World A E Ω} {n : Net A} (h : Plain w n) (hw : n.WF) (msgs : A → α → A → List (Chan × E)) (act : List A)
    (hn : act.Nodup) (hsub : ∀ a ∈ act, a ∈ n.nodes) (s : Sys A E Ω α) (hg : LGood n act s.net) :
    ∃ s', forActive w n (tellEach w n msgs) s = .ok s' ∧ LGood n act s'.net ∧ s'.loc = s.loc ∧
      ToldAll w n act act (fun a b => msgs a (s.loc a) b) s.net s'.net := by
  obtain ⟨q1, q2, q3, q4, q5, q6, q7⟩ := activeAgents_spec w n s.net hg.cinv
  have hfix : s.net.activeAgents w n = (act, s.net) := q7 act hg.cache
  obtain ⟨s2, h2, g2, l2, t2⟩ := tellLoop_lossy h hw act msgs act hn hsub s hg
  refine ⟨s2, ?_, g2, l2, t2⟩
  simp only [forActive, hfix]; exact h2

end

section
variable {A E Ω : Type} [DecidableEq A] [AddCommGroup E] [Module ℝ E]

/-- one ADMM iteration under arbitrary activation and losses: each row of `z` is updated from the fresh message of that
neighbour, or kept -/
theorem admm_step_lossy {w : World A E Ω} {n : Net A} (h : Plain w n) (hw : n.WF) (prox : Prox A E Ω) (n0 : Net A) (ρ α : ℝ) (z0 : A → E) (b : Bool)
    (k : Int) (s : Sys A E Ω (Admm A E)) :
    ∃ (s' : Sys A E Ω (Admm A E)) (act : List A) (ωs : A → Ω), (admm prox n0 ρ α z0 b).step w n k (adv n k s) = .ok s' ∧ ActiveIn w n k act ∧ ∀ i ∈ n.nodes,
      ((s'.loc i).x = if i ∈ act then (prox i (admmRho n ρ i • rowSumZ n i (s.loc i).z) (admmRho n ρ i) (ωs i)).1 else (s.loc i).x) ∧
      ∀ j, (i ∈ act ∧ j ∈ act ∧ j ∈ n.nbrs i ∧ (s'.loc i).z j = (1 - α) • (s.loc i).z j - α • ((s.loc j).z i - (2 * ρ) • (s'.loc j).x)) ∨
        (((s'.loc i).z j = (s.loc i).z j) ∧ ¬ (i ∈ act ∧ j ∈ act ∧ j ∈ n.nbrs i ∧ ∀ ω, (w.shouldDrop j ω).1 = false)) := by
  obtain ⟨s1, act, ωs, h1, hact, g1, e1, l1⟩ := first_round h hw (fun i _ (a : Admm A E) ω =>
      let r := prox i (admmRho n ρ i • rowSumZ n i a.z) (admmRho n ρ i) ω
      ({ a with x := r.1 }, r.2)) k s
  obtain ⟨s2, h2, g2, l2, t2⟩ := later_tell h hw (fun _ (a : Admm A E) j => [(Chan.dflt, a.z j - (2 * ρ) • a.x)]) act hact.nodup hact.sub s1 g1
  obtain ⟨s3, ωs', h3, g3, i3, l3⟩ := later_round (w := w) (fun _ inbox (a : Admm A E) (ω : Ω) => ({ a with z := absorb α (inbox.byChannel .dflt) a.z }, ω)) act hact.nodup s2 g2
  have hz1 : ∀ i, (s1.loc i).z = (s.loc i).z := by intro i; rw [l1 i]; split <;> rfl
  have hx3 : ∀ i, (s3.loc i).x = (s1.loc i).x := by intro i; rw [l3 i, l2]; split <;> rfl
  refine ⟨s3, act, ωs, ?_, hact, fun i hi => ⟨?_, fun j => ?_⟩⟩
  · simp only [admm, h1, h2, bind, Except.bind]; exact h3
  · rw [hx3 i, l1 i]
    split <;> rfl
  · by_cases hia : i ∈ act
    · have hwf : ((s2.net.inbox i).byChannel .dflt).WF := by
        unfold Inbox.byChannel
        cases hc : (s2.net.inbox i).messages.get? .dflt with
        | none => exact PyDict.wf_empty
        | some d => exact (g2.inbox i hi).bucket _ _ hc
      have hz : (s3.loc i).z j = match (s2.net.inbox i).abs .dflt j with
          | some m => (1 - α) • (s.loc i).z j - α • m
          | none => (s.loc i).z j := by
        rw [l3 i, if_pos hia, l2]
        simp only
        rw [absorb_get α _ hwf, Inbox.get?_byChannel, hz1]
      rcases t2.weak i .dflt j with e | ⟨ja, hij, _, m, hm, e⟩
      · right
        rw [e1 i hi] at e
        refine ⟨by rw [hz, e], ?_⟩
        rintro ⟨_, ja, jn, hd⟩
        have := t2.strong j ja hd i (hw.symm i j jn) hia .dflt
        rw [e] at this
        simp [lastOn] at this
      · left
        refine ⟨hia, ja, hw.symm j i hij, ?_⟩
        rw [hz, e]
        simp only [List.mem_singleton, Prod.mk.injEq, true_and] at hm
        rw [hm, hz1, hx3]
    · right
      refine ⟨?_, fun hh => hia hh.1⟩
      rw [l3 i, if_neg hia, l2, hz1]

end
end Verif

namespace Verif
open NetState Sys P2P
variable {A E Ω : Type} [DecidableEq A] [AddCommGroup E] [Module ℝ E]

theorem absorbBoth_get (α : ℝ) (l : List A) (hl : l.Nodup) (d : PyDict A E) (z : A → E) (j : A) :
    absorbBoth α l d z j = if j ∈ l then (1 - α) • z j + α • ((d.get? j).getD 0) else z j := by
  unfold absorbBoth
  induction l generalizing z with
  | nil => rfl
  | cons e t ih =>
    rw [List.nodup_cons] at hl
    rw [List.foldl_cons, ih hl.2]
    by_cases h : j = e
    · subst h; simp [hl.1, upd]
    · simp [h, upd]

theorem atg_step {w : World A E Ω} {n : Net A} (h : Lossless w n) (grad : Grad A E Ω) (ρ α γ δ : ℝ) (z0 : A → E)
    (k : Int) (s : Sys A E Ω (Atg A E)) :
    ∃ s', ∃ ωs : A → Ω, (atg grad ρ α γ δ z0).step w n k (adv n k s) = .ok s' ∧ ∀ i ∈ n.nodes,
      (s'.loc i).y = (1 / (1 + ρ * ((n.nbrs i).length : ℝ))) • ((s.loc i).x + rowSumZ n i (s.loc i).zy) ∧
      (s'.loc i).s = (1 / (1 + ρ * ((n.nbrs i).length : ℝ))) • ((grad i (s.loc i).x (ωs i)).1 + rowSumZ n i (s.loc i).zs) ∧
      (s'.loc i).x = (1 - γ) • (s.loc i).x + γ • ((s'.loc i).y - δ • (s'.loc i).s) ∧
      (∀ j ∈ n.nbrs i, (s'.loc i).zy j = (1 - α) • (s.loc i).zy j + α • (- (s.loc j).zy i + (2 * ρ) • (s'.loc j).y)) ∧
      ∀ j ∈ n.nbrs i, (s'.loc i).zs j = (1 - α) • (s.loc i).zs j + α • (- (s.loc j).zs i + (2 * ρ) • (s'.loc j).s) := by
  obtain ⟨s1, ωs, h1, g1, i1, l1⟩ := forActive_own h.ideal h.wf (fun i _ (a : Atg A E) ω =>
      let y := (1 / (1 + ρ * ((n.nbrs i).length : ℝ))) • (a.x + rowSumZ n i a.zy)
      let g := grad i a.x ω
      let t := (1 / (1 + ρ * ((n.nbrs i).length : ℝ))) • (g.1 + rowSumZ n i a.zs)
      ({ a with y := y, s := t, x := (1 - γ) • a.x + γ • (y - δ • t) }, g.2)) (adv n k s) (good_step n _ k)
  obtain ⟨s2, h2, g2, l2, a2⟩ := forActive_tell h.ideal h.wf (fun _ (a : Atg A E) j =>
      [(Chan.zy, - a.zy j + (2 * ρ) • a.y), (Chan.zs, - a.zs j + (2 * ρ) • a.s)]) s1 g1
  obtain ⟨s3, ωs', h3, g3, i3, l3⟩ := forActive_own h.ideal h.wf (fun _ inbox (a : Atg A E) ω =>
      let both := heardBoth inbox .zy .zs
      ({ a with zy := absorbBoth α both (inbox.byChannel .zy) a.zy, zs := absorbBoth α both (inbox.byChannel .zs) a.zs }, ω)) s2 g2
  have hloc : ∀ i ∈ n.nodes, (s3.loc i).x = (s1.loc i).x ∧ (s3.loc i).y = (s1.loc i).y ∧ (s3.loc i).s = (s1.loc i).s := by
    intro i hi; rw [l3 i hi, l2]; exact ⟨rfl, rfl, rfl⟩
  have hzy : ∀ i ∈ n.nodes, ∀ j ∈ n.nbrs i, (s2.net.inbox i).abs .zy j = some (- (s.loc j).zy i + (2 * ρ) • (s1.loc j).y) := by
    intro i hi j hj
    rw [a2 i hi .zy j hj, l1 j (h.wf.nbrs_mem i j hj)]
    simp [lastOn]; rfl
  have hzs : ∀ i ∈ n.nodes, ∀ j ∈ n.nbrs i, (s2.net.inbox i).abs .zs j = some (- (s.loc j).zs i + (2 * ρ) • (s1.loc j).s) := by
    intro i hi j hj
    rw [a2 i hi .zs j hj, l1 j (h.wf.nbrs_mem i j hj)]
    simp [lastOn]; rfl
  have hboth : ∀ i ∈ n.nodes, (heardBoth (s2.net.inbox i) .zy .zs).Nodup ∧ ∀ j ∈ n.nbrs i, j ∈ heardBoth (s2.net.inbox i) .zy .zs := by
    intro i hi
    refine ⟨(byChannel_wf g2 i hi .zy).filter _, fun j hj => ?_⟩
    unfold heardBoth
    rw [List.mem_filter, PyDict.mem_keys_iff, Inbox.get?_byChannel, hzy i hi j hj]
    unfold PyDict.contains
    rw [Inbox.get?_byChannel, hzs i hi j hj]
    exact ⟨rfl, rfl⟩
  refine ⟨s3, ωs, ?_, fun i hi => ⟨?_, ?_, ?_, fun j hj => ?_, fun j hj => ?_⟩⟩
  · simp only [atg, h1, h2, bind, Except.bind]; exact h3
  · rw [(hloc i hi).2.1, l1 i hi]; rfl
  · rw [(hloc i hi).2.2, l1 i hi]; rfl
  · rw [(hloc i hi).1, (hloc i hi).2.1, (hloc i hi).2.2, l1 i hi]; rfl
  · rw [(hloc j (h.wf.nbrs_mem i j hj)).2.1, l3 i hi, l2]
    simp only
    rw [absorbBoth_get α _ (hboth i hi).1, if_pos ((hboth i hi).2 j hj), Inbox.get?_byChannel, hzy i hi j hj, l1 i hi]; rfl
  · rw [(hloc j (h.wf.nbrs_mem i j hj)).2.2, l3 i hi, l2]
    simp only
    rw [absorbBoth_get α _ (hboth i hi).1, if_pos ((hboth i hi).2 j hj), Inbox.get?_byChannel, hzs i hi j hj, l1 i hi]; rfl

/-- one iteration of LT-ADMM-VR -/
theorem ltVr_step {w : World A E Ω} {n : Net A} (h : Lossless w n) (c : Emp A E Ω) (v2 : Bool) (ρ α γ β : ℝ) (τ : Nat)
    (k : Int) (s : Sys A E Ω (LtVr A E)) :
    ∃ s', ∃ ωs : A → Ω, (ltAdmmVr c v2 ρ α γ β τ).step w n k (adv n k s) = .ok s' ∧ ∀ i ∈ n.nodes,
      ((s'.loc i).x, (s'.loc i).table) = (repeatN (ltVrLocal c γ (β • ((ρ * ((n.nbrs i).length : ℝ)) • (s.loc i).x - rowSumZ n i (s.loc i).z)) i) τ
        ((s.loc i).x, if v2 then (s.loc i).table else c.sample i (s.loc i).x) (ωs i)).1 ∧
      ∀ j, (s'.loc i).z j = if j ∈ n.nbrs i then (1 - α) • (s.loc i).z j - α • ((s.loc j).z i - (2 * ρ) • (s'.loc j).x) else (s.loc i).z j := by
  obtain ⟨s1, ωs, h1, g1, i1, l1⟩ := forActive_own h.ideal h.wf (fun i _ (a : LtVr A E) ω =>
      let correction := β • ((ρ * ((n.nbrs i).length : ℝ)) • a.x - rowSumZ n i a.z)
      let table := if v2 then a.table else c.sample i a.x
      let r := repeatN (ltVrLocal c γ correction i) τ (a.x, table) ω
      ({ a with phi := r.1.1, x := r.1.1, table := r.1.2 }, r.2)) (adv n k s) (good_step n _ k)
  obtain ⟨s2, h2, p2⟩ := exchangeZ h ρ α (fun a : LtVr A E => a.x) (fun a => a.z) (fun a f => { a with z := f }) (fun _ _ => rfl) s1 g1
  have hx : ∀ i ∈ n.nodes, (s2.loc i).x = (s1.loc i).x ∧ (s2.loc i).table = (s1.loc i).table := by
    intro i hi
    obtain ⟨⟨f, hf⟩, _⟩ := p2 i hi
    rw [hf]; exact ⟨rfl, rfl⟩
  refine ⟨s2, ωs, ?_, fun i hi => ⟨?_, fun j => ?_⟩⟩
  · simp only [ltAdmmVr, h1, bind, Except.bind]; exact h2
  · rw [(hx i hi).1, (hx i hi).2, l1 i hi]; rfl
  · rw [(p2 i hi).2 j]
    split
    · rename_i hj
      have hjn := h.wf.nbrs_mem i j hj
      rw [(hx j hjn).1, l1 i hi, l1 j hjn]; rfl
    · rw [l1 i hi]; rfl

/-- one LT-ADMM iteration under arbitrary activation and losses -/
theorem ltAdmm_step_lossy {w : World A E Ω} {n : Net A} (h : Plain w n) (hw : n.WF) (grad : Grad A E Ω) (ρ α γ β : ℝ) (τ : Nat)
    (k : Int) (s : Sys A E Ω (LtAdmm A E)) :
    ∃ (s' : Sys A E Ω (LtAdmm A E)) (act : List A) (ωs : A → Ω), (ltAdmm grad ρ α γ β τ).step w n k (adv n k s) = .ok s' ∧ ActiveIn w n k act ∧ ∀ i ∈ n.nodes,
      ((s'.loc i).x = if i ∈ act then (repeatN (fun phi ω => let g := grad i phi ω
        (phi - (γ • g.1 + β • ((ρ * ((n.nbrs i).length : ℝ)) • (s.loc i).x - rowSumZ n i (s.loc i).z)), g.2)) τ (s.loc i).x (ωs i)).1 else (s.loc i).x) ∧
      ∀ j, (i ∈ act ∧ j ∈ act ∧ j ∈ n.nbrs i ∧ (s'.loc i).z j = (1 - α) • (s.loc i).z j - α • ((s.loc j).z i - (2 * ρ) • (s'.loc j).x)) ∨
        (((s'.loc i).z j = (s.loc i).z j) ∧ ¬ (i ∈ act ∧ j ∈ act ∧ j ∈ n.nbrs i ∧ ∀ ω, (w.shouldDrop j ω).1 = false)) := by
  obtain ⟨s1, act, ωs, h1, hact, g1, e1, l1⟩ := first_round h hw (fun i _ (a : LtAdmm A E) ω =>
      let correction := β • ((ρ * ((n.nbrs i).length : ℝ)) • a.x - rowSumZ n i a.z)
      let r := repeatN (fun phi ω => let g := grad i phi ω; (phi - (γ • g.1 + correction), g.2)) τ a.x ω
      ({ a with phi := r.1, x := r.1 }, r.2)) k s
  obtain ⟨s2, h2, g2, l2, t2⟩ := later_tell h hw (fun _ (a : LtAdmm A E) j => [(Chan.dflt, a.z j - (2 * ρ) • a.x)]) act hact.nodup hact.sub s1 g1
  obtain ⟨s3, ωs', h3, g3, i3, l3⟩ := later_round (w := w) (fun _ inbox (a : LtAdmm A E) (ω : Ω) => ({ a with z := absorb α (inbox.byChannel .dflt) a.z }, ω)) act hact.nodup s2 g2
  have hz1 : ∀ i, (s1.loc i).z = (s.loc i).z := by intro i; rw [l1 i]; split <;> rfl
  have hx3 : ∀ i, (s3.loc i).x = (s1.loc i).x := by intro i; rw [l3 i, l2]; split <;> rfl
  refine ⟨s3, act, ωs, ?_, hact, fun i hi => ⟨?_, fun j => ?_⟩⟩
  · simp only [ltAdmm, h1, h2, bind, Except.bind]; exact h3
  · rw [hx3 i, l1 i]
    split <;> rfl
  · by_cases hia : i ∈ act
    · have hwf : ((s2.net.inbox i).byChannel .dflt).WF := by
        unfold Inbox.byChannel
        cases hc : (s2.net.inbox i).messages.get? .dflt with
        | none => exact PyDict.wf_empty
        | some d => exact (g2.inbox i hi).bucket _ _ hc
      have hz : (s3.loc i).z j = match (s2.net.inbox i).abs .dflt j with
          | some m => (1 - α) • (s.loc i).z j - α • m
          | none => (s.loc i).z j := by
        rw [l3 i, if_pos hia, l2]
        simp only
        rw [absorb_get α _ hwf, Inbox.get?_byChannel, hz1]
      rcases t2.weak i .dflt j with e | ⟨ja, hij, _, m, hm, e⟩
      · right
        rw [e1 i hi] at e
        refine ⟨by rw [hz, e], ?_⟩
        rintro ⟨_, ja, jn, hd⟩
        have := t2.strong j ja hd i (hw.symm i j jn) hia .dflt
        rw [e] at this
        simp [lastOn] at this
      · left
        refine ⟨hia, ja, hw.symm j i hij, ?_⟩
        rw [hz, e]
        simp only [List.mem_singleton, Prod.mk.injEq, true_and] at hm
        rw [hm, hz1, hx3]
    · right
      refine ⟨?_, fun hh => hia hh.1⟩
      rw [l3 i, if_neg hia, l2, hz1]

end Verif
