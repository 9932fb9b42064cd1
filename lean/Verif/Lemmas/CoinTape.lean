import Verif.Lemmas.P2PSteps
set_option linter.unusedSectionVars false
/-!
# What the oracle state `Ω` still holds

`left ω` is any view of the oracle state (for example the coin flips still to come). If neither the schemes nor the gradients touch it,
it is unchanged by all of an iteration except the explicit coin flip. Used for C106.
-/
namespace Verif
open NetState Sys P2P

section
variable {A C E Ω α T : Type} [DecidableEq A] [DecidableEq C]

/-- the schemes attached to the agents leave the view `left` of the oracle state alone -/
structure Untouched (w : World A E Ω) (left : Ω → T) : Prop where
  active : ∀ a k ω, left (w.isActive a k ω).2 = left ω
  drop : ∀ a ω, left (w.shouldDrop a ω).2 = left ω
  compress : ∀ a v ω, left (w.compress a v ω).2 = left ω
  noise : ∀ a m v ω, left (w.makeNoise a m v ω).2 = left ω

variable {w : World A E Ω} {left : Ω → T} (h : Untouched w left) {n : Net A}
include h

theorem left_filterActive (it : Int) (l : List A) : ∀ ω, left (filterActive w it l ω).2 = left ω := by
  induction l with
  | nil => intro ω; rfl
  | cons a t ih => intro ω; rw [filterActive]; dsimp only; rw [ih, h.active]

theorem left_activeAgents (s : NetState A C E Ω) : left (s.activeAgents w n).2.ω = left s.ω := by
  unfold activeAgents
  split
  · rfl
  · exact left_filterActive h _ _ _

theorem left_activeConnected (a : A) (s : NetState A C E Ω) : left (s.activeConnected w n a).2.ω = left s.ω := by
  unfold activeConnected
  split
  · rfl
  · exact left_activeAgents h s

theorem left_confirm (a : A) (l : List A) : ∀ ω, left (confirm w a l ω).2 = left ω := by
  induction l with
  | nil => intro ω; rfl
  | cons b t ih => intro ω; rw [confirm]; dsimp only; rw [ih, h.drop]

omit h in
theorem transmit_oracle (a : A) (ch : C) (inc : Rat) (m : E) (ν : Option (Nat → E)) (l : List A) :
    ∀ (i : Nat) (s : NetState A C E Ω), (transmit w a ch inc m ν i l s).ω = s.ω := by
  induction l with
  | nil => intro i s; rfl
  | cons b t ih => intro i s; rw [transmit, ih]

theorem left_deliver (a : A) (l : List A) (m : E) (ch : C) (s : NetState A C E Ω) : left (s.deliver w a l m ch).ω = left s.ω := by
  unfold deliver
  dsimp only
  rw [transmit_oracle, h.noise, h.compress, left_confirm h]

theorem left_send (a : A) (r : Recv A) (m : Option E) (ch : C) (s : NetState A C E Ω) : left (s.send w n a r m ch).1.ω = left s.ω := by
  unfold send sendBase
  cases m with
  | none => rfl
  | some m =>
    dsimp only
    by_cases hn : a ∉ n.nodes
    · rw [if_pos hn]
    · rw [if_neg hn]
      have go : ∀ (l : List A) (t : NetState A C E Ω), left t.ω = left s.ω →
          left (if l.all (fun r => decide (r ∈ (allowedBase w n a t).1)) then ((allowedBase w n a t).2.deliver w a l m ch, (Except.ok () : Py Unit))
            else ((allowedBase w n a t).2, .error .valueError)).1.ω = left s.ω := by
        intro l t ht
        split
        · rw [left_deliver h]; exact (left_activeConnected h a t).trans ht
        · exact (left_activeConnected h a t).trans ht
      cases r with
      | none => exact go _ _ (left_activeConnected h a s)
      | one b =>
        dsimp only
        split
        · rfl
        · exact go _ _ rfl
      | many l => exact go _ _ rfl

theorem left_broadcast (ch : Chan) (m : E) (i : A) (s s' : Sys A E Ω α) (hb : broadcast w n ch m i s = .ok s') : left s'.net.ω = left s.net.ω := by
  unfold broadcast at hb
  have hs := left_send h (n := n) i .none (some m) ch s.net
  revert hb hs
  cases s.net.send w n i .none (some m) ch with
  | mk t r =>
    cases r with
    | error e => intro hb; cases hb
    | ok u => intro hb hs; cases hb; exact hs

omit h in
theorem left_foldlM {S B : Type} (view : S → T) (f : S → B → Py S) (hf : ∀ s b s', f s b = .ok s' → view s' = view s) :
    ∀ (l : List B) (s s' : S), l.foldlM f s = .ok s' → view s' = view s := by
  intro l
  induction l with
  | nil => intro s s' h; cases h; rfl
  | cons b t ih =>
    intro s s' h
    rw [List.foldlM_cons] at h
    cases hb : f s b with
    | error e => rw [hb] at h; cases h
    | ok s1 =>
      rw [hb] at h
      exact (ih s1 s' h).trans (hf s b s1 hb)

theorem left_say (g : A → α → α) (msgs : A → α → List (Chan × E)) (i : A) (s s' : Sys A E Ω α) (hb : say w n g msgs i s = .ok s') :
    left s'.net.ω = left s.net.ω := by
  unfold say at hb
  dsimp only at hb
  exact left_foldlM (fun s : Sys A E Ω α => left s.net.ω) (fun s (m : Chan × E) => broadcast w n m.1 m.2 i s)
    (fun s b s' hb => left_broadcast h _ _ _ s s' hb) _ { net := s.net, loc := upd s.loc i (g i (s.loc i)) } s' hb

theorem left_forActive (body : A → Sys A E Ω α → Py (Sys A E Ω α)) (hbody : ∀ i s s', body i s = .ok s' → left s'.net.ω = left s.net.ω)
    (s s' : Sys A E Ω α) (hb : forActive w n body s = .ok s') : left s'.net.ω = left s.net.ω := by
  unfold forActive at hb
  dsimp only at hb
  refine (left_foldlM (fun s : Sys A E Ω α => left s.net.ω) _ (fun s i s' hb => hbody i s s' hb) _ _ s' hb).trans ?_
  exact left_activeAgents h s.net

omit h in
theorem left_own (f : A → Inbox Chan A E → α → Ω → α × Ω) (hf : ∀ i b a ω, left (f i b a ω).2 = left ω) (i : A) (s s' : Sys A E Ω α) (hb : own f i s = .ok s') :
    left s'.net.ω = left s.net.ω := by
  unfold own at hb
  cases hb
  exact hf _ _ _ _

omit h in
theorem left_init (alg : P2PAlg A E Ω α) (hi : ∀ i x ω, left (alg.init i x ω).2 = left ω) (x0 : A → E) (l : List A) : ∀ s : Sys A E Ω α,
    left (P2PAlg.initLoop alg x0 l s).net.ω = left s.net.ω := by
  induction l with
  | nil => intro s; rfl
  | cons a t ih => intro s; rw [P2PAlg.initLoop]; dsimp only; rw [ih]; exact hi _ _ _

end

section
variable {A E Ω T : Type} [DecidableEq A] [AddCommGroup E] [Module ℝ E]

/-- one iteration of ProxSkip, with the coin as the next entry of a tape of flips that nothing else reads -/
theorem proxSkip_tape {w : World A E Ω} {n : Net A} (h : Lossless w n) (grad : Grad A E Ω) (coin : Ω → Bool × Ω)
    (W : A → A → ℝ) (χ : ℝ) (hs : Supported n (relaxed χ W)) (ρ β : ℝ) {left : Ω → T} {next : T → Bool × T} (hl : Untouched w left)
    (hgrad : ∀ i x ω, left (grad i x ω).2 = left ω) (hcoin : ∀ ω, (coin ω).1 = (next (left ω)).1 ∧ left (coin ω).2 = (next (left ω)).2)
    (k : Int) (s : Sys A E Ω (Skip E)) (b : Bool) (t : T) (hb : next (left s.net.ω) = (b, t)) :
    ∃ s', ∃ ωs : A → Ω, (proxSkip grad coin W ρ β χ).step w n k (adv n k s) = .ok s' ∧ left s'.net.ω = t ∧
      (∀ i ∈ n.nodes, (s'.loc i).z = (s.loc i).x - ρ • (grad i (s.loc i).x (ωs i)).1 - (s.loc i).y) ∧
      (b = true → ∀ i ∈ n.nodes, (s'.loc i).x = applyW n (relaxed χ W) (fun j => (s'.loc j).z) i ∧
        (s'.loc i).y = (s.loc i).y + β • ((s'.loc i).z - (s'.loc i).x)) ∧
      (b = false → ∀ i ∈ n.nodes, (s'.loc i).x = (s'.loc i).z ∧ (s'.loc i).y = (s.loc i).y) := by
  obtain ⟨s1, ωs, h1, g1, i1, l1⟩ := forActive_own h.ideal h.wf (fun i _ (a : Skip E) ω =>
      let g := grad i a.x ω
      ({ a with z := a.x - ρ • g.1 - a.y }, g.2)) (adv n k s) (good_step n _ k)
  have t1 : left s1.net.ω = left s.net.ω := by
    have e := left_forActive hl _ (fun i s s' hb => left_own _ (fun i _ a ω => ?_) i s s' hb) _ _ h1
    · exact e
    · exact hgrad _ _ _
  set s1' : Sys A E Ω (Skip E) := { s1 with net := { s1.net with ω := (coin s1.net.ω).2 } } with hs1'
  have t1' : left s1'.net.ω = t := by rw [hs1', (hcoin s1.net.ω).2, t1, hb]
  have g1' : Good n s1'.net := ⟨⟨g1.cinv.active, g1.cinv.conn⟩, g1.inbox, g1.nbr, g1.full⟩
  have hbc : (coin s1.net.ω).1 = b := by rw [(hcoin s1.net.ω).1, t1, hb]
  by_cases hθ : (coin s1.net.ω).1 = true
  · obtain ⟨s2, h2, g2, l2, m2, _⟩ := say_mix h (fun _ a => a) .dflt (fun a : Skip E => a.z) s1' g1'
    have t2 : left s2.net.ω = t := (left_forActive hl _ (fun i s s' hb => left_say hl _ _ i s s' hb) _ _ h2).trans t1'
    obtain ⟨s3, ωs3, h3, g3, i3, l3⟩ := forActive_own h.ideal h.wf (fun i inbox (a : Skip E) ω =>
        let x := mix (relaxed χ W) i a.z (inbox.byChannel .dflt)
        ({ a with x := x, y := a.y + β • (a.z - x) }, ω)) s2 g2
    have t3 : left s3.net.ω = t := (left_forActive hl _ (fun i s s' hb => left_own _ (fun i _ a ω => rfl) i s s' hb) _ _ h3).trans t2
    have ez : ∀ i ∈ n.nodes, (s3.loc i).z = (s1.loc i).z := by
      intro i hi; rw [l3 i hi, l2 i hi]
    refine ⟨s3, ωs, ?_, t3, fun i hi => ?_, fun _ i hi => ?_, fun hf => ?_⟩
    · simp only [proxSkip, h1, bind, Except.bind, hθ, if_true]
      rw [← hs1', h2]
      exact h3
    · rw [ez i hi, l1 i hi]; rfl
    · have hm := m2 _ hs i hi
      try simp only at hm
      have ex : (s3.loc i).x = applyW n (relaxed χ W) (fun j => (s3.loc j).z) i := by
        rw [l3 i hi, l2 i hi]
        try simp only
        rw [hm]
        exact applyW_congr n _ (fun j hj => (ez j hj).symm) i
      refine ⟨ex, ?_⟩
      have ey : (s3.loc i).y = (s1.loc i).y + β • ((s3.loc i).z - (s3.loc i).x) := by
        rw [l3 i hi, l2 i hi]
      rw [ey, l1 i hi]; rfl
    · rw [hbc, hf] at hθ; cases hθ
  · obtain ⟨s3, ωs3, h3, g3, i3, l3⟩ := forActive_own h.ideal h.wf (fun _ _ (a : Skip E) ω =>
      ({ a with x := a.z }, ω)) s1' g1'
    have t3 : left s3.net.ω = t := (left_forActive hl _ (fun i s s' hb => left_own _ (fun i _ a ω => rfl) i s s' hb) _ _ h3).trans t1'
    refine ⟨s3, ωs, ?_, t3, fun i hi => ?_, fun hf => ?_, fun _ i hi => ?_⟩
    · simp only [proxSkip, h1, bind, Except.bind, hθ, Bool.false_eq_true, if_false]
      exact h3
    · rw [l3 i hi]; show (s1.loc i).z = _; rw [l1 i hi]; rfl
    · rw [hbc] at hθ; exact absurd hf hθ
    · rw [l3 i hi]
      refine ⟨rfl, ?_⟩
      show (s1.loc i).y = _
      rw [l1 i hi]; rfl

end
end Verif
