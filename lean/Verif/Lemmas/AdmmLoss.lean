import Verif.Lemmas.Admm
import Verif.Lemmas.CoinTape
set_option linter.unusedSectionVars false
/-! # One ADMM iteration, described by the agents that were active and the messages that were received (for C111) -/
namespace Verif
open NetState Sys P2P

section
variable {A E Ω : Type} [DecidableEq A] [AddCommGroup E] [Module ℝ E]

/-- one ADMM iteration under arbitrary activation and losses, in terms of `network.active_agents()` and `i.messages()` at its end -/
theorem admm_step_seen {w : World A E Ω} {n : Net A} (h : Plain w n) (hw : n.WF) (prox : Prox A E Ω) (n0 : Net A) (ρ α : ℝ) (z0 : A → E) (b : Bool)
    (k : Int) (s : Sys A E Ω (Admm A E)) :
    ∃ (s' : Sys A E Ω (Admm A E)) (ωs : A → Ω), (admm prox n0 ρ α z0 b).step w n k (adv n k s) = .ok s' ∧
      (s'.net.activeAgents w n).1 = (filterActive w k n.queryAgents s.net.ω).1 ∧
      (∀ {T : Type} (left : Ω → T), Untouched w left → (∀ i v p ω, left (prox i v p ω).2 = left ω) → left s'.net.ω = left s.net.ω) ∧
      ∀ i ∈ n.nodes,
      ((s'.loc i).x = if i ∈ (s'.net.activeAgents w n).1 then (prox i (admmRho n ρ i • rowSumZ n i (s.loc i).z) (admmRho n ρ i) (ωs i)).1 else (s.loc i).x) ∧
      ∀ j, (s'.loc i).z j = (if (((s'.net.inbox i).byChannel .dflt).get? j).isSome then
          (1 - α) • (s.loc i).z j - α • ((s.loc j).z i - (2 * ρ) • (s'.loc j).x) else (s.loc i).z j) ∧
        ((((s'.net.inbox i).byChannel .dflt).get? j).isSome → i ∈ (s'.net.activeAgents w n).1 ∧ j ∈ (s'.net.activeAgents w n).1 ∧ j ∈ n.nbrs i) ∧
        ((∀ ω, (w.shouldDrop j ω).1 = false) → j ∈ n.nbrs i → i ∈ (s'.net.activeAgents w n).1 → j ∈ (s'.net.activeAgents w n).1 →
          (((s'.net.inbox i).byChannel .dflt).get? j).isSome) := by
  obtain ⟨s1, act, ωs, h1, hact, g1, e1, l1⟩ := first_round h hw (fun i _ (a : Admm A E) ω =>
      let r := prox i (admmRho n ρ i • rowSumZ n i a.z) (admmRho n ρ i) ω
      ({ a with x := r.1 }, r.2)) k s
  obtain ⟨s2, h2, g2, l2, t2⟩ := later_tell h hw (fun _ (a : Admm A E) j => [(Chan.dflt, a.z j - (2 * ρ) • a.x)]) act hact.nodup hact.sub s1 g1
  obtain ⟨s3, ωs', h3, g3, i3, l3⟩ := later_round (w := w) (fun _ inbox (a : Admm A E) (ω : Ω) => ({ a with z := absorb α (inbox.byChannel .dflt) a.z }, ω)) act hact.nodup s2 g2
  have hz1 : ∀ i, (s1.loc i).z = (s.loc i).z := by intro i; rw [l1 i]; split <;> rfl
  have hx3 : ∀ i, (s3.loc i).x = (s1.loc i).x := by intro i; rw [l3 i, l2]; split <;> rfl
  have hcache : s1.net.activeCache = some (filterActive w k n.queryAgents s.net.ω).1 := by
    have hh := h1
    unfold forActive at hh
    dsimp only at hh
    exact (left_foldlM (fun s : Sys A E Ω (Admm A E) => s.net.activeCache) _ (fun s i s' hb => by unfold own at hb; cases hb; rfl) _ _ s1 hh)
  have hact' : act = (filterActive w k n.queryAgents s.net.ω).1 := by
    have := g1.cache
    rw [hcache] at this
    injection this with this
    exact this.symm
  have hact3 : (s3.net.activeAgents w n).1 = act := by
    obtain ⟨q1, q2, q3, q4, q5, q6, q7⟩ := activeAgents_spec w n s3.net g3.cinv
    rw [q7 act g3.cache]
  refine ⟨s3, ωs, ?_, by rw [hact3, hact'], fun {T} left hu hp => ?_, fun i hi => ⟨?_, fun j => ?_⟩⟩
  · simp only [admm, h1, h2, bind, Except.bind]; exact h3
  · have a1 := left_forActive hu _ (fun i s s' hb => left_own _ (fun i _ a ω => ?_) i s s' hb) _ _ h1
    rotate_left
    · exact hp _ _ _ _
    have a2 : left s2.net.ω = left s1.net.ω := by
      refine left_forActive hu _ (fun i s s' hb => ?_) _ _ h2
      unfold tellEach at hb
      dsimp only at hb
      refine (left_foldlM (fun s : Sys A E Ω (Admm A E) => left s.net.ω) _ (fun s j s' hb => ?_) _ _ s' hb).trans (left_activeConnected hu i s.net)
      refine left_foldlM (fun s : Sys A E Ω (Admm A E) => left s.net.ω) _ (fun s m s' hb => ?_) _ _ s' hb
      unfold sendOne at hb
      have hs := left_send hu (n := n) i (.one j) (some m.2) m.1 s.net
      revert hb hs
      cases s.net.send w n i (.one j) (some m.2) m.1 with
      | mk t r =>
        cases r with
        | error e => intro hb; cases hb
        | ok u => intro hb hs; cases hb; exact hs
    have a3 := left_forActive hu _ (fun i s s' hb => left_own _ (fun i _ a ω => rfl) i s s' hb) _ _ h3
    rw [a3, a2]; exact a1
  · rw [hx3 i, l1 i, hact3]
    split <;> rfl
  · rw [hact3, i3, Inbox.get?_byChannel]
    by_cases hia : i ∈ act
    · have hwf : ((s2.net.inbox i).byChannel .dflt).WF := by
        unfold Inbox.byChannel
        cases hc : (s2.net.inbox i).messages.get? .dflt with
        | none => exact PyDict.wf_empty
        | some d => exact (g2.inbox i hi).bucket _ _ hc
      have hz : (s3.loc i).z j = match (s2.net.inbox i).abs .dflt j with
          | some m => (1 - α) • (s.loc i).z j - α • m
          | none => (s.loc i).z j := by
        rw [l3 i, if_pos hia, l2]
        simp only
        rw [absorb_get α _ hwf, Inbox.get?_byChannel, hz1]
        rfl
      rcases t2.weak i .dflt j with e | ⟨ja, hij, _, m, hm, e⟩
      · rw [e1 i hi] at e
        refine ⟨by rw [hz, e]; rfl, fun hh => ?_, fun hd jn _ ja => ?_⟩
        · rw [e] at hh; cases hh
        · have ht := t2.strong j ja hd i (hw.symm i j jn) hia .dflt
          rw [e] at ht
          simp [lastOn] at ht
      · refine ⟨?_, fun _ => ⟨hia, ja, hw.symm j i hij⟩, fun _ _ _ _ => by rw [e]; rfl⟩
        rw [hz, e]
        simp only [List.mem_singleton, Prod.mk.injEq, true_and] at hm
        rw [hm, hz1, hx3]; rfl
    · have hno : (s2.net.inbox i).abs .dflt j = none := by
        rcases t2.weak i .dflt j with e | ⟨_, _, hh, _⟩
        · rw [e, e1 i hi]
        · exact absurd hh hia
      rw [hno]
      refine ⟨?_, fun hh => (by cases hh), fun _ _ hh _ => absurd hh hia⟩
      rw [l3 i, if_neg hia, l2, hz1]; rfl

end
end Verif
