import Mathlib.Tactic.Linarith
import Mathlib.Tactic.Ring
import Verif.Model.Run
import Verif.Lemmas.History
set_option linter.unusedSectionVars false
/-!
# C02, C21, C22: runs, snapshots, initial states
-/
namespace Verif.Props

/-! ## C21: the schedule -/
section C21

/-- what `run` does, in order -/
inductive RunEvent where
  | initialize | advance (k : Int) | step (k : Int) | snapshot (it : Int) (force : Bool) | callback (k : Int)
  deriving DecidableEq, Repr

/-- operations that only record their call -/
def recorder : RunOps (List RunEvent) where
  setup s := .ok (s ++ [.initialize])
  netStep k s := s ++ [.advance k]
  step k s := .ok (s ++ [.step k])
  snapshot it f s := .ok (s ++ [.snapshot it f])
  callback k s := .ok (s ++ [.callback k])

/-- the calls belonging to iteration `k` of a run with `N` iterations -/
def iterationEvents (N k : Int) : List RunEvent :=
  [.advance k, .step k, .snapshot (k + 1) (decide (k + 1 = N)), .callback k]

variable {σ : Type}

/-- `run` raises ValueError, without any effect, exactly for a start outside `[0, N]`. -/
theorem C21_guard (o : RunOps σ) (N start : Int) (s : σ) (h : ¬ (0 ≤ start ∧ start ≤ N)) :
    o.run N start s = .error .valueError := by
  unfold RunOps.run
  rw [if_pos (by omega)]

theorem recorder_loop (N : Int) (n : Nat) (k : Int) (s : List RunEvent) :
    recorder.loop N n k s = .ok (s ++ (List.range n).flatMap (fun i : Nat => iterationEvents N (k + (i : Int)))) := by
  induction n generalizing k s with
  | zero => simp [RunOps.loop]
  | succ n ih =>
    have hb : recorder.body N k s = .ok (s ++ iterationEvents N k) := by
      simp [RunOps.body, recorder, iterationEvents, bind, Except.bind]
      by_cases h : k + 1 = N <;> simp [h]
    simp only [RunOps.loop, hb, bind, Except.bind]
    rw [ih, List.range_succ_eq_map, List.flatMap_cons, List.flatMap_map, List.append_assoc]
    simp only [Nat.cast_zero, add_zero, Except.ok.injEq]
    congr 2
    congr 1
    funext i
    congr 1
    push_cast; ring

/-- Exactly the scheduled calls, in order: initialise iff starting at 0, then for each `k = start..N-1` once: network
advance, step, snapshot labelled `k+1` (forced exactly at `N`), callback. -/
theorem C21_schedule (N start : Int) (h0 : 0 ≤ start) (h1 : start ≤ N) :
    recorder.run N start [] = .ok ((if start = 0 then [.initialize] else []) ++
      (List.range (N - start).toNat).flatMap (fun i : Nat => iterationEvents N (start + (i : Int)))) := by
  unfold RunOps.run
  rw [if_neg (by omega)]
  by_cases h : start = 0
  · simp only [h, if_true, bind, Except.bind, recorder_loop]
    simp [recorder]
  · simp only [h, if_false, bind, Except.bind]
    rw [recorder_loop]

example : recorder.run 2 0 [] = .ok [.initialize, .advance 0, .step 0, .snapshot 1 false, .callback 0,
    .advance 1, .step 1, .snapshot 2 true, .callback 1] := by decide
example : recorder.run 3 2 [] = .ok [.advance 2, .step 2, .snapshot 3 true, .callback 2] := by decide

/-- An exception in any of the calls ends the run with that exception: a step that raises in iteration `k` is the last
call. -/
theorem C21_exception (o : RunOps σ) (N : Int) (n : Nat) (k : Int) (s : σ) (e : PyErr)
    (h : o.step k (o.netStep k s) = .error e) : o.loop N (n + 1) k s = .error e := by
  simp [RunOps.loop, RunOps.body, h, bind, Except.bind]

/-- iterations must be positive -/
theorem C21_iterations_guard (N : Int) (sub : Py Unit) :
    (N ≤ 0 → algorithmPostInit N sub = .error .valueError) ∧ (0 < N → algorithmPostInit N sub = sub) := by
  unfold algorithmPostInit
  exact ⟨fun h => if_pos h, fun h => if_neg (by omega)⟩

theorem loop_append (o : RunOps σ) (N : Int) (a b : Nat) (k : Int) (s : σ) :
    o.loop N (a + b) k s = (o.loop N a k s >>= fun s => o.loop N b (k + a) s) := by
  induction a generalizing k s with
  | zero => simp [RunOps.loop, bind, Except.bind]
  | succ a ih =>
    rw [show a + 1 + b = (a + b) + 1 by omega]
    simp only [RunOps.loop]
    cases hb : o.body N k s with
    | error e => rfl
    | ok s' =>
      simp only [bind, Except.bind] at ih ⊢
      rw [ih]
      congr 1
      funext s''
      congr 1
      push_cast; ring

end C21

/-! ## C02 -/
section C02
variable {A V ρ : Type} [DecidableEq A]
open HAlg

/-- Reference trajectory: the states at the end of iterations `k+1, ..., k+n` (after `step`), and the state after the last
callback. -/
def endStates (g : HAlg A V ρ) : Nat → Int → ρ → Py (List ρ × ρ)
  | 0, _, r => .ok ([], r)
  | n + 1, k, r => do
    let m ← g.step k (g.netStep k r)
    let r' ← g.callback k m
    let rest ← endStates g n (k + 1) r'
    .ok (m :: rest.1, rest.2)

/-- is iteration `it` recorded for an agent of period `p` (ignoring iteration 0) -/
def due (p it : Int) (force : Bool) : Prop := force = true ∨ it % p = 0

theorem snapHist_ok (p : Int) (x : Option V) (it : Int) (hit : 0 ≤ it) (force : Bool) (h : History V) :
    ∃ h', snapHist p x it force h = .ok h' ∧ (h.Inv → h'.Inv) ∧
      (∀ j, j ≠ it → h'.x.get? j = h.x.get? j) ∧
      (∀ v, x = some v → due p it force → h'.x.get? it = some v) ∧
      (¬ due p it force → h' = h) := by
  unfold snapHist due
  by_cases hd : force = true ∨ it % p = 0
  · have hc : (force || it % p == 0) = true := by simpa using hd
    simp only [hc, if_true]
    cases x with
    | none => exact ⟨h, rfl, id, fun _ _ => rfl, by simp, fun hn => absurd hd hn⟩
    | some v =>
      have : ∃ h', h.setX it v = .ok h' := by
        unfold History.setX; rw [if_neg (by omega)]; exact ⟨_, rfl⟩
      obtain ⟨h', e⟩ := this
      refine ⟨h', e, fun hi => History.inv_setX hi e, fun j hj => ?_, fun w hw _ => ?_, fun hn => absurd hd hn⟩
      · rw [History.get?_setX e, if_neg hj]
      · rw [History.get?_setX e, if_pos rfl, ← hw]
  · have hc : ¬ (force || it % p == 0) = true := by simpa using hd
    simp only [hc, if_false]
    exact ⟨h, rfl, id, fun _ _ => rfl, fun _ _ h => absurd h hd, fun _ => rfl⟩

theorem snapAll_ok (g : HAlg A V ρ) (it : Int) (hit : 0 ≤ it) (force : Bool) (l : List A) (hnd : l.Nodup)
    (s : HSys A V ρ) :
    ∃ s', snapAll g it force l s = .ok s' ∧ s'.rest = s.rest ∧
      (∀ a, (s.hist a).Inv → (s'.hist a).Inv) ∧
      (∀ a j, j ≠ it → (s'.hist a).x.get? j = (s.hist a).x.get? j) ∧
      (∀ a ∈ l, ∀ v, g.xOf s.rest a = some v → due (g.period a) it force → (s'.hist a).x.get? it = some v) ∧
      (∀ a, (a ∉ l ∨ ¬ due (g.period a) it force) → s'.hist a = s.hist a) := by
  induction l generalizing s with
  | nil => exact ⟨s, rfl, rfl, fun _ h => h, fun _ _ _ => rfl, by simp, fun _ _ => rfl⟩
  | cons a t ih =>
    obtain ⟨h', he, hinv, hne, hval, hnd'⟩ := snapHist_ok (g.period a) (g.xOf s.rest a) it hit force (s.hist a)
    obtain ⟨s', hs, hr, hI, hN, hV, hU⟩ := ih (List.nodup_cons.1 hnd).2
      { s with hist := fun b => if b = a then h' else s.hist b }
    have hat := (List.nodup_cons.1 hnd).1
    refine ⟨s', ?_, hr, ?_, ?_, ?_, ?_⟩
    · simp only [snapAll, he, bind, Except.bind]; exact hs
    · intro b hb
      apply hI
      by_cases h : b = a
      · subst h; simpa using hinv hb
      · simpa [h] using hb
    · intro b j hj
      rw [hN b j hj]
      by_cases h : b = a
      · subst h; simpa using hne j hj
      · simp [h]
    · intro b hb v hv hd
      rcases List.mem_cons.1 hb with rfl | hb
      · rw [hU b (Or.inl hat)]
        simpa using hval v hv hd
      · exact hV b hb v hv hd
    · intro b hb
      by_cases h : b = a
      · subst h
        have hnd2 : ¬ due (g.period b) it force := by
          rcases hb with hb | hb
          · exact absurd (by simp) hb
          · exact hb
        rw [hU b (Or.inl hat)]
        simpa using hnd' hnd2
      · have : b ∉ t ∨ ¬ due (g.period b) it force := by
          rcases hb with hb | hb
          · exact Or.inl (fun hm => hb (by simp [hm]))
          · exact Or.inr hb
        rw [hU b this]; simp [h]

/-- effect of the loop on the rest and on the histories -/
theorem hloop_ok (g : HAlg A V ρ) (hnd : g.agents.Nodup) (N : Int) (n : Nat) (k : Int) (hk : 0 ≤ k)
    (s t : HSys A V ρ) (h : g.ops.loop N n k s = .ok t) :
    ∃ l f, endStates g n k s.rest = .ok (l, f) ∧ l.length = n ∧ t.rest = f ∧
      (∀ a, (s.hist a).Inv → (t.hist a).Inv) ∧
      (∀ a j, (j ≤ k ∨ k + n < j) → (t.hist a).x.get? j = (s.hist a).x.get? j) ∧
      (∀ a ∈ g.agents, ∀ (i : Nat) (r : ρ), l[i]? = some r →
        (∀ v, g.xOf r a = some v → due (g.period a) (k + i + 1) (decide (k + i + 1 = N)) →
          (t.hist a).x.get? (k + i + 1) = some v) ∧
        (¬ due (g.period a) (k + i + 1) (decide (k + i + 1 = N)) →
          (t.hist a).x.get? (k + i + 1) = (s.hist a).x.get? (k + i + 1))) := by
  induction n generalizing k s with
  | zero =>
    simp only [RunOps.loop, Except.ok.injEq] at h
    subst h
    exact ⟨[], s.rest, rfl, rfl, rfl, fun _ h => h, fun _ _ _ => rfl, by simp⟩
  | succ n ih =>
    simp only [RunOps.loop] at h
    cases hb : g.ops.body N k s with
    | error e => rw [hb] at h; simp [bind, Except.bind] at h
    | ok s2 =>
      rw [hb] at h
      simp only [bind, Except.bind] at h
      -- unfold the body
      simp only [RunOps.body, ops, bind, Except.bind] at hb
      cases hst : g.step k (g.netStep k s.rest) with
      | error e => simp [hst] at hb
      | ok m =>
        simp only [hst] at hb
        obtain ⟨s1, hs1, hr1, hI1, hN1, hV1, hU1⟩ := snapAll_ok g (k + 1) (by omega) (k + 1 == N) g.agents hnd
          { rest := m, hist := s.hist }
        simp only [hs1] at hb
        cases hcb : g.callback k s1.rest with
        | error e => simp [hcb] at hb
        | ok r' =>
          simp only [hcb, Except.ok.injEq] at hb
          subst hb
          obtain ⟨l, f, hl, hlen, hf, hI, hO, hE⟩ := ih (k + 1) (by omega) _ h
          simp only at hr1 hI hO hE hl hN1 hV1 hU1 hI1
          rw [hr1] at hcb
          refine ⟨m :: l, f, ?_, by simp [hlen], hf, fun a ha => hI a (hI1 a ha), ?_, ?_⟩
          · simp [endStates, hst, hcb, hl, bind, Except.bind]
          · intro a j hj
            rw [hO a j (by push_cast at hj; omega), hN1 a j (by omega)]
          · intro a ha i r hi
            cases i with
            | zero =>
              simp only [List.getElem?_cons_zero, Option.some.injEq] at hi
              subst hi
              have e0 : k + ((0 : Nat) : Int) + 1 = k + 1 := by simp
              rw [e0, hO a (k + 1) (by omega)]
              have hforce : (k + 1 == N) = decide (k + 1 = N) := by
                by_cases hh : k + 1 = N <;> simp [hh]
              rw [hforce] at hV1 hU1
              constructor
              · intro v hv hd
                exact hV1 a ha v hv hd
              · intro hd
                rw [hU1 a (Or.inr hd)]
            | succ i =>
              simp only [List.getElem?_cons_succ] at hi
              have e1 : k + ((i + 1 : Nat) : Int) + 1 = k + 1 + i + 1 := by push_cast; ring
              rw [e1]
              obtain ⟨h1, h2⟩ := hE a ha i r hi
              refine ⟨h1, fun hd => ?_⟩
              rw [h2 hd, hN1 a _ (by omega)]

theorem initHist_ok (g : HAlg A V ρ) (r : ρ) (l : List A) (hnd : l.Nodup) (h : A → History V) :
    ∃ h', initHist g r l h = .ok h' ∧
      (∀ a ∈ l, (h' a).Inv ∧ ∀ j, (h' a).x.get? j = if j = 0 then g.xOf r a else none) ∧
      ∀ a, a ∉ l → h' a = h a := by
  induction l generalizing h with
  | nil => exact ⟨h, rfl, by simp, fun _ _ => rfl⟩
  | cons a t ih =>
    have hf : ∃ h0, freshHist (g.xOf r a) = .ok h0 ∧ h0.Inv ∧ ∀ j, h0.x.get? j = if j = 0 then g.xOf r a else none := by
      unfold freshHist
      cases hx : g.xOf r a with
      | none => exact ⟨_, rfl, History.inv_empty, by simp [History.empty]⟩
      | some v =>
        have : ∃ h', (History.empty : History V).setX 0 v = .ok h' := by
          unfold History.setX; rw [if_neg (by omega)]; exact ⟨_, rfl⟩
        obtain ⟨h', e⟩ := this
        exact ⟨h', e, History.inv_setX History.inv_empty e, fun j => by
          rw [History.get?_setX e]; simp [History.empty]⟩
    obtain ⟨h0, e0, i0, g0⟩ := hf
    obtain ⟨h', he, h1, h2⟩ := ih (List.nodup_cons.1 hnd).2 (fun b => if b = a then h0 else h b)
    have hat := (List.nodup_cons.1 hnd).1
    refine ⟨h', by simp only [initHist, e0, bind, Except.bind]; exact he, ?_, ?_⟩
    · intro b hb
      rcases List.mem_cons.1 hb with rfl | hb
      · rw [h2 b hat]; simpa using ⟨i0, g0⟩
      · exact h1 b hb
    · intro b hb
      have hba : b ≠ a := fun e => hb (by simp [e])
      rw [h2 b (fun hm => hb (by simp [hm]))]; simp [hba]

/-- Snapshot schedule of a run from scratch with `N ≥ 1` iterations: for every agent, the recorded iterations are exactly
0, `N` and the multiples of its snapshot period in between, in increasing order; the entry of iteration `k` is the agent's
`x` in the state at the end of iteration `k` (for `k = 0`: after initialisation). -/
theorem C02_snapshots (g : HAlg A V ρ) (hnd : g.agents.Nodup) (N : Int) (hN : 1 ≤ N) (s t : HSys A V ρ)
    (h : g.ops.run N 0 s = .ok t) :
    ∃ r0 l f, g.setup s.rest = .ok r0 ∧ endStates g N.toNat 0 r0 = .ok (l, f) ∧ l.length = N.toNat ∧ t.rest = f ∧
      ∀ a ∈ g.agents, 1 ≤ g.period a → (∀ r ∈ r0 :: l, (g.xOf r a).isSome = true) →
        (t.hist a).keysList.Pairwise (· < ·) ∧
        (∀ k, k ∈ (t.hist a).keysList ↔ k = 0 ∨ k = N ∨ (0 ≤ k ∧ k ≤ N ∧ k % g.period a = 0)) ∧
        (∀ k : Nat, (k : Int) ∈ (t.hist a).keysList → ∃ r v, (r0 :: l)[k]? = some r ∧ g.xOf r a = some v ∧
          (t.hist a).getX k = .ok v) := by
  unfold RunOps.run at h
  rw [if_neg (by omega)] at h
  simp only [if_true] at h
  cases hs : g.setup s.rest with
  | error e => simp [ops, hs, bind, Except.bind] at h
  | ok r0 =>
    obtain ⟨h0, e0, hi0, _⟩ := initHist_ok g r0 g.agents hnd s.hist
    have hin : g.ops.setup s = .ok ⟨r0, h0⟩ := by simp [ops, hs, e0, bind, Except.bind]
    rw [hin] at h
    simp only [bind, Except.bind] at h
    rw [show (N - 0).toNat = N.toNat by simp] at h
    obtain ⟨l, f, hl, hlen, hf, hI, hO, hE⟩ := hloop_ok g hnd N N.toNat 0 le_rfl _ t h
    refine ⟨r0, l, f, rfl, hl, hlen, hf, ?_⟩
    intro a ha hp hx
    have hInv := hI a (hi0 a ha).1
    have hNn : ((N.toNat : Nat) : Int) = N := by omega
    -- value of every entry
    have hget : ∀ k : Int, (t.hist a).x.get? k =
        if k = 0 ∨ k = N ∨ (0 ≤ k ∧ k ≤ N ∧ k % g.period a = 0) then ((r0 :: l)[k.toNat]?).bind (fun r => g.xOf r a)
        else none := by
      intro k
      by_cases hk0 : k = 0
      · subst hk0
        rw [hO a 0 (Or.inl le_rfl), (hi0 a ha).2 0]; simp
      · by_cases hin : 0 < k ∧ k ≤ N
        · obtain ⟨i, hi⟩ : ∃ i : Nat, k = 0 + (i : Int) + 1 := ⟨(k - 1).toNat, by omega⟩
          have hil : i < l.length := by omega
          obtain ⟨h1, h2⟩ := hE a ha i l[i] (by simp [hil])
          rw [← hi] at h1 h2
          have hkn : k.toNat = i + 1 := by omega
          rw [hkn, List.getElem?_cons_succ, List.getElem?_eq_getElem hil]
          simp only [Option.bind_some]
          have hsome := hx l[i] (by simp)
          obtain ⟨v, hv⟩ := Option.isSome_iff_exists.1 hsome
          by_cases hd : due (g.period a) k (decide (k = N))
          · rw [h1 v hv hd, if_pos, hv]
            rcases hd with hd | hd
            · right; left; simpa using hd
            · right; right; exact ⟨by omega, by omega, hd⟩
          · rw [h2 hd, (hi0 a ha).2 k, if_neg hk0, if_neg]
            rintro (h | h | ⟨_, _, h⟩)
            · exact hk0 h
            · exact hd (Or.inl (by simpa using h))
            · exact hd (Or.inr h)
        · rw [hO a k (by omega), (hi0 a ha).2 k, if_neg hk0, if_neg]
          rintro (h | h | ⟨h1, h2, _⟩)
          · exact hk0 h
          · omega
          · omega
    have hval : ∀ k : Nat, (k : Int) ≤ N → ∃ r v, (r0 :: l)[k]? = some r ∧ g.xOf r a = some v := by
      intro k hk
      have hkl : k < (r0 :: l).length := by simp; omega
      have hsome := hx (r0 :: l)[k] (List.getElem_mem hkl)
      obtain ⟨v, hv⟩ := Option.isSome_iff_exists.1 hsome
      exact ⟨_, v, List.getElem?_eq_getElem hkl, hv⟩
    have hmem : ∀ k, k ∈ (t.hist a).keysList ↔ k = 0 ∨ k = N ∨ (0 ≤ k ∧ k ≤ N ∧ k % g.period a = 0) := by
      intro k
      rw [show (t.hist a).keysList = (t.hist a).keys from rfl, hInv.same k, hget k]
      split_ifs with hc
      · simp only [hc, iff_true]
        have hk : 0 ≤ k ∧ k ≤ N := by omega
        obtain ⟨r, v, hr, hv⟩ := hval k.toNat (by omega)
        rw [hr]; simp [hv]
      · simp [hc]
    refine ⟨hInv.sorted, hmem, ?_⟩
    intro k hk
    have hc := (hmem k).1 hk
    obtain ⟨r, v, hr, hv⟩ := hval k (by omega)
    refine ⟨r, v, hr, hv, ?_⟩
    have hg := hget k
    rw [if_pos hc] at hg
    simp only [Int.toNat_natCast, hr, Option.bind_some, hv] at hg
    rw [History.getX_ok_iff hInv k (by omega)]
    exact ⟨k, le_rfl, hg, fun j h1 h2 => by omega⟩

/-- a two-agent counter system with periods 2 and 3 meets the hypotheses -/
def exAlg : HAlg Nat Int Int :=
  { agents := [0, 1], period := fun a => a + 2, xOf := fun r a => some (r * 10 + a), setup := fun _ => .ok 0,
    netStep := fun _ r => r, step := fun _ r => .ok (r + 1), callback := fun _ r => .ok r }

example : (exAlg.ops.run 5 0 ⟨7, fun _ => History.empty⟩).toOption.map
    (fun t => ((t.hist 0).keysList, (t.hist 1).keysList, t.rest)) = some ([0, 2, 4, 5], [0, 3, 5], 5) := by decide

/-- two outcomes are the same except for the history entry `m` -/
def SameUpTo (m : Int) : Py (HSys A V ρ) → Py (HSys A V ρ) → Prop
  | .ok t, .ok t' => t.rest = t'.rest ∧ ∀ a j, j ≠ m → (t.hist a).x.get? j = (t'.hist a).x.get? j
  | .error e, .error e' => e = e'
  | _, _ => False

theorem snapAll_sim (g : HAlg A V ρ) (hnd : g.agents.Nodup) (it : Int) (hit : 0 ≤ it) (m : Int) (f f' : Bool)
    (hf : it ≠ m → f = f') (s s' : HSys A V ρ)
    (h : s.rest = s'.rest ∧ ∀ a j, j ≠ m → (s.hist a).x.get? j = (s'.hist a).x.get? j) :
    SameUpTo m (snapAll g it f g.agents s) (snapAll g it f' g.agents s') := by
  obtain ⟨t, ht, hr, _, hN, hV, hU⟩ := snapAll_ok g it hit f g.agents hnd s
  obtain ⟨t', ht', hr', _, hN', hV', hU'⟩ := snapAll_ok g it hit f' g.agents hnd s'
  rw [ht, ht']
  refine ⟨by rw [hr, hr', h.1], ?_⟩
  intro a j hj
  by_cases hji : j = it
  · subst hji
    obtain rfl := hf hj
    by_cases hcase : a ∉ g.agents ∨ ¬ due (g.period a) j f
    · rw [hU a hcase, hU' a hcase]; exact h.2 a j hj
    · push Not at hcase
      cases hx : g.xOf s.rest a with
      | some v => rw [hV a hcase.1 v hx hcase.2, hV' a hcase.1 v (by rw [← h.1]; exact hx) hcase.2]
      | none =>
        -- no x: the snapshot leaves the history alone
        have key : ∀ (l : List A) (u u' : HSys A V ρ), snapAll g j f l u = .ok u' → g.xOf u.rest a = none →
            (u'.hist a) = (u.hist a) := by
          intro l
          induction l with
          | nil => intro u u' hu _; simp only [snapAll, Except.ok.injEq] at hu; rw [hu]
          | cons b l ih =>
            intro u u' hu hxu
            simp only [snapAll] at hu
            cases hsn : snapHist (g.period b) (g.xOf u.rest b) j f (u.hist b) with
            | error e => rw [hsn] at hu; simp [bind, Except.bind] at hu
            | ok h' =>
              rw [hsn] at hu
              simp only [bind, Except.bind] at hu
              rw [ih _ u' hu hxu]
              by_cases hab : a = b
              · subst hab
                have : h' = u.hist a := by
                  unfold snapHist at hsn
                  rw [hxu] at hsn
                  split at hsn <;> simpa using hsn.symm
                simp [this]
              · simp [hab]
        rw [key _ _ _ ht hx, key _ _ _ ht' (by rw [← h.1]; exact hx)]
        exact h.2 a j hj
  · rw [hN a j hji, hN' a j hji]; exact h.2 a j hj

theorem loop_sim (g : HAlg A V ρ) (hnd : g.agents.Nodup) (m N N' : Int) (n : Nat) (k : Int) (hk : 0 ≤ k)
    (hf : ∀ i : Nat, i < n → k + i + 1 ≠ m → (decide (k + i + 1 = N) = decide (k + i + 1 = N')))
    (s s' : HSys A V ρ)
    (h : s.rest = s'.rest ∧ ∀ a j, j ≠ m → (s.hist a).x.get? j = (s'.hist a).x.get? j) :
    SameUpTo m (g.ops.loop N n k s) (g.ops.loop N' n k s') := by
  induction n generalizing k s s' with
  | zero => exact h
  | succ n ih =>
    have hbody : SameUpTo m (g.ops.body N k s) (g.ops.body N' k s') := by
      simp only [RunOps.body, ops, bind, Except.bind]
      rw [← h.1]
      cases hst : g.step k (g.netStep k s.rest) with
      | error e => simp [SameUpTo]
      | ok r =>
        simp only
        have hs := snapAll_sim g hnd (k + 1) (by omega) m (k + 1 == N) (k + 1 == N')
          (fun hne => by
            have := hf 0 (by omega) (by simpa using hne)
            simp only [Nat.cast_zero, add_zero] at this
            by_cases h1 : k + 1 = N <;> by_cases h2 : k + 1 = N' <;> simp_all)
          ⟨r, s.hist⟩ ⟨r, s'.hist⟩ ⟨rfl, h.2⟩
        cases h1 : snapAll g (k + 1) (k + 1 == N) g.agents ⟨r, s.hist⟩ with
        | error e =>
          cases h2 : snapAll g (k + 1) (k + 1 == N') g.agents ⟨r, s'.hist⟩ with
          | error e' => rw [h1, h2] at hs; simpa [SameUpTo] using hs
          | ok t' => rw [h1, h2] at hs; simp [SameUpTo] at hs
        | ok t =>
          cases h2 : snapAll g (k + 1) (k + 1 == N') g.agents ⟨r, s'.hist⟩ with
          | error e' => rw [h1, h2] at hs; simp [SameUpTo] at hs
          | ok t' =>
            rw [h1, h2] at hs
            simp only
            rw [← hs.1]
            cases hcb : g.callback k t.rest with
            | error e => simp [SameUpTo]
            | ok r' => exact ⟨rfl, hs.2⟩
    simp only [RunOps.loop]
    cases h1 : g.ops.body N k s with
    | error e =>
      cases h2 : g.ops.body N' k s' with
      | error e' => rw [h1, h2] at hbody; simpa [SameUpTo, bind, Except.bind] using hbody
      | ok t' => rw [h1, h2] at hbody; simp [SameUpTo] at hbody
    | ok t =>
      cases h2 : g.ops.body N' k s' with
      | error e' => rw [h1, h2] at hbody; simp [SameUpTo] at hbody
      | ok t' =>
        rw [h1, h2] at hbody
        simp only [bind, Except.bind]
        refine ih (k + 1) (by omega) ?_ t t' hbody
        intro i hi hne
        have := hf (i + 1) (by omega) (by push_cast; intro e; apply hne; linarith)
        push_cast at this
        have e1 : k + ((i : Int) + 1) + 1 = k + 1 + i + 1 := by ring
        rwa [e1] at this

/-- Splitting a run: running with `iterations = m` and then continuing from `m` to `N` has the same outcome as one run to
`N` - the same exception, or the same final state and histories except for the (forced) snapshot at `m`. -/
theorem C21_split (g : HAlg A V ρ) (hnd : g.agents.Nodup) (m N : Int) (hm : 0 < m) (hmN : m ≤ N) (s : HSys A V ρ) :
    SameUpTo m (g.ops.run m 0 s >>= fun s' => g.ops.run N m s') (g.ops.run N 0 s) := by
  have r1 : g.ops.run m 0 s = (g.ops.setup s >>= fun s => g.ops.loop m (m - 0).toNat 0 s) := by
    unfold RunOps.run; rw [if_neg (by omega)]; rfl
  have r2 : g.ops.run N 0 s = (g.ops.setup s >>= fun s => g.ops.loop N (N - 0).toNat 0 s) := by
    unfold RunOps.run; rw [if_neg (by omega)]; rfl
  have r3 : ∀ s', g.ops.run N m s' = g.ops.loop N (N - m).toNat m s' := by
    intro s'
    unfold RunOps.run; rw [if_neg (by omega), if_neg (by omega)]; rfl
  rw [r1, r2]
  simp only [r3]
  cases hi : g.ops.setup s with
  | error e => simp [bind, Except.bind, SameUpTo]
  | ok s0 =>
    have hsplit : (N - 0).toNat = (m - 0).toNat + (N - m).toNat := by omega
    have h1 := loop_sim g hnd m m N (m - 0).toNat 0 le_rfl (by
      intro i hi hne
      have e1 : ¬ ((0 : Int) + i + 1 = m) := hne
      have e2 : ¬ ((0 : Int) + i + 1 = N) := by omega
      rw [decide_eq_false e1, decide_eq_false e2]) s0 s0 ⟨rfl, fun _ _ _ => rfl⟩
    have e : (0 : Int) + ((m - 0).toNat : Int) = m := by omega
    simp only [bind, Except.bind]
    rw [hsplit, loop_append, e]
    cases ha : g.ops.loop m (m - 0).toNat 0 s0 with
    | error e =>
      cases hb : g.ops.loop N (m - 0).toNat 0 s0 with
      | error e' => rw [ha, hb] at h1; exact h1
      | ok t' => rw [ha, hb] at h1; simp [SameUpTo] at h1
    | ok t =>
      cases hb : g.ops.loop N (m - 0).toNat 0 s0 with
      | error e' => rw [ha, hb] at h1; simp [SameUpTo] at h1
      | ok t' =>
        rw [ha, hb] at h1
        exact loop_sim g hnd m N N (N - m).toNat m (by omega) (fun _ _ _ => rfl) t t' h1

end C02

/-! ## C22 -/
section C22
variable {A V S : Type} [DecidableEq A] [DecidableEq S]
open X0Env

/-- last value given for an agent in the user's dictionary (dict keys compare by agent id) -/
def givenFor (d : List (A × V)) (a : A) : Option V := (d.reverse.find? (fun e => decide (e.1 = a))).map Prod.snd

/-- mean of a non-empty list, as computed: start from zeros, add left to right, divide by the count -/
def meanState (e : X0Env A V S) (l : List V) : Option V :=
  match l with
  | [] => none
  | v :: t => some (e.divNat ((v :: t).foldl e.add (e.zerosLike v)) (v :: t).length)

theorem byId_spec (e : X0Env A V S) (d : List (A × V)) (acc : PyDict A V) :
    (∀ g, byId e d acc = .ok g → (∀ p ∈ d, e.shapeOf p.2 = e.costShape p.1) ∧
      ∀ a, g.get? a = ((givenFor d a).orElse (fun _ => acc.get? a))) ∧
    (∀ x, byId e d acc = .error x → x = .valueError ∧ ∃ p ∈ d, e.shapeOf p.2 ≠ e.costShape p.1) := by
  induction d generalizing acc with
  | nil =>
    refine ⟨fun g h => ?_, fun x h => by simp [byId] at h⟩
    simp only [byId, Except.ok.injEq] at h
    subst h
    exact ⟨by simp, fun a => by simp [givenFor]⟩
  | cons p t ih =>
    obtain ⟨a, v⟩ := p
    simp only [byId]
    split_ifs with hs
    · refine ⟨fun g h => by simp at h, fun x h => ?_⟩
      simp only [Except.error.injEq] at h
      exact ⟨h.symm, (a, v), by simp, hs⟩
    · push Not at hs
      obtain ⟨h1, h2⟩ := ih (acc.set a v)
      refine ⟨fun g h => ?_, fun x h => ?_⟩
      · obtain ⟨h3, h4⟩ := h1 g h
        refine ⟨by
          intro p hp
          rcases List.mem_cons.1 hp with rfl | hp
          · exact hs
          · exact h3 p hp, fun b => ?_⟩
        rw [h4 b]
        have hr : givenFor ((a, v) :: t) b = (givenFor t b).orElse (fun _ => if b = a then some v else none) := by
          unfold givenFor
          rw [List.reverse_cons, List.find?_append]
          cases hft : t.reverse.find? (fun e => decide (e.1 = b)) with
          | some w => simp
          | none =>
            by_cases hab : a = b
            · subst hab; simp
            · simp [hab, Ne.symm hab]
        rw [hr]
        cases givenFor t b with
        | some w => simp
        | none => by_cases hba : b = a <;> simp [hba]
      · obtain ⟨h3, p, hp, h4⟩ := h2 x h
        exact ⟨h3, p, by simp [hp], h4⟩

theorem collect_spec (given : PyDict A V) (l : List A) (acc : PyDict A V) :
    (∀ g, collect given l acc = .ok g → (∀ a ∈ l, (given.get? a).isSome = true) ∧
      ∀ a, g.get? a = if a ∈ l then given.get? a else acc.get? a) ∧
    (∀ x, collect given l acc = .error x → x = .valueError ∧ ∃ a ∈ l, given.get? a = none) := by
  induction l generalizing acc with
  | nil =>
    refine ⟨fun g h => ?_, fun x h => by simp [collect] at h⟩
    simp only [collect, Except.ok.injEq] at h
    subst h; simp
  | cons a t ih =>
    simp only [collect]
    cases hg : given.get? a with
    | none =>
      refine ⟨fun g h => by simp at h, fun x h => ?_⟩
      simp only [Except.error.injEq] at h
      exact ⟨h.symm, a, by simp, hg⟩
    | some v =>
      obtain ⟨h1, h2⟩ := ih (acc.set a v)
      refine ⟨fun g h => ?_, fun x h => ?_⟩
      · obtain ⟨h3, h4⟩ := h1 g h
        refine ⟨by
          intro b hb
          rcases List.mem_cons.1 hb with rfl | hb
          · simp [hg]
          · exact h3 b hb, fun b => ?_⟩
        rw [h4 b]
        by_cases hb : b ∈ t
        · simp [hb]
        · by_cases hba : b = a
          · subst hba; simp [hb, hg]
          · simp [hb, hba]
      · obtain ⟨h3, b, hb, h4⟩ := h2 x h
        exact ⟨h3, b, by simp [hb], h4⟩

theorem restrictTo_ok (d : PyDict A V) (l : List A) (h : ∀ a ∈ l, (d.get? a).isSome = true) :
    ∃ out, restrictTo d l = .ok out ∧ out.map Prod.fst = l ∧ ∀ p ∈ out, d.get? p.1 = some p.2 := by
  induction l with
  | nil => exact ⟨[], rfl, rfl, by simp⟩
  | cons a t ih =>
    obtain ⟨v, hv⟩ := Option.isSome_iff_exists.1 (h a (by simp))
    obtain ⟨out, h1, h2, h3⟩ := ih (fun b hb => h b (by simp [hb]))
    refine ⟨(a, v) :: out, by simp [restrictTo, PyDict.getItem, hv, h1, bind, Except.bind], by simp [h2], ?_⟩
    intro p hp
    rcases List.mem_cons.1 hp with rfl | hp
    · exact hv
    · exact h3 p hp

/-- `x0 = None`: zeros of each agent's shape, for exactly the agents of the graph. -/
theorem C22_none (e : X0Env A V S) :
    initialStates e .none = .ok (e.graph.map (fun a => (a, e.zeros (e.costShape a)))) := rfl

/-- `x0 = array`: that array for every agent of the graph, or ValueError if some agent has another shape. -/
theorem C22_array (e : X0Env A V S) (v : V) :
    ((∀ a ∈ e.graph, e.shapeOf v = e.costShape a) → initialStates e (.arr v) = .ok (e.graph.map (fun a => (a, v)))) ∧
    ((∃ a ∈ e.graph, e.shapeOf v ≠ e.costShape a) → initialStates e (.arr v) = .error .valueError) := by
  have key : ∀ l : List A, ((∀ a ∈ l, e.shapeOf v = e.costShape a) → checkAll e v l = .ok ()) ∧
      ((∃ a ∈ l, e.shapeOf v ≠ e.costShape a) → checkAll e v l = .error .valueError) := by
    intro l
    induction l with
    | nil => simp [checkAll]
    | cons a t ih =>
      simp only [checkAll]
      refine ⟨fun h => ?_, fun h => ?_⟩
      · rw [if_neg (by simpa using h a (by simp))]
        exact ih.1 (fun b hb => h b (by simp [hb]))
      · split_ifs with hs
        · rfl
        · push Not at hs
          obtain ⟨b, hb, hne⟩ := h
          rcases List.mem_cons.1 hb with rfl | hb
          · exact absurd hs hne
          · exact ih.2 ⟨b, hb, hne⟩
  refine ⟨fun h => ?_, fun h => ?_⟩
  · simp [initialStates, (key e.graph).1 h, bind, Except.bind]
  · simp [initialStates, (key e.graph).2 h, bind, Except.bind]

/-- `x0 = dict` in a peer-to-peer network: succeeds iff every given shape fits and every agent has an entry; then each agent
gets exactly its entry. Entries of other agents are ignored. -/
theorem C22_dict_p2p (e : X0Env A V S) (hp : e.server = none) (hag : e.agents = e.graph) (d : List (A × V)) :
    ((∀ p ∈ d, e.shapeOf p.2 = e.costShape p.1) → (∀ a ∈ e.graph, (givenFor d a).isSome = true) →
      ∃ out, initialStates e (.dict d) = .ok out ∧ out.map Prod.fst = e.graph ∧
        ∀ p ∈ out, givenFor d p.1 = some p.2) ∧
    (((∃ p ∈ d, e.shapeOf p.2 ≠ e.costShape p.1) ∨ (∃ a ∈ e.graph, givenFor d a = none)) →
      initialStates e (.dict d) = .error .valueError) := by
  obtain ⟨hb1, hb2⟩ := byId_spec e d PyDict.empty
  cases hb : byId e d PyDict.empty with
  | error x =>
    obtain ⟨rfl, hbad⟩ := hb2 x hb
    refine ⟨fun hs _ => ?_, fun _ => by simp [initialStates, hb, bind, Except.bind]⟩
    obtain ⟨p, hp, hne⟩ := hbad
    exact absurd (hs p hp) hne
  | ok given =>
    obtain ⟨hsh, hget⟩ := hb1 given hb
    have hget' : ∀ a, given.get? a = givenFor d a := by intro a; rw [hget a]; simp
    obtain ⟨hc1, hc2⟩ := collect_spec given e.agents PyDict.empty
    cases hc : collect given e.agents PyDict.empty with
    | error x =>
      obtain ⟨rfl, a, ha, hnone⟩ := hc2 x hc
      rw [hag] at ha
      rw [hget'] at hnone
      refine ⟨fun _ hall => ?_, fun _ => by simp [initialStates, hb, hc, bind, Except.bind]⟩
      have := hall a ha
      rw [hnone] at this; simp at this
    | ok x0s =>
      obtain ⟨hall, hx⟩ := hc1 x0s hc
      refine ⟨fun _ hs => ?_, fun hbad => ?_⟩
      · have hxg : ∀ a ∈ e.graph, x0s.get? a = givenFor d a := by
          intro a ha; rw [hx a, if_pos (by rw [hag]; exact ha), hget']
        obtain ⟨out, h1, h2, h3⟩ := restrictTo_ok x0s e.graph (fun a ha => by rw [hxg a ha]; exact hs a ha)
        refine ⟨out, by simp [initialStates, hb, hc, addServer, hp, h1, bind, Except.bind], h2, ?_⟩
        intro p hpo
        rw [← hxg p.1 (by rw [← h2]; exact List.mem_map_of_mem hpo)]
        exact h3 p hpo
      · rcases hbad with ⟨p, hp', hne⟩ | ⟨a, ha, hnone⟩
        · exact absurd (hsh p hp') hne
        · have := hall a (by rw [hag]; exact ha)
          rw [hget', hnone] at this; simp at this

/-- `x0 = dict` in a federated network (clients = `agents()`): every client needs an entry; the server gets its entry, or
the mean of the clients' states if it has none. -/
theorem C22_dict_fed (e : X0Env A V S) (sv : A) (hsv : e.server = some sv) (_hns : sv ∉ e.agents)
    (hg : ∀ a, a ∈ e.graph ↔ a = sv ∨ a ∈ e.agents) (hcl : e.agents ≠ []) (d : List (A × V)) :
    ((∀ p ∈ d, e.shapeOf p.2 = e.costShape p.1) → (∀ a ∈ e.agents, (givenFor d a).isSome = true) →
      ∃ out, initialStates e (.dict d) = .ok out ∧ out.map Prod.fst = e.graph ∧
        (∀ p ∈ out, p.1 ≠ sv → givenFor d p.1 = some p.2) ∧
        (∀ p ∈ out, p.1 = sv → (givenFor d sv).isSome = true → givenFor d sv = some p.2) ∧
        (∀ p ∈ out, p.1 = sv → givenFor d sv = none → ∃ cs, e.agents.map (givenFor d) = cs.map some ∧
          meanState e cs = some p.2)) ∧
    (((∃ p ∈ d, e.shapeOf p.2 ≠ e.costShape p.1) ∨ (∃ a ∈ e.agents, givenFor d a = none)) →
      initialStates e (.dict d) = .error .valueError) := by
  obtain ⟨hb1, hb2⟩ := byId_spec e d PyDict.empty
  cases hb : byId e d PyDict.empty with
  | error x =>
    obtain ⟨rfl, hbad⟩ := hb2 x hb
    refine ⟨fun hs _ => ?_, fun _ => by simp [initialStates, hb, bind, Except.bind]⟩
    obtain ⟨p, hp, hne⟩ := hbad
    exact absurd (hs p hp) hne
  | ok given =>
    obtain ⟨hsh, hget⟩ := hb1 given hb
    have hget' : ∀ a, given.get? a = givenFor d a := by intro a; rw [hget a]; simp
    obtain ⟨hc1, hc2⟩ := collect_spec given e.agents PyDict.empty
    cases hc : collect given e.agents PyDict.empty with
    | error x =>
      obtain ⟨rfl, a, ha, hnone⟩ := hc2 x hc
      rw [hget'] at hnone
      refine ⟨fun _ hall => ?_, fun _ => by simp [initialStates, hb, hc, bind, Except.bind]⟩
      have := hall a ha
      rw [hnone] at this; simp at this
    | ok x0s =>
      obtain ⟨hall, hx⟩ := hc1 x0s hc
      have hxc : ∀ a ∈ e.agents, x0s.get? a = givenFor d a := by
        intro a ha; rw [hx a, if_pos ha, hget']
      refine ⟨fun _ hs => ?_, fun hbad => ?_⟩
      · -- the dictionary with the server added
        have hadd : ∃ w, addServer e given x0s = .ok (x0s.set sv w) ∧
            ((givenFor d sv).isSome = true → givenFor d sv = some w) ∧
            (givenFor d sv = none → ∃ cs, e.agents.map (givenFor d) = cs.map some ∧ meanState e cs = some w) := by
          unfold addServer
          rw [hsv]
          simp only
          rw [hget' sv]
          cases hgs : givenFor d sv with
          | some v => exact ⟨v, rfl, fun _ => rfl, by simp⟩
          | none =>
            obtain ⟨cl, h1, h2, h3⟩ := restrictTo_ok x0s e.agents (fun a ha => by rw [hxc a ha]; exact hs a ha)
            have hcs : e.agents.map (givenFor d) = (cl.map Prod.snd).map some := by
              rw [← h2, List.map_map, List.map_map]
              apply List.map_congr_left
              intro p hp
              have hpa : p.1 ∈ e.agents := by rw [← h2]; exact List.mem_map_of_mem hp
              simp only [Function.comp]
              rw [← hxc p.1 hpa]; exact h3 p hp
            cases hcl' : cl.map Prod.snd with
            | nil =>
              exfalso
              have : cl = [] := by simpa using hcl'
              rw [this] at h2
              exact hcl h2.symm
            | cons v t =>
              refine ⟨e.divNat ((v :: t).foldl e.add (e.zerosLike v)) (v :: t).length, ?_, by simp, fun _ => ?_⟩
              · simp [h1, meanOf, hcl', bind, Except.bind]
              · exact ⟨v :: t, by rw [← hcl']; exact hcs, rfl⟩
        obtain ⟨w, hw, hw1, hw2⟩ := hadd
        have hfin : ∀ a, (x0s.set sv w).get? a = if a = sv then some w else x0s.get? a := by intro a; simp
        obtain ⟨out, h1, h2, h3⟩ := restrictTo_ok (x0s.set sv w) e.graph (fun a ha => by
          rw [hfin a]
          by_cases hasv : a = sv
          · simp [hasv]
          · rw [if_neg hasv]
            have := ((hg a).1 ha).resolve_left hasv
            rw [hxc a this]; exact hs a this)
        have hsvval : ∀ p ∈ out, p.1 = sv → p.2 = w := by
          intro p hp he
          have := h3 p hp
          rw [hfin, if_pos he] at this
          exact (Option.some.inj this).symm
        refine ⟨out, by simp [initialStates, hb, hc, hw, h1, bind, Except.bind], h2, ?_, ?_, ?_⟩
        · intro p hp hne
          have := h3 p hp
          rw [hfin, if_neg hne] at this
          have hpg : p.1 ∈ e.graph := by rw [← h2]; exact List.mem_map_of_mem hp
          rw [← hxc p.1 (((hg p.1).1 hpg).resolve_left hne)]; exact this
        · intro p hp he hsome
          rw [hsvval p hp he]; exact hw1 hsome
        · intro p hp he hnone
          rw [hsvval p hp he]; exact hw2 hnone
      · rcases hbad with ⟨p, hp', hne⟩ | ⟨a, ha, hnone⟩
        · exact absurd (hsh p hp') hne
        · have := hall a ha
          rw [hget', hnone] at this; simp at this

/-- a federated instance: server 9 inferred as the mean of clients 1 and 2 -/
def exEnv : X0Env Nat Int Nat :=
  { shapeOf := fun _ => 1, costShape := fun _ => 1, zeros := fun _ => 0, add := (· + ·), divNat := fun v n => v / n,
    zerosLike := fun _ => 0, graph := [9, 1, 2], agents := [1, 2], server := some 9 }

example : initialStates exEnv (.dict [(1, 10), (2, 20), (7, 5)]) = .ok [(9, 15), (1, 10), (2, 20)] := by decide
example : initialStates exEnv (.dict [(1, 10)]) = .error .valueError := by decide

end C22
/-- The agent's own `_snapshot` is the history update used above: a forced snapshot and one at a multiple of the agent's
period store the current `x` (if there is one) under the iteration, any other leaves the agent as it is; nothing but the
history changes. -/
theorem C02_agent_snapshot {A C V K S Act : Type} [DecidableEq A] [DecidableEq C] (a : Agent A C V K S Act) (it : Int)
    (hit : 0 ≤ it) (force : Bool) :
    ∃ a', a.snapshot (fun v => v) it force = .ok a' ∧ { a' with history := a.history } = a ∧
      HAlg.snapHist a.period a.x it force a.history = .ok a'.history ∧
      (force = false → it % a.period ≠ 0 → a' = a) ∧
      (a.history.Inv → (force = true ∨ it % a.period = 0) → ∀ v, a.x = some v → a'.history.getX it = .ok v) := by
  unfold Agent.snapshot HAlg.snapHist
  by_cases hd : (force || it % a.period == 0) = true
  · rw [if_pos hd, if_pos hd]
    cases hx : a.x with
    | none =>
      exact ⟨a, rfl, rfl, rfl, fun _ _ => rfl, fun _ _ v hv => by cases hv⟩
    | some v =>
      obtain ⟨h', he, _, _, hval, _⟩ := snapHist_ok a.period (some v) it hit force a.history
      have hset : a.history.setX it v = .ok h' := by
        unfold HAlg.snapHist at he
        rw [if_pos hd] at he
        exact he
      refine ⟨{ a with history := h' }, by simp only [hset, bind, Except.bind]; rw [← hx], by cases a; rfl, hset, ?_, ?_⟩
      · intro hf hm
        simp [hf, hm] at hd
      · intro hi hw v' hv'
        cases hv'
        rw [History.getX_ok_iff (History.inv_setX hi hset) it hit]
        exact ⟨it, le_refl _, hval v rfl hw, fun j h1 h2 => absurd h1 (by omega)⟩
  · rw [if_neg hd, if_neg hd]
    refine ⟨a, rfl, rfl, rfl, fun _ _ => rfl, fun _ h => ?_⟩
    simp only [Bool.or_eq_true, beq_iff_eq] at hd
    exact absurd h hd

end Verif.Props
