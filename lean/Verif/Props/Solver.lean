import Verif.Model.Solver
import Verif.Lemmas.Convergence
import Mathlib.Tactic.Linarith
import Mathlib.Tactic.NormNum
/-! # C59, C68: the loop of the centralised solvers -/
set_option linter.unusedSectionVars false
namespace Verif.Props
open Costs CostAlg Solver

variable {T σ ι : Type} {d : Nat}

/-! ### specification -/

/-- the solver object after `n` steps, if nothing ever stops the iteration: every step sees the previous iterate in `x_old` -/
def after (step : Nat → St T d → Py (St T d)) (s0 : St T d) : Nat → Py (St T d)
  | 0 => .ok s0
  | n + 1 =>
    match after step s0 n with
    | .error e => .error e
    | .ok s => step n { s with xOld := s.x }

/-- the `m`-th step happened and moved the iterate by `δ` (squared Euclidean length) -/
def MovedBy (step : Nat → St T d → Py (St T d)) (s0 : St T d) (m : Nat) (δ : ℝ) : Prop :=
  ∃ s s', 1 ≤ m ∧ after step s0 (m - 1) = .ok s ∧ after step s0 m = .ok s' ∧ δ = ‖s'.x - s.x‖ ^ 2

/-- the early stopping rule fires after the `m`-th step: a tolerance was given, the step has number `0, e, 2e, ...` counting from 0, and
it moved the iterate by at most the tolerance -/
def StopsAt (step : Nat → St T d → Py (St T d)) (s0 : St T d) (stopTol : Option ℝ) (e m : Nat) : Prop :=
  ∃ t δ, stopTol = some t ∧ (m - 1) % e = 0 ∧ MovedBy step s0 m δ ∧ δ ≤ t

/-- arguments accepted by `run` -/
def ValidRun (maxIter : Int) (stopTol maxTol : Option ℝ) (freq : ℝ) : Prop :=
  1 ≤ maxIter ∧ (∀ t, stopTol = some t → 0 < t) ∧ (∀ t, maxTol = some t → 0 < t) ∧ 0 < freq ∧ freq ≤ 1

/-! ### the loop -/

theorem delta_eq (s : St T d) : delta s = ‖s.x - s.xOld‖ ^ 2 := by
  rw [delta, dot_eq_inner, real_inner_self_eq_norm_sq]

/-- the step leaves `x_old` alone -/
def KeepsOld (step : Nat → St T d → Py (St T d)) : Prop := ∀ k s s', step k s = .ok s' → s'.xOld = s.xOld

theorem movedBy_succ {step : Nat → St T d → Py (St T d)} {s0 : St T d} (hk : KeepsOld step) {k : Nat} {s s' : St T d}
    (hs : after step s0 k = .ok s) (hs' : after step s0 (k + 1) = .ok s') (δ : ℝ) :
    MovedBy step s0 (k + 1) δ ↔ δ = delta s' := by
  have hold : s'.xOld = s.x := by
    rw [after, hs] at hs'
    exact hk _ _ _ hs'
  rw [delta_eq, hold]
  constructor
  · rintro ⟨a, b, -, ha, hb, rfl⟩
    rw [Nat.add_sub_cancel, hs] at ha
    rw [hs'] at hb
    cases ha; cases hb; rfl
  · rintro rfl
    exact ⟨s, s', by omega, by rw [Nat.add_sub_cancel]; exact hs, hs', rfl⟩

theorem stopsAt_succ {step : Nat → St T d → Py (St T d)} {s0 : St T d} (hk : KeepsOld step) {k : Nat} {s s' : St T d}
    (hs : after step s0 k = .ok s) (hs' : after step s0 (k + 1) = .ok s') (stopTol : Option ℝ) (e : Nat) :
    StopsAt step s0 stopTol e (k + 1) ↔ ∃ t, stopTol = some t ∧ k % e = 0 ∧ delta s' ≤ t := by
  constructor
  · rintro ⟨t, δ, h1, h2, h3, h4⟩
    rw [(movedBy_succ hk hs hs' δ)] at h3
    exact ⟨t, h1, by simpa using h2, h3 ▸ h4⟩
  · rintro ⟨t, h1, h2, h3⟩
    exact ⟨t, _, h1, by simpa using h2, (movedBy_succ hk hs hs' _).2 rfl, h3⟩

theorem loop_spec {step : Nat → St T d → Py (St T d)} {s0 : St T d} (hk : KeepsOld step) (stopTol : Option ℝ) (e : Nat) (left : Nat) :
    ∀ k s last, after step s0 k = .ok s →
      ∃ n, k + 1 ≤ n ∧ n ≤ k + left + 1 ∧ (∀ m, k + 1 ≤ m → m < n → ¬ StopsAt step s0 stopTol e m) ∧
        ((∃ err, after step s0 n = .error err ∧ loop step stopTol e (left + 1) k s last = .error err) ∨
         (∃ s' last', after step s0 n = .ok s' ∧ (n = k + left + 1 ∨ StopsAt step s0 stopTol e n) ∧
            loop step stopTol e (left + 1) k s last = .ok (s', n - 1, last') ∧
            (stopTol.isSome = true → (n - 1) % e = 0 → last' = some (delta s')))) := by
  induction left with
  | zero =>
    intro k s last hs
    refine ⟨k + 1, le_rfl, le_rfl, fun m h1 h2 => by omega, ?_⟩
    have ha : after step s0 (k + 1) = step k (remember s) := by rw [after, hs]; rfl
    rw [ha, loop]
    cases hst : step k (remember s) with
    | error err => exact .inl ⟨err, rfl, rfl⟩
    | ok s' =>
      rw [hst] at ha
      refine .inr ?_
      simp only
      cases stopTol with
      | none => exact ⟨s', last, rfl, .inl trivial, by simp only [loop], by simp⟩
      | some t =>
        simp only
        by_cases hm : k % e = 0
        · rw [if_pos hm]
          by_cases hd : delta s' ≤ t
          · rw [if_pos hd]
            exact ⟨s', _, rfl, .inl trivial, rfl, fun _ _ => rfl⟩
          · rw [if_neg hd]
            exact ⟨s', _, rfl, .inl trivial, by simp only [loop], fun _ _ => rfl⟩
        · rw [if_neg hm]
          exact ⟨s', last, rfl, .inl trivial, by simp only [loop], fun _ h => absurd (by simpa using h) hm⟩
  | succ left ih =>
    intro k s last hs
    have ha : after step s0 (k + 1) = step k (remember s) := by rw [after, hs]; rfl
    rw [loop]
    cases hst : step k (remember s) with
    | error err =>
      rw [hst] at ha
      exact ⟨k + 1, le_rfl, by omega, fun m h1 h2 => by omega, .inl ⟨err, ha, rfl⟩⟩
    | ok s' =>
      rw [hst] at ha
      simp only
      -- continuing
      have hcont : ∀ last', ¬ StopsAt step s0 stopTol e (k + 1) →
          ∃ n, k + 1 ≤ n ∧ n ≤ k + (left + 1) + 1 ∧ (∀ m, k + 1 ≤ m → m < n → ¬ StopsAt step s0 stopTol e m) ∧
        ((∃ err, after step s0 n = .error err ∧ loop step stopTol e (left + 1) (k + 1) s' last' = .error err) ∨
         (∃ s'' last'', after step s0 n = .ok s'' ∧ (n = k + (left + 1) + 1 ∨ StopsAt step s0 stopTol e n) ∧
            loop step stopTol e (left + 1) (k + 1) s' last' = .ok (s'', n - 1, last'') ∧
            (stopTol.isSome = true → (n - 1) % e = 0 → last'' = some (delta s'')))) := by
        intro last' hns
        obtain ⟨n, h1, h2, h3, h4⟩ := ih (k + 1) s' last' ha
        refine ⟨n, by omega, by omega, ?_, ?_⟩
        · intro m hm1 hm2
          rcases Nat.eq_or_lt_of_le hm1 with he | hlt
          · rw [← he]; exact hns
          · exact h3 m hlt hm2
        · rcases h4 with h4 | ⟨s'', last'', g1, g2, g3, g4⟩
          · exact .inl h4
          · refine .inr ⟨s'', last'', g1, ?_, g3, g4⟩
            rcases g2 with g2 | g2
            · exact .inl (by omega)
            · exact .inr g2
      have hiff := stopsAt_succ hk hs ha stopTol e
      cases stopTol with
      | none => exact hcont last (by rw [hiff]; rintro ⟨t, h, _⟩; cases h)
      | some t =>
        simp only
        by_cases hm : k % e = 0
        · rw [if_pos hm]
          by_cases hd : delta s' ≤ t
          · rw [if_pos hd]
            exact ⟨k + 1, le_rfl, by omega, fun m h1 h2 => by omega,
              .inr ⟨s', _, ha, .inr (hiff.2 ⟨t, rfl, hm, hd⟩), rfl, fun _ _ => rfl⟩⟩
          · rw [if_neg hd]
            exact hcont _ (by rw [hiff]; rintro ⟨t', h, _, h3⟩; cases h; exact hd h3)
        · rw [if_neg hm]
          exact hcont _ (by rw [hiff]; rintro ⟨t', h, h3, _⟩; exact hm h3)

/-- **C59.** A run with valid arguments takes `n` steps, `1 ≤ n ≤ max_iter`, as if unobserved; the stopping rule did not fire before.
Either the `n`-th step raised and its exception propagates, or the iteration ended because of the limit or because the rule fired after
the `n`-th step.  In the latter case, if `max_tol` is given and the last move is larger, RuntimeError is raised; otherwise the `n`-th
iterate is returned. -/
theorem C59_run (step : Nat → St T d → Py (St T d)) (hk : KeepsOld step) (maxIter : Int) (stopTol maxTol : Option ℝ) (freq : ℝ)
    (hv : ValidRun maxIter stopTol maxTol freq) (s0 : St T d) :
    ∃ n : Nat, 1 ≤ n ∧ (n : Int) ≤ maxIter ∧
      (∀ m, 1 ≤ m → m < n → ¬ StopsAt step s0 stopTol (max 1 ⌊freq * (maxIter : ℝ)⌋₊) m) ∧
      ((∃ e, after step s0 n = .error e ∧ run step maxIter stopTol maxTol freq s0 = .error e) ∨
       (∃ s δ, after step s0 n = .ok s ∧ MovedBy step s0 n δ ∧
          ((n : Int) = maxIter ∨ StopsAt step s0 stopTol (max 1 ⌊freq * (maxIter : ℝ)⌋₊) n) ∧
          ((∃ t, maxTol = some t ∧ t < δ ∧ run step maxIter stopTol maxTol freq s0 = .error .runtimeError) ∨
           ((∀ t, maxTol = some t → δ ≤ t) ∧ run step maxIter stopTol maxTol freq s0 = .ok s)))) := by
  obtain ⟨h1, h2, h3, h4, h5⟩ := hv
  obtain ⟨N, rfl⟩ : ∃ N : Nat, maxIter = (N + 1 : Nat) := ⟨(maxIter - 1).toNat, by omega⟩
  have hrun : run step ((N + 1 : Nat) : Int) stopTol maxTol freq s0 =
      match loop step stopTol (checkEveryOf freq (N + 1)) (N + 1) 0 s0 none with
      | .error e => .error e
      | .ok (s', k, last) => finalCheck stopTol maxTol (checkEveryOf freq (N + 1)) k s' last := by
    unfold run
    rw [if_neg (by omega), if_neg (by rintro ⟨t, ht, h⟩; linarith [h2 t ht]), if_neg (by rintro ⟨t, ht, h⟩; linarith [h3 t ht]),
      if_neg (by rintro (h | h) <;> linarith)]
    rfl
  have hce : max 1 ⌊freq * (((N + 1 : Nat) : Int) : ℝ)⌋₊ = checkEveryOf freq (N + 1) := by
    unfold checkEveryOf; push_cast; rfl
  rw [hce, hrun]
  set e := checkEveryOf freq (N + 1)
  obtain ⟨n, g1, g2, g3, g4⟩ := loop_spec (s0 := s0) hk stopTol e N 0 s0 none rfl
  refine ⟨n, by omega, by push_cast; omega, fun m a b => g3 m (by omega) b, ?_⟩
  rcases g4 with ⟨err, a, b⟩ | ⟨s, last, a, b, c, hl⟩
  · exact .inl ⟨err, a, by rw [b]⟩
  · refine .inr ?_
    rw [c]
    simp only
    obtain ⟨m, rfl⟩ : ∃ m, n = m + 1 := ⟨n - 1, by omega⟩
    have hprev : ∃ sp, after step s0 m = .ok sp := by
      rw [after] at a
      cases hm : after step s0 m with
      | error err => rw [hm] at a; cases a
      | ok sp => exact ⟨sp, rfl⟩
    obtain ⟨sp, hsp⟩ := hprev
    refine ⟨s, delta s, a, (movedBy_succ hk hsp a _).2 rfl, ?_, ?_⟩
    · rcases b with b | b
      · exact .inl (by push_cast; omega)
      · exact .inr b
    · unfold finalCheck
      cases maxTol with
      | none => exact .inr ⟨by simp, rfl⟩
      | some t =>
        simp only
        have hδ : (if stopTol.isNone = true ∨ (m + 1 - 1) % e ≠ 0 then some (delta s) else last) = some (delta s) := by
          split
          · rfl
          · rename_i hc
            simp only [not_or, ne_eq, not_not] at hc
            exact hl (by cases stopTol <;> simp_all) hc.2
        rw [hδ]
        simp only
        by_cases hd : delta s > t
        · rw [if_pos hd]; exact .inl ⟨t, rfl, hd, rfl⟩
        · rw [if_neg hd]; exact .inr ⟨fun t' ht => by cases ht; exact not_lt.1 hd, rfl⟩

/-- **C59.** Invalid arguments are refused with ValueError. -/
theorem C59_reject (step : Nat → St T d → Py (St T d)) (maxIter : Int) (stopTol maxTol : Option ℝ) (freq : ℝ) (s0 : St T d)
    (h : ¬ ValidRun maxIter stopTol maxTol freq) : run step maxIter stopTol maxTol freq s0 = .error .valueError := by
  unfold run
  by_cases h1 : maxIter < 1
  · rw [if_pos h1]
  rw [if_neg h1]
  by_cases h2 : ∃ t, stopTol = some t ∧ t ≤ 0
  · rw [if_pos h2]
  rw [if_neg h2]
  by_cases h3 : ∃ t, maxTol = some t ∧ t ≤ 0
  · rw [if_pos h3]
  rw [if_neg h3]
  by_cases h4 : freq ≤ 0 ∨ freq > 1
  · rw [if_pos h4]
  · exfalso
    push Not at h2 h3 h4
    exact h ⟨not_lt.1 h1, h2, h3, h4.1, h4.2⟩

/-- **C59.** Without tolerances the run is exactly `max_iter` steps. -/
theorem C59_no_tolerance (step : Nat → St T d → Py (St T d)) (hk : KeepsOld step) (maxIter : Nat) (h1 : 1 ≤ maxIter)
    (freq : ℝ) (hf : 0 < freq) (hf1 : freq ≤ 1) (s0 s : St T d) (hs : after step s0 maxIter = .ok s) :
    run step maxIter none none freq s0 = .ok s := by
  obtain ⟨n, g1, g2, -, g4⟩ := C59_run step hk maxIter none none freq ⟨by exact_mod_cast h1, by simp, by simp, hf, hf1⟩ s0
  have hpre : ∀ k, k ≤ maxIter → ∃ s, after step s0 k = .ok s := by
    intro k hk'
    by_contra hc
    push Not at hc
    have : ∀ j, k ≤ j → ∀ s, after step s0 j ≠ .ok s := by
      intro j hj
      induction j, hj using Nat.le_induction with
      | base => exact hc
      | succ j _ ih =>
        intro s h
        rw [after] at h
        cases h2 : after step s0 j with
        | error e => rw [h2] at h; cases h
        | ok s' => exact ih s' h2
    exact this maxIter hk' s hs
  rcases g4 with ⟨e, a, -⟩ | ⟨s', δ, a, -, b, c⟩
  · obtain ⟨s'', hs''⟩ := hpre n (by exact_mod_cast g2)
    rw [hs''] at a; cases a
  · have hn : n = maxIter := by
      rcases b with b | ⟨t, _, h, _⟩
      · exact_mod_cast b
      · cases h
    subst hn
    rcases c with ⟨t, h, _⟩ | ⟨-, c⟩
    · cases h
    · rw [c, ← a, hs]

/-- **C59 (limit of the check frequency).** With `check_frequency = 1` the rule is only ever tested after the very first step: the run
takes one step or all of them, however small the later moves are. -/
theorem C59_frequency_one (step : Nat → St T d → Py (St T d)) (hk : KeepsOld step) (maxIter : Int) (stopTol : Option ℝ)
    (hv : ValidRun maxIter stopTol none 1) (s0 s : St T d) (h : run step maxIter stopTol none 1 s0 = .ok s) :
    after step s0 1 = .ok s ∨ after step s0 maxIter.toNat = .ok s := by
  obtain ⟨n, g1, g2, -, g4⟩ := C59_run step hk maxIter stopTol none 1 hv s0
  rcases g4 with ⟨e, -, b⟩ | ⟨s', δ, a, -, b, c⟩
  · rw [h] at b; cases b
  · have hs : s' = s := by
      rcases c with ⟨t, ht, _⟩ | ⟨-, c⟩
      · cases ht
      · rw [h] at c; cases c; rfl
    subst hs
    rcases b with b | ⟨t, δ', -, hm, -⟩
    · right; rw [← b]; simpa using a
    · have hpos := hv.1
      obtain ⟨N, rfl⟩ : ∃ N : Nat, maxIter = (N : Nat) := ⟨maxIter.toNat, by omega⟩
      have e1 : max 1 ⌊(1 : ℝ) * (((N : Nat) : Int) : ℝ)⌋₊ = N := by
        rw [one_mul, Int.cast_natCast, Nat.floor_natCast]; omega
      rw [e1] at hm
      by_cases hn : n - 1 < N
      · rw [Nat.mod_eq_of_lt hn] at hm
        left
        have : n = 1 := by omega
        rw [← this]; exact a
      · right
        have : n = N := by omega
        simpa [← this] using a

/-! ### gradient descent and accelerated gradient descent -/

theorem gdStep_keeps (ip : Bool) (η : Nat → ℝ) (c : Cost σ ι d) : KeepsOld (gdStep ip η c) := by
  intro k s s' h
  unfold gdStep at h
  split at h
  · cases h
  · cases h; rfl

theorem agdStep_keeps (η : ℝ) (β : Nat → ℝ) (c : Cost σ ι d) : KeepsOld (agdStep η β c) := by
  intro k s s' h
  unfold agdStep at h
  split at h
  · cases h
  · cases h; rfl

/-- the hypotheses of `C59_run` are met by both solvers, and a run of gradient descent -/
example (c : Cost σ ι d) : KeepsOld (gdStep true (fun _ => 1) c) ∧ ValidRun 100 (some 1e-10) (some 1e-3) 0.01 :=
  ⟨gdStep_keeps _ _ _, by norm_num [ValidRun]⟩

theorem run_ok_after {step : Nat → St T d → Py (St T d)} (hk : KeepsOld step) {maxIter : Int} {stopTol maxTol : Option ℝ} {freq : ℝ}
    {s0 s : St T d} (h : run step maxIter stopTol maxTol freq s0 = .ok s) :
    ∃ n : Nat, 1 ≤ n ∧ (n : Int) ≤ maxIter ∧ after step s0 n = .ok s := by
  have hv : ValidRun maxIter stopTol maxTol freq := by
    by_contra hc
    rw [C59_reject step maxIter stopTol maxTol freq s0 hc] at h
    cases h
  obtain ⟨n, g1, g2, -, g4⟩ := C59_run step hk maxIter stopTol maxTol freq hv s0
  refine ⟨n, g1, g2, ?_⟩
  rcases g4 with ⟨e, -, b⟩ | ⟨s', δ, a, -, -, c⟩
  · rw [h] at b; cases b
  · rcases c with ⟨t, _, _, c⟩ | ⟨-, c⟩
    · rw [h] at c; cases c
    · rw [h] at c; cases c; exact a

/-- **C68.** On NumPy and PyTorch, gradient descent started from the caller's array overwrites that array: afterwards it holds the
result, whatever the cost, step sizes, tolerances and limits. -/
theorem C68_gradient_descent_overwrites (c : Cost σ ι d) (η : Nat → ℝ) (x0 : Vec d) (maxIter : Int) (stopTol maxTol : Option ℝ)
    (freq : ℝ) (s : St Unit d) (h : gradientDescent true c η (some x0) maxIter stopTol maxTol freq = .ok s) : s.caller = s.x := by
  obtain ⟨n, h1, -, hn⟩ := run_ok_after (gdStep_keeps true η c) h
  have key : ∀ n s, after (gdStep true η c) (init (some x0) (fun _ => ())) n = .ok s → s.shared = true ∧ s.caller = s.x := by
    intro n
    induction n with
    | zero => intro s h; cases h; exact ⟨rfl, rfl⟩
    | succ n ih =>
      intro s h
      rw [after] at h
      split at h
      · cases h
      · rename_i s' hs'
        obtain ⟨i1, i2⟩ := ih s' hs'
        unfold gdStep at h
        split at h
        · cases h
        · cases h
          simp [i1]
  exact (key n s hn).2

/-- **C68.** Concretely: minimising `(x - 1)² / 2` from the caller's zero array leaves a one in it. -/
theorem C68_overwrite_witness : ∃ s, gradientDescent true (Cost.quad () 1 (-vec fun _ => 1) 0 : Cost Unit Unit 1) (fun _ => 1) (some 0) 1 none none 1 = .ok s ∧
    s.caller = vec fun _ => 1 := by
  obtain ⟨s, hs⟩ : ∃ s, after (gdStep true (fun _ => 1) (Cost.quad () 1 (-vec fun _ => 1) 0 : Cost Unit Unit 1)) (init (some 0) (fun _ => ())) 1 = .ok s := by
    simp only [after, gdStep, Cost.grad]
    exact ⟨_, rfl⟩
  have hr := C59_no_tolerance _ (gdStep_keeps _ _ _) 1 le_rfl 1 one_pos le_rfl _ s hs
  refine ⟨s, hr, ?_⟩
  simp only [after, gdStep, Cost.grad] at hs
  injection hs with hs
  rw [← hs]
  simp [init, quadGrad, app_zero]

/-- **C68.** Accelerated gradient descent never touches it, nor does gradient descent on TensorFlow or JAX. -/
theorem C68_caller_untouched (c : Cost σ ι d) (η : Nat → ℝ) (η' : ℝ) (β : Nat → ℝ) (x0 : Vec d) (maxIter : Int)
    (stopTol maxTol : Option ℝ) (freq : ℝ) :
    (∀ s, acceleratedGradientDescent c η' β (some x0) maxIter stopTol maxTol freq = .ok s → s.caller = x0) ∧
    (∀ s, gradientDescent false c η (some x0) maxIter stopTol maxTol freq = .ok s → s.caller = x0) := by
  constructor
  · intro s h
    obtain ⟨n, h1, -, hn⟩ := run_ok_after (agdStep_keeps η' β c) h
    clear h h1
    induction n generalizing s with
    | zero => cases hn; rfl
    | succ n ih =>
      rw [after] at hn
      split at hn
      · cases hn
      · rename_i s' hs'
        have := ih s' hs'
        unfold agdStep at hn
        split at hn
        · cases hn
        · cases hn; exact this
  · intro s h
    obtain ⟨n, h1, -, hn⟩ := run_ok_after (gdStep_keeps false η c) h
    clear h h1
    induction n generalizing s with
    | zero => cases hn; rfl
    | succ n ih =>
      rw [after] at hn
      split at hn
      · cases hn
      · rename_i s' hs'
        have := ih s' hs'
        unfold gdStep at hn
        split at hn
        · cases hn
        · cases hn; simp [this]

end Verif.Props
