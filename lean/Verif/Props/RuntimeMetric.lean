import Verif.Model.RuntimeMetric
import Mathlib.Tactic.Linarith
import Mathlib.Tactic.Tauto
/-!
# C94: what runtime metrics do to a trial, and what they publish
-/
set_option linter.unusedSectionVars false
namespace Verif
namespace Props
open Monitor

variable {σ M V : Type}

/-! ## Specification: the iterations of a trial on its own, without metrics, checkpoints or queues -/

/-- the system with which the iterations begin: a fresh trial (`start = 0`) is set up, a resumed one is not -/
def Began (p : Prog σ) (start : Int) (s s' : σ) : Prop := (start ≠ 0 ∧ s' = s) ∨ (start = 0 ∧ p.setup s = (s', none))

/-- `Done p N k₀ s₀ k z`: from `s₀` before iteration `k₀`, iterations `k₀, …, k-1` ran without an exception and left `z` -/
inductive Done (p : Prog σ) (N k₀ : Int) (s₀ : σ) : Int → σ → Prop
  | start : Done p N k₀ s₀ k₀ s₀
  | next {k : Int} {x y z : σ} : Done p N k₀ s₀ k x → p.step k (p.netStep k x) = (y, none) →
      p.snapshot (k + 1) (k + 1 == N) y = (z, none) → Done p N k₀ s₀ (k + 1) z

/-- looking at a trial does not change it (no mini-batches drawn, no random numbers used) -/
def Pure (m : Metric σ M V) : Prop := ∀ k mem s, (m.compute k mem s).2.2 = s

/-- from memory `mem₀` on, the answers of the metric at iteration `k` in state `s` are `val k s` -/
def Steady (m : Metric σ M V) (mem₀ : M) (val : Int → σ → Py V) : Prop :=
  ∃ I : M → Prop, I mem₀ ∧ ∀ mem, I mem → ∀ k s, (m.compute k mem s).1 = val k s ∧ I (m.compute k mem s).2.1

/-! ## Lemmas -/

theorem Done.le {p : Prog σ} {N k₀ : Int} {s₀ : σ} {k : Int} {z : σ} (h : Done p N k₀ s₀ k z) : k₀ ≤ k := by
  induction h with
  | start => exact le_refl _
  | next _ _ _ ih => omega

/-- the first iteration split off -/
theorem done_head {p : Prog σ} {N k₀ : Int} {s₀ : σ} {k : Int} {z : σ} : Done p N k₀ s₀ k z ↔
    (k = k₀ ∧ z = s₀) ∨ ∃ y x, p.step k₀ (p.netStep k₀ s₀) = (y, none) ∧ p.snapshot (k₀ + 1) (k₀ + 1 == N) y = (x, none) ∧
      Done p N (k₀ + 1) x k z := by
  constructor
  · intro h
    induction h with
    | start => exact Or.inl ⟨rfl, rfl⟩
    | next hd h1 h2 ih =>
      refine Or.inr ?_
      rcases ih with ⟨rfl, rfl⟩ | ⟨y, x, e1, e2, h3⟩
      · exact ⟨_, _, h1, h2, .start⟩
      · exact ⟨y, x, e1, e2, h3.next h1 h2⟩
  · rintro (⟨rfl, rfl⟩ | ⟨y, x, e1, e2, h⟩)
    · exact .start
    · have h0 : Done p N k₀ s₀ (k₀ + 1) x := Done.start.next e1 e2
      clear e1 e2
      induction h with
      | start => exact h0
      | next _ h1 h2 ih => exact ih.next h1 h2

theorem done_unique {p : Prog σ} {N k₀ : Int} {s₀ : σ} {k : Int} {z z' : σ} (h : Done p N k₀ s₀ k z) (h' : Done p N k₀ s₀ k z') :
    z = z' := by
  induction h generalizing z' with
  | start =>
    rcases done_head.1 h' with ⟨_, rfl⟩ | ⟨y, x, _, _, h3⟩
    · rfl
    · exact absurd h3.le (by omega)
  | next hd h1 h2 ih =>
    rename_i k x y z
    have hk := hd.le
    generalize hk1 : k + 1 = k1 at h'
    cases h' with
    | start => omega
    | next hd' h1' h2' =>
      rename_i k' x' y'
      have : k' = k := by omega
      subst this
      rw [← ih hd'] at h1'
      rw [h1] at h1'
      obtain ⟨rfl, -⟩ := Prod.mk.inj h1'
      rw [h2] at h2'
      exact (Prod.mk.inj h2').1

theorem shouldUpdate_ok {i : Int} (hi : i ≠ 0) (k : Int) : shouldUpdate i k = .ok (k % i == 0 || k == 0) := by
  simp [shouldUpdate, hi]

theorem updatePlot_same (room : List (Msg V) → Msg V → Bool) (j : Nat) (m : Metric σ M V) (hm : Pure m) (k : Int)
    (t : TrialState σ M V) : (updatePlot room j m k t).sys = t.sys ∧ (updatePlot room j m k t).saved = t.saved ∧
      (updatePlot room j m k t).complete = t.complete := by
  unfold updatePlot
  have := hm k (t.mem j) t.sys
  dsimp only
  split <;> simp [this]

theorem updateAll_same (room : List (Msg V) → Msg V → Bool) (N k : Int) (ms : List (Metric σ M V)) (hm : ∀ m ∈ ms, Pure m)
    (hi : ∀ m ∈ ms, m.interval ≠ 0) (j : Nat) (t : TrialState σ M V) : (updateAll room N k j ms t).1.sys = t.sys ∧
      (updateAll room N k j ms t).1.saved = t.saved ∧ (updateAll room N k j ms t).1.complete = t.complete ∧
      (updateAll room N k j ms t).2 = none := by
  induction ms generalizing j t with
  | nil => simp [updateAll]
  | cons m ms ih =>
    simp only [updateAll, shouldUpdate_ok (hi m (by simp))]
    have h := ih (fun m h => hm m (by simp [h])) (fun m h => hi m (by simp [h])) (j + 1)
    have hu := updatePlot_same room j m (hm m (by simp)) k t
    split
    · have := h (updatePlot room j m k t)
      rw [hu.1, hu.2.1, hu.2.2] at this
      exact this
    · exact h t

/-- the visible part of a trial -/
def SameRun (r r' : Eff (TrialState σ M V)) : Prop :=
  r.1.sys = r'.1.sys ∧ r.1.saved = r'.1.saved ∧ r.1.complete = r'.1.complete ∧ r.2 = r'.2

theorem SameRun.andThen {r r' : Eff (TrialState σ M V)} {f f' : TrialState σ M V → Eff (TrialState σ M V)} (h : SameRun r r')
    (hf : ∀ t t', t.sys = t'.sys → t.saved = t'.saved → t.complete = t'.complete → SameRun (f t) (f' t')) :
    SameRun (Monitor.andThen r f) (Monitor.andThen r' f') := by
  obtain ⟨r1, r2⟩ := r
  obtain ⟨r1', r2'⟩ := r'
  obtain ⟨h1, h2, h3, h4⟩ := h
  simp only at h1 h2 h3 h4
  subst h4
  unfold Monitor.andThen
  cases r2 with
  | some e => exact ⟨h1, h2, h3, rfl⟩
  | none => exact hf _ _ h1 h2 h3

theorem onSys_same (f : σ → Eff σ) (t t' : TrialState σ M V) (h1 : t.sys = t'.sys) (h2 : t.saved = t'.saved)
    (h3 : t.complete = t'.complete) : SameRun (onSys f t) (onSys f t') := by
  simp only [SameRun, onSys, h1, h2, h3, and_self]

theorem callback_same (room : List (Msg V) → Msg V → Bool) (should : Int → Bool) (N : Int) (ms : List (Metric σ M V))
    (hm : ∀ m ∈ ms, Pure m) (hi : ∀ m ∈ ms, m.interval ≠ 0) (k : Int) (t t' : TrialState σ M V) (h1 : t.sys = t'.sys)
    (h2 : t.saved = t'.saved) (h3 : t.complete = t'.complete) :
    SameRun (callback room should N ms k t) (callback room should N [] k t') := by
  unfold callback
  have h := updateAll_same room N k ms hm hi 0 (if should k then { t with saved := t.saved ++ [(k, t.sys)] } else t)
  simp only [SameRun, h.1, h.2.1, h.2.2.1, h.2.2.2, updateAll]
  split <;> simp [h1, h2, h3]

theorem loop_same (p : Prog σ) (room : List (Msg V) → Msg V → Bool) (should : Int → Bool) (N : Int) (ms : List (Metric σ M V))
    (hm : ∀ m ∈ ms, Pure m) (hi : ∀ m ∈ ms, m.interval ≠ 0) (n : Nat) (k : Int) (t t' : TrialState σ M V) (h1 : t.sys = t'.sys)
    (h2 : t.saved = t'.saved) (h3 : t.complete = t'.complete) :
    SameRun (loop p room should N ms n k t) (loop p room should N [] n k t') := by
  induction n generalizing k t t' with
  | zero => exact ⟨h1, h2, h3, rfl⟩
  | succ n ih =>
    refine SameRun.andThen ?_ (fun t t' => ih (k + 1) t t')
    refine SameRun.andThen ?_ (fun t t' => callback_same room should N ms hm hi k t t')
    exact SameRun.andThen (onSys_same _ _ _ h1 h2 h3) (fun t t' => onSys_same _ t t')

theorem guarded_same (p : Prog σ) (room : List (Msg V) → Msg V → Bool) (should : Int → Bool) (manager : Bool) (N start : Int)
    (ms : List (Metric σ M V)) (hm : ∀ m ∈ ms, Pure m) (hi : ∀ m ∈ ms, m.interval ≠ 0) (t : TrialState σ M V) :
    SameRun (guarded p room should manager N start ms t) (guarded p room should manager N start [] t) := by
  refine SameRun.andThen ?_ (fun t t' h1 h2 h3 => ?_)
  · unfold algRun
    split
    · exact ⟨rfl, rfl, rfl, rfl⟩
    · exact SameRun.andThen ⟨rfl, rfl, rfl, rfl⟩ (fun t t' => loop_same p room should N ms hm hi _ start t t')
  · refine onSys_same _ _ _ ?_ ?_ ?_ <;> (split <;> simp [h1, h2, h3])

/-! ## The run without metrics -/

/-- how the iterations ended: at `k` with `z`, either through `N`, or with an exception -/
inductive Ended (p : Prog σ) (N k₀ : Int) (s₀ : σ) : σ → Option PyErr → Prop
  /-- all iterations done -/
  | all {z : σ} : Done p N k₀ s₀ N z → Ended p N k₀ s₀ z none
  /-- `step` raised, leaving `y` -/
  | step {k : Int} {x y : σ} {e : PyErr} : Done p N k₀ s₀ k x → k < N → p.step k (p.netStep k x) = (y, some e) →
      Ended p N k₀ s₀ y (some e)
  /-- a snapshot raised, leaving `z` -/
  | snap {k : Int} {x y z : σ} {e : PyErr} : Done p N k₀ s₀ k x → k < N → p.step k (p.netStep k x) = (y, none) →
      p.snapshot (k + 1) (k + 1 == N) y = (z, some e) → Ended p N k₀ s₀ z (some e)

theorem Ended.cons {p : Prog σ} {N k₀ : Int} {s₀ y x : σ} (h1 : p.step k₀ (p.netStep k₀ s₀) = (y, none))
    (h2 : p.snapshot (k₀ + 1) (k₀ + 1 == N) y = (x, none)) {z : σ} {e : Option PyErr} (h : Ended p N (k₀ + 1) x z e) :
    Ended p N k₀ s₀ z e := by
  cases h with
  | all hd => exact .all (done_head.2 (Or.inr ⟨y, x, h1, h2, hd⟩))
  | step hd hk h3 => exact .step (done_head.2 (Or.inr ⟨y, x, h1, h2, hd⟩)) hk h3
  | snap hd hk h3 h4 => exact .snap (done_head.2 (Or.inr ⟨y, x, h1, h2, hd⟩)) hk h3 h4

theorem andThen_some {τ : Type} {r : Eff τ} {e : PyErr} (f : τ → Eff τ) (h : r.2 = some e) : Monitor.andThen r f = r := by
  unfold Monitor.andThen
  rw [h]
  exact Prod.ext rfl h.symm

theorem andThen_none {τ : Type} {r : Eff τ} (f : τ → Eff τ) (h : r.2 = none) : Monitor.andThen r f = f r.1 := by
  unfold Monitor.andThen
  rw [h]

/-- the loop, all its effects in terms of `Done` -/
theorem loop_plain (p : Prog σ) (room : List (Msg V) → Msg V → Bool) (should : Int → Bool) (N : Int) (n : Nat) (k : Int)
    (hN : k + n = N) (t : TrialState σ M V) :
    let r := loop p room should N ([] : List (Metric σ M V)) n k t
    Ended p N k t.sys r.1.sys r.2 ∧ r.1.complete = t.complete ∧
      ∃ l : List (Int × σ), r.1.saved = t.saved ++ l ∧ l.Pairwise (fun a b => a.1 < b.1) ∧
        ∀ q : Int × σ, q ∈ l ↔ should q.1 = true ∧ q.1 < N ∧ k ≤ q.1 ∧ Done p N k t.sys (q.1 + 1) q.2 := by
  induction n generalizing k t with
  | zero =>
    have : N = k := by omega
    subst this
    exact ⟨.all .start, rfl, [], by simp [loop], List.Pairwise.nil, fun q => by
      simp only [List.not_mem_nil, false_iff]; rintro ⟨_, h, h', _⟩; omega⟩
  | succ n ih =>
    have hkN : k < N := by omega
    simp only [loop, body]
    rcases h1 : p.step k (p.netStep k t.sys) with ⟨y, e1⟩
    have ho1 : onSys (fun s => p.step k (p.netStep k s)) t = ({ t with sys := y }, e1) := by simp only [onSys, h1]
    have nothing : ∀ (hno : ∀ x, ¬ ∃ y' , p.step k (p.netStep k t.sys) = (y', none) ∧
        p.snapshot (k + 1) (k + 1 == N) y' = (x, none)) (q : Int × σ), q ∈ ([] : List (Int × σ)) ↔
          should q.1 = true ∧ q.1 < N ∧ k ≤ q.1 ∧ Done p N k t.sys (q.1 + 1) q.2 := by
      intro hno q
      simp only [List.not_mem_nil, false_iff]
      rintro ⟨_, _, hk, hd⟩
      rcases done_head.1 hd with ⟨h, _⟩ | ⟨y', x, e1, e2, _⟩
      · omega
      · exact hno x ⟨y', e1, e2⟩
    cases e1 with
    | some e =>
      rw [ho1, andThen_some (r := (_, some e)) _ rfl, andThen_some (r := (_, some e)) _ rfl, andThen_some (r := (_, some e)) _ rfl]
      refine ⟨.step .start hkN h1, rfl, [], by simp, List.Pairwise.nil, nothing ?_⟩
      rintro x ⟨y', h, _⟩
      rw [h1] at h
      cases (Prod.mk.inj h).2
    | none =>
      rw [ho1, andThen_none (r := (_, none)) _ rfl]
      rcases h2 : p.snapshot (k + 1) (k + 1 == N) y with ⟨z, e2⟩
      have ho2 : onSys (p.snapshot (k + 1) (k + 1 == N)) ({ t with sys := y }, (none : Option PyErr)).1 = ({ t with sys := z }, e2) := by
        simp only [onSys, h2]
      cases e2 with
      | some e =>
        rw [ho2, andThen_some (r := (_, some e)) _ rfl, andThen_some (r := (_, some e)) _ rfl]
        refine ⟨.snap .start hkN h1 h2, rfl, [], by simp, List.Pairwise.nil, nothing ?_⟩
        rintro x ⟨y', h, h'⟩
        rw [h1] at h
        obtain rfl := (Prod.mk.inj h).1
        rw [h2] at h'
        cases (Prod.mk.inj h').2
      | none =>
        rw [ho2, andThen_none (r := (_, none)) _ rfl]
        have hc : callback room should N ([] : List (Metric σ M V)) k ({ t with sys := z }, (none : Option PyErr)).1 =
            (if should k then { t with sys := z, saved := t.saved ++ [(k, z)] } else { t with sys := z }, none) := by
          simp only [callback, updateAll]
        rw [hc, andThen_none (r := (_, none)) _ rfl]
        obtain ⟨a1, a2, l, a3, a4, a5⟩ := ih (k + 1) (by push_cast at hN; omega)
          (if should k then { t with sys := z, saved := t.saved ++ [(k, z)] } else { t with sys := z })
        have hs : (if should k then { t with sys := z, saved := t.saved ++ [(k, z)] } else { t with sys := z } :
            TrialState σ M V).sys = z := by split <;> rfl
        rw [hs] at a1 a5
        refine ⟨a1.cons h1 h2, by rw [a2]; split <;> rfl, (if should k then [(k, z)] else []) ++ l, ?_, ?_, ?_⟩
        · rw [a3]
          split <;> simp
        · rw [List.pairwise_append]
          refine ⟨by split <;> simp, a4, ?_⟩
          intro a ha b hb
          have hb' := ((a5 b).1 hb).2.2.1
          split at ha
          · simp only [List.mem_singleton] at ha
            subst ha
            show k < b.1
            omega
          · simp at ha
        · intro q
          rw [List.mem_append, a5]
          have hd0 : Done p N k t.sys (k + 1) z := Done.start.next h1 h2
          constructor
          · rintro (h | ⟨b1, b2, b3, b4⟩)
            · split at h
              · simp only [List.mem_singleton] at h
                subst h
                exact ⟨by assumption, hkN, le_refl _, hd0⟩
              · simp at h
            · exact ⟨b1, b2, by omega, done_head.2 (Or.inr ⟨y, z, h1, h2, b4⟩)⟩
          · rintro ⟨b1, b2, b3, b4⟩
            by_cases hq : q.1 = k
            · left
              rw [if_pos (hq ▸ b1)]
              have : q.2 = z := done_unique (by rw [hq] at b4; exact b4) hd0
              simp [← hq, ← this]
            · right
              refine ⟨b1, b2, by omega, ?_⟩
              rcases done_head.1 b4 with ⟨h, _⟩ | ⟨y', x', c1, c2, c3⟩
              · omega
              · rw [h1] at c1
                obtain rfl := (Prod.mk.inj c1).1
                rw [h2] at c2
                obtain rfl := (Prod.mk.inj c2).1
                exact c3

/-! ## The messages -/

/-- a message is due at iteration `k`, for metrics `ms` numbered from `j`, in a trial whose system is `s` after the iteration -/
def DueAt (val : Nat → Int → σ → Py V) (N k : Int) (j : Nat) (ms : List (Metric σ M V)) (s : σ) (q : Msg V) : Prop :=
  q.iteration = k ∧ ∃ i m, ms[i]? = some m ∧ q.metric = j + i ∧ (m.interval ∣ k ∨ k + 1 = N) ∧ val q.metric k s = .ok q.value

theorem due_test {i : Int} (k N : Int) : ((k % i == 0 || k == 0) || k + 1 == N) = true ↔ i ∣ k ∨ k + 1 = N := by
  simp only [Bool.or_eq_true, beq_iff_eq, ← Int.dvd_iff_emod_eq_zero]
  constructor
  · rintro ((h | h) | h)
    · exact Or.inl h
    · exact Or.inl (h ▸ dvd_zero i)
    · exact Or.inr h
  · rintro (h | h)
    · exact Or.inl (Or.inl h)
    · exact Or.inr h

theorem updateAll_queue (room : List (Msg V) → Msg V → Bool) (N k : Int) (val : Nat → Int → σ → Py V) (I : Nat → M → Prop)
    (ms : List (Metric σ M V)) (hm : ∀ m ∈ ms, Pure m) (hi : ∀ m ∈ ms, m.interval ≠ 0) (j : Nat)
    (hI : ∀ i m, ms[i]? = some m → ∀ mem, I (j + i) mem → ∀ k s, (m.compute k mem s).1 = val (j + i) k s ∧
      I (j + i) (m.compute k mem s).2.1) (t : TrialState σ M V) (hmem : ∀ i m, ms[i]? = some m → I (j + i) (t.mem (j + i))) :
    (∀ i, I i (t.mem i) → I i ((updateAll room N k j ms t).1.mem i)) ∧
    ∃ l : List (Msg V), (updateAll room N k j ms t).1.queue = t.queue ++ l ∧ l.Pairwise (fun a b => a.metric < b.metric) ∧
      (∀ q ∈ l, DueAt val N k j ms t.sys q) ∧ ((∀ q m, room q m = true) → ∀ q, DueAt val N k j ms t.sys q → q ∈ l) := by
  induction ms generalizing j t with
  | nil =>
    refine ⟨fun i h => h, [], by simp [updateAll], List.Pairwise.nil, by simp, ?_⟩
    rintro _ q ⟨_, i, m, h, _⟩
    simp at h
  | cons m ms ih =>
    have hm0 : Pure m := hm m (by simp)
    have hi0 : m.interval ≠ 0 := hi m (by simp)
    have hj : I j (t.mem j) := hmem 0 m (by simp)
    have ha := hI 0 m (by simp) (t.mem j) hj k t.sys
    simp only [Nat.add_zero] at ha
    -- the rest of the list, from any state that agrees on the system and keeps the memories good
    have rest : ∀ t1 : TrialState σ M V, t1.sys = t.sys → (∀ i, I i (t.mem i) → I i (t1.mem i)) →
        (∀ i, I i (t.mem i) → I i ((updateAll room N k (j + 1) ms t1).1.mem i)) ∧
        ∃ l : List (Msg V), (updateAll room N k (j + 1) ms t1).1.queue = t1.queue ++ l ∧
          l.Pairwise (fun a b => a.metric < b.metric) ∧ (∀ q ∈ l, DueAt val N k (j + 1) ms t.sys q) ∧
          ((∀ q m, room q m = true) → ∀ q, DueAt val N k (j + 1) ms t.sys q → q ∈ l) := by
      intro t1 hs hk
      have h := ih (fun m h => hm m (by simp [h])) (fun m h => hi m (by simp [h])) (j + 1)
        (fun i m h => by
          have := hI (i + 1) m (by simpa using h)
          rw [show j + (i + 1) = j + 1 + i from by omega] at this
          exact this) t1
        (fun i m h => hk _ (by
          have := hmem (i + 1) m (by simpa using h)
          rw [show j + (i + 1) = j + 1 + i from by omega] at this
          exact this))
      rw [hs] at h
      exact ⟨fun i hii => h.1 i (hk i hii), h.2⟩
    -- messages due of the whole list
    have dueHead : ∀ q : Msg V, DueAt val N k j (m :: ms) t.sys q ↔
        (q.iteration = k ∧ q.metric = j ∧ (m.interval ∣ k ∨ k + 1 = N) ∧ val j k t.sys = .ok q.value) ∨
          DueAt val N k (j + 1) ms t.sys q := by
      intro q
      constructor
      · rintro ⟨h1, i, m', h2, h3, h4, h5⟩
        cases i with
        | zero =>
          simp only [List.getElem?_cons_zero, Option.some.injEq] at h2
          subst h2
          rw [h3] at h5
          exact Or.inl ⟨h1, h3, h4, h5⟩
        | succ i => exact Or.inr ⟨h1, i, m', by simpa using h2, by omega, h4, h5⟩
      · rintro (⟨h1, h2, h3, h4⟩ | ⟨h1, i, m', h2, h3, h4, h5⟩)
        · exact ⟨h1, 0, m, by simp, by simpa using h2, h3, by rw [h2]; exact h4⟩
        · exact ⟨h1, i + 1, m', by simpa using h2, by omega, h4, h5⟩
    simp only [updateAll, shouldUpdate_ok hi0]
    by_cases hb : ((k % m.interval == 0 || k == 0) || k + 1 == N) = true
    · rw [if_pos hb]
      have hdue := (due_test k N).1 hb
      have hs := (updatePlot_same room j m hm0 k t).1
      have hmem1 : ∀ i, I i (t.mem i) → I i ((updatePlot room j m k t).mem i) := by
        intro i hii
        have : (updatePlot room j m k t).mem i = if i = j then (m.compute k (t.mem j) t.sys).2.1 else t.mem i := by
          unfold updatePlot
          dsimp only
          split <;> rfl
        rw [this]
        split
        · rename_i h
          rw [h]
          exact ha.2
        · exact hii
      obtain ⟨r1, l, r2, r3, r4, r5⟩ := rest (updatePlot room j m k t) hs hmem1
      refine ⟨r1, ?_⟩
      cases hv : val j k t.sys with
      | error e =>
        have hq : (updatePlot room j m k t).queue = t.queue := by
          unfold updatePlot
          dsimp only
          rw [ha.1, hv]
        refine ⟨l, by rw [r2, hq], r3, fun q h => (dueHead q).2 (Or.inr (r4 q h)), fun hr q h => ?_⟩
        rcases (dueHead q).1 h with ⟨_, _, _, h4⟩ | h
        · rw [hv] at h4
          cases h4
        · exact r5 hr q h
      | ok v =>
        have hq : (updatePlot room j m k t).queue = put room ⟨j, k, v⟩ t.queue := by
          unfold updatePlot
          dsimp only
          rw [ha.1, hv]
        by_cases hroom : room t.queue ⟨j, k, v⟩ = true
        · refine ⟨⟨j, k, v⟩ :: l, by rw [r2, hq]; simp [put, hroom], List.pairwise_cons.2 ⟨?_, r3⟩, ?_, ?_⟩
          · intro q h
            obtain ⟨_, i, _, _, h3, _⟩ := r4 q h
            show j < q.metric
            omega
          · intro q h
            rcases List.mem_cons.1 h with rfl | h
            · exact (dueHead _).2 (Or.inl ⟨rfl, rfl, hdue, hv⟩)
            · exact (dueHead q).2 (Or.inr (r4 q h))
          · intro hr q h
            rcases (dueHead q).1 h with ⟨h1, h2, _, h4⟩ | h
            · rw [hv] at h4
              injection h4 with h4
              obtain ⟨qa, qb, qc⟩ := q
              simp only at h1 h2 h4
              subst h1 h2 h4
              simp
            · exact List.mem_cons_of_mem _ (r5 hr q h)
        · refine ⟨l, by rw [r2, hq]; simp [put, hroom], r3, fun q h => (dueHead q).2 (Or.inr (r4 q h)), fun hr => ?_⟩
          exact absurd (hr _ _) hroom
    · rw [if_neg hb]
      obtain ⟨r1, l, r2, r3, r4, r5⟩ := rest t rfl (fun i h => h)
      refine ⟨r1, l, r2, r3, fun q h => (dueHead q).2 (Or.inr (r4 q h)), fun hr q h => ?_⟩
      rcases (dueHead q).1 h with ⟨_, _, h3, _⟩ | h
      · exact absurd ((due_test k N).2 h3) hb
      · exact r5 hr q h

/-- the order of the queue: by iteration, within an iteration by the position of the metric -/
def Earlier (a b : Msg V) : Prop := a.iteration < b.iteration ∨ (a.iteration = b.iteration ∧ a.metric < b.metric)

/-- a message due of a trial whose iterations begin at `k₀` in system `s₀`: the metric at that position is due at that iteration,
the iteration was completed, and the metric's answer on the system as the iteration left it is the message's value -/
def Due (p : Prog σ) (val : Nat → Int → σ → Py V) (N k₀ : Int) (s₀ : σ) (ms : List (Metric σ M V)) (q : Msg V) : Prop :=
  k₀ ≤ q.iteration ∧ q.iteration < N ∧ ∃ m z, ms[q.metric]? = some m ∧ (m.interval ∣ q.iteration ∨ q.iteration + 1 = N) ∧
    Done p N k₀ s₀ (q.iteration + 1) z ∧ val q.metric q.iteration z = .ok q.value

theorem loop_queue (p : Prog σ) (room : List (Msg V) → Msg V → Bool) (should : Int → Bool) (N : Int)
    (val : Nat → Int → σ → Py V) (I : Nat → M → Prop) (ms : List (Metric σ M V)) (hm : ∀ m ∈ ms, Pure m)
    (hi : ∀ m ∈ ms, m.interval ≠ 0) (hI : ∀ i m, ms[i]? = some m → ∀ mem, I i mem → ∀ k s, (m.compute k mem s).1 = val i k s ∧
      I i (m.compute k mem s).2.1) (n : Nat) (k : Int) (hN : k + n = N) (t : TrialState σ M V)
    (hmem : ∀ i m, ms[i]? = some m → I i (t.mem i)) :
    ∃ l : List (Msg V), (loop p room should N ms n k t).1.queue = t.queue ++ l ∧ l.Pairwise Earlier ∧
      (∀ q ∈ l, Due p val N k t.sys ms q) ∧ ((∀ q m, room q m = true) → ∀ q, Due p val N k t.sys ms q → q ∈ l) := by
  induction n generalizing k t with
  | zero =>
    have : N = k := by omega
    subst this
    refine ⟨[], by simp [loop], List.Pairwise.nil, by simp, ?_⟩
    rintro _ q ⟨h1, h2, _⟩
    omega
  | succ n ih =>
    have hkN : k < N := by omega
    simp only [loop, body]
    rcases h1 : p.step k (p.netStep k t.sys) with ⟨y, e1⟩
    have ho1 : onSys (fun s => p.step k (p.netStep k s)) t = ({ t with sys := y }, e1) := by simp only [onSys, h1]
    have nothing : (∀ x, ¬ ∃ y' , p.step k (p.netStep k t.sys) = (y', none) ∧
        p.snapshot (k + 1) (k + 1 == N) y' = (x, none)) → ∀ q : Msg V, Due p val N k t.sys ms q → q ∈ ([] : List (Msg V)) := by
      rintro hno q ⟨hk, _, m, z, _, _, hd, _⟩
      rcases done_head.1 hd with ⟨h, _⟩ | ⟨y', x, e1, e2, _⟩
      · omega
      · exact absurd ⟨y', e1, e2⟩ (hno x)
    cases e1 with
    | some e =>
      rw [ho1, andThen_some (r := (_, some e)) _ rfl, andThen_some (r := (_, some e)) _ rfl, andThen_some (r := (_, some e)) _ rfl]
      refine ⟨[], by simp, List.Pairwise.nil, by simp, fun _ => nothing ?_⟩
      rintro x ⟨y', h, _⟩
      rw [h1] at h
      cases (Prod.mk.inj h).2
    | none =>
      rw [ho1, andThen_none (r := (_, none)) _ rfl]
      rcases h2 : p.snapshot (k + 1) (k + 1 == N) y with ⟨z, e2⟩
      have ho2 : onSys (p.snapshot (k + 1) (k + 1 == N)) ({ t with sys := y }, (none : Option PyErr)).1 = ({ t with sys := z }, e2) := by
        simp only [onSys, h2]
      cases e2 with
      | some e =>
        rw [ho2, andThen_some (r := (_, some e)) _ rfl, andThen_some (r := (_, some e)) _ rfl]
        refine ⟨[], by simp, List.Pairwise.nil, by simp, fun _ => nothing ?_⟩
        rintro x ⟨y', h, h'⟩
        rw [h1] at h
        obtain rfl := (Prod.mk.inj h).1
        rw [h2] at h'
        cases (Prod.mk.inj h').2
      | none =>
        rw [ho2, andThen_none (r := (_, none)) _ rfl]
        have hd0 : Done p N k t.sys (k + 1) z := Done.start.next h1 h2
        unfold callback
        generalize hu : (if should k then { ({ t with sys := z } : TrialState σ M V) with
          saved := t.saved ++ [(k, z)] } else ({ t with sys := z } : TrialState σ M V)) = u
        have hus : u.sys = z := by rw [← hu]; split <;> rfl
        have huq : u.queue = t.queue := by rw [← hu]; split <;> rfl
        have hum : u.mem = t.mem := by rw [← hu]; split <;> rfl
        have hsame := updateAll_same room N k ms hm hi 0 u
        rw [andThen_none _ hsame.2.2.2]
        obtain ⟨b1, l1, b2, b3, b4, b5⟩ := updateAll_queue room N k val I ms hm hi 0 (by simpa using hI) u
          (by rw [hum]; simpa using hmem)
        obtain ⟨l2, c2, c3, c4, c5⟩ := ih (k + 1) (by push_cast at hN; omega) (updateAll room N k 0 ms u).1
          (fun i m h => b1 i (by rw [hum]; exact hmem i m h))
        rw [hsame.1, hus] at c4 c5
        rw [hus] at b4 b5
        refine ⟨l1 ++ l2, by rw [c2, b2, huq, List.append_assoc], ?_, ?_, ?_⟩
        · rw [List.pairwise_append]
          refine ⟨?_, c3, ?_⟩
          · refine (List.Pairwise.imp_of_mem ?_ b3)
            intro a b ha hb hab
            exact Or.inr ⟨by rw [(b4 a ha).1, (b4 b hb).1], hab⟩
          · intro a ha b hb
            have h1 := (b4 a ha).1
            have h2 := (c4 b hb).1
            exact Or.inl (by omega)
        · intro q hq
          rcases List.mem_append.1 hq with h | h
          · obtain ⟨d1, i, m, d2, d3, d4, d5⟩ := b4 q h
            rw [Nat.zero_add] at d3
            subst d3
            refine ⟨by omega, by omega, m, z, d2, by rw [d1]; exact d4, by rw [d1]; exact hd0, by rw [d1]; exact d5⟩
          · obtain ⟨d1, d2, m, z', d3, d4, d5, d6⟩ := c4 q h
            exact ⟨by omega, d2, m, z', d3, d4, done_head.2 (Or.inr ⟨y, z, h1, h2, d5⟩), d6⟩
        · rintro hr q ⟨d1, d2, m, z', d3, d4, d5, d6⟩
          rw [List.mem_append]
          by_cases hq : q.iteration = k
          · left
            rw [hq] at d4 d5 d6
            obtain rfl := done_unique d5 hd0
            exact b5 hr q ⟨hq, q.metric, m, d3, by omega, d4, d6⟩
          · right
            refine c5 hr q ⟨by omega, d2, m, z', d3, d4, ?_, d6⟩
            rcases done_head.1 d5 with ⟨h, _⟩ | ⟨y', x', e1, e2, e3⟩
            · omega
            · rw [h1] at e1
              obtain rfl := (Prod.mk.inj e1).1
              rw [h2] at e2
              obtain rfl := (Prod.mk.inj e2).1
              exact e3

theorem ended_head {p : Prog σ} {N k : Int} {s z : σ} {e : Option PyErr} (h : Ended p N k s z e) :
    (k = N ∧ z = s ∧ e = none) ∨ (k < N ∧ ∃ r, p.step k (p.netStep k s) = (z, some r) ∧ e = some r) ∨
    (k < N ∧ ∃ y r, p.step k (p.netStep k s) = (y, none) ∧ p.snapshot (k + 1) (k + 1 == N) y = (z, some r) ∧ e = some r) ∨
    (k < N ∧ ∃ y x, p.step k (p.netStep k s) = (y, none) ∧ p.snapshot (k + 1) (k + 1 == N) y = (x, none) ∧
      Ended p N (k + 1) x z e) := by
  cases h with
  | all hd =>
    rcases done_head.1 hd with ⟨h1, h2⟩ | ⟨y, x, h1, h2, h3⟩
    · exact Or.inl ⟨h1.symm, h2, rfl⟩
    · have := h3.le
      exact Or.inr (Or.inr (Or.inr ⟨by omega, y, x, h1, h2, .all h3⟩))
  | step hd hk hs =>
    rcases done_head.1 hd with ⟨rfl, rfl⟩ | ⟨y, x, h1, h2, h3⟩
    · exact Or.inr (Or.inl ⟨hk, _, hs, rfl⟩)
    · have := h3.le
      exact Or.inr (Or.inr (Or.inr ⟨by omega, y, x, h1, h2, .step h3 hk hs⟩))
  | snap hd hk hs hn =>
    rcases done_head.1 hd with ⟨rfl, rfl⟩ | ⟨y, x, h1, h2, h3⟩
    · exact Or.inr (Or.inr (Or.inl ⟨hk, _, _, hs, hn, rfl⟩))
    · have := h3.le
      exact Or.inr (Or.inr (Or.inr ⟨by omega, y, x, h1, h2, .snap h3 hk hs hn⟩))

theorem ended_unique {p : Prog σ} {N : Int} (n : Nat) : ∀ {k : Int} {s z z' : σ} {e e' : Option PyErr}, k + n = N →
    Ended p N k s z e → Ended p N k s z' e' → z = z' ∧ e = e' := by
  induction n with
  | zero =>
    intro k s z z' e e' hk h h'
    rcases ended_head h with ⟨_, rfl, rfl⟩ | ⟨h, _⟩ | ⟨h, _⟩ | ⟨h, _⟩ <;> try omega
    rcases ended_head h' with ⟨_, rfl, rfl⟩ | ⟨h, _⟩ | ⟨h, _⟩ | ⟨h, _⟩ <;> try omega
    exact ⟨rfl, rfl⟩
  | succ n ih =>
    intro k s z z' e e' hk h h'
    rcases ended_head h with ⟨a, _⟩ | ⟨_, r, a1, a2⟩ | ⟨_, y, r, a1, a2, a3⟩ | ⟨_, y, x, a1, a2, a3⟩
    · omega
    all_goals
      rcases ended_head h' with ⟨b, _⟩ | ⟨_, r', b1, b2⟩ | ⟨_, y', r', b1, b2, b3⟩ | ⟨_, y', x', b1, b2, b3⟩
      · omega
      all_goals
        rw [a1] at b1
        obtain ⟨c1, c2⟩ := Prod.mk.inj b1
        first
          | (cases c2; done)
          | (cases c2; subst c1; subst a2 b2; exact ⟨rfl, rfl⟩)
          | (subst c1; rw [a2] at b2; obtain ⟨d1, d2⟩ := Prod.mk.inj b2
             first
               | (cases d2; done)
               | (cases d2; subst d1 a3 b3; exact ⟨rfl, rfl⟩)
               | (subst d1; exact ih (by omega) a3 b3))

/-- the trial's run with metrics that only look -/
theorem trial_run (p : Prog σ) (room : List (Msg V) → Msg V → Bool) (manager : Bool) (should : Int → Bool) (queueGiven : Bool)
    (N start : Int) (h0 : 0 ≤ start) (hN : start ≤ N) (ms : List (Metric σ M V)) (hm : ∀ m ∈ ms, Pure m)
    (hi : ∀ m ∈ ms, m.interval ≠ 0) (memory : Nat → M) (s s' : σ) (hb : Began p start s s') :
    let r := runTrial p room manager should queueGiven N start ms memory s
    ∃ z e, Ended p N start s' z e ∧ r.sys = (if e = none then (p.cleanup z).1 else z) ∧
      r.complete = (if e = none ∧ manager = true then some z else none) ∧ r.saved.Pairwise (fun a b => a.1 < b.1) ∧
      ∀ q : Int × σ, q ∈ r.saved ↔ manager = true ∧ should q.1 = true ∧ q.1 < N ∧ start ≤ q.1 ∧ Done p N start s' (q.1 + 1) q.2 := by
  intro r
  have hm' : ∀ m ∈ trialMetrics queueGiven ms, Pure m := by
    intro m h; unfold trialMetrics at h; split at h; exacts [hm m h, by simp at h]
  have hi' : ∀ m ∈ trialMetrics queueGiven ms, m.interval ≠ 0 := by
    intro m h; unfold trialMetrics at h; split at h; exacts [hi m h, by simp at h]
  obtain ⟨e1, e2, e3, -⟩ := guarded_same p room (fun k => manager && should k) manager N start (trialMetrics queueGiven ms) hm' hi'
    ⟨s, memory, [], [], none⟩
  change r.sys = _ at e1
  change r.saved = _ at e2
  change r.complete = _ at e3
  rw [e1, e2, e3]
  have hset : (if start = 0 then onSys p.setup (⟨s, memory, [], [], none⟩ : TrialState σ M V) else (⟨s, memory, [], [], none⟩, none)) =
      (⟨s', memory, [], [], none⟩, none) := by
    rcases hb with ⟨a, rfl⟩ | ⟨a, b⟩
    · rw [if_neg a]
    · rw [if_pos a]
      simp only [onSys, b]
  have hal : algRun p room (fun k => manager && should k) N start [] (⟨s, memory, [], [], none⟩ : TrialState σ M V) =
      loop p room (fun k => manager && should k) N [] (N - start).toNat start ⟨s', memory, [], [], none⟩ := by
    unfold algRun
    rw [if_neg (by omega), hset, andThen_none (r := (_, none)) _ rfl]
  unfold guarded
  rw [hal]
  obtain ⟨a1, a2, l, a3, a4, a5⟩ := loop_plain p room (fun k => manager && should k) N (N - start).toNat start (by omega)
    (⟨s', memory, [], [], none⟩ : TrialState σ M V)
  generalize loop p room (fun k => manager && should k) N ([] : List (Metric σ M V)) (N - start).toNat start
    ⟨s', memory, [], [], none⟩ = g at a1 a2 a3
  obtain ⟨g1, g2⟩ := g
  simp only [List.nil_append] at a1 a2 a3
  refine ⟨g1.sys, g2, a1, ?_⟩
  cases g2 with
  | some e =>
    rw [andThen_some (r := (g1, some e)) _ rfl]
    refine ⟨by simp, by simp [a2], by rw [a3]; exact a4, fun q => ?_⟩
    simp only [a3, a5, Bool.and_eq_true]
    tauto
  | none =>
    rw [andThen_none (r := (g1, none)) _ rfl]
    refine ⟨?_, ?_, ?_, fun q => ?_⟩
    · cases manager <;> simp [onSys]
    · cases manager <;> simp [onSys, a2]
    · have : (onSys p.cleanup (if manager = true then { g1 with complete := some g1.sys } else g1)).1.saved = l := by
        cases manager <;> simp [onSys, a3]
      simp only [this]
      exact a4
    · have : (onSys p.cleanup (if manager = true then { g1 with complete := some g1.sys } else g1)).1.saved = l := by
        cases manager <;> simp [onSys, a3]
      simp only [this, a5, Bool.and_eq_true]
      tauto

/-! ## C94 -/

/-- **Metrics which only look change nothing.**  Whatever they answer or raise, whatever their (non-zero) intervals, and however many
messages the queue refuses: the network returned, the checkpoints written and the completed result are those of the same trial
without metrics. -/
theorem C94_isolated (p : Prog σ) (room : List (Msg V) → Msg V → Bool) (manager : Bool) (should : Int → Bool) (queueGiven : Bool)
    (N start : Int) (ms : List (Metric σ M V)) (hm : ∀ m ∈ ms, Pure m) (hi : ∀ m ∈ ms, m.interval ≠ 0) (memory : Nat → M) (s : σ) :
    let r := runTrial p room manager should queueGiven N start ms memory s
    let r₀ := runTrial p room manager should queueGiven N start [] memory s
    r.sys = r₀.sys ∧ r.saved = r₀.saved ∧ r.complete = r₀.complete := by
  have e : trialMetrics queueGiven ([] : List (Metric σ M V)) = [] := by unfold trialMetrics; split <;> rfl
  unfold runTrial
  rw [e]
  unfold trialMetrics
  split
  · obtain ⟨e1, e2, e3, -⟩ := guarded_same p room (fun k => manager && should k) manager N start ms hm hi
      ⟨s, memory, [], [], none⟩
    exact ⟨e1, e2, e3⟩
  · exact ⟨rfl, rfl, rfl⟩

/-- **A trial whose iterations all succeed** returns the final network, cleaned up; what is stored as its result (if there is a
checkpoint manager) is the network before the cleanup; the checkpoints are the states after the iterations the manager asked
for. -/
theorem C94_completes (p : Prog σ) (room : List (Msg V) → Msg V → Bool) (manager : Bool) (should : Int → Bool) (queueGiven : Bool)
    (N start : Int) (h0 : 0 ≤ start) (hN : start ≤ N) (ms : List (Metric σ M V)) (hm : ∀ m ∈ ms, Pure m)
    (hi : ∀ m ∈ ms, m.interval ≠ 0) (memory : Nat → M) (s s' z : σ) (hb : Began p start s s') (hz : Done p N start s' N z) :
    let r := runTrial p room manager should queueGiven N start ms memory s
    r.sys = (p.cleanup z).1 ∧ r.complete = (if manager then some z else none) ∧
      ∀ k x, (k, x) ∈ r.saved ↔ manager = true ∧ should k = true ∧ k < N ∧ start ≤ k ∧ Done p N start s' (k + 1) x := by
  intro r
  obtain ⟨z', e, h1, h2, h3, _, h5⟩ := trial_run p room manager should queueGiven N start h0 hN ms hm hi memory s s' hb
  obtain ⟨rfl, rfl⟩ := ended_unique (N - start).toNat (by omega) (.all hz) h1
  refine ⟨by simpa using h2, ?_, fun k x => h5 (k, x)⟩
  have h3' : r.complete = _ := h3
  rw [h3']
  cases manager <;> simp

/-- **A trial in which an iteration raises** is over: the exception is swallowed, the network is returned as the failing `step` left
it (not cleaned up), the trial is not marked complete, and the checkpoints are those of the iterations before. -/
theorem C94_raises (p : Prog σ) (room : List (Msg V) → Msg V → Bool) (manager : Bool) (should : Int → Bool) (queueGiven : Bool)
    (N start : Int) (h0 : 0 ≤ start) (hN : start ≤ N) (ms : List (Metric σ M V)) (hm : ∀ m ∈ ms, Pure m)
    (hi : ∀ m ∈ ms, m.interval ≠ 0) (memory : Nat → M) (s s' : σ) (hb : Began p start s s') (k : Int) (x y : σ) (e : PyErr)
    (hk : k < N) (hx : Done p N start s' k x) (hy : p.step k (p.netStep k x) = (y, some e)) :
    let r := runTrial p room manager should queueGiven N start ms memory s
    r.sys = y ∧ r.complete = none ∧
      ∀ i z, (i, z) ∈ r.saved ↔ manager = true ∧ should i = true ∧ start ≤ i ∧ i < k ∧ Done p N start s' (i + 1) z := by
  intro r
  obtain ⟨z', e', h1, h2, h3, _, h5⟩ := trial_run p room manager should queueGiven N start h0 hN ms hm hi memory s s' hb
  obtain ⟨rfl, rfl⟩ := ended_unique (N - start).toNat (by omega) (.step hx hk hy) h1
  refine ⟨by simpa using h2, by simpa using h3, fun i z => ?_⟩
  have h5' : (i, z) ∈ r.saved ↔ _ := h5 (i, z)
  rw [h5']
  constructor
  · rintro ⟨a, b, c, d, f⟩
    refine ⟨a, b, d, ?_, f⟩
    by_contra hik
    -- iteration k would have been completed
    have : ∀ {j : Int} {w : σ}, Done p N start s' j w → k < j → False := by
      intro j w hd
      induction hd with
      | start =>
        have := hx.le
        intro h; omega
      | next hd' q1 q2 ih =>
        rename_i k' _ _ _
        intro h
        by_cases hkk : k' = k
        · subst hkk
          rw [done_unique hd' hx, hy] at q1
          cases (Prod.mk.inj q1).2
        · exact ih (by omega)
    exact this f (by omega)
  · rintro ⟨a, b, c, d, f⟩
    exact ⟨a, b, by omega, c, f⟩

/-- **A trial whose initialisation raises** ends with the network as that left it: nothing is published, saved or marked complete. -/
theorem C94_setup_raises (p : Prog σ) (room : List (Msg V) → Msg V → Bool) (manager : Bool) (should : Int → Bool) (queueGiven : Bool)
    (N : Int) (hN : 0 ≤ N) (ms : List (Metric σ M V)) (memory : Nat → M) (s s' : σ) (e : PyErr) (hs : p.setup s = (s', some e)) :
    runTrial p room manager should queueGiven N 0 ms memory s = ⟨s', memory, [], [], none⟩ := by
  have hset : (if (0 : Int) = 0 then onSys p.setup (⟨s, memory, [], [], none⟩ : TrialState σ M V) else (⟨s, memory, [], [], none⟩, none)) =
      (⟨s', memory, [], [], none⟩, some e) := by
    rw [if_pos rfl]
    simp only [onSys, hs]
  unfold runTrial guarded algRun
  rw [if_neg (by omega), hset, andThen_some (r := (_, some e)) _ rfl, andThen_some (r := (_, some e)) _ rfl]

/-- **What is published.**  For metrics that only look, with non-zero intervals: the messages are in order of iterations (and, within
one, of the metrics' positions), each at most once; each is due: the metric's interval divides the iteration, or it is the last
iteration of the algorithm, the iteration succeeded and the metric answered with this value on the network as that iteration left it.  If
the queue takes every message, every due message is there. -/
theorem C94_published (p : Prog σ) (room : List (Msg V) → Msg V → Bool) (manager : Bool) (should : Int → Bool)
    (N start : Int) (h0 : 0 ≤ start) (hN : start ≤ N) (ms : List (Metric σ M V)) (hm : ∀ m ∈ ms, Pure m)
    (hi : ∀ m ∈ ms, m.interval ≠ 0) (memory : Nat → M) (val : Nat → Int → σ → Py V)
    (hv : ∀ j m, ms[j]? = some m → Steady m (memory j) (val j)) (s s' : σ) (hb : Began p start s s') :
    let r := runTrial p room manager should true N start ms memory s
    r.queue.Pairwise Earlier ∧ (∀ q ∈ r.queue, Due p val N start s' ms q) ∧
      ((∀ l q, room l q = true) → ∀ q, Due p val N start s' ms q → q ∈ r.queue) := by
  intro r
  have hI : ∃ I : Nat → M → Prop, ∀ j m, ms[j]? = some m → I j (memory j) ∧ ∀ mem, I j mem → ∀ k s,
      (m.compute k mem s).1 = val j k s ∧ I j (m.compute k mem s).2.1 := by
    have : ∀ j : Nat, ∃ I : M → Prop, ∀ m, ms[j]? = some m → I (memory j) ∧ ∀ mem, I mem → ∀ k s,
        (m.compute k mem s).1 = val j k s ∧ I (m.compute k mem s).2.1 := by
      intro j
      cases h : ms[j]? with
      | none => exact ⟨fun _ => True, by simp⟩
      | some m =>
        obtain ⟨I, h1, h2⟩ := hv j m h
        exact ⟨I, fun m' h' => by cases h'; exact ⟨h1, h2⟩⟩
    exact ⟨fun j => Classical.choose (this j), fun j => Classical.choose_spec (this j)⟩
  obtain ⟨I, hI⟩ := hI
  have hset : (if start = 0 then onSys p.setup (⟨s, memory, [], [], none⟩ : TrialState σ M V) else (⟨s, memory, [], [], none⟩, none)) =
      (⟨s', memory, [], [], none⟩, none) := by
    rcases hb with ⟨a, rfl⟩ | ⟨a, b⟩
    · rw [if_neg a]
    · rw [if_pos a]
      simp only [onSys, b]
  have hq : r.queue = (loop p room (fun k => manager && should k) N ms (N - start).toNat start
      (⟨s', memory, [], [], none⟩ : TrialState σ M V)).1.queue := by
    show (runTrial p room manager should true N start ms memory s).queue = _
    unfold runTrial guarded algRun trialMetrics
    rw [if_neg (by omega), if_pos rfl, hset, andThen_none (r := (_, none)) _ rfl]
    generalize loop p room (fun k => manager && should k) N ms (N - start).toNat start
      (⟨s', memory, [], [], none⟩ : TrialState σ M V) = g
    obtain ⟨g1, g2⟩ := g
    cases g2 with
    | some e => rw [andThen_some (r := (g1, some e)) _ rfl]
    | none =>
      rw [andThen_none (r := (g1, none)) _ rfl]
      cases manager <;> simp [onSys]
  rw [hq]
  obtain ⟨l, a1, a2, a3, a4⟩ := loop_queue p room (fun k => manager && should k) N val I ms hm hi (fun i m h => (hI i m h).2)
    (N - start).toNat start (by omega) (⟨s', memory, [], [], none⟩ : TrialState σ M V) (fun i m h => (hI i m h).1)
  simp only [List.nil_append] at a1
  rw [a1]
  exact ⟨a2, a3, a4⟩

/-- **An update interval of zero ends the trial.**  Whatever the other metrics: the trial stops after its first iteration, with the network as that
iteration (and the metrics before it in the list) left it; it is not marked complete, the exception is swallowed. -/
theorem C94_zero_interval (p : Prog σ) (room : List (Msg V) → Msg V → Bool) (manager : Bool) (should : Int → Bool)
    (N start : Int) (h0 : 0 ≤ start) (hN : start < N) (ms : List (Metric σ M V)) (hz : ∃ m ∈ ms, m.interval = 0)
    (memory : Nat → M) (s s' : σ) (hb : Began p start s s') :
    let r := runTrial p room manager should true N start ms memory s
    r.complete = none ∧ (∀ q ∈ r.saved, q.1 = start) ∧ (∀ q ∈ r.queue, q.iteration = start) ∧
      ((∀ m ∈ ms, Pure m) → ∀ z, Done p N start s' (start + 1) z → r.sys = z) := by
  intro r
  have hset : (if start = 0 then onSys p.setup (⟨s, memory, [], [], none⟩ : TrialState σ M V) else (⟨s, memory, [], [], none⟩, none)) =
      (⟨s', memory, [], [], none⟩, none) := by
    rcases hb with ⟨a, rfl⟩ | ⟨a, b⟩
    · rw [if_neg a]
    · rw [if_pos a]
      simp only [onSys, b]
  -- the metrics of one iteration: an exception, whatever came before
  have hall : ∀ (ms : List (Metric σ M V)), (∃ m ∈ ms, m.interval = 0) → ∀ (k : Int) (j : Nat) (t : TrialState σ M V),
      (updateAll room N k j ms t).2 = some .zeroDivision ∧ (updateAll room N k j ms t).1.saved = t.saved ∧
      (updateAll room N k j ms t).1.complete = t.complete ∧
      ((∀ q ∈ t.queue, q.iteration = k) → ∀ q ∈ (updateAll room N k j ms t).1.queue, q.iteration = k) ∧
      ((∀ m ∈ ms, Pure m) → (updateAll room N k j ms t).1.sys = t.sys) := by
    intro ms
    induction ms with
    | nil => simp
    | cons m ms ih =>
      intro hex k j t
      by_cases h : m.interval = 0
      · simp [updateAll, shouldUpdate, h]
      · have hex' : ∃ m ∈ ms, m.interval = 0 := by
          obtain ⟨m', h1, h2⟩ := hex
          rcases List.mem_cons.1 h1 with rfl | h1
          · exact absurd h2 h
          · exact ⟨m', h1, h2⟩
        simp only [updateAll, shouldUpdate_ok h]
        split
        · obtain ⟨a1, a2, a3, a4, a5⟩ := ih hex' k (j + 1) (updatePlot room j m k t)
          have b2 : (updatePlot room j m k t).saved = t.saved := by unfold updatePlot; dsimp only; split <;> rfl
          have b3 : (updatePlot room j m k t).complete = t.complete := by unfold updatePlot; dsimp only; split <;> rfl
          refine ⟨a1, by rw [a2, b2], by rw [a3, b3], fun hq => a4 ?_, fun hp => ?_⟩
          · intro q hq'
            unfold updatePlot at hq'
            dsimp only at hq'
            split at hq'
            · exact hq q hq'
            · simp only [put] at hq'
              split at hq'
              · rcases List.mem_append.1 hq' with h | h
                · exact hq q h
                · simp only [List.mem_singleton] at h
                  rw [h]
              · exact hq q hq'
          · rw [a5 (fun m h => hp m (by simp [h])), (updatePlot_same room j m (hp m (by simp)) k t).1]
        · obtain ⟨a1, a2, a3, a4, a5⟩ := ih hex' k (j + 1) t
          exact ⟨a1, a2, a3, a4, fun hp => a5 (fun m h => hp m (by simp [h]))⟩
  have hr : r = (guarded p room (fun k => manager && should k) manager N start ms ⟨s, memory, [], [], none⟩).1 := rfl
  obtain ⟨n, hn⟩ : ∃ n, (N - start).toNat = n + 1 := ⟨(N - start).toNat - 1, by omega⟩
  -- the first iteration raises
  have hbody : ∀ t : TrialState σ M V, t.sys = s' → t.saved = [] → t.queue = [] → t.complete = none →
      let b := body p room (fun k => manager && should k) N ms start t
      b.2 ≠ none ∧ b.1.complete = none ∧ (∀ q ∈ b.1.saved, q.1 = start) ∧ (∀ q ∈ b.1.queue, q.iteration = start) ∧
        ((∀ m ∈ ms, Pure m) → ∀ z, Done p N start s' (start + 1) z → b.1.sys = z) := by
    intro t ht hs hq hc b
    have hbe : b = body p room (fun k => manager && should k) N ms start t := rfl
    simp only [body] at hbe
    have one : ∀ z, Done p N start s' (start + 1) z → ∃ y, p.step start (p.netStep start s') = (y, none) ∧
        p.snapshot (start + 1) (start + 1 == N) y = (z, none) := by
      intro z hz
      rcases done_head.1 hz with ⟨h, _⟩ | ⟨y, x, h1, h2, h3⟩
      · omega
      · rcases done_head.1 h3 with ⟨_, rfl⟩ | ⟨_, _, _, _, h4⟩
        · exact ⟨y, h1, h2⟩
        · have := h4.le
          omega
    rcases h1 : p.step start (p.netStep start t.sys) with ⟨y, e1⟩
    have ho1 : onSys (fun s => p.step start (p.netStep start s)) t = ({ t with sys := y }, e1) := by simp only [onSys, h1]
    cases e1 with
    | some e =>
      rw [ho1, andThen_some (r := (_, some e)) _ rfl, andThen_some (r := (_, some e)) _ rfl] at hbe
      rw [hbe]
      refine ⟨by simp, hc, by simp [hs], by simp [hq], fun _ z hz => ?_⟩
      obtain ⟨y', e1, _⟩ := one z hz
      rw [← ht, h1] at e1
      cases (Prod.mk.inj e1).2
    | none =>
      rw [ho1, andThen_none (r := (_, none)) _ rfl] at hbe
      rcases h2 : p.snapshot (start + 1) (start + 1 == N) y with ⟨w, e2⟩
      have ho2 : onSys (p.snapshot (start + 1) (start + 1 == N)) ({ t with sys := y }, (none : Option PyErr)).1 = ({ t with sys := w }, e2) := by
        simp only [onSys, h2]
      cases e2 with
      | some e =>
        rw [ho2, andThen_some (r := (_, some e)) _ rfl] at hbe
        rw [hbe]
        refine ⟨by simp, hc, by simp [hs], by simp [hq], fun _ z hz => ?_⟩
        obtain ⟨y', e1, e2⟩ := one z hz
        rw [← ht, h1] at e1
        obtain rfl := (Prod.mk.inj e1).1
        rw [h2] at e2
        cases (Prod.mk.inj e2).2
      | none =>
        rw [ho2, andThen_none (r := (_, none)) _ rfl] at hbe
        unfold callback at hbe
        generalize hu : (if (manager && should start) = true then { ({ t with sys := w } : TrialState σ M V) with
          saved := t.saved ++ [(start, w)] } else ({ t with sys := w } : TrialState σ M V)) = u at hbe
        obtain ⟨a1, a2, a3, a4, a5⟩ := hall ms hz start 0 u
        rw [hbe]
        refine ⟨by rw [a1]; simp, by rw [a3, ← hu]; split <;> exact hc, ?_, ?_, ?_⟩
        · rw [a2, ← hu]
          split <;> simp [hs]
        · refine a4 ?_
          rw [← hu]
          split <;> simp [hq]
        · intro hp z hzz
          rw [a5 hp]
          obtain ⟨y', e1, e2⟩ := one z hzz
          rw [← ht, h1] at e1
          obtain rfl := (Prod.mk.inj e1).1
          rw [h2] at e2
          rw [← hu]
          split <;> exact (Prod.mk.inj e2).1
  have hb0 := hbody ⟨s', memory, [], [], none⟩ rfl rfl rfl rfl
  have hr2 : r = (body p room (fun k => manager && should k) N ms start ⟨s', memory, [], [], none⟩).1 := by
    rw [hr]
    unfold guarded algRun
    rw [if_neg (by omega), hset, andThen_none (r := (_, none)) _ rfl, hn]
    simp only [loop]
    obtain ⟨e, he⟩ := Option.ne_none_iff_exists'.1 hb0.1
    rw [andThen_some _ he, andThen_some _ he]
  rw [hr2]
  exact hb0.2

/-- **Without a plotter queue no metric is evaluated.** -/
theorem C94_no_queue (p : Prog σ) (room : List (Msg V) → Msg V → Bool) (manager : Bool) (should : Int → Bool)
    (N start : Int) (ms : List (Metric σ M V)) (memory : Nat → M) (s : σ) :
    runTrial p room manager should false N start ms memory s = runTrial p room manager should true N start [] memory s := rfl

/-! ### Examples -/

/-- a counter that counts its iterations -/
def counterProg : Prog Nat where
  setup s := (s, none)
  netStep _ s := s
  step _ s := (s + 1, none)
  snapshot _ _ s := (s, none)
  cleanup _ := (0, none)

/-- a metric that reports the counter -/
def counterMetric (i : Int) : Metric Nat Unit Nat := ⟨i, fun _ _ s => (.ok s, (), s)⟩

example : Pure (counterMetric 3) ∧ Steady (counterMetric 3) () (fun _ s => .ok s) :=
  ⟨fun _ _ _ => rfl, fun _ => True, trivial, fun _ _ _ _ => ⟨rfl, trivial⟩⟩

example : ((runTrial counterProg (fun _ _ => true) true (fun k => k == 4) true 8 0 [counterMetric 3, counterMetric 5] (fun _ => ()) 0).queue.map
    (fun q => (q.metric, q.iteration, q.value))) = [(0, 0, 1), (1, 0, 1), (0, 3, 4), (1, 5, 6), (0, 6, 7), (0, 7, 8), (1, 7, 8)] := by
  decide

example : (runTrial counterProg (fun _ _ => true) true (fun k => k == 0) true 8 0 [counterMetric 3, counterMetric 0] (fun _ => ()) 0).sys = 1 ∧
    (runTrial counterProg (fun _ _ => true) true (fun k => k == 0) true 8 0 [counterMetric 3, counterMetric 0] (fun _ => ()) 0).complete = none := by
  decide

example : (runTrial counterProg (fun _ _ => true) true (fun k => k == 4) true 8 0 [counterMetric 3] (fun _ => ()) 0).saved = [(4, 5)] ∧
    (runTrial counterProg (fun _ _ => true) true (fun k => k == 4) true 8 0 [counterMetric 3] (fun _ => ()) 0).complete = some 8 := by
  decide

end Props
end Verif
