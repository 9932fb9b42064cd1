import Verif.Model.Rng
/-! # C41: saving and restoring the random state -/
set_option linter.unusedSectionVars false
namespace Verif.Props
open Verif Verif.Rng

variable {L : Libs}

/-- an action whose generator is covered by the framework selection (Python and NumPy generators always are) -/
def CoveredBy (fs : Option (List Fw)) : Act L → Prop
  | .torch _ => selected fs .pytorch = true
  | .torchDev _ _ => selected fs .pytorch = true
  | .tf _ => selected fs .tensorflow = true
  | .jax _ => selected fs .jax = true
  | _ => True

/-- equal in everything a selection covers -/
structure AgreeOn (fs : Option (List Fw)) (s t : State L) : Prop where
  globalSeed : s.globalSeed = t.globalSeed
  py : s.py = t.py
  np : s.np = t.np
  npLegacy : s.npLegacy = t.npLegacy
  torch : selected fs .pytorch = true → s.torch = t.torch ∧ s.torchGens = t.torchGens
  tf : selected fs .tensorflow = true → s.tf = t.tf
  jax : selected fs .jax = true → s.jax = t.jax

theorem foldl_set_entries (l : List (Nat × L.torch.St)) (d : PyDict Nat L.torch.St)
    (hn : (d.entries.map Prod.fst ++ l.map Prod.fst).Nodup) :
    l.foldl (fun d e => d.set e.1 e.2) d = ⟨d.entries ++ l⟩ := by
  induction l generalizing d with
  | nil => simp
  | cons e t ih =>
    have happ : ∀ (m : List (Nat × L.torch.St)), e.1 ∉ m.map Prod.fst → PyDict.setL e.1 e.2 m = m ++ [e] := by
      intro m
      induction m with
      | nil => intro _; rfl
      | cons b r ihm =>
        intro hb
        have h1 : e.1 ≠ b.1 := fun h => hb (by simp [h])
        have h2 : e.1 ∉ r.map Prod.fst := fun h => hb (List.mem_cons_of_mem _ h)
        simp [PyDict.setL, h1, ihm h2]
    have hd : e.1 ∉ d.entries.map Prod.fst := by
      rw [List.nodup_append] at hn
      intro h
      exact hn.2.2 e.1 h e.1 (by simp) rfl
    have e1 : d.set e.1 e.2 = ⟨d.entries ++ [e]⟩ := by
      unfold PyDict.set; rw [happ _ hd]
    rw [List.foldl_cons, e1, ih]
    · simp
    · simpa using hn

theorem act_agree (fs : Option (List Fw)) (a : Act L) (s t : State L) (hs : CoveredBy fs a) (h : AgreeOn fs s t) :
    (act a s).1 = (act a t).1 ∧ AgreeOn fs (act a s).2 (act a t).2 := by
  obtain ⟨h1, h2, h3, h4, h5, h6, h7⟩ := h
  cases a with
  | py r => simp only [act, h2]; exact ⟨trivial, h1, rfl, h3, h4, h5, h6, h7⟩
  | np r => simp only [act, h3]; exact ⟨trivial, h1, h2, rfl, h4, h5, h6, h7⟩
  | npLegacy r => simp only [act, h4]; exact ⟨trivial, h1, h2, h3, rfl, h5, h6, h7⟩
  | torch r =>
    have := h5 hs
    simp only [act, this.1]
    exact ⟨trivial, h1, h2, h3, h4, fun _ => ⟨rfl, this.2⟩, h6, h7⟩
  | torchDev dev r =>
    obtain ⟨e1, e2⟩ := h5 hs
    have hg : (torchGen dev s).1 = (torchGen dev t).1 ∧ (torchGen dev s).2.torchGens = (torchGen dev t).2.torchGens := by
      unfold torchGen
      rw [e1, e2, h1]
      cases t.torchGens.get? dev <;> simp [e2]
    have hr : ∀ u : State L, (torchGen dev u).2.globalSeed = u.globalSeed ∧ (torchGen dev u).2.py = u.py ∧
        (torchGen dev u).2.np = u.np ∧ (torchGen dev u).2.npLegacy = u.npLegacy ∧ (torchGen dev u).2.torch = u.torch ∧
        (torchGen dev u).2.tf = u.tf ∧ (torchGen dev u).2.jax = u.jax := by
      intro u; unfold torchGen; cases u.torchGens.get? dev <;> simp
    have hs' := hr s
    have ht' := hr t
    simp only [act]
    rw [hg.1]
    refine ⟨rfl, ?_⟩
    refine ⟨by simp [hs', ht', h1], by simp [hs', ht', h2], by simp [hs', ht', h3], by simp [hs', ht', h4], ?_, ?_, ?_⟩
    · intro _; exact ⟨by simp [hs', ht', e1], by simp [hg.2]⟩
    · intro hf; simp [hs', ht', h6 hf]
    · intro hf; simp [hs', ht', h7 hf]
  | tf r => simp only [act, h6 hs]; exact ⟨trivial, h1, h2, h3, h4, h5, fun _ => rfl, h7⟩
  | jax r => simp only [act, h7 hs]; exact ⟨trivial, h1, h2, h3, h4, h5, h6, fun _ => rfl⟩
  | seed n gs g =>
    refine ⟨rfl, ?_⟩
    simp only [act, setSeed]
    cases hn : selected gs .numpy <;> cases hp : selected gs .pytorch <;> cases ht : selected gs .tensorflow <;>
      cases hj : selected gs .jax <;> cases g <;>
      exact ⟨by simp [h1], by simp, by simp [h3], by simp [h4], fun hf => by simp [h5 hf], fun hf => by simp [h6 hf],
        fun hf => by simp [h7 hf]⟩

theorem run_agree (fs : Option (List Fw)) (l : List (Act L)) (s t : State L) (hs : ∀ a ∈ l, CoveredBy fs a)
    (h : AgreeOn fs s t) : (run l s).1 = (run l t).1 ∧ AgreeOn fs (run l s).2 (run l t).2 := by
  induction l generalizing s t with
  | nil => exact ⟨rfl, h⟩
  | cons a l ih =>
    obtain ⟨h1, h2⟩ := act_agree fs a s t (hs a (by simp)) h
    obtain ⟨h3, h4⟩ := ih _ _ (fun b hb => hs b (List.mem_cons_of_mem _ hb)) h2
    exact ⟨by simp [run, h1, h3], h4⟩

theorem restore_agree (fs : Option (List Fw)) (s t : State L) (hw : s.torchGens.WF) :
    AgreeOn fs (restore (capture fs s) t) s := by
  have e : (s.torchGens.entries.foldl (fun d e => d.set e.1 e.2) PyDict.empty) = s.torchGens := by
    rw [foldl_set_entries]
    · simp [PyDict.empty]
    · simpa [PyDict.empty, PyDict.WF, PyDict.keys] using hw
  unfold restore capture
  cases hp : selected fs .pytorch <;> cases ht : selected fs .tensorflow <;> cases hj : selected fs .jax <;>
    exact ⟨by simp, by simp, by simp, by simp, fun hf => by simp_all, fun hf => by simp_all,
      fun hf => by simp_all⟩

/-- **C41.** Capture the random state, then do anything - draw from any generator, re-seed, with any selections - then restore
it: every later sequence of requests to the generators covered by the selection (and every later seeding) gives exactly the
values it would have given right after the capture. -/
theorem C41_round_trip (fs : Option (List Fw)) (s : State L) (hw : s.torchGens.WF) (between later : List (Act L))
    (hl : ∀ a ∈ later, CoveredBy fs a) :
    (run later (restore (capture fs s) (run between s).2)).1 = (run later s).1 :=
  (run_agree fs later _ _ hl (restore_agree fs s _ hw)).1

/-- the same in another process: what the process did before does not matter -/
theorem C41_other_process (fs : Option (List Fw)) (s t : State L) (hw : s.torchGens.WF) (later : List (Act L))
    (hl : ∀ a ∈ later, CoveredBy fs a) :
    (run later (restore (capture fs s) t)).1 = (run later s).1 :=
  (run_agree fs later _ _ hl (restore_agree fs s _ hw)).1

/-- **C41.** Seeding all frameworks with the global seed set makes every later value a function of the seed alone. -/
theorem C41_seeded_reproducible (seed : Int) (s t : State L) (later : List (Act L)) :
    (run later (setSeed seed none true s)).1 = (run later (setSeed seed none true t)).1 := by
  refine (run_agree none later _ _ ?_ ?_).1
  · intro a _; cases a <;> simp [CoveredBy, selected]
  · refine ⟨?_, ?_, ?_, ?_, fun _ => ⟨?_, ?_⟩, fun _ => ?_, fun _ => ?_⟩ <;> simp [setSeed, selected]

/-- For a selection that contains NumPy: Python, NumPy and the selected frameworks' default generators are reproducible. -/
theorem C41_seeded_selection (seed : Int) (l : List Fw) (hn : Fw.numpy ∈ l) (s t : State L) (hg : s.globalSeed = t.globalSeed)
    (later : List (Act L)) (hl : ∀ a ∈ later, CoveredBy (some l) a) (g : Bool) :
    (run later (setSeed seed (some l) g s)).1 = (run later (setSeed seed (some l) g t)).1 := by
  refine (run_agree (some l) later _ _ hl ?_).1
  have hn' : selected (some l) .numpy = true := by simp [selected, hn]
  cases hp : selected (some l) .pytorch <;> cases ht : selected (some l) .tensorflow <;>
    cases hj : selected (some l) .jax <;> cases g <;>
    exact ⟨by simp [setSeed, hn', hp, ht, hj, hg], by simp [setSeed, hn', hp, ht, hj], by simp [setSeed, hn', hp, ht, hj],
      by simp [setSeed, hn', hp, ht, hj], fun hf => by simp_all [setSeed], fun hf => by simp_all [setSeed],
      fun hf => by simp_all [setSeed]⟩

/-- **C41, refutation.** Seeding with a framework list that lacks NumPy (e.g. only PyTorch, as `benchmark` does when all costs
are PyTorch costs) leaves the NumPy generator - which the communication schemes and the mini-batch sampling use - exactly as
it was: two processes with different NumPy states get different draws although seeded identically. -/
theorem C41_numpy_unseeded_refuted (seed : Int) (l : List Fw) (hn : Fw.numpy ∉ l) (g : Bool) (s : State L) :
    (setSeed seed (some l) g s).np = s.np ∧
    ∀ r t, (L.np.draw r s.np).1 ≠ (L.np.draw r t.np).1 →
      (run [.np r] (setSeed seed (some l) g s)).1 ≠ (run [.np r] (setSeed seed (some l) g t)).1 := by
  have hn' : selected (some l) .numpy = false := by simp [selected, hn]
  have key : ∀ u : State L, (setSeed seed (some l) g u).np = u.np := by
    intro u
    cases hp : selected (some l) .pytorch <;> cases ht : selected (some l) .tensorflow <;>
      cases hj : selected (some l) .jax <;> cases g <;> simp [setSeed, hn', hp, ht, hj]
  refine ⟨key s, fun r t h => ?_⟩
  simp only [run, act, key]
  intro e
  simp only [List.cons.injEq, Out.np.injEq, and_true] at e
  exact h e

/-- **C41, refutation.** Trials are seeded without setting the global seed. If the user never called `set_seed`, the PyTorch
device generator (used to shuffle mini-batches) is the same in every trial, whatever the trial seed. -/
theorem C41_torch_device_generator_refuted (seed seed' : Int) (fs : Option (List Fw)) (hf : selected fs .pytorch = true)
    (s t : State L) (hs : s.globalSeed = none) (ht : t.globalSeed = none) (dev : Nat) (r : L.torch.Req) :
    (run [.torchDev dev r] (setSeed seed fs false s)).1 = (run [.torchDev dev r] (setSeed seed' fs false t)).1 := by
  have key : ∀ (n : Int) (u : State L), u.globalSeed = none →
      (torchGen dev (setSeed n fs false u)).1 = L.torchBlank := by
    intro n u hu
    cases hn : selected fs .numpy <;> cases h2 : selected fs .tensorflow <;> cases h3 : selected fs .jax <;>
      simp [setSeed, hf, hn, h2, h3, torchGen, PyDict.get?, PyDict.empty, PyDict.lookupL, hu]
  simp only [run, act, key seed s hs, key seed' t ht]

/-! a concrete library (a counter) on which the statements have content -/

/-- counter: the state is the next value -/
def counter : Lib := ⟨Int, Unit, Int, fun n => n, fun _ n => (n, n + 1)⟩
/-- six counters -/
def counters : Libs := ⟨counter, counter, counter, counter, counter, counter, fun n => n, (0 : Int)⟩
/-- an ambient state -/
def ambient (k : Int) : State counters := ⟨none, k, k, k, k, PyDict.empty, k, k⟩

example : (run [.np ()] (setSeed 7 (some [.pytorch]) false (ambient 1))).1 ≠
    (run [.np ()] (setSeed 7 (some [.pytorch]) false (ambient 2))).1 := by
  apply (C41_numpy_unseeded_refuted 7 [.pytorch] (by decide) false (ambient 1)).2 () (ambient 2)
  show (1 : Int) ≠ 2
  decide

example : (ambient 1).torchGens.WF := List.nodup_nil

end Verif.Props
