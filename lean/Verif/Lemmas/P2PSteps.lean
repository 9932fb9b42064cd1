import Verif.Lemmas.P2P
import Mathlib.Tactic.Module
import Mathlib.Tactic.Linarith
set_option linter.unusedSectionVars false
/-! # Matrix form of the P2P algorithms on lossless networks -/
namespace Verif
open NetState Sys P2P

section
variable {A E Ω α : Type} [DecidableEq A] [AddCommGroup E] [Module ℝ E]

/-- the system when iteration `k` starts -/
def adv (n : Net A) (k : Int) (s : Sys A E Ω α) : Sys A E Ω α := { s with net := s.net.step n k }

/-- sum over the agents of the network -/
def total (n : Net A) (f : A → E) : E := (n.nodes.map f).sum

/-- network average -/
noncomputable def netAvg (n : Net A) (f : A → E) : E := (1 / (n.nodes.length : ℝ)) • total n f

theorem total_congr (n : Net A) {f g : A → E} (h : ∀ i ∈ n.nodes, f i = g i) : total n f = total n g := by
  unfold total; congr 1; exact List.map_congr_left h
theorem total_add (n : Net A) (f g : A → E) : total n (fun i => f i + g i) = total n f + total n g :=
  List.sum_map_add
theorem total_smul (n : Net A) (c : ℝ) (f : A → E) : total n (fun i => c • f i) = c • total n f := by
  unfold total; rw [List.smul_sum, List.map_map]; rfl
theorem total_neg (n : Net A) (f : A → E) : total n (fun i => - f i) = - total n f := by
  have := total_smul n (-1) f; simpa using this
theorem total_sub (n : Net A) (f g : A → E) : total n (fun i => f i - g i) = total n f - total n g := by
  simp only [sub_eq_add_neg]; rw [total_add, total_neg]
theorem total_zero (n : Net A) : total n (fun _ => (0 : E)) = 0 := by
  unfold total; induction n.nodes with
  | nil => rfl
  | cons a t ih => simp [ih]
theorem total_applyW (n : Net A) (W : A → A → ℝ) (c : ℝ) (hc : ColSum n W c) (m : A → E) :
    total n (applyW n W m) = c • total n m := sum_applyW n W c hc m

theorem applyW_congr (n : Net A) (W : A → A → ℝ) {f g : A → E} (h : ∀ i ∈ n.nodes, f i = g i) (i : A) :
    applyW n W f i = applyW n W g i := by
  unfold applyW; congr 1; exact List.map_congr_left (fun j hj => by rw [h j hj])

/-- hypotheses on the network shared by all statements -/
structure Lossless (w : World A E Ω) (n : Net A) : Prop where
  ideal : Ideal w n
  wf : n.WF
  noLoops : NoLoops n

theorem say_mix {w : World A E Ω} {n : Net A} (h : Lossless w n) (g : A → α → α) (ch : Chan) (msg : α → E)
    (s : Sys A E Ω α) (hg : Good n s.net) :
    ∃ s', forActive w n (say w n g (fun _ a => [(ch, msg a)])) s = .ok s' ∧ Good n s'.net ∧
      (∀ i ∈ n.nodes, s'.loc i = g i (s.loc i)) ∧
      (∀ W, Supported n W → ∀ i ∈ n.nodes, mix W i (msg (g i (s.loc i))) ((s'.net.inbox i).byChannel ch) =
        applyW n W (fun j => msg (g j (s.loc j))) i) ∧
      (∀ c, c ≠ ch → ∀ i ∈ n.nodes, ∀ j ∈ n.nbrs i, (s'.net.inbox i).abs c j = (s.net.inbox i).abs c j) := by
  obtain ⟨s', h1, g1, l1, a1⟩ := forActive_say h.ideal h.wf g (fun _ a => [(ch, msg a)]) s hg
  refine ⟨s', h1, g1, l1, ?_, ?_⟩
  · intro W hW i hi
    exact mix_eq n h.wf h.noLoops s'.net g1 W hW i hi ch (fun j => msg (g j (s.loc j)))
      (fun j hj => by rw [a1 i hi ch j hj]; simp [lastOn])
  · intro c hc i hi j hj
    rw [a1 i hi c j hj]
    have : ¬ ch = c := fun e => hc e.symm
    simp [lastOn, this]

/-- induction over the iterations of a run -/
theorem after_zero (alg : P2PAlg A E Ω α) (w : World A E Ω) (n : Net A) (x0 : A → E) (s : Sys A E Ω α) :
    alg.after w n x0 s 0 = .ok (alg.initialize_ n x0 s) := by
  simp [P2PAlg.after, RunOps.run, P2PAlg.ops, RunOps.loop, bind, Except.bind]

theorem loop_indep (alg : P2PAlg A E Ω α) (w : World A E Ω) (n : Net A) (x0 : A → E) (N N' : Int) (m : Nat) (k : Int)
    (s : Sys A E Ω α) : (alg.ops w n x0).loop N m k s = (alg.ops w n x0).loop N' m k s := by
  induction m generalizing k s with
  | zero => rfl
  | succ m ih =>
    have hb : (alg.ops w n x0).body N k s = (alg.ops w n x0).body N' k s := by
      simp [RunOps.body, P2PAlg.ops]
    simp only [RunOps.loop, hb]
    congr 1
    funext s'
    exact ih (k + 1) s'

theorem loop_snoc (alg : P2PAlg A E Ω α) (w : World A E Ω) (n : Net A) (x0 : A → E) (N : Int) (m : Nat) (k : Int)
    (s : Sys A E Ω α) : (alg.ops w n x0).loop N (m + 1) k s =
      ((alg.ops w n x0).loop N m k s >>= fun s => alg.step w n (k + m) (adv n (k + m) s)) := by
  induction m generalizing k s with
  | zero =>
    simp only [RunOps.loop, RunOps.body, P2PAlg.ops, bind, Except.bind, Nat.cast_zero, add_zero, adv]
    cases alg.step w n k { net := s.net.step n k, loc := s.loc } <;> rfl
  | succ m ih =>
    rw [RunOps.loop]
    simp only [bind, Except.bind] at ih ⊢
    conv_rhs => rw [RunOps.loop]
    simp only [bind, Except.bind]
    cases (alg.ops w n x0).body N k s with
    | error e => rfl
    | ok s1 =>
      try simp only
      rw [ih (k + 1) s1]
      have : k + 1 + (m : Int) = k + ((m + 1 : Nat) : Int) := by push_cast; omega
      rw [this]

theorem after_succ (alg : P2PAlg A E Ω α) (w : World A E Ω) (n : Net A) (x0 : A → E) (s : Sys A E Ω α) (k : Nat) :
    alg.after w n x0 s (k + 1) = (alg.after w n x0 s k >>= fun s => alg.step w n k (adv n k s)) := by
  have r : ∀ m : Nat, alg.after w n x0 s m = (alg.ops w n x0).loop m m 0 (alg.initialize_ n x0 s) := by
    intro m
    unfold P2PAlg.after RunOps.run
    rw [if_neg (by omega)]
    simp [P2PAlg.ops, bind, Except.bind]
  rw [r, r, loop_snoc, loop_indep alg w n x0 _ k]
  simp

theorem after_induction (alg : P2PAlg A E Ω α) (w : World A E Ω) (n : Net A) (x0 : A → E) (s : Sys A E Ω α)
    (P : Nat → Sys A E Ω α → Prop) (h0 : P 0 (alg.initialize_ n x0 s))
    (hs : ∀ k s, P k s → ∃ s', alg.step w n k (adv n k s) = .ok s' ∧ P (k + 1) s') (k : Nat) :
    ∃ s', alg.after w n x0 s k = .ok s' ∧ P k s' := by
  induction k with
  | zero => exact ⟨_, after_zero alg w n x0 s, h0⟩
  | succ k ih =>
    obtain ⟨s1, h1, p1⟩ := ih
    obtain ⟨s2, h2, p2⟩ := hs k s1 p1
    exact ⟨s2, by rw [after_succ, h1]; exact h2, p2⟩

/-- after `initialize` -/
theorem initLoop_spec (alg : P2PAlg A E Ω α) (x0 : A → E) (l : List A) (hl : l.Nodup) (s : Sys A E Ω α) :
    ∃ ωs : A → Ω, ∀ i ∈ l, (P2PAlg.initLoop alg x0 l s).loc i = (alg.init i (x0 i) (ωs i)).1 := by
  have hout : ∀ (l : List A) (s : Sys A E Ω α) (j : A), j ∉ l → (P2PAlg.initLoop alg x0 l s).loc j = s.loc j := by
    intro l
    induction l with
    | nil => intro s j _; rfl
    | cons i t ih =>
      intro s j hj
      rw [P2PAlg.initLoop, ih _ j (fun h => hj (by simp [h]))]
      exact upd_ne _ _ (fun e => hj (by simp [e]))
  induction l generalizing s with
  | nil => exact ⟨fun _ => s.net.ω, by simp⟩
  | cons i t ih =>
    obtain ⟨ωs, h⟩ := ih (List.nodup_cons.1 hl).2
      ⟨{ s.net with ω := (alg.init i (x0 i) s.net.ω).2 }, upd s.loc i (alg.init i (x0 i) s.net.ω).1⟩
    have hit := (List.nodup_cons.1 hl).1
    refine ⟨upd ωs i s.net.ω, fun j hj => ?_⟩
    rw [P2PAlg.initLoop]
    by_cases hji : j = i
    · subst hji
      rw [hout _ _ _ hit]; simp [upd]
    · have hjt : j ∈ t := by simpa [hji] using hj
      rw [h j hjt]; simp [upd, hji]

theorem init_spec (alg : P2PAlg A E Ω α) (n : Net A) (hw : n.WF) (x0 : A → E) (s : Sys A E Ω α) :
    ∃ ωs : A → Ω, ∀ i ∈ n.nodes, (alg.initialize_ n x0 s).loc i = (alg.init i (x0 i) (ωs i)).1 := by
  obtain ⟨ωs, h⟩ := initLoop_spec alg x0 n.nodes hw.nodup s
  exact ⟨ωs, h⟩

/-! ### matrices derived from `W` -/

theorem indicator_colsum (n : Net A) (hw : n.WF) : ColSum n (fun i j => if i = j then 1 else 0) 1 := by
  intro j hj
  have gen : ∀ (l : List A), l.Nodup → ((l.map (fun i => if i = j then (1 : ℝ) else 0)).sum = if j ∈ l then 1 else 0) := by
    intro l
    induction l with
    | nil => intro _; simp
    | cons a t ih =>
      intro hnd
      rw [List.map_cons, List.sum_cons, ih (List.nodup_cons.1 hnd).2]
      by_cases h : a = j
      · subst h; simp [(List.nodup_cons.1 hnd).1]
      · have h' : ¬ j = a := fun e => h e.symm
        simp [h, h']
  have := gen n.nodes hw.nodup
  simpa [hj] using this

theorem colsum_comb (n : Net A) (W V : A → A → ℝ) (a b c d : ℝ) (hW : ColSum n W a) (hV : ColSum n V b) :
    ColSum n (fun i j => c * W i j + d * V i j) (c * a + d * b) := by
  intro j hj
  rw [List.sum_map_add, List.sum_map_mul_left, List.sum_map_mul_left, hW j hj, hV j hj]

theorem halfPlus_ok (n : Net A) (hw : n.WF) (W : A → A → ℝ) (hs : Supported n W) (hc : ColSum n W 1) :
    Supported n (halfPlus W) ∧ ColSum n (halfPlus W) 1 := by
  constructor
  · intro i hi j hj hij hn
    simp [halfPlus, hij, hs i hi j hj hij hn]
  · have := colsum_comb n _ W 1 1 0.5 0.5 (indicator_colsum n hw) hc
    intro j hj
    rw [show (1 : ℝ) = 0.5 * 1 + 0.5 * 1 by norm_num, ← this j hj]
    congr 1
    apply List.map_congr_left
    intro i _
    simp only [halfPlus]; ring

theorem halfMinus_ok (n : Net A) (hw : n.WF) (W : A → A → ℝ) (hs : Supported n W) (hc : ColSum n W 1) :
    Supported n (halfMinus W) ∧ ColSum n (halfMinus W) 0 := by
  constructor
  · intro i hi j hj hij hn
    simp [halfMinus, hij, hs i hi j hj hij hn]
  · have := colsum_comb n _ W 1 1 0.5 (-0.5) (indicator_colsum n hw) hc
    intro j hj
    rw [show (0 : ℝ) = 0.5 * 1 + (-0.5) * 1 by norm_num, ← this j hj]
    congr 1
    apply List.map_congr_left
    intro i _
    simp only [halfMinus]; ring

theorem relaxed_ok (n : Net A) (hw : n.WF) (W : A → A → ℝ) (χ : ℝ) (hs : Supported n W) (hc : ColSum n W 1) :
    Supported n (relaxed χ W) ∧ ColSum n (relaxed χ W) 1 := by
  constructor
  · intro i hi j hj hij hn
    simp [relaxed, hij, hs i hi j hj hij hn]
  · have := colsum_comb n _ W 1 1 (1 - 1 / (2 * χ)) (1 / (2 * χ)) (indicator_colsum n hw) hc
    intro j hj
    rw [show (1 : ℝ) = (1 - 1 / (2 * χ)) * 1 + (1 / (2 * χ)) * 1 by ring, ← this j hj]
    congr 1
    apply List.map_congr_left
    intro i _
    simp only [relaxed]; ring

end

/-! ### one iteration of each algorithm -/
section steps
variable {A E Ω : Type} [DecidableEq A] [AddCommGroup E] [Module ℝ E]

theorem dgd_step {w : World A E Ω} {n : Net A} (h : Lossless w n) (grad : Grad A E Ω) (W : A → A → ℝ)
    (hs : Supported n W) (ρ : ℝ) (k : Int) (s : Sys A E Ω (Dgd E)) :
    ∃ s', ∃ ωs : A → Ω, (dgd grad W ρ).step w n k (adv n k s) = .ok s' ∧ ∀ i ∈ n.nodes, (s'.loc i).x =
      applyW n W (fun j => (s.loc j).x) i - ρ • (grad i (s.loc i).x (ωs i)).1 := by
  obtain ⟨s1, h1, g1, l1, m1, _⟩ := say_mix h (fun _ a => a) .dflt (fun a : Dgd E => a.x) (adv n k s) (good_step n _ k)
  obtain ⟨s2, ωs, h2, g2, i2, l2⟩ := forActive_own h.ideal h.wf (fun i inbox a ω =>
      let avg := mix W i a.x (inbox.byChannel .dflt)
      let g := grad i a.x ω
      ((⟨avg - ρ • g.1⟩ : Dgd E), g.2)) s1 g1
  refine ⟨s2, ωs, ?_, fun i hi => ?_⟩
  · simp only [dgd, h1, bind, Except.bind]; exact h2
  · rw [l2 i hi, l1 i hi]
    try simp only
    rw [m1 W hs i hi]; rfl

theorem atc_step {w : World A E Ω} {n : Net A} (h : Lossless w n) (grad : Grad A E Ω) (W : A → A → ℝ)
    (hs : Supported n W) (ρ : ℝ) (k : Int) (s : Sys A E Ω (Atc E)) :
    ∃ s', ∃ ωs : A → Ω, (atc grad W ρ).step w n k (adv n k s) = .ok s' ∧ ∀ i ∈ n.nodes,
      (s'.loc i).x = applyW n W (fun j => (s.loc j).x - ρ • (grad j (s.loc j).x (ωs j)).1) i
        + (W i i * ρ) • (grad i (s.loc i).x (ωs i)).1 ∧
      (s'.loc i).y = (s.loc i).x - ρ • (grad i (s.loc i).x (ωs i)).1 := by
  obtain ⟨s1, ωs, h1, g1, i1, l1⟩ := forActive_own h.ideal h.wf (fun i _ (a : Atc E) ω =>
      let g := grad i a.x ω
      ({ a with y := a.x - ρ • g.1 }, g.2)) (adv n k s) (good_step n _ k)
  obtain ⟨s2, h2, g2, l2, m2, _⟩ := say_mix h (fun _ a => a) .dflt (fun a : Atc E => a.y) s1 g1
  obtain ⟨s3, ωs3, h3, g3, i3, l3⟩ := forActive_own h.ideal h.wf (fun i inbox (a : Atc E) ω =>
      ({ a with x := mix W i a.x (inbox.byChannel .dflt) }, ω)) s2 g2
  refine ⟨s3, ωs, ?_, fun i hi => ?_⟩
  · simp only [atc, h1, h2, bind, Except.bind]; exact h3
  · rw [l3 i hi, l2 i hi, l1 i hi]
    try simp only
    refine ⟨?_, rfl⟩
    have hm := m2 W hs i hi
    try simp only at hm
    -- mixing starts from `W i i • x` instead of `W i i • y`
    have hmix : ∀ (u v : E) (d : PyDict A E), mix W i u d = mix W i v d + W i i • (u - v) := by
      intro u v d; unfold mix; rw [foldl_add_eq, foldl_add_eq]; module
    rw [hmix _ (s1.loc i).y, hm, l1 i hi]
    have e1 : applyW n W (fun j => (s1.loc j).y) i =
        applyW n W (fun j => (s.loc j).x - ρ • (grad j (s.loc j).x (ωs j)).1) i :=
      applyW_congr n W (fun j hj => by rw [l1 j hj]; rfl) i
    rw [e1]
    show _ + W i i • ((s.loc i).x - ((s.loc i).x - ρ • (grad i (s.loc i).x (ωs i)).1)) = _
    module

theorem simpleGt_step {w : World A E Ω} {n : Net A} (h : Lossless w n) (grad : Grad A E Ω) (W : A → A → ℝ)
    (hs : Supported n W) (ρ : ℝ) (k : Int) (s : Sys A E Ω (SimpleGt E)) :
    ∃ s', ∃ ωs : A → Ω, (simpleGt grad W ρ).step w n k (adv n k s) = .ok s' ∧ ∀ i ∈ n.nodes,
      (s'.loc i).x = ((s.loc i).x - ρ • (grad i (s.loc i).x (ωs i)).1) - (s.loc i).y + applyW n W (fun j => (s.loc j).x) i ∧
      (s'.loc i).y = (s.loc i).x - ρ • (grad i (s.loc i).x (ωs i)).1 := by
  obtain ⟨s1, h1, g1, l1, m1, _⟩ := say_mix h (fun _ a => a) .dflt (fun a : SimpleGt E => a.x) (adv n k s) (good_step n _ k)
  obtain ⟨s2, ωs, h2, g2, i2, l2⟩ := forActive_own h.ideal h.wf (fun i inbox (a : SimpleGt E) ω =>
      let g := grad i a.x ω
      let yNew := a.x - ρ • g.1
      let avg := mix W i a.x (inbox.byChannel .dflt)
      ((⟨yNew - a.y + avg, yNew, yNew⟩ : SimpleGt E), g.2)) s1 g1
  refine ⟨s2, ωs, ?_, fun i hi => ?_⟩
  · simp only [simpleGt, h1, bind, Except.bind]; exact h2
  · rw [l2 i hi, l1 i hi]
    try simp only
    rw [m1 W hs i hi]
    exact ⟨rfl, rfl⟩

theorem ed_step {w : World A E Ω} {n : Net A} (h : Lossless w n) (grad : Grad A E Ω) (W : A → A → ℝ)
    (hs : Supported n (halfPlus W)) (ρ : ℝ) (k : Int) (s : Sys A E Ω (Ed E)) :
    ∃ s', ∃ ωs : A → Ω, (ed grad W ρ).step w n k (adv n k s) = .ok s' ∧ ∀ i ∈ n.nodes,
      (s'.loc i).x = applyW n (halfPlus W) (fun j => (s.loc j).x + (s.loc j).yNew - (s.loc j).y) i ∧
      (s'.loc i).y = (s.loc i).yNew ∧
      (s'.loc i).yNew = (s'.loc i).x - ρ • (grad i (s'.loc i).x (ωs i)).1 := by
  obtain ⟨s1, h1, g1, l1, m1, _⟩ := say_mix h (fun _ (a : Ed E) => { a with msg := a.x + a.yNew - a.y }) .dflt
    (fun a : Ed E => a.msg) (adv n k s) (good_step n _ k)
  obtain ⟨s2, ωs, h2, g2, i2, l2⟩ := forActive_own h.ideal h.wf (fun i inbox (a : Ed E) ω =>
      let x := mix (halfPlus W) i a.msg (inbox.byChannel .dflt)
      let g := grad i x ω
      ((⟨x, a.yNew, x - ρ • g.1, a.msg⟩ : Ed E), g.2)) s1 g1
  refine ⟨s2, ωs, ?_, fun i hi => ?_⟩
  · simp only [ed, h1, bind, Except.bind]; exact h2
  · have hm := m1 _ hs i hi
    rw [l2 i hi, l1 i hi]
    try simp only
    rw [hm]
    exact ⟨rfl, rfl, trivial⟩

theorem nids_step0 {w : World A E Ω} {n : Net A} (h : Lossless w n) (grad : Grad A E Ω) (W : A → A → ℝ)
    (ρ : ℝ) (s : Sys A E Ω (Nids E)) :
    ∃ s', ∃ ωs : A → Ω, (nids grad W ρ).step w n 0 (adv n 0 s) = .ok s' ∧ ∀ i ∈ n.nodes,
      (s'.loc i).x = (s.loc i).xOld - ρ • (grad i (s.loc i).x (ωs i)).1 ∧
      (s'.loc i).xOld = (s.loc i).xOld ∧ (s'.loc i).g = (grad i (s.loc i).x (ωs i)).1 := by
  obtain ⟨s1, ωs, h1, g1, i1, l1⟩ := forActive_own h.ideal h.wf (fun i _ (a : Nids E) ω =>
        let g := grad i a.x ω
        ({ a with g := g.1, x := a.xOld - ρ • g.1 }, g.2)) (adv n 0 s) (good_step n _ 0)
  refine ⟨s1, ωs, ?_, fun i hi => ?_⟩
  · simp only [nids, if_true]; exact h1
  · rw [l1 i hi]; exact ⟨rfl, rfl, rfl⟩

theorem nids_step {w : World A E Ω} {n : Net A} (h : Lossless w n) (grad : Grad A E Ω) (W : A → A → ℝ)
    (hs : Supported n (halfPlus W)) (ρ : ℝ) (k : Int) (hk : k ≠ 0) (s : Sys A E Ω (Nids E)) :
    ∃ s', ∃ ωs : A → Ω, (nids grad W ρ).step w n k (adv n k s) = .ok s' ∧ ∀ i ∈ n.nodes,
      (s'.loc i).x = applyW n (halfPlus W) (fun j => (2 : ℝ) • (s.loc j).x - (s.loc j).xOld
        - ρ • (grad j (s.loc j).x (ωs j)).1 + ρ • (s.loc j).g) i ∧
      (s'.loc i).xOld = (s.loc i).x ∧ (s'.loc i).g = (grad i (s.loc i).x (ωs i)).1 := by
  obtain ⟨s1, ωs, h1, g1, i1, l1⟩ := forActive_own h.ideal h.wf (fun i _ (a : Nids E) ω =>
        let g := grad i a.x ω
        ({ a with gOld := a.g, g := g.1, y := (2 : ℝ) • a.x - a.xOld - ρ • g.1 + ρ • a.g }, g.2)) (adv n k s)
        (good_step n _ k)
  obtain ⟨s2, h2, g2, l2, m2, _⟩ := say_mix h (fun _ a => a) .dflt (fun a : Nids E => a.y) s1 g1
  obtain ⟨s3, ωs3, h3, g3, i3, l3⟩ := forActive_own h.ideal h.wf (fun i inbox (a : Nids E) ω =>
        ({ a with xOld := a.x, x := mix (halfPlus W) i a.y (inbox.byChannel .dflt) }, ω)) s2 g2
  refine ⟨s3, ωs, ?_, fun i hi => ?_⟩
  · simp only [nids, if_neg hk, h1, h2, bind, Except.bind]; exact h3
  · have hm := m2 _ hs i hi
    try simp only at hm
    rw [l3 i hi, l2 i hi]
    try simp only
    rw [hm, l1 i hi]
    refine ⟨?_, rfl, rfl⟩
    exact applyW_congr n _ (fun j hj => by rw [l1 j hj]; rfl) i

theorem extra_step0 {w : World A E Ω} {n : Net A} (h : Lossless w n) (grad : Grad A E Ω) (W : A → A → ℝ)
    (hs : Supported n W) (ρ : ℝ) (s : Sys A E Ω (Extra E)) :
    ∃ s', ∃ ωs : A → Ω, (extra grad W ρ).step w n 0 (adv n 0 s) = .ok s' ∧ ∀ i ∈ n.nodes,
      (s'.loc i).x = applyW n W (fun j => (s.loc j).x) i - ρ • (grad i (s.loc i).x (ωs i)).1 ∧
      (s'.loc i).xOld = (s.loc i).x ∧ (s'.loc i).xCons = applyW n W (fun j => (s.loc j).x) i := by
  obtain ⟨s1, h1, g1, l1, m1, _⟩ := say_mix h (fun _ a => a) .dflt (fun a : Extra E => a.x) (adv n 0 s) (good_step n _ 0)
  obtain ⟨s2, ωs, h2, g2, i2, l2⟩ := forActive_own h.ideal h.wf (fun i inbox (a : Extra E) ω =>
        let avg := mix W i a.x (inbox.byChannel .dflt)
        let g := grad i a.x ω
        ({ a with xCons := avg, xOld := a.x, x := avg - ρ • g.1 }, g.2)) s1 g1
  refine ⟨s2, ωs, ?_, fun i hi => ?_⟩
  · simp only [extra, if_true, h1, bind, Except.bind]; exact h2
  · rw [l2 i hi, l1 i hi]
    try simp only
    rw [m1 W hs i hi]; exact ⟨rfl, rfl, rfl⟩

theorem extra_step {w : World A E Ω} {n : Net A} (h : Lossless w n) (grad : Grad A E Ω) (W : A → A → ℝ)
    (hs : Supported n W) (ρ : ℝ) (k : Int) (hk : k ≠ 0) (s : Sys A E Ω (Extra E)) :
    ∃ s', ∃ ωs ωs' : A → Ω, (extra grad W ρ).step w n k (adv n k s) = .ok s' ∧ ∀ i ∈ n.nodes,
      (s'.loc i).x = (s.loc i).x + applyW n W (fun j => (s.loc j).x) i - (0.5 : ℝ) • (s.loc i).xOld
        - (0.5 : ℝ) • (s.loc i).xCons
        - ρ • ((grad i (s.loc i).x (ωs i)).1 - (grad i (s.loc i).xOld (ωs' i)).1) ∧
      (s'.loc i).xOld = (s.loc i).x ∧ (s'.loc i).xCons = applyW n W (fun j => (s.loc j).x) i := by
  obtain ⟨s1, h1, g1, l1, m1, _⟩ := say_mix h (fun _ a => a) .dflt (fun a : Extra E => a.x) (adv n k s) (good_step n _ k)
  obtain ⟨s2, ωs, h2, g2, i2, l2⟩ := forActive_own h.ideal h.wf (fun i inbox (a : Extra E) ω =>
        let avg := mix W i a.x (inbox.byChannel .dflt)
        let g1 := grad i a.x ω
        let g2 := grad i a.xOld g1.2
        ((⟨a.x + avg - (0.5 : ℝ) • a.xOld - (0.5 : ℝ) • a.xCons - ρ • (g1.1 - g2.1), a.x, a.xOld, avg⟩ : Extra E),
          g2.2)) s1 g1
  refine ⟨s2, ωs, fun i => (grad i (s.loc i).x (ωs i)).2, ?_, fun i hi => ?_⟩
  · simp only [extra, if_neg hk, h1, bind, Except.bind]; exact h2
  · rw [l2 i hi, l1 i hi]
    try simp only
    rw [m1 W hs i hi]; exact ⟨rfl, rfl, rfl⟩

theorem wangElia_step {w : World A E Ω} {n : Net A} (h : Lossless w n) (grad : Grad A E Ω) (W : A → A → ℝ)
    (hs : Supported n (halfMinus W)) (ρ : ℝ) (k : Int) (s : Sys A E Ω (Wang E)) :
    ∃ s', ∃ ωs : A → Ω, (wangElia grad W ρ).step w n k (adv n k s) = .ok s' ∧ ∀ i ∈ n.nodes,
      (s'.loc i).x = (s.loc i).x - applyW n (halfMinus W) (fun j => (s.loc j).x + (s.loc j).z) i
        - ρ • (grad i (s.loc i).x (ωs i)).1 ∧
      (s'.loc i).z = (s.loc i).z + applyW n (halfMinus W) (fun j => (s.loc j).x) i := by
  obtain ⟨s1, h1, g1, l1, m1, _⟩ := say_mix h (fun _ (a : Wang E) => { a with msg := a.x + a.z }) .state
    (fun a : Wang E => a.msg) (adv n k s) (good_step n _ k)
  obtain ⟨s2, ωs, h2, g2, i2, l2⟩ := forActive_own h.ideal h.wf (fun i inbox (a : Wang E) ω =>
      let avg := mix (halfMinus W) i a.msg (inbox.byChannel .state)
      let g := grad i a.x ω
      ({ a with xOld := a.x, x := a.x - avg - ρ • g.1 }, g.2)) s1 g1
  obtain ⟨s3, h3, g3, l3, m3, _⟩ := say_mix h (fun _ a => a) .prevState (fun a : Wang E => a.xOld) s2 g2
  obtain ⟨s4, ωs4, h4, g4, i4, l4⟩ := forActive_own h.ideal h.wf (fun i inbox (a : Wang E) ω =>
      ({ a with z := a.z + mix (halfMinus W) i a.xOld (inbox.byChannel .prevState) }, ω)) s3 g3
  refine ⟨s4, ωs, ?_, fun i hi => ?_⟩
  · simp only [wangElia, h1, h2, h3, bind, Except.bind]; exact h4
  · have hm1 := m1 _ hs i hi
    have hm3 := m3 _ hs i hi
    try simp only at hm3
    rw [l4 i hi, l3 i hi]
    try simp only
    rw [hm3, l2 i hi, l1 i hi]
    try simp only
    rw [hm1]
    refine ⟨rfl, ?_⟩
    congr 1
    exact applyW_congr n _ (fun j hj => by rw [l2 j hj, l1 j hj]; rfl) i

theorem augDgm_step {w : World A E Ω} {n : Net A} (h : Lossless w n) (grad : Grad A E Ω) (W : A → A → ℝ)
    (hs : Supported n W) (ρ : ℝ) (k : Int) (s : Sys A E Ω (Track E)) :
    ∃ s', ∃ ωs : A → Ω, (augDgm grad W ρ).step w n k (adv n k s) = .ok s' ∧ ∀ i ∈ n.nodes,
      (s'.loc i).x = applyW n W (fun j => (s.loc j).x - ρ • (s.loc j).y) i ∧
      (s'.loc i).g = (grad i (s'.loc i).x (ωs i)).1 ∧
      (s'.loc i).y = applyW n W (fun j => (s.loc j).y + (s'.loc j).g - (s.loc j).g) i := by
  obtain ⟨s1, ωs1, h1, g1, i1, l1⟩ := forActive_own h.ideal h.wf (fun _ _ (a : Track E) ω =>
    ({ a with s := a.x - ρ • a.y }, ω)) (adv n k s) (good_step n _ k)
  obtain ⟨s2, h2, g2, l2, m2, _⟩ := say_mix h (fun _ a => a) .state (fun a : Track E => a.s) s1 g1
  obtain ⟨s3, ωs, h3, g3, i3, l3⟩ := forActive_own h.ideal h.wf (fun i inbox (a : Track E) ω =>
      let x := mix W i a.s (inbox.byChannel .state)
      let g := grad i x ω
      ({ a with x := x, gNew := g.1 }, g.2)) s2 g2
  obtain ⟨s4, h4, g4, l4, m4, _⟩ := say_mix h (fun _ (a : Track E) => { a with msg := a.y + a.gNew - a.g }) .tracker
    (fun a : Track E => a.msg) s3 g3
  obtain ⟨s5, ωs5, h5, g5, i5, l5⟩ := forActive_own h.ideal h.wf (fun i inbox (a : Track E) ω =>
      ({ a with y := mix W i a.msg (inbox.byChannel .tracker), g := a.gNew }, ω)) s4 g4
  have e3 : ∀ i ∈ n.nodes, (s3.loc i).x = applyW n W (fun j => (s.loc j).x - ρ • (s.loc j).y) i ∧
      (s3.loc i).gNew = (grad i (s3.loc i).x (ωs i)).1 ∧ (s3.loc i).y = (s.loc i).y ∧ (s3.loc i).g = (s.loc i).g := by
    intro i hi
    have hm := m2 W hs i hi
    try simp only at hm
    rw [l3 i hi, l2 i hi]
    try simp only
    rw [hm, l1 i hi]
    refine ⟨?_, trivial, rfl, rfl⟩
    exact applyW_congr n W (fun j hj => by rw [l1 j hj]; rfl) i
  have e5 : ∀ i ∈ n.nodes, (s5.loc i).x = (s3.loc i).x ∧ (s5.loc i).g = (s3.loc i).gNew := by
    intro i hi; rw [l5 i hi, l4 i hi]; exact ⟨rfl, rfl⟩
  refine ⟨s5, ωs, ?_, fun i hi => ?_⟩
  · simp only [augDgm, h1, h2, h3, h4, bind, Except.bind]; exact h5
  · obtain ⟨a1, a2, a3, a4⟩ := e3 i hi
    obtain ⟨b1, b2⟩ := e5 i hi
    refine ⟨by rw [b1, a1], by rw [b2, a2, b1], ?_⟩
    have hm := m4 W hs i hi
    try simp only at hm
    rw [l5 i hi, l4 i hi]
    try simp only
    rw [hm]
    exact applyW_congr n W (fun j hj => by rw [(e5 j hj).2, (e3 j hj).2.2.1, (e3 j hj).2.2.2]) i

theorem atcTracking_step {w : World A E Ω} {n : Net A} (h : Lossless w n) (grad : Grad A E Ω) (W : A → A → ℝ)
    (hs : Supported n W) (ρ : ℝ) (k : Int) (s : Sys A E Ω (Track E)) :
    ∃ s', ∃ ωs : A → Ω, (atcTracking grad W ρ).step w n k (adv n k s) = .ok s' ∧ ∀ i ∈ n.nodes,
      (s'.loc i).x = applyW n W (fun j => (s.loc j).x - ρ • (s.loc j).y) i ∧
      (s'.loc i).g = (grad i (s'.loc i).x (ωs i)).1 ∧
      (s'.loc i).y = applyW n W (fun j => (s.loc j).y) i + (s'.loc i).g - (s.loc i).g := by
  obtain ⟨s1, ωs1, h1, g1, i1, l1⟩ := forActive_own h.ideal h.wf (fun _ _ (a : Track E) ω =>
    ({ a with s := a.x - ρ • a.y }, ω)) (adv n k s) (good_step n _ k)
  obtain ⟨s2, h2, g2, l2, m2, _⟩ := say_mix h (fun _ a => a) .state (fun a : Track E => a.s) s1 g1
  obtain ⟨s3, ωs, h3, g3, i3, l3⟩ := forActive_own h.ideal h.wf (fun i inbox (a : Track E) ω =>
      let x := mix W i a.s (inbox.byChannel .state)
      let g := grad i x ω
      ({ a with x := x, gNew := g.1 }, g.2)) s2 g2
  obtain ⟨s4, h4, g4, l4, m4, _⟩ := say_mix h (fun _ a => a) .tracker (fun a : Track E => a.y) s3 g3
  obtain ⟨s5, ωs5, h5, g5, i5, l5⟩ := forActive_own h.ideal h.wf (fun i inbox (a : Track E) ω =>
      ({ a with y := mix W i a.y (inbox.byChannel .tracker) + a.gNew - a.g, g := a.gNew }, ω)) s4 g4
  have e3 : ∀ i ∈ n.nodes, (s3.loc i).x = applyW n W (fun j => (s.loc j).x - ρ • (s.loc j).y) i ∧
      (s3.loc i).gNew = (grad i (s3.loc i).x (ωs i)).1 ∧ (s3.loc i).y = (s.loc i).y ∧ (s3.loc i).g = (s.loc i).g := by
    intro i hi
    have hm := m2 W hs i hi
    try simp only at hm
    rw [l3 i hi, l2 i hi]
    try simp only
    rw [hm, l1 i hi]
    refine ⟨?_, trivial, rfl, rfl⟩
    exact applyW_congr n W (fun j hj => by rw [l1 j hj]; rfl) i
  have e5 : ∀ i ∈ n.nodes, (s5.loc i).x = (s3.loc i).x ∧ (s5.loc i).g = (s3.loc i).gNew := by
    intro i hi; rw [l5 i hi, l4 i hi]; exact ⟨rfl, rfl⟩
  refine ⟨s5, ωs, ?_, fun i hi => ?_⟩
  · simp only [atcTracking, h1, h2, h3, h4, bind, Except.bind]; exact h5
  · obtain ⟨a1, a2, a3, a4⟩ := e3 i hi
    obtain ⟨b1, b2⟩ := e5 i hi
    refine ⟨by rw [b1, a1], by rw [b2, a2, b1], ?_⟩
    have hm := m4 W hs i hi
    try simp only at hm
    rw [b2, l5 i hi, l4 i hi]
    try simp only
    rw [hm, a4]
    congr 2
    exact applyW_congr n W (fun j hj => (e3 j hj).2.2.1) i

theorem led_step {w : World A E Ω} {n : Net A} (h : Lossless w n) (grad : Grad A E Ω) (W : A → A → ℝ)
    (hs : Supported n W) (ρ β : ℝ) (τ : Nat) (k : Int) (s : Sys A E Ω (Led E)) :
    ∃ s', ∃ ωs : A → Ω, (led grad W ρ β τ).step w n k (adv n k s) = .ok s' ∧ ∀ i ∈ n.nodes,
      (s'.loc i).phi = (repeatN (fun phi ω => let g := grad i phi ω; (phi - (ρ • g.1 + β • (s.loc i).y), g.2)) τ
        (s.loc i).x (ωs i)).1 ∧
      (s'.loc i).x = applyW n W (fun j => (s'.loc j).phi) i ∧
      (s'.loc i).y = (s.loc i).y + ((s'.loc i).phi - (s'.loc i).x) := by
  obtain ⟨s1, ωs, h1, g1, i1, l1⟩ := forActive_own h.ideal h.wf (fun i _ (a : Led E) ω =>
      let r := repeatN (fun phi ω => let g := grad i phi ω; (phi - (ρ • g.1 + β • a.y), g.2)) τ a.x ω
      ({ a with phi := r.1 }, r.2)) (adv n k s) (good_step n _ k)
  obtain ⟨s2, h2, g2, l2, m2, _⟩ := say_mix h (fun _ a => a) .dflt (fun a : Led E => a.phi) s1 g1
  obtain ⟨s3, ωs3, h3, g3, i3, l3⟩ := forActive_own h.ideal h.wf (fun i inbox (a : Led E) ω =>
    ({ a with x := mix W i a.phi (inbox.byChannel .dflt) }, ω)) s2 g2
  obtain ⟨s4, ωs4, h4, g4, i4, l4⟩ := forActive_own h.ideal h.wf (fun _ _ (a : Led E) ω =>
    ({ a with y := a.y + (a.phi - a.x) }, ω)) s3 g3
  have ephi : ∀ i ∈ n.nodes, (s4.loc i).phi = (s1.loc i).phi := by
    intro i hi; rw [l4 i hi, l3 i hi, l2 i hi]
  refine ⟨s4, ωs, ?_, fun i hi => ?_⟩
  · simp only [led, h1, h2, h3, bind, Except.bind]; exact h4
  · have hm := m2 W hs i hi
    try simp only at hm
    have ex : (s4.loc i).x = applyW n W (fun j => (s4.loc j).phi) i := by
      rw [l4 i hi, l3 i hi, l2 i hi]
      try simp only
      rw [hm]
      exact applyW_congr n W (fun j hj => (ephi j hj).symm) i
    refine ⟨?_, ex, ?_⟩
    · rw [ephi i hi, l1 i hi]; rfl
    · have e3x : (s3.loc i).x = (s4.loc i).x := by rw [l4 i hi]
      have ey : (s4.loc i).y = (s3.loc i).y + ((s3.loc i).phi - (s3.loc i).x) := by rw [l4 i hi]
      have ephi3 : (s3.loc i).phi = (s4.loc i).phi := by rw [l4 i hi]
      rw [ey, e3x, ephi3]
      congr 1
      rw [l3 i hi, l2 i hi, l1 i hi]; rfl

theorem proxSkip_step {w : World A E Ω} {n : Net A} (h : Lossless w n) (grad : Grad A E Ω) (coin : Ω → Bool × Ω)
    (W : A → A → ℝ) (χ : ℝ) (hs : Supported n (relaxed χ W)) (ρ β : ℝ) (k : Int) (s : Sys A E Ω (Skip E)) :
    ∃ s', ∃ ωs : A → Ω, (proxSkip grad coin W ρ β χ).step w n k (adv n k s) = .ok s' ∧
      (∀ i ∈ n.nodes, (s'.loc i).z = (s.loc i).x - ρ • (grad i (s.loc i).x (ωs i)).1 - (s.loc i).y) ∧
      ((∀ i ∈ n.nodes, (s'.loc i).x = applyW n (relaxed χ W) (fun j => (s'.loc j).z) i ∧
        (s'.loc i).y = (s.loc i).y + β • ((s'.loc i).z - (s'.loc i).x)) ∨
       (∀ i ∈ n.nodes, (s'.loc i).x = (s'.loc i).z ∧ (s'.loc i).y = (s.loc i).y)) := by
  obtain ⟨s1, ωs, h1, g1, i1, l1⟩ := forActive_own h.ideal h.wf (fun i _ (a : Skip E) ω =>
      let g := grad i a.x ω
      ({ a with z := a.x - ρ • g.1 - a.y }, g.2)) (adv n k s) (good_step n _ k)
  set s1' : Sys A E Ω (Skip E) := { s1 with net := { s1.net with ω := (coin s1.net.ω).2 } } with hs1'
  have g1' : Good n s1'.net := ⟨⟨g1.cinv.active, g1.cinv.conn⟩, g1.inbox, g1.nbr, g1.full⟩
  by_cases hθ : (coin s1.net.ω).1 = true
  · obtain ⟨s2, h2, g2, l2, m2, _⟩ := say_mix h (fun _ a => a) .dflt (fun a : Skip E => a.z) s1' g1'
    obtain ⟨s3, ωs3, h3, g3, i3, l3⟩ := forActive_own h.ideal h.wf (fun i inbox (a : Skip E) ω =>
        let x := mix (relaxed χ W) i a.z (inbox.byChannel .dflt)
        ({ a with x := x, y := a.y + β • (a.z - x) }, ω)) s2 g2
    have ez : ∀ i ∈ n.nodes, (s3.loc i).z = (s1.loc i).z := by
      intro i hi; rw [l3 i hi, l2 i hi]
    refine ⟨s3, ωs, ?_, fun i hi => ?_, Or.inl (fun i hi => ?_)⟩
    · simp only [proxSkip, h1, bind, Except.bind, hθ, if_true]
      rw [← hs1', h2]
      exact h3
    · rw [ez i hi, l1 i hi]; rfl
    · have hm := m2 _ hs i hi
      try simp only at hm
      have ex : (s3.loc i).x = applyW n (relaxed χ W) (fun j => (s3.loc j).z) i := by
        rw [l3 i hi, l2 i hi]
        try simp only
        rw [hm]
        exact applyW_congr n _ (fun j hj => (ez j hj).symm) i
      refine ⟨ex, ?_⟩
      have ey : (s3.loc i).y = (s1.loc i).y + β • ((s3.loc i).z - (s3.loc i).x) := by
        rw [l3 i hi, l2 i hi]
      rw [ey, l1 i hi]; rfl
  · obtain ⟨s3, ωs3, h3, g3, i3, l3⟩ := forActive_own h.ideal h.wf (fun _ _ (a : Skip E) ω =>
      ({ a with x := a.z }, ω)) s1' g1'
    refine ⟨s3, ωs, ?_, fun i hi => ?_, Or.inr (fun i hi => ?_)⟩
    · simp only [proxSkip, h1, bind, Except.bind, hθ, Bool.false_eq_true, if_false]
      exact h3
    · rw [l3 i hi]; show (s1.loc i).z = _; rw [l1 i hi]; rfl
    · rw [l3 i hi]
      refine ⟨rfl, ?_⟩
      show (s1.loc i).y = _
      rw [l1 i hi]; rfl

end steps
end Verif
