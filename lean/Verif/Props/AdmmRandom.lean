import Verif.Props.Admm
import Verif.Props.ProxSkip
import Verif.Lemmas.RandomArcs
import Verif.Lemmas.AdmmLoss
set_option linter.unusedSectionVars false
/-!
# C111: ADMM with random inactivity and message loss converges linearly in mean square
-/
namespace Verif.Props
open Verif P2P Sys Consensus Costs Arcs
open scoped InnerProductSpace

section runs
variable {A E Ω Θ : Type} [DecidableEq A] [AddCommGroup E] [Module ℝ E]

/-- SPEC: one iteration of ADMM in which the agents `act` are active and `i` receives the message of `j` iff `got i j`: active agents solve
their local problem, and the row of `z` is updated exactly where a message was received -/
noncomputable def admmRound (P : A → E → ℝ → E) (n : Net A) (ρ α : ℝ) (act : A → Bool) (got : A → A → Bool) (s : (A → E) × (A → A → E)) : (A → E) × (A → A → E) :=
  let x' := fun i => if act i then P i ((1 / (ρ * ((n.nbrs i).length : ℝ))) • ((n.nbrs i).map (fun j => s.2 i j)).sum) (1 / (ρ * ((n.nbrs i).length : ℝ))) else s.1 i
  (x', fun i j => if got i j then (1 - α) • s.2 i j - α • (s.2 j i - (2 * ρ) • x' j) else s.2 i j)

/-- SPEC: the iterates when the iterations turn out as listed in `l` -/
noncomputable def admmRounds (P : A → E → ℝ → E) (n : Net A) (ρ α : ℝ) (act : Θ → A → Bool) (got : Θ → A → A → Bool) (x z : A → E) (l : List Θ) :
    (A → E) × (A → A → E) :=
  l.foldl (fun s θ => admmRound P n ρ α (act θ) (got θ) s) (x, fun i _ => z i)

/-- SPEC: the iteration that ended in `s` turned out so: `network.active_agents()` are the agents `act`, and `i.messages()` contains an entry of
the neighbour `j` iff `got i j` -/
structure TurnedOut {α : Type} (w : World A E Ω) (n : Net A) (act : A → Bool) (got : A → A → Bool) (s : Sys A E Ω α) : Prop where
  active : ∀ i ∈ n.nodes, act i = true ↔ i ∈ (s.net.activeAgents w n).1
  heard : ∀ i ∈ n.nodes, ∀ j ∈ n.nbrs i, got i j = true ↔ (((s.net.inbox i).byChannel .dflt).get? j).isSome

/-- SPEC: iteration by iteration, the run `after` turned out as listed in `l` -/
def Followed {α : Type} (w : World A E Ω) (n : Net A) (act : Θ → A → Bool) (got : Θ → A → A → Bool) (after : Nat → Py (Sys A E Ω α)) (l : List Θ) : Prop :=
  ∀ (k : Nat) (hk : k < l.length) s, after (k + 1) = .ok s → TurnedOut w n (act l[k]) (got l[k]) s

theorem admm_any {n : Net A} (hn : ∀ i ∈ n.nodes, n.nbrs i ≠ []) (prox : Prox A E Ω) (ρ α : ℝ) (z0 : A → E) (fromZ : Bool) (w : World A E Ω) (x0 : A → E)
    (s0 : Sys A E Ω (Admm A E)) (k : Nat) : admmAfter prox ρ α z0 fromZ w n x0 s0 k = (admm prox n ρ α z0 fromZ).after w n x0 s0 k := by
  have hany : n.nodes.any (fun i => (n.nbrs i).isEmpty) = false := by
    rw [List.any_eq_false]
    intro i hi
    simpa using hn i hi
  unfold admmAfter; rw [hany]; rfl

theorem admm_init_spec {n : Net A} (hw : n.WF) (prox : Prox A E Ω) (P : A → E → ℝ → E) (hP : ∀ i v p ω, (prox i v p ω).1 = P i v p) (ρ α : ℝ) (x0 z0 : A → E)
    (fromZ : Bool) (s0 : Sys A E Ω (Admm A E)) : ∀ i ∈ n.nodes,
      (((admm prox n ρ α z0 fromZ).initialize_ n x0 s0).loc i).x = admmStart P n ρ x0 z0 fromZ i ∧
      ∀ j, (((admm prox n ρ α z0 fromZ).initialize_ n x0 s0).loc i).z j = z0 i := by
  obtain ⟨ωs, hi⟩ := init_spec (admm prox n ρ α z0 fromZ) n hw x0 s0
  intro i hi'
  rw [hi i hi']
  cases fromZ with
  | true =>
    refine ⟨?_, fun j => ?_⟩
    · simp [admm, admmStart, hP, admmRho]
    · simp [admm]
  | false =>
    refine ⟨?_, fun j => ?_⟩
    · simp [admm, admmStart]
    · simp [admm]

/-- C111: whatever agents are active and whatever messages are lost, the run succeeds, and the activity and the received messages determine
the iterates: active agents solve their local problem, exactly the rows with a fresh message are updated, everything else is kept. -/
theorem C111_run {w : World A E Ω} {n : Net A} (h : Plain w n) (hw : n.WF) (hn : ∀ i ∈ n.nodes, n.nbrs i ≠ []) (prox : Prox A E Ω)
    (P : A → E → ℝ → E) (hP : ∀ i v p ω, (prox i v p ω).1 = P i v p) (ρ α : ℝ) (x0 z0 : A → E) (fromZ : Bool)
    (act : Θ → A → Bool) (got : Θ → A → A → Bool) (s0 : Sys A E Ω (Admm A E)) (l : List Θ)
    (hl : Followed w n act got (admmAfter prox ρ α z0 fromZ w n x0 s0) l) :
    ∃ s, admmAfter prox ρ α z0 fromZ w n x0 s0 l.length = .ok s ∧ ∀ i ∈ n.nodes,
      (s.loc i).x = (admmRounds P n ρ α act got (admmStart P n ρ x0 z0 fromZ) z0 l).1 i ∧
      ∀ j ∈ n.nbrs i, (s.loc i).z j = (admmRounds P n ρ α act got (admmStart P n ρ x0 z0 fromZ) z0 l).2 i j := by
  have key : ∀ k ≤ l.length, ∃ s, admmAfter prox ρ α z0 fromZ w n x0 s0 k = .ok s ∧ ∀ i ∈ n.nodes,
      (s.loc i).x = (admmRounds P n ρ α act got (admmStart P n ρ x0 z0 fromZ) z0 (l.take k)).1 i ∧
      ∀ j ∈ n.nbrs i, (s.loc i).z j = (admmRounds P n ρ α act got (admmStart P n ρ x0 z0 fromZ) z0 (l.take k)).2 i j := by
    intro k
    induction k with
    | zero =>
      intro _
      refine ⟨_, by rw [admm_any hn]; exact after_zero _ w n x0 s0, fun i hi => ?_⟩
      obtain ⟨a, b⟩ := admm_init_spec hw prox P hP ρ α x0 z0 fromZ s0 i hi
      exact ⟨a, fun j _ => b j⟩
    | succ k ih =>
      intro hk
      obtain ⟨s, hs, hv⟩ := ih (by omega)
      obtain ⟨s', ωs, h1, _, _, h2⟩ := admm_step_seen h hw prox n ρ α z0 fromZ k s
      have hs' : admmAfter prox ρ α z0 fromZ w n x0 s0 (k + 1) = .ok s' := by
        rw [admm_any hn] at hs ⊢
        rw [after_succ, hs]; exact h1
      have ht := hl k (by omega) s' hs'
      have htake : l.take (k + 1) = l.take k ++ [l[k]] := by rw [List.take_add_one, List.getElem?_eq_getElem (by omega)]; rfl
      set p := admmRounds P n ρ α act got (admmStart P n ρ x0 z0 fromZ) z0 (l.take k) with hp
      have hr : admmRounds P n ρ α act got (admmStart P n ρ x0 z0 fromZ) z0 (l.take (k + 1)) = admmRound P n ρ α (act l[k]) (got l[k]) p := by
        rw [htake, admmRounds, List.foldl_append]; rfl
      have hx : ∀ i ∈ n.nodes, (s'.loc i).x = (admmRound P n ρ α (act l[k]) (got l[k]) p).1 i := by
        intro i hi
        rw [(h2 i hi).1, hP, (hv i hi).1]
        have e : rowSumZ n i (s.loc i).z = ((n.nbrs i).map (fun j => p.2 i j)).sum := by
          unfold rowSumZ; congr 1
          exact List.map_congr_left fun j hj => (hv i hi).2 j hj
        rw [e]
        show _ = if act l[k] i = true then _ else _
        by_cases hai : act l[k] i = true
        · rw [if_pos hai, if_pos ((ht.active i hi).1 hai)]; rfl
        · rw [if_neg hai, if_neg (fun hh => hai ((ht.active i hi).2 hh))]
      refine ⟨s', hs', fun i hi => ?_⟩
      rw [hr]
      refine ⟨hx i hi, fun j hj => ?_⟩
      have hjn := hw.nbrs_mem i j hj
      rw [((h2 i hi).2 j).1, hx j hjn, (hv i hi).2 j hj, (hv j hjn).2 i (hw.symm i j hj)]
      show _ = if got l[k] i j = true then _ else _
      by_cases hg : got l[k] i j = true
      · rw [if_pos hg, if_pos ((ht.heard i hi j hj).1 hg)]; rfl
      · rw [if_neg hg, if_neg (fun hh => hg ((ht.heard i hi j hj).2 hh))]
  have := key l.length le_rfl
  rwa [List.take_length] at this

/-- every run turns out in some way, and no agent hears a neighbour unless both are active -/
theorem C111_every_run {w : World A E Ω} {n : Net A} (h : Plain w n) (hw : n.WF) (hn : ∀ i ∈ n.nodes, n.nbrs i ≠ []) (prox : Prox A E Ω)
    (ρ α : ℝ) (x0 z0 : A → E) (fromZ : Bool) (s0 : Sys A E Ω (Admm A E)) (k : Nat) :
    ∃ l : List ((A → Bool) × (A → A → Bool)), l.length = k ∧ Followed w n Prod.fst Prod.snd (admmAfter prox ρ α z0 fromZ w n x0 s0) l ∧
      ∀ θ ∈ l, ∀ i ∈ n.nodes, ∀ j ∈ n.nbrs i, θ.2 i j = true → θ.1 i = true ∧ θ.1 j = true := by
  induction k with
  | zero => exact ⟨[], rfl, fun k hk => absurd hk (by simp), fun θ hθ => absurd hθ (by simp)⟩
  | succ k ih =>
    obtain ⟨l, hl, hf, hb⟩ := ih
    obtain ⟨s, hs, _⟩ : ∃ s, admmAfter prox ρ α z0 fromZ w n x0 s0 k = .ok s ∧ True := by
      rw [admm_any hn]
      exact after_induction (admm prox n ρ α z0 fromZ) w n x0 s0 (fun _ _ => True) trivial
        (fun k s _ => by obtain ⟨s', _, h1, _⟩ := admm_step_seen h hw prox n ρ α z0 fromZ k s; exact ⟨s', h1, trivial⟩) k
    obtain ⟨s', ωs, h1, _, _, h2⟩ := admm_step_seen h hw prox n ρ α z0 fromZ k s
    have hs' : admmAfter prox ρ α z0 fromZ w n x0 s0 (k + 1) = .ok s' := by
      rw [admm_any hn] at hs ⊢
      rw [after_succ, hs]; exact h1
    refine ⟨l ++ [(fun i => decide (i ∈ (s'.net.activeAgents w n).1), fun i j => (((s'.net.inbox i).byChannel .dflt).get? j).isSome)], by simp [hl], ?_, ?_⟩
    · intro j hj t ht
      by_cases hjk : j < l.length
      · rw [List.getElem_append_left hjk]
        exact hf j hjk t ht
      · have : j = l.length := by simp at hj; omega
        subst this
        rw [hl, hs'] at ht
        cases ht
        rw [List.getElem_append_right le_rfl]
        refine ⟨fun i _ => ?_, fun i _ j _ => ?_⟩
        · simp
        · simp
    · intro θ hθ i hi j hj hg
      rcases List.mem_append.1 hθ with hθ | hθ
      · exact hb θ hθ i hi j hj hg
      · rw [List.mem_singleton] at hθ
        subst hθ
        have := ((h2 i hi).2 j).2.1 hg
        have hjn := hw.nbrs_mem i j hj
        exact ⟨by simpa using this.1, by simpa using this.2.1⟩

end runs

section rate
variable {A Ω Θ : Type} [DecidableEq A] [Fintype Θ] {d : Nat} {n : Net A} {f : A → Vec d → ℝ} {G : A → Vec d → Vec d} {L m : ℝ}

/-- SPEC: the mean of `F` over `k` independent outcomes, each drawn with the probabilities `q` -/
def tapeMean (q : Θ → ℝ) : Nat → (List Θ → ℝ) → ℝ
  | 0, F => F []
  | k + 1, F => ∑ θ, q θ * tapeMean q k (fun l => F (θ :: l))

/-- SPEC: `q` is a probability distribution -/
structure Distribution (q : Θ → ℝ) : Prop where
  nonneg : ∀ θ, 0 ≤ q θ
  total : ∑ θ, q θ = 1

/-- SPEC: the probability of an event -/
def chance (q : Θ → ℝ) (e : Θ → Bool) : ℝ := ∑ θ, if e θ then q θ else 0

theorem tapeMean_snoc (q : Θ → ℝ) (k : Nat) : ∀ F, tapeMean q (k + 1) F = tapeMean q k (fun l => ∑ θ, q θ * F (l ++ [θ])) := by
  induction k with
  | zero => intro F; rfl
  | succ k ih =>
    intro F
    rw [tapeMean, tapeMean]
    exact Finset.sum_congr rfl fun θ _ => by rw [ih]; rfl

theorem tapeMean_mono {q : Θ → ℝ} (hq : ∀ θ, 0 ≤ q θ) (k : Nat) : ∀ F F' : List Θ → ℝ, (∀ l, l.length = k → F l ≤ F' l) → tapeMean q k F ≤ tapeMean q k F' := by
  induction k with
  | zero => intro F F' h; exact h [] rfl
  | succ k ih =>
    intro F F' h
    rw [tapeMean, tapeMean]
    exact Finset.sum_le_sum fun θ _ => mul_le_mul_of_nonneg_left (ih _ _ fun l hl => h _ (by rw [List.length_cons, hl])) (hq θ)

theorem tapeMean_smul (q : Θ → ℝ) (c : ℝ) (k : Nat) : ∀ F : List Θ → ℝ, tapeMean q k (fun l => c * F l) = c * tapeMean q k F := by
  induction k with
  | zero => intro F; rfl
  | succ k ih =>
    intro F
    rw [tapeMean, tapeMean, Finset.mul_sum]
    exact Finset.sum_congr rfl fun θ _ => by rw [ih (fun l => F (θ :: l))]; ring

/-- `tapeMean` is an average -/
theorem tapeMean_const {q : Θ → ℝ} (hq : Distribution q) (c : ℝ) (k : Nat) : tapeMean q k (fun _ => c) = c := by
  induction k with
  | zero => rfl
  | succ k ih => rw [tapeMean, ih, ← Finset.sum_mul, hq.total, one_mul]

/-- the probability of one given sequence is the product of the probabilities of its entries -/
theorem tapeMean_single [DecidableEq Θ] (q : Θ → ℝ) : ∀ l : List Θ, tapeMean q l.length (fun l' => if l' = l then 1 else 0) = (l.map q).prod := by
  intro l
  induction l with
  | nil => simp [tapeMean]
  | cons t l ih =>
    rw [List.length_cons, tapeMean, List.map_cons, List.prod_cons, ← ih]
    have : ∀ θ, q θ * tapeMean q l.length (fun l' => if θ :: l' = t :: l then 1 else 0) = if θ = t then q t * tapeMean q l.length (fun l' => if l' = l then 1 else 0) else 0 := by
      intro θ
      by_cases hθ : θ = t
      · subst hθ; simp
      · rw [if_neg hθ]
        have e : (fun l' : List Θ => if θ :: l' = t :: l then (1 : ℝ) else 0) = fun _ => 0 * (1 : ℝ) := by
          funext l'; simp [hθ]
        rw [e, tapeMean_smul, zero_mul, mul_zero]
    rw [Finset.sum_congr rfl (fun θ _ => this θ), Finset.sum_ite_eq']
    simp

/-- a potential that shrinks by a factor in each round on average decays geometrically -/
theorem tape_decay {q : Θ → ℝ} (hq : ∀ θ, 0 ≤ q θ) {St : Type} (next : Θ → St → St) (Φ : St → ℝ) (r : ℝ) (hr : 0 ≤ r) (h : ∀ s, ∑ θ, q θ * Φ (next θ s) ≤ r * Φ s) (s0 : St) (k : Nat) :
    tapeMean q k (fun l => Φ (l.foldl (fun s θ => next θ s) s0)) ≤ r ^ k * Φ s0 := by
  induction k with
  | zero => rw [pow_zero, one_mul]; exact le_rfl
  | succ k ih =>
    rw [tapeMean_snoc]
    have h1 : tapeMean q k (fun l => ∑ θ, q θ * Φ ((l ++ [θ]).foldl (fun s θ => next θ s) s0)) ≤ tapeMean q k (fun l => r * Φ (l.foldl (fun s θ => next θ s) s0)) := by
      refine tapeMean_mono hq k _ _ fun l _ => ?_
      have := h (l.foldl (fun s θ => next θ s) s0)
      simpa [List.foldl_append] using this
    rw [tapeMean_smul] at h1
    have h2 := mul_le_mul_of_nonneg_left ih hr
    rw [pow_succ r k]
    linarith

/-- C111: if the iterations turn out independently with the same probabilities, and every neighbour's message is received with positive
probability, ADMM converges linearly in mean square to the minimiser of the sum, for every penalty and relaxation and from every start. -/
theorem C111_mean_square {w : World A (Vec d) Ω} (h : Plain w n) (hw : n.WF) (hl : Loopless n) (hn : ∀ i ∈ n.nodes, n.nbrs i ≠ []) (hc : JoinedUp n) (hf : Smooth n f G L m)
    (prox : Prox A (Vec d) Ω) (P : A → Vec d → ℝ → Vec d) (hprox : ∀ i v p ω, (prox i v p ω).1 = P i v p) (hP : ExactProx n f P)
    (ρ α : ℝ) (hρ : 0 < ρ) (hα0 : 0 < α) (hα1 : α < 1) (xs : Vec d) (hxs : SolvesSum n f xs)
    (q : Θ → ℝ) (hq : Distribution q) (act : Θ → A → Bool) (got : Θ → A → A → Bool)
    (hgot : ∀ i ∈ n.nodes, ∀ j ∈ n.nbrs i, 0 < chance q (fun θ => got θ i j))
    (hlink : ∀ θ, ∀ i ∈ n.nodes, ∀ j ∈ n.nbrs i, got θ i j = true → act θ i = true ∧ act θ j = true) :
    ∃ r : ℝ, 0 < r ∧ r < 1 ∧ ∀ (x0 z0 : A → Vec d) (fromZ : Bool), ∃ C : ℝ, ∀ (k : Nat) (s0 : List Θ → Sys A (Vec d) Ω (Admm A (Vec d))),
      (∀ l, l.length = k → Followed w n act got (admmAfter prox ρ α z0 fromZ w n x0 (s0 l)) l) →
      ∃ S : List Θ → Sys A (Vec d) Ω (Admm A (Vec d)), (∀ l, l.length = k → admmAfter prox ρ α z0 fromZ w n x0 (s0 l) k = .ok (S l)) ∧
        tapeMean q k (fun l => farFrom n xs (fun i => ((S l).loc i).x)) ≤ C * r ^ k := by
  rcases List.eq_nil_or_concat n.nodes with h0 | ⟨_, _, hne⟩
  · refine ⟨1 / 2, by norm_num, by norm_num, fun x0 z0 b => ⟨0, fun k s0 hs0 => ?_⟩⟩
    have hall : ∀ l : List Θ, ∃ s, l.length = k → admmAfter prox ρ α z0 b w n x0 (s0 l) k = .ok s := by
      intro l
      by_cases hlk : l.length = k
      · obtain ⟨s, hs, _⟩ := C111_run h hw hn prox P hprox ρ α x0 z0 b act got (s0 l) l (hs0 l hlk)
        rw [hlk] at hs
        exact ⟨s, fun _ => hs⟩
      · exact ⟨s0 l, fun hh => absurd hh hlk⟩
    choose S hS using hall
    refine ⟨S, hS, ?_⟩
    have e : (fun l => farFrom n xs (fun i => ((S l).loc i).x)) = fun _ => (0 : ℝ) := by
      funext l; simp [farFrom, h0]
    rw [e, tapeMean_const hq, zero_mul]
  have hex : ∃ i, i ∈ n.nodes := ⟨_, by rw [hne]; simp; exact Or.inr rfl⟩
  obtain ⟨i0, hi0⟩ := hex
  obtain ⟨j0, hj0⟩ := List.exists_mem_of_ne_nil _ (hn i0 hi0)
  have : Nonempty (Arc n) := ⟨⟨(toNode hi0, toNode (hw.nbrs_mem i0 j0 hj0)), hj0⟩⟩
  obtain ⟨zs, hzs⟩ := C84_rest_exists hw hl hn hc hf hP ρ hρ xs hxs
  have hξzs : solveLocal n P ρ (gatherZ n zs) = gather n (fun _ => xs) := by
    apply stack_ext; intro i
    show P i.1 _ _ = xs
    rw [outSum_gatherZ hw]
    exact hzs.localOpt i.1 i.mem
  have hfix : reflect (tail n) (reverse hw) ρ (solveLocal n P ρ) (gatherZ n zs) = gatherZ n zs := by
    apply stack_ext; intro a
    show (2 * ρ) • solveLocal n P ρ (gatherZ n zs) _ - zs a.1.2.1 a.1.1.1 = zs a.1.1.1 a.1.2.1
    rw [hξzs]
    show (2 * ρ) • xs - _ = _
    have := hzs.edge a.1.1.1 a.1.1.mem a.1.2.1 a.2
    rw [← this]; abel
  have hactp : ∀ i : Node n, 0 < ∑ θ, if act θ i.1 = true then q θ else 0 := by
    intro i
    obtain ⟨j, hj⟩ := List.exists_mem_of_ne_nil _ (hn i.1 i.mem)
    refine lt_of_lt_of_le (hgot i.1 i.mem j hj) (Finset.sum_le_sum fun θ _ => ?_)
    by_cases hg : got θ i.1 j = true
    · rw [if_pos hg, if_pos (hlink θ i.1 i.mem j hj hg).1]
    · rw [if_neg hg]; split
      · exact hq.nonneg θ
      · exact le_rfl
  obtain ⟨r, c, Φ, hr0, hr1, hc0, hΦ0, hΦx, hΦ⟩ := random_relax (src := tail n) (flip := reverse hw) (G := nodeG n G) (f := fun i => f i.1) (fun a => rfl) hρ hα0 hα1 hf.mpos hf.Lpos
    hf.nodes.1 hf.nodes.2 (solve_resolves hw hn hf hP ρ hρ) (solve_inj P ρ) (gatherZ n zs) hfix q hq.nonneg hq.total
    (fun θ (a : Arc n) => got θ a.1.1.1 a.1.2.1 = true) (fun θ (i : Node n) => act θ i.1 = true) (fun a => hgot a.1.1.1 a.1.1.mem a.1.2.1 a.2) hactp
  refine ⟨r, hr0, hr1, fun x0 z0 b => ?_⟩
  set X := admmStart P n ρ x0 z0 b with hX
  refine ⟨c * Φ (gather n X, gatherZ n (fun i _ => z0 i)), fun k s0 hs0 => ?_⟩
  -- the stacked recursion
  set next : Θ → Stack (Node n) d × Stack (Arc n) d → Stack (Node n) d × Stack (Arc n) d := fun θ s =>
    partialStep (solveLocal n P ρ) (relax (tail n) (reverse hw) ρ α (solveLocal n P ρ)) (fun (a : Arc n) => got θ a.1.1.1 a.1.2.1 = true) (fun (i : Node n) => act θ i.1 = true) s with hnext
  have hstep : ∀ θ (p : (A → Vec d) × (A → A → Vec d)), (gather n (admmRound P n ρ α (act θ) (got θ) p).1, gatherZ n (admmRound P n ρ α (act θ) (got θ) p).2) = next θ (gather n p.1, gatherZ n p.2) := by
    intro θ p
    have esol : ∀ i : Node n, solveLocal n P ρ (gatherZ n p.2) i = P i.1 ((1 / (ρ * ((n.nbrs i.1).length : ℝ))) • ((n.nbrs i.1).map (fun j => p.2 i.1 j)).sum) (1 / (ρ * ((n.nbrs i.1).length : ℝ))) := by
      intro i
      show P i.1 _ _ = _
      rw [outSum_gatherZ hw]
    refine Prod.ext ?_ ?_
    · apply stack_ext; intro i
      show (if act θ i.1 = true then P i.1 _ _ else p.1 i.1) = if act θ i.1 = true then solveLocal n P ρ (gatherZ n p.2) i else p.1 i.1
      rw [esol]
    · apply stack_ext; intro a
      show (if got θ a.1.1.1 a.1.2.1 = true then _ else p.2 a.1.1.1 a.1.2.1) = if got θ a.1.1.1 a.1.2.1 = true then relax (tail n) (reverse hw) ρ α (solveLocal n P ρ) (gatherZ n p.2) a else p.2 a.1.1.1 a.1.2.1
      by_cases hg : got θ a.1.1.1 a.1.2.1 = true
      · rw [if_pos hg, if_pos hg]
        have hj := (hlink θ a.1.1.1 a.1.1.mem a.1.2.1 a.2 hg).2
        show (1 - α) • p.2 a.1.1.1 a.1.2.1 - α • (p.2 a.1.2.1 a.1.1.1 - (2 * ρ) • (if act θ a.1.2.1 = true then _ else _)) =
          (1 - α) • p.2 a.1.1.1 a.1.2.1 + α • ((2 * ρ) • solveLocal n P ρ (gatherZ n p.2) a.1.2 - p.2 a.1.2.1 a.1.1.1)
        rw [if_pos hj, esol]
        module
      · rw [if_neg hg, if_neg hg]
  have hfold : ∀ (l : List Θ) (p : (A → Vec d) × (A → A → Vec d)), (gather n (l.foldl (fun s θ => admmRound P n ρ α (act θ) (got θ) s) p).1, gatherZ n (l.foldl (fun s θ => admmRound P n ρ α (act θ) (got θ) s) p).2) =
      l.foldl (fun s θ => next θ s) (gather n p.1, gatherZ n p.2) := by
    intro l
    induction l with
    | nil => intro p; rfl
    | cons t l ih => intro p; rw [List.foldl_cons, List.foldl_cons, ih, hstep]
  have hall : ∀ l : List Θ, ∃ s, l.length = k → admmAfter prox ρ α z0 b w n x0 (s0 l) k = .ok s ∧ ∀ i ∈ n.nodes, (s.loc i).x = (admmRounds P n ρ α act got X z0 l).1 i := by
    intro l
    by_cases hlk : l.length = k
    · obtain ⟨s, hs, hv⟩ := C111_run h hw hn prox P hprox ρ α x0 z0 b act got (s0 l) l (hs0 l hlk)
      rw [hlk] at hs
      exact ⟨s, fun _ => ⟨hs, fun i hi => (hv i hi).1⟩⟩
    · exact ⟨s0 l, fun hh => absurd hh hlk⟩
  choose S hS using hall
  refine ⟨S, fun l hl => (hS l hl).1, ?_⟩
  have h1 : tapeMean q k (fun l => farFrom n xs (fun i => ((S l).loc i).x)) ≤ tapeMean q k (fun l => c * Φ (l.foldl (fun s θ => next θ s) (gather n X, gatherZ n (fun i _ => z0 i)))) := by
    refine tapeMean_mono hq.nonneg k _ _ fun l hlk => ?_
    have e : farFrom n xs (fun i => ((S l).loc i).x) = farFrom n xs (admmRounds P n ρ α act got X z0 l).1 := by
      unfold farFrom
      congr 1
      exact List.map_congr_left fun i hi => by dsimp only; rw [(hS l hlk).2 i hi]
    rw [e, farFrom_gather hw.nodup]
    have h2 := hΦx (l.foldl (fun s θ => next θ s) (gather n X, gatherZ n (fun i _ => z0 i)))
    rw [← hfold l (X, fun i _ => z0 i)] at h2 ⊢
    rw [hξzs] at h2
    exact h2
  rw [tapeMean_smul] at h1
  have h2 := tape_decay hq.nonneg next Φ r hr0.le hΦ (gather n X, gatherZ n (fun i _ => z0 i)) k
  have h3 := mul_le_mul_of_nonneg_left h2 hc0
  refine (h1.trans h3).trans (le_of_eq ?_)
  ring

/-! ## agents that are active at random -/

/-- SPEC: which agents are active in iteration `k` is entry `k` of a table in the oracle state that nothing else changes -/
structure ActivityTable (w : World A (Vec d) Ω) (prox : Prox A (Vec d) Ω) (act : Θ → A → Bool) (table : Ω → Nat → Θ) : Prop where
  active : ∀ a (k : Nat) ω, (w.isActive a k ω).1 = act (table ω k) a
  schemes : Untouched w table
  prox : ∀ i v p ω, table (prox i v p ω).2 = table ω

theorem filterActive_table {w : World A (Vec d) Ω} {prox : Prox A (Vec d) Ω} {act : Θ → A → Bool} {table : Ω → Nat → Θ} (ht : ActivityTable w prox act table) (k : Nat) (l : List A) :
    ∀ ω, (NetState.filterActive w k l ω).1 = l.filter (fun a => act (table ω k) a) := by
  induction l with
  | nil => intro ω; rfl
  | cons a t ih =>
    intro ω
    simp only [NetState.filterActive]
    rw [ih, ht.schemes.active, ht.active]
    by_cases hh : act (table ω k) a = true
    · rw [if_pos hh, List.filter_cons_of_pos hh]
    · rw [if_neg hh, List.filter_cons_of_neg hh]

/-- C111: with lossless channels and agents that are active at random, independently from iteration to iteration and so that neighbours are sometimes active
together, ADMM converges linearly in mean square to the minimiser of the sum. -/
theorem C111_random_activation {w : World A (Vec d) Ω} (h : Plain w n) (hdrop : ∀ a ω, (w.shouldDrop a ω).1 = false) (hw : n.WF) (hl : Loopless n)
    (hn : ∀ i ∈ n.nodes, n.nbrs i ≠ []) (hc : JoinedUp n) (hf : Smooth n f G L m)
    (prox : Prox A (Vec d) Ω) (P : A → Vec d → ℝ → Vec d) (hprox : ∀ i v p ω, (prox i v p ω).1 = P i v p) (hP : ExactProx n f P)
    (ρ α : ℝ) (hρ : 0 < ρ) (hα0 : 0 < α) (hα1 : α < 1) (xs : Vec d) (hxs : SolvesSum n f xs)
    (q : Θ → ℝ) (hq : Distribution q) (act : Θ → A → Bool) (table : Ω → Nat → Θ) (ht : ActivityTable w prox act table)
    (hpair : ∀ i ∈ n.nodes, ∀ j ∈ n.nbrs i, 0 < chance q (fun θ => act θ i && act θ j)) :
    ∃ r : ℝ, 0 < r ∧ r < 1 ∧ ∀ (x0 z0 : A → Vec d) (fromZ : Bool), ∃ C : ℝ, ∀ (k : Nat) (s0 : List Θ → Sys A (Vec d) Ω (Admm A (Vec d))),
      (∀ l, ∀ j (hj : j < l.length), table (s0 l).net.ω j = l[j]) →
      ∃ S : List Θ → Sys A (Vec d) Ω (Admm A (Vec d)), (∀ l, l.length = k → admmAfter prox ρ α z0 fromZ w n x0 (s0 l) k = .ok (S l)) ∧
        tapeMean q k (fun l => farFrom n xs (fun i => ((S l).loc i).x)) ≤ C * r ^ k := by
  obtain ⟨r, hr0, hr1, hr⟩ := C111_mean_square h hw hl hn hc hf prox P hprox hP ρ α hρ hα0 hα1 xs hxs q hq act (fun θ i j => act θ i && act θ j) hpair
    (fun θ i _ j _ hg => by simpa using hg)
  refine ⟨r, hr0, hr1, fun x0 z0 b => ?_⟩
  obtain ⟨C, hC⟩ := hr x0 z0 b
  refine ⟨C, fun k s0 hs0 => hC k s0 fun l _ => ?_⟩
  -- the table is still there after any number of iterations
  have keep : ∀ k s, admmAfter prox ρ α z0 b w n x0 (s0 l) k = .ok s → table s.net.ω = table (s0 l).net.ω := by
    intro k
    induction k with
    | zero =>
      intro s hs
      rw [admm_any hn, after_zero] at hs
      cases hs
      refine left_init (admm prox n ρ α z0 b) (fun i x ω => ?_) x0 _ _
      cases b with
      | true => exact ht.prox _ _ _ _
      | false => rfl
    | succ k ih =>
      intro s' hs'
      rw [admm_any hn, after_succ] at hs'
      cases hs : (admm prox n ρ α z0 b).after w n x0 (s0 l) k with
      | error e => rw [hs] at hs'; cases hs'
      | ok s =>
        rw [hs] at hs'
        obtain ⟨s1, ωs, h1, _, h3, _⟩ := admm_step_seen h hw prox n ρ α z0 b k s
        have e : s' = s1 := by
          have : (Except.ok s' : Py _) = .ok s1 := hs'.symm.trans h1
          injection this
        rw [e, h3 table ht.schemes ht.prox]
        exact ih s (by rw [admm_any hn]; exact hs)
  intro j hj s' hs'
  have hs2 := hs'
  rw [admm_any hn, after_succ] at hs2
  cases hs : (admm prox n ρ α z0 b).after w n x0 (s0 l) j with
  | error e => rw [hs] at hs2; cases hs2
  | ok s =>
    rw [hs] at hs2
    obtain ⟨s1, ωs, h1, h2, _, h4⟩ := admm_step_seen h hw prox n ρ α z0 b j s
    have e : s' = s1 := by
      have : (Except.ok s' : Py _) = .ok s1 := hs2.symm.trans h1
      injection this
    subst e
    have hact : ∀ i ∈ n.nodes, (act l[j] i = true ↔ i ∈ (s'.net.activeAgents w n).1) := by
      intro i hi
      rw [h2, filterActive_table ht, keep j s (by rw [admm_any hn]; exact hs), hs0 l j hj, List.mem_filter, h.query]
      exact ⟨fun hh => ⟨hi, hh⟩, fun hh => hh.2⟩
    refine ⟨hact, fun i hi i' hi' => ?_⟩
    have hin := hw.nbrs_mem i i' hi'
    rw [Bool.and_eq_true, hact i hi, hact i' hin]
    exact ⟨fun hh => ((h4 i hi).2 i').2.2 (hdrop i') hi' hh.1 hh.2, fun hh => ⟨(((h4 i hi).2 i').2.1 hh).1, (((h4 i hi).2 i').2.1 hh).2.1⟩⟩

end rate

/-! ## a concrete case -/
section example_
variable {d : Nat}

/-- perfect channels; the oracle state is the table of activities -/
def tableWorld (d : Nat) : World Nat (Vec d) (Nat → Fin 3) :=
  { isActive := fun a k ω => (decide (a ≠ (ω k.toNat).val), ω), shouldDrop := fun _ ω => (false, ω), compSize := fun _ _ => 1,
    compress := fun _ v ω => (v, ω), makeNoise := fun _ _ _ ω => (none, ω), add := fun a _ => a, costSize := fun _ => 1 }

theorem table_plain : Plain (tableWorld d) path3 := ⟨fun _ _ _ => rfl, fun _ _ _ _ => rfl, rfl⟩

theorem table_activity (b : Nat → Vec d) : ActivityTable (tableWorld d) (fun i v p ω => (springProx b i v p, ω)) (fun (θ : Fin 3) a => decide (a ≠ θ.val)) (fun ω => ω) :=
  ⟨fun _ _ _ => rfl, ⟨fun _ _ _ => rfl, fun _ _ => rfl, fun _ _ _ => rfl, fun _ _ _ _ => rfl⟩, fun _ _ _ _ => rfl⟩

theorem third : Distribution (fun _ : Fin 3 => (1 / 3 : ℝ)) := ⟨fun _ => by norm_num, by simp⟩

-- three agents on a path averaging their vectors; in every iteration one of the three, picked uniformly, sleeps
example (b : Nat → Vec d) : ∃ r : ℝ, 0 < r ∧ r < 1 ∧ ∀ (x0 z0 : Nat → Vec d) (fromZ : Bool), ∃ C : ℝ, ∀ (k : Nat) (s0 : List (Fin 3) → Sys Nat (Vec d) (Nat → Fin 3) (Admm Nat (Vec d))),
      (∀ l, ∀ j (hj : j < l.length), (s0 l).net.ω j = l[j]) →
      ∃ S : List (Fin 3) → Sys Nat (Vec d) (Nat → Fin 3) (Admm Nat (Vec d)),
        (∀ l, l.length = k → admmAfter (fun i v p ω => (springProx b i v p, ω)) 5 0.9 z0 fromZ (tableWorld d) path3 x0 (s0 l) k = .ok (S l)) ∧
        tapeMean (fun _ : Fin 3 => (1 / 3 : ℝ)) k (fun l => farFrom path3 ((1 / 3 : ℝ) • (b 0 + b 1 + b 2)) (fun i => ((S l).loc i).x)) ≤ C * r ^ k := by
  refine C111_random_activation table_plain (fun _ _ => rfl) path3_wf path3_loopless path3_busy path3_joined (springs_smooth b) _ (springProx b) (fun _ _ _ _ => rfl)
    (springProx_exact b) 5 0.9 (by norm_num) (by norm_num) (by norm_num) _ (springs_solves b) _ third _ (fun ω => ω) (table_activity b) ?_
  intro i hi j hj
  have hi' : i = 0 ∨ i = 1 ∨ i = 2 := by simpa [path3] using hi
  rcases hi' with rfl | rfl | rfl
  all_goals
    simp [path3] at hj
    rcases hj with rfl | rfl <;> simp [chance, Fin.sum_univ_three]

end example_
end Verif.Props
