import Verif.Props.PrimalDual
import Verif.Lemmas.CoinTape
set_option linter.unusedSectionVars false
/-!
# C106: ProxSkip, in expectation over its communication coin

Setting of C80, with the shared coin of ProxSkip flipped once per iteration. For step sizes below `2 / L`, dual step sizes `β` up to the
communication probability `p` and `χ ≥ 1`, the expected squared distance to the optimum decays linearly.
-/
namespace Verif.Props
open Verif P2P Sys Consensus Costs
open scoped InnerProductSpace

section
variable {A Ω : Type} [DecidableEq A] {d : Nat}

/-! ## specification -/

/-- SPEC: one iteration of ProxSkip with the flip `b`: `z = x - ρ ∇f(x) - y`, and `x⁺ = W_a z`, `y⁺ = y + β (z - x⁺)` or else `x⁺ = z`, `y⁺ = y` -/
noncomputable def skipRound (n : Net A) (W : A → A → ℝ) (ρ β χ : ℝ) (G : A → Vec d → Vec d) (p : (A → Vec d) × (A → Vec d)) (b : Bool) : (A → Vec d) × (A → Vec d) :=
  let z := fun i => p.1 i - ρ • G i (p.1 i) - p.2 i
  if b then (matVec n (relaxed χ W) z, fun i => p.2 i + β • (z i - matVec n (relaxed χ W) z i)) else (z, p.2)

/-- SPEC: ProxSkip with the flips `l` -/
noncomputable def skipDoc (n : Net A) (W : A → A → ℝ) (ρ β χ : ℝ) (G : A → Vec d → Vec d) (x0 : A → Vec d) (l : List Bool) : (A → Vec d) × (A → Vec d) :=
  l.foldl (skipRound n W ρ β χ G) (x0, fun _ => 0)

/-- SPEC: the mean of `F` over `k` independent flips, each `true` with probability `p` -/
def coinMean (p : ℝ) : Nat → (List Bool → ℝ) → ℝ
  | 0, F => F []
  | k + 1, F => p * coinMean p k (fun l => F (true :: l)) + (1 - p) * coinMean p k (fun l => F (false :: l))

/-- SPEC: `coin` takes its flips one by one from a tape held in the oracle state, which nothing else reads or changes -/
structure CoinTape (w : World A (Vec d) Ω) (grad : Grad A (Vec d) Ω) (coin : Ω → Bool × Ω) (tape : Ω → List Bool) : Prop where
  schemes : Untouched w tape
  grad : ∀ i x ω, tape (grad i x ω).2 = tape ω
  coin : ∀ ω, (coin ω).1 = (tape ω).headD false ∧ tape (coin ω).2 = (tape ω).tail

/-! ## means -/

theorem coinMean_snoc (p : ℝ) (k : Nat) : ∀ F, coinMean p (k + 1) F = coinMean p k (fun l => p * F (l ++ [true]) + (1 - p) * F (l ++ [false])) := by
  induction k with
  | zero => intro F; rfl
  | succ k ih =>
    intro F
    rw [coinMean, ih, ih]; rfl

theorem coinMean_mono {p : ℝ} (hp0 : 0 ≤ p) (hp1 : p ≤ 1) (k : Nat) : ∀ F F' : List Bool → ℝ, (∀ l, l.length = k → F l ≤ F' l) → coinMean p k F ≤ coinMean p k F' := by
  induction k with
  | zero => intro F F' h; exact h [] rfl
  | succ k ih =>
    intro F F' h
    rw [coinMean, coinMean]
    have h1 := ih (fun l => F (true :: l)) (fun l => F' (true :: l)) (fun l hl => h _ (by rw [List.length_cons, hl]))
    have h2 := ih (fun l => F (false :: l)) (fun l => F' (false :: l)) (fun l hl => h _ (by rw [List.length_cons, hl]))
    exact add_le_add (mul_le_mul_of_nonneg_left h1 hp0) (mul_le_mul_of_nonneg_left h2 (by linarith))

theorem coinMean_smul (p c : ℝ) (k : Nat) : ∀ F : List Bool → ℝ, coinMean p k (fun l => c * F l) = c * coinMean p k F := by
  induction k with
  | zero => intro F; rfl
  | succ k ih => intro F; rw [coinMean, coinMean, ih (fun l => F (true :: l)), ih (fun l => F (false :: l))]; ring

/-- `coinMean` is an average: constants are their own mean -/
theorem coinMean_const (p c : ℝ) (k : Nat) : coinMean p k (fun _ => c) = c := by
  induction k with
  | zero => rfl
  | succ k ih => rw [coinMean, ih]; ring

/-- the probability of one given sequence of flips is the product of the probabilities of its entries -/
theorem coinMean_single (p : ℝ) : ∀ l : List Bool, coinMean p l.length (fun l' => if l' = l then 1 else 0) = (l.map (fun b => if b then p else 1 - p)).prod := by
  intro l
  induction l with
  | nil => rfl
  | cons b t ih =>
    rw [List.length_cons, coinMean, List.map_cons, List.prod_cons]
    cases b
    · have e1 : (fun l : List Bool => if true :: l = false :: t then (1 : ℝ) else 0) = fun _ => 0 := by funext l; simp
      have e2 : (fun l : List Bool => if false :: l = false :: t then (1 : ℝ) else 0) = fun l => if l = t then 1 else 0 := by funext l; simp
      rw [e1, e2, ih, coinMean_const]; simp
    · have e1 : (fun l : List Bool => if false :: l = true :: t then (1 : ℝ) else 0) = fun _ => 0 := by funext l; simp
      have e2 : (fun l : List Bool => if true :: l = true :: t then (1 : ℝ) else 0) = fun l => if l = t then 1 else 0 := by funext l; simp
      rw [e1, e2, ih, coinMean_const]; simp

/-! ## the recursion -/

/-- the first `k` flips of a source of flips, and the source after them -/
def flipsFrom {T : Type} (next : T → Bool × T) (t : T) : Nat → List Bool × T
  | 0 => ([], t)
  | k + 1 => ((flipsFrom next t k).1 ++ [(next (flipsFrom next t k).2).1], (next (flipsFrom next t k).2).2)

theorem skip_flips {T : Type} {w : World A (Vec d) Ω} {n : Net A} (h : Lossless w n) {W : A → A → ℝ} (hW : Mixing n W) (ρ β χ : ℝ)
    (grad : Grad A (Vec d) Ω) (G : A → Vec d → Vec d) (hG : Exactly grad G) (coin : Ω → Bool × Ω) {left : Ω → T} {next : T → Bool × T} (hl : Untouched w left)
    (hgrad : ∀ i x ω, left (grad i x ω).2 = left ω) (hcoin : ∀ ω, (coin ω).1 = (next (left ω)).1 ∧ left (coin ω).2 = (next (left ω)).2)
    (x0 : A → Vec d) (s0 : Sys A (Vec d) Ω (Skip (Vec d))) (k : Nat) :
    ∃ s, (proxSkip grad coin W ρ β χ).after w n x0 s0 k = .ok s ∧ left s.net.ω = (flipsFrom next (left s0.net.ω) k).2 ∧
      ∀ i ∈ n.nodes, (s.loc i).x = (skipDoc n W ρ β χ G x0 (flipsFrom next (left s0.net.ω) k).1).1 i ∧
        (s.loc i).y = (skipDoc n W ρ β χ G x0 (flipsFrom next (left s0.net.ω) k).1).2 i := by
  obtain ⟨hs', _⟩ := relaxed_ok n h.wf W χ hW.supported hW.colSum
  refine after_induction (proxSkip grad coin W ρ β χ) w n x0 s0 (fun k s => left s.net.ω = (flipsFrom next (left s0.net.ω) k).2 ∧
      ∀ i ∈ n.nodes, (s.loc i).x = (skipDoc n W ρ β χ G x0 (flipsFrom next (left s0.net.ω) k).1).1 i ∧
        (s.loc i).y = (skipDoc n W ρ β χ G x0 (flipsFrom next (left s0.net.ω) k).1).2 i) ?_ ?_ k
  · refine ⟨?_, ?_⟩
    · exact left_init (proxSkip grad coin W ρ β χ) (fun _ _ _ => rfl) x0 n.nodes s0
    · obtain ⟨ωs, hi⟩ := init_spec (proxSkip grad coin W ρ β χ) n h.wf x0 s0
      intro i hi'; rw [hi i hi']; exact ⟨rfl, rfl⟩
  · rintro k s ⟨hk1, hk2⟩
    obtain ⟨b, t, hbt⟩ : ∃ b t, next (flipsFrom next (left s0.net.ω) k).2 = (b, t) := ⟨_, _, rfl⟩
    obtain ⟨s', ωs, h1, h2, h3, h4, h5⟩ := proxSkip_tape h grad coin W χ hs' ρ β hl hgrad hcoin k s b t (by rw [hk1]; exact hbt)
    refine ⟨s', h1, ?_, ?_⟩
    · rw [h2, flipsFrom, hbt]
    · have e : skipDoc n W ρ β χ G x0 (flipsFrom next (left s0.net.ω) (k + 1)).1 =
          skipRound n W ρ β χ G (skipDoc n W ρ β χ G x0 (flipsFrom next (left s0.net.ω) k).1) b := by
        rw [flipsFrom, hbt, skipDoc, List.foldl_append]; rfl
      rw [e]
      obtain ⟨q, hq⟩ : ∃ q, q = skipDoc n W ρ β χ G x0 (flipsFrom next (left s0.net.ω) k).1 := ⟨_, rfl⟩
      rw [← hq] at hk2 ⊢
      have ez : ∀ i ∈ n.nodes, (s'.loc i).z = q.1 i - ρ • G i (q.1 i) - q.2 i := by
        intro i hi
        rw [h3 i hi, hG, (hk2 i hi).1, (hk2 i hi).2]
      intro i hi
      cases b with
      | true =>
        have ex : (s'.loc i).x = matVec n (relaxed χ W) (fun i => q.1 i - ρ • G i (q.1 i) - q.2 i) i := by
          rw [(h4 rfl i hi).1, applyW_congr n _ (fun j hj => ez j hj) i]; rfl
        refine ⟨ex, ?_⟩
        rw [(h4 rfl i hi).2, ex, ez i hi, (hk2 i hi).2]; rfl
      | false =>
        refine ⟨?_, ?_⟩
        · rw [(h5 rfl i hi).1, ez i hi]; rfl
        · rw [(h5 rfl i hi).2, (hk2 i hi).2]; rfl

theorem flips_tape (l : List Bool) : ∀ t, flipsFrom (fun l : List Bool => (l.headD false, l.tail)) (l ++ t) l.length = (l, t) := by
  refine List.reverseRecOn l (fun t => rfl) ?_
  intro l b ih t
  rw [List.length_append, List.length_singleton, flipsFrom, List.append_assoc, ih]; rfl

/-- The run of ProxSkip whose flips are `l` is the documented recursion with the flips `l`. -/
theorem C106_recursion {w : World A (Vec d) Ω} {n : Net A} (h : Lossless w n) {W : A → A → ℝ} (hW : Mixing n W) (ρ β χ : ℝ)
    (grad : Grad A (Vec d) Ω) (G : A → Vec d → Vec d) (hG : Exactly grad G) (coin : Ω → Bool × Ω) {tape : Ω → List Bool} (ht : CoinTape w grad coin tape)
    (x0 : A → Vec d) (s0 : Sys A (Vec d) Ω (Skip (Vec d))) (l t : List Bool) (h0 : tape s0.net.ω = l ++ t) :
    ∃ s, (proxSkip grad coin W ρ β χ).after w n x0 s0 l.length = .ok s ∧ tape s.net.ω = t ∧
      ∀ i ∈ n.nodes, (s.loc i).x = (skipDoc n W ρ β χ G x0 l).1 i ∧ (s.loc i).y = (skipDoc n W ρ β χ G x0 l).2 i := by
  have := skip_flips h hW ρ β χ grad G hG coin (next := fun l : List Bool => (l.headD false, l.tail)) ht.schemes ht.grad ht.coin x0 s0 l.length
  rw [h0, flips_tape] at this
  exact this

/-! ## the energy -/

section
variable {H : Type} [NormedAddCommGroup H] [InnerProductSpace ℝ H]

/-- expected energy after one iteration -/
theorem skip_energy (B : H →ₗ[ℝ] H) (hs : ∀ u v, ⟪B u, v⟫_ℝ = ⟪u, B v⟫_ℝ) (hp : ∀ v, 0 ≤ ⟪v, B v⟫_ℝ) (hf : ∀ v, ‖B v‖ ^ 2 ≤ ⟪v, B v⟫_ℝ)
    (p β : ℝ) (hβ : 0 < β) (hβp : β ≤ p) (a q : H) :
    p * (‖(a - B q) - B (a - B q)‖ ^ 2 + 1 / (p * β) * ⟪q + β • (a - B q), B (q + β • (a - B q))⟫_ℝ) + (1 - p) * (‖a - B q‖ ^ 2 + 1 / (p * β) * ⟪q, B q⟫_ℝ) ≤
      ‖a‖ ^ 2 + 1 / (p * β) * ⟪q, B q⟫_ℝ - ‖B q‖ ^ 2 := by
  have hp0 : 0 < p := lt_of_lt_of_le hβ hβp
  obtain ⟨v, hv⟩ : ∃ v, v = a - B q := ⟨_, rfl⟩
  rw [← hv]
  have ha : a = v + B q := by rw [hv]; abel
  have e1 : ‖v - B v‖ ^ 2 = ‖v‖ ^ 2 - 2 * ⟪v, B v⟫_ℝ + ‖B v‖ ^ 2 := norm_sub_sq_real _ _
  have e2 : ⟪q + β • v, B (q + β • v)⟫_ℝ = ⟪q, B q⟫_ℝ + 2 * β * ⟪v, B q⟫_ℝ + β ^ 2 * ⟪v, B v⟫_ℝ := by
    rw [map_add, map_smul, inner_add_left, inner_add_right, inner_add_right, inner_smul_left, inner_smul_right, inner_smul_left, inner_smul_right, ← hs q v,
      real_inner_comm v (B q)]
    simp only [conj_trivial]; ring
  have e3 : ‖a‖ ^ 2 = ‖v‖ ^ 2 + 2 * ⟪v, B q⟫_ℝ + ‖B q‖ ^ 2 := by rw [ha]; exact norm_add_sq_real _ _
  rw [e1, e2, e3]
  have h1 := mul_le_mul_of_nonneg_left (hf v) hp0.le
  have h2 : 0 ≤ (p - β) * ⟪v, B v⟫_ℝ := mul_nonneg (by linarith) (hp v)
  have e4 : p * (‖v‖ ^ 2 - 2 * ⟪v, B v⟫_ℝ + ‖B v‖ ^ 2 + 1 / (p * β) * (⟪q, B q⟫_ℝ + 2 * β * ⟪v, B q⟫_ℝ + β ^ 2 * ⟪v, B v⟫_ℝ)) + (1 - p) * (‖v‖ ^ 2 + 1 / (p * β) * ⟪q, B q⟫_ℝ) =
      ‖v‖ ^ 2 + 2 * ⟪v, B q⟫_ℝ + 1 / (p * β) * ⟪q, B q⟫_ℝ - 2 * p * ⟪v, B v⟫_ℝ + p * ‖B v‖ ^ 2 + β * ⟪v, B v⟫_ℝ := by
    field_simp; ring
  rw [e4]
  linarith

/-- one iteration in error coordinates -/
noncomputable def skipErr (B : H →ₗ[ℝ] H) (g : H → H) (S : H) (ρ β : ℝ) (P : H × H) (b : Bool) : H × H :=
  let v := ((P.1 - S) - ρ • (g P.1 - g S)) - B P.2
  if b then (S + (v - B v), P.2 + β • v) else (S + v, P.2)

noncomputable def skipPsi (B : H →ₗ[ℝ] H) (S : H) (p β : ℝ) (P : H × H) : ℝ := ‖P.1 - S‖ ^ 2 + 1 / (p * β) * ⟪P.2, B P.2⟫_ℝ

theorem skip_contract (B : H →ₗ[ℝ] H) (hs : ∀ u v, ⟪B u, v⟫_ℝ = ⟪u, B v⟫_ℝ) (hp : ∀ v, 0 ≤ ⟪v, B v⟫_ℝ) (hf : ∀ v, ‖B v‖ ^ 2 ≤ ⟪v, B v⟫_ℝ)
    (p β : ℝ) (hβ : 0 < β) (hβp : β ≤ p) (g : H → H) (S : H) (ρ c ℓ r : ℝ) (hg : ∀ x, ‖(x - S) - ρ • (g x - g S)‖ ^ 2 ≤ c * ‖x - S‖ ^ 2) (hℓ : ∀ v, ℓ * ⟪v, B v⟫_ℝ ≤ ‖B v‖ ^ 2)
    (hc : c ≤ r) (hr : 1 - p * β * ℓ ≤ r) (P : H × H) :
    p * skipPsi B S p β (skipErr B g S ρ β P true) + (1 - p) * skipPsi B S p β (skipErr B g S ρ β P false) ≤ r * skipPsi B S p β P := by
  have hp0 : 0 < p := lt_of_lt_of_le hβ hβp
  have h := skip_energy B hs hp hf p β hβ hβp ((P.1 - S) - ρ • (g P.1 - g S)) P.2
  have e1 : skipPsi B S p β (skipErr B g S ρ β P true) = ‖(((P.1 - S) - ρ • (g P.1 - g S)) - B P.2) - B (((P.1 - S) - ρ • (g P.1 - g S)) - B P.2)‖ ^ 2 +
      1 / (p * β) * ⟪P.2 + β • (((P.1 - S) - ρ • (g P.1 - g S)) - B P.2), B (P.2 + β • (((P.1 - S) - ρ • (g P.1 - g S)) - B P.2))⟫_ℝ := by
    unfold skipPsi skipErr; dsimp only; rw [if_pos rfl, add_sub_cancel_left]
  have e2 : skipPsi B S p β (skipErr B g S ρ β P false) = ‖((P.1 - S) - ρ • (g P.1 - g S)) - B P.2‖ ^ 2 + 1 / (p * β) * ⟪P.2, B P.2⟫_ℝ := by
    unfold skipPsi skipErr; dsimp only; rw [if_neg (by decide), add_sub_cancel_left]
  rw [e1, e2]
  refine h.trans ?_
  have h1 := hg P.1
  have h2 := hℓ P.2
  have h3 := mul_le_mul_of_nonneg_right hc (sq_nonneg ‖P.1 - S‖)
  have h4 : 0 ≤ 1 / (p * β) * ⟪P.2, B P.2⟫_ℝ := mul_nonneg (by positivity) (hp _)
  have h5 := mul_le_mul_of_nonneg_right hr h4
  have e3 : (1 - p * β * ℓ) * (1 / (p * β) * ⟪P.2, B P.2⟫_ℝ) = 1 / (p * β) * ⟪P.2, B P.2⟫_ℝ - ℓ * ⟪P.2, B P.2⟫_ℝ := by field_simp
  unfold skipPsi
  rw [e3] at h5
  have e4 : r * (‖P.1 - S‖ ^ 2 + 1 / (p * β) * ⟪P.2, B P.2⟫_ℝ) = r * ‖P.1 - S‖ ^ 2 + r * (1 / (p * β) * ⟪P.2, B P.2⟫_ℝ) := by ring
  rw [e4]
  linarith

theorem skip_mean (B : H →ₗ[ℝ] H) (g : H → H) (S : H) (p β ρ r : ℝ) (hp0 : 0 ≤ p) (hp1 : p ≤ 1) (hr : 0 ≤ r)
    (h : ∀ P : H × H, p * skipPsi B S p β (skipErr B g S ρ β P true) + (1 - p) * skipPsi B S p β (skipErr B g S ρ β P false) ≤ r * skipPsi B S p β P) (P0 : H × H) (k : Nat) :
    coinMean p k (fun l => skipPsi B S p β (l.foldl (skipErr B g S ρ β) P0)) ≤ r ^ k * skipPsi B S p β P0 := by
  induction k with
  | zero => rw [pow_zero, one_mul]; exact le_refl _
  | succ k ih =>
    rw [coinMean_snoc]
    refine (coinMean_mono hp0 hp1 k _ (fun l => r * skipPsi B S p β (l.foldl (skipErr B g S ρ β) P0)) (fun l _ => ?_)).trans ?_
    · rw [List.foldl_append, List.foldl_append]
      exact h _
    · rw [coinMean_smul, pow_succ r k]
      have := mul_le_mul_of_nonneg_left ih hr
      linarith

end

/-! ## the theorem -/

theorem gather_relaxed {n : Net A} (hn : n.nodes.Nodup) (W : A → A → ℝ) (χ : ℝ) (v : A → Vec d) :
    gather n (matVec n (relaxed χ W) v) = gather n v - (1 / χ) • minus (mixOp (nodeW n W)) (gather n v) := by
  rw [← gather_laplace hn]
  apply stack_ext; intro i
  show matVec n (relaxed χ W) v i.1 = v i.1 - (1 / χ) • matVec n (laplace W) v i.1
  have e1 : v i.1 = (n.nodes.map fun j => (if i.1 = j then (1 : ℝ) else 0) • v j).sum := by
    rw [← nodeSum hn (fun j => (if i.1 = j then (1 : ℝ) else 0) • v j), Finset.sum_eq_single i]
    · simp
    · intro j _ hj
      rw [if_neg (fun hc => hj (Subtype.ext hc.symm)), zero_smul]
    · intro hc; exact absurd (Finset.mem_univ i) hc
  conv_rhs => rw [e1]
  unfold matVec
  rw [← listSum_smul, ← listSum_sub]
  refine congrArg List.sum (List.map_congr_left fun j _ => ?_)
  rw [smul_smul, ← sub_smul, relaxed, laplace]
  congr 1
  by_cases hχ : χ = 0
  · rw [hχ]; simp
  · field_simp

/-- total squared distance of the agents from `xs` -/
noncomputable def farFrom (n : Net A) (xs : Vec d) (x : A → Vec d) : ℝ := (n.nodes.map fun i => ‖x i - xs‖ ^ 2).sum

theorem farFrom_gather {n : Net A} (hn : n.nodes.Nodup) (xs : Vec d) (x : A → Vec d) : farFrom n xs x = ‖gather n x - gather n (fun _ => xs)‖ ^ 2 := by
  rw [PiLp.norm_sq_eq_of_L2, farFrom, ← nodeSum hn (fun i => ‖x i - xs‖ ^ 2)]
  rfl

section
variable {w : World A (Vec d) Ω} {n : Net A} {W : A → A → ℝ} {f : A → Vec d → ℝ} {G : A → Vec d → Vec d} {L m : ℝ}

/-- the documented recursion: linear decay of the mean over the flips -/
theorem skip_doc_mean (hw : n.WF) (hc : JoinedUp n) (hW : GoodWeights n W) (hf : Smooth n f G L m) {xs : Vec d} (hxs : SolvesSum n f xs)
    (ρ β χ p : ℝ) (hρ : 0 < ρ) (hρL : ρ < 2 / L) (hχ : 1 ≤ χ) (hβ : 0 < β) (hβp : β ≤ p) (hp1 : p ≤ 1) :
    ∃ r : ℝ, 0 ≤ r ∧ r < 1 ∧ ∀ x0 : A → Vec d, ∃ C : ℝ, ∀ k, coinMean p k (fun l => farFrom n xs (skipDoc n W ρ β χ G x0 l).1) ≤ C * r ^ k := by
  have hp0 : 0 < p := lt_of_lt_of_le hβ hβp
  have hχ0 : 0 < χ := lt_of_lt_of_le one_pos hχ
  have hS := hW.stochastic hw.nodup
  have hA : Averaging (mixOp (nodeW n W) : Stack (Node n) d →ₗ[ℝ] Stack (Node n) d) := averaging hS
  obtain ⟨M, hM⟩ : ∃ M, M = minus (mixOp (nodeW n W) : Stack (Node n) d →ₗ[ℝ] Stack (Node n) d) := ⟨_, rfl⟩
  have hMs : ∀ u v, ⟪M u, v⟫_ℝ = ⟪u, M v⟫_ℝ := by rw [hM]; exact minus_symm hA
  have hMp : ∀ v, 0 ≤ ⟪v, M v⟫_ℝ := by rw [hM]; exact minus_nonneg hA
  have hMf : ∀ v, ‖M v‖ ^ 2 ≤ 1 * ⟪v, M v⟫_ℝ := by
    apply positive_firm M hMs hMp 1
    intro v
    have := plus_add_minus (mixOp (nodeW n W)) v
    have e : ⟪v, plus (mixOp (nodeW n W)) v⟫_ℝ + ⟪v, M v⟫_ℝ = ‖v‖ ^ 2 := by rw [← inner_add_right, hM, this, real_inner_self_eq_norm_sq]
    have h2 := plus_firm hA v
    have h3 := sq_nonneg ‖plus (mixOp (nodeW n W)) v‖
    rw [one_mul]
    have h4 : 0 ≤ ⟪v, plus (mixOp (nodeW n W)) v⟫_ℝ := by
      have := inner_plus_ge hS 0 (fun i => hS.nonneg i i) v
      linarith
    linarith
  obtain ⟨B, hB⟩ : ∃ B : Stack (Node n) d →ₗ[ℝ] Stack (Node n) d, B = (1 / χ) • M := ⟨_, rfl⟩
  have hBv : ∀ v, B v = (1 / χ) • M v := fun v => by rw [hB]; rfl
  have hχ1 : 1 / χ ≤ 1 := by rw [div_le_one hχ0]; exact hχ
  have hχp : 0 < 1 / χ := by positivity
  have hBs : ∀ u v, ⟪B u, v⟫_ℝ = ⟪u, B v⟫_ℝ := by
    intro u v; rw [hBv, hBv, inner_smul_left, inner_smul_right, hMs]; simp
  have hBp : ∀ v, 0 ≤ ⟪v, B v⟫_ℝ := by
    intro v; rw [hBv, inner_smul_right]; exact mul_nonneg hχp.le (hMp v)
  have hBf : ∀ v, ‖B v‖ ^ 2 ≤ ⟪v, B v⟫_ℝ := by
    intro v
    rw [hBv, norm_smul, inner_smul_right, mul_pow, Real.norm_of_nonneg hχp.le]
    have h1 := hMf v
    have h2 := mul_le_mul_of_nonneg_left h1 (sq_nonneg (1 / χ))
    have h3 := mul_le_mul_of_nonneg_right hχ1 (mul_nonneg hχp.le (hMp v))
    have e : 1 / χ * (1 / χ * ⟪v, M v⟫_ℝ) = (1 / χ) ^ 2 * (1 * ⟪v, M v⟫_ℝ) := by ring
    linarith
  obtain ⟨ℓ, hℓ0, hℓ1, hℓ⟩ := exists_gap B hBs hBp
  have hρL' : ρ * L < 2 := by rwa [lt_div_iff₀ hf.Lpos] at hρL
  obtain ⟨c, hcd⟩ : ∃ c, c = 1 - ρ * m * (2 - ρ * L) := ⟨_, rfl⟩
  have hc1 : c < 1 := by
    rw [hcd]
    have : 0 < ρ * m * (2 - ρ * L) := mul_pos (mul_pos hρ hf.mpos) (by linarith)
    linarith
  refine ⟨max (max c (1 - p * β * ℓ)) 0, le_max_right _ _, max_lt (max_lt hc1 ?_) one_pos, fun x0 => ?_⟩
  · have : 0 < p * β * ℓ := by positivity
    linarith
  obtain ⟨r, hr⟩ : ∃ r, r = max (max c (1 - p * β * ℓ)) 0 := ⟨_, rfl⟩
  rw [← hr]
  obtain ⟨us, hus⟩ := exists_dual hw hW hc G xs ((solves_iff hf xs).1 hxs) ρ
  obtain ⟨S, hSd⟩ : ∃ S : Stack (Node n) d, S = gather n (fun _ => xs) := ⟨_, rfl⟩
  obtain ⟨g, hg⟩ : ∃ g : Stack (Node n) d → Stack (Node n) d, g = gradAt (nodeG n G) := ⟨_, rfl⟩
  obtain ⟨Q0, hQ0⟩ : ∃ Q0 : Stack (Node n) d, Q0 = -(χ • us) := ⟨_, rfl⟩
  have hBQ : B Q0 = ρ • g S := by
    rw [hBv, hQ0, map_neg, map_smul, hM, hus, smul_neg, smul_smul, one_div_mul_cancel hχ0.ne', one_smul, neg_neg, hg, hSd]
  have hBS : B S = 0 := by
    have : M S = 0 := by rw [hM, hSd]; exact consensus_minus hw.nodup hW xs
    rw [hBv, this, smul_zero]
  have hcon : ∀ x, ‖(x - S) - ρ • (g x - g S)‖ ^ 2 ≤ c * ‖x - S‖ ^ 2 := by
    intro x
    rw [hg, hcd]
    exact grad_contract hf.mpos hf.nodes.1 hf.nodes.2 hf.Lpos hρ hρL'.le x S
  have hmean := skip_mean B g S p β ρ r hp0.le hp1 (by rw [hr]; exact le_max_right _ _)
    (skip_contract B hBs hBp hBf p β hβ hβp g S ρ c ℓ r hcon hℓ (by rw [hr]; exact (le_max_left _ _).trans (le_max_left _ _))
      (by rw [hr]; exact (le_max_right _ _).trans (le_max_left _ _))) (gather n x0, Q0)
  refine ⟨skipPsi B S p β (gather n x0, Q0), fun k => ?_⟩
  rw [mul_comm]
  refine (coinMean_mono hp0.le hp1 k _ _ (fun l _ => ?_)).trans (hmean k)
  have key : ∀ l : List Bool, gather n (skipDoc n W ρ β χ G x0 l).1 = (l.foldl (skipErr B g S ρ β) (gather n x0, Q0)).1 ∧
      gather n (skipDoc n W ρ β χ G x0 l).2 = B (l.foldl (skipErr B g S ρ β) (gather n x0, Q0)).2 - ρ • g S := by
    intro l
    refine List.reverseRecOn l ⟨rfl, ?_⟩ ?_
    · show gather n (fun _ => 0) = B Q0 - ρ • g S
      rw [hBQ, sub_self]; apply stack_ext; intro i; rfl
    · intro l b ih
      have e1 : skipDoc n W ρ β χ G x0 (l ++ [b]) = skipRound n W ρ β χ G (skipDoc n W ρ β χ G x0 l) b := by
        rw [skipDoc, List.foldl_append]; rfl
      rw [e1, List.foldl_append]
      obtain ⟨q, hq⟩ : ∃ q, q = skipDoc n W ρ β χ G x0 l := ⟨_, rfl⟩
      obtain ⟨P, hP⟩ : ∃ P, P = l.foldl (skipErr B g S ρ β) (gather n x0, Q0) := ⟨_, rfl⟩
      rw [← hq, ← hP] at ih
      rw [← hq, ← hP]
      obtain ⟨v, hv⟩ : ∃ v, v = ((P.1 - S) - ρ • (g P.1 - g S)) - B P.2 := ⟨_, rfl⟩
      have ez : gather n (fun i => q.1 i - ρ • G i (q.1 i) - q.2 i) = S + v := by
        have : gather n (fun i => q.1 i - ρ • G i (q.1 i) - q.2 i) = gather n q.1 - ρ • g (gather n q.1) - gather n q.2 := by
          rw [hg]; apply stack_ext; intro i; rfl
        rw [this, ih.1, ih.2, hv]; module
      cases b with
      | true =>
        have em : gather n (matVec n (relaxed χ W) (fun i => q.1 i - ρ • G i (q.1 i) - q.2 i)) = S + (v - B v) := by
          rw [gather_relaxed hw.nodup, ez, ← hM, ← hBv, map_add, hBS]; abel
        have e2 : List.foldl (skipErr B g S ρ β) P [true] = (S + (v - B v), P.2 + β • v) := by rw [hv]; rfl
        rw [e2]
        refine ⟨em, ?_⟩
        have e3 : gather n (skipRound n W ρ β χ G q true).2 = gather n q.2 + β • (gather n (fun i => q.1 i - ρ • G i (q.1 i) - q.2 i) -
            gather n (matVec n (relaxed χ W) (fun i => q.1 i - ρ • G i (q.1 i) - q.2 i))) := by apply stack_ext; intro i; rfl
        rw [e3, em, ez, ih.2, map_add, map_smul]; module
      | false =>
        have e2 : List.foldl (skipErr B g S ρ β) P [false] = (S + v, P.2) := by rw [hv]; rfl
        rw [e2]
        exact ⟨ez, ih.2⟩
  rw [farFrom_gather hw.nodup, (key l).1, ← hSd]
  unfold skipPsi
  have : 0 ≤ 1 / (p * β) * ⟪(l.foldl (skipErr B g S ρ β) (gather n x0, Q0)).2, B (l.foldl (skipErr B g S ρ β) (gather n x0, Q0)).2⟫_ℝ := mul_nonneg (by positivity) (hBp _)
  linarith

/-- C106: for every step size below `2/L`, `χ ≥ 1` and dual step size `β ≤ p`, the squared distance of the agents' states to the optimum, averaged over the flips
(independent, communication with probability `p`), decays linearly. -/
theorem C106_expected (h : Lossless w n) (hc : JoinedUp n) (hW : GoodWeights n W) (hf : Smooth n f G L m) {xs : Vec d} (hxs : SolvesSum n f xs)
    (grad : Grad A (Vec d) Ω) (hG : Exactly grad G) (coin : Ω → Bool × Ω) {tape : Ω → List Bool} (ht : CoinTape w grad coin tape)
    (ρ β χ p : ℝ) (hρ : 0 < ρ) (hρL : ρ < 2 / L) (hχ : 1 ≤ χ) (hβ : 0 < β) (hβp : β ≤ p) (hp1 : p ≤ 1) :
    ∃ r : ℝ, 0 ≤ r ∧ r < 1 ∧ ∀ x0 : A → Vec d, ∃ C : ℝ, ∀ (k : Nat) (s0 : List Bool → Sys A (Vec d) Ω (Skip (Vec d))), (∀ l, tape (s0 l).net.ω = l) →
      ∃ S : List Bool → Sys A (Vec d) Ω (Skip (Vec d)), (∀ l, l.length = k → (proxSkip grad coin W ρ β χ).after w n x0 (s0 l) k = .ok (S l)) ∧
        coinMean p k (fun l => farFrom n xs (fun i => ((S l).loc i).x)) ≤ C * r ^ k := by
  have hp0 : 0 < p := lt_of_lt_of_le hβ hβp
  obtain ⟨r, hr0, hr1, hr⟩ := skip_doc_mean h.wf hc hW hf hxs ρ β χ p hρ hρL hχ hβ hβp hp1
  refine ⟨r, hr0, hr1, fun x0 => ?_⟩
  obtain ⟨C, hC⟩ := hr x0
  refine ⟨C, fun k s0 hs0 => ?_⟩
  have hrun : ∀ l, ∃ s, (proxSkip grad coin W ρ β χ).after w n x0 (s0 l) l.length = .ok s ∧ tape s.net.ω = [] ∧
      ∀ i ∈ n.nodes, (s.loc i).x = (skipDoc n W ρ β χ G x0 l).1 i ∧ (s.loc i).y = (skipDoc n W ρ β χ G x0 l).2 i :=
    fun l => C106_recursion h hW.mixing ρ β χ grad G hG coin ht x0 (s0 l) l [] (by rw [hs0, List.append_nil])
  choose S hS using hrun
  refine ⟨S, fun l hl => by rw [← hl]; exact (hS l).1, le_trans (coinMean_mono hp0.le hp1 k _ _ (fun l _ => le_of_eq ?_)) (hC k)⟩
  unfold farFrom
  refine congrArg List.sum (List.map_congr_left fun i hi => ?_)
  dsimp only
  rw [((hS l).2.2 i hi).1]

/-- C106, in probability: so does the probability of being at least `ε` away. -/
theorem C106_probability (h : Lossless w n) (hc : JoinedUp n) (hW : GoodWeights n W) (hf : Smooth n f G L m) {xs : Vec d} (hxs : SolvesSum n f xs)
    (grad : Grad A (Vec d) Ω) (hG : Exactly grad G) (coin : Ω → Bool × Ω) {tape : Ω → List Bool} (ht : CoinTape w grad coin tape)
    (ρ β χ p : ℝ) (hρ : 0 < ρ) (hρL : ρ < 2 / L) (hχ : 1 ≤ χ) (hβ : 0 < β) (hβp : β ≤ p) (hp1 : p ≤ 1) :
    ∃ r : ℝ, 0 ≤ r ∧ r < 1 ∧ ∀ x0 : A → Vec d, ∃ C : ℝ, ∀ (ε : ℝ), 0 < ε → ∀ (k : Nat) (s0 : List Bool → Sys A (Vec d) Ω (Skip (Vec d))), (∀ l, tape (s0 l).net.ω = l) →
      ∃ S : List Bool → Sys A (Vec d) Ω (Skip (Vec d)), (∀ l, l.length = k → (proxSkip grad coin W ρ β χ).after w n x0 (s0 l) k = .ok (S l)) ∧
        coinMean p k (fun l => if ε ≤ farFrom n xs (fun i => ((S l).loc i).x) then 1 else 0) ≤ C / ε * r ^ k := by
  have hp0 : 0 < p := lt_of_lt_of_le hβ hβp
  obtain ⟨r, hr0, hr1, hr⟩ := C106_expected h hc hW hf hxs grad hG coin ht ρ β χ p hρ hρL hχ hβ hβp hp1
  refine ⟨r, hr0, hr1, fun x0 => ?_⟩
  obtain ⟨C, hC⟩ := hr x0
  refine ⟨C, fun ε hε k s0 hs0 => ?_⟩
  obtain ⟨S, hS1, hS2⟩ := hC k s0 hs0
  refine ⟨S, hS1, ?_⟩
  have h1 : coinMean p k (fun l => if ε ≤ farFrom n xs (fun i => ((S l).loc i).x) then 1 else 0) ≤ coinMean p k (fun l => 1 / ε * farFrom n xs (fun i => ((S l).loc i).x)) := by
    refine coinMean_mono hp0.le hp1 k _ _ (fun l _ => ?_)
    have hpos : 0 ≤ farFrom n xs (fun i => ((S l).loc i).x) := by
      unfold farFrom
      exact List.sum_nonneg (fun y hy => by obtain ⟨i, _, rfl⟩ := List.mem_map.1 hy; exact sq_nonneg _)
    split
    · rename_i hle
      rw [one_div_mul_eq_div, le_div_iff₀ hε, one_mul]; exact hle
    · exact mul_nonneg (by positivity) hpos
  rw [coinMean_smul] at h1
  refine h1.trans ?_
  have h2 := mul_le_mul_of_nonneg_left hS2 (show 0 ≤ 1 / ε by positivity)
  have e : 1 / ε * (C * r ^ k) = C / ε * r ^ k := by ring
  linarith

theorem coinMean_sure (k : Nat) : ∀ F : List Bool → ℝ, coinMean 1 k F = F (List.replicate k true) := by
  induction k with
  | zero => intro F; rfl
  | succ k ih => intro F; rw [coinMean, ih]; simp [List.replicate_succ]

/-- C106 with communication in every iteration (`comm_probability = 1`): linear convergence of every run, for `β ≤ 1` -/
theorem C106_always (h : Lossless w n) (hc : JoinedUp n) (hW : GoodWeights n W) (hf : Smooth n f G L m) {xs : Vec d} (hxs : SolvesSum n f xs)
    (grad : Grad A (Vec d) Ω) (hG : Exactly grad G) (coin : Ω → Bool × Ω) (hcoin : ∀ ω, (coin ω).1 = true)
    (ρ β χ : ℝ) (hρ : 0 < ρ) (hρL : ρ < 2 / L) (hχ : 1 ≤ χ) (hβ : 0 < β) (hβ1 : β ≤ 1) :
    LinearTo (proxSkip grad coin W ρ β χ) (fun a => a.x) w n (fun _ => xs) := by
  obtain ⟨r, hr0, hr1, hr⟩ := skip_doc_mean h.wf hc hW hf hxs ρ β χ 1 hρ hρL hχ hβ hβ1 le_rfl
  refine linear_of_stack (fun x0 k => (skipDoc n W ρ β χ G x0 (List.replicate k true)).1) (fun x0 s0 k => ?_) r hr0 hr1 fun x0 => ?_
  · obtain ⟨s, h1, _, h2⟩ := skip_flips h hW.mixing ρ β χ grad G hG coin (left := fun _ => ()) (next := fun _ => (true, ())) ⟨fun _ _ _ => rfl, fun _ _ => rfl, fun _ _ _ => rfl, fun _ _ _ _ => rfl⟩
      (fun _ _ _ => rfl) (fun ω => ⟨hcoin ω, rfl⟩) x0 s0 k
    have e : ∀ k, (flipsFrom (fun _ : Unit => (true, ())) () k).1 = List.replicate k true := by
      intro k
      induction k with
      | zero => rfl
      | succ k ih => rw [flipsFrom, ih, List.replicate_succ']
    refine ⟨s, h1, fun i hi => ?_⟩
    rw [(h2 i hi).1, e]
  · obtain ⟨C, hC⟩ := hr x0
    refine ⟨C, fun k => ?_⟩
    have := hC k
    rw [coinMean_sure, farFrom_gather h.wf.nodup] at this
    exact this

end


/-! ## skipped communication -/

/-- In an iteration whose flip is `false` ProxSkip sends nothing: no counter changes and no message arrives, with any network, schemes and losses. -/
theorem C106_skip_sends_nothing {E : Type} [AddCommGroup E] [Module ℝ E] (w : World A E Ω) (n : Net A) (grad : Grad A E Ω) (coin : Ω → Bool × Ω) (hcoin : ∀ ω, (coin ω).1 = false)
    (W : A → A → ℝ) (ρ β χ : ℝ) (k : Int) (s s' : Sys A E Ω (Skip E)) (hs : (proxSkip grad coin W ρ β χ).step w n k s = .ok s') :
    s'.net.nSent = s.net.nSent ∧ s'.net.nReceived = s.net.nReceived ∧ s'.net.nDropped = s.net.nDropped ∧ s'.net.inbox = s.net.inbox := by
  have hact : ∀ t : NetState A Chan E Ω, (fun t : NetState A Chan E Ω => (t.nSent, t.nReceived, t.nDropped, t.inbox)) (t.activeAgents w n).2 = (t.nSent, t.nReceived, t.nDropped, t.inbox) := by
    intro t; unfold NetState.activeAgents; split <;> rfl
  have hfor : ∀ (fn : A → Inbox Chan A E → Skip E → Ω → Skip E × Ω) (t t' : Sys A E Ω (Skip E)), forActive w n (own fn) t = .ok t' →
      (t'.net.nSent, t'.net.nReceived, t'.net.nDropped, t'.net.inbox) = (t.net.nSent, t.net.nReceived, t.net.nDropped, t.net.inbox) := by
    intro fn t t' ht
    unfold forActive at ht
    dsimp only at ht
    refine (left_foldlM (fun s : Sys A E Ω (Skip E) => (s.net.nSent, s.net.nReceived, s.net.nDropped, s.net.inbox)) (fun s i => own fn i s) (fun s i s' hb => ?_) _ _ t' ht).trans (hact t.net)
    unfold own at hb
    cases hb
    rfl
  simp only [proxSkip, bind, Except.bind] at hs
  revert hs
  cases h1 : forActive w n (own (fun i _ (a : Skip E) ω => ({ a with z := a.x - ρ • (grad i a.x ω).1 - a.y }, (grad i a.x ω).2))) s with
  | error e => intro hs; cases hs
  | ok s1 =>
    intro hs
    simp only [hcoin, Bool.false_eq_true, if_false] at hs
    have a1 := hfor _ _ _ h1
    have a2 := hfor _ _ _ hs
    have a3 := a2.trans a1
    simp only [Prod.mk.injEq] at a3
    exact a3

/-! ## a concrete case -/

/-- channels as in `calmWorld`; the oracle state is the tape of flips -/
def tapeWorld (d : Nat) : World Nat (Vec d) (List Bool) :=
  { isActive := fun _ _ ω => (true, ω), shouldDrop := fun _ ω => (false, ω), compSize := fun _ _ => 1,
    compress := fun _ v ω => (v, ω), makeNoise := fun _ _ _ ω => (none, ω), add := fun a _ => a, costSize := fun _ => 1 }

theorem tape_lossless : Lossless (tapeWorld d) path3 :=
  ⟨⟨fun _ _ _ => rfl, fun _ _ => rfl, fun _ _ _ => rfl, fun _ _ _ _ => rfl, rfl⟩, path3_wf, path3_loopless⟩

-- three agents averaging their vectors with the default parameters (β = 0.01, p = 0.7, χ = 1) and step size 1
example (b : Nat → Vec d) : ∃ r : ℝ, 0 ≤ r ∧ r < 1 ∧ ∀ x0 : Nat → Vec d, ∃ C : ℝ, ∀ (k : Nat) (s0 : List Bool → Sys Nat (Vec d) (List Bool) (Skip (Vec d))), (∀ l, (s0 l).net.ω = l) →
      ∃ S : List Bool → Sys Nat (Vec d) (List Bool) (Skip (Vec d)),
        (∀ l, l.length = k → (proxSkip (fun i x ω => (x - b i, ω)) (fun ω => (ω.headD false, ω.tail)) (weights path3) 1 0.01 1).after (tapeWorld d) path3 x0 (s0 l) k = .ok (S l)) ∧
        coinMean 0.7 k (fun l => farFrom path3 ((1 / 3 : ℝ) • (b 0 + b 1 + b 2)) (fun i => ((S l).loc i).x)) ≤ C * r ^ k :=
  C106_expected tape_lossless path3_joined (metropolis_good path3 path3_wf path3_loopless) (springs_smooth b) (springs_solves b) _ (fun _ _ _ => rfl) _ (tape := fun ω => ω)
    ⟨⟨fun _ _ _ => rfl, fun _ _ => rfl, fun _ _ _ => rfl, fun _ _ _ _ => rfl⟩, fun _ _ _ => rfl, fun _ => ⟨rfl, rfl⟩⟩ 1 0.01 1 0.7 one_pos (by norm_num) le_rfl (by norm_num) (by norm_num) (by norm_num)

end
end Verif.Props
