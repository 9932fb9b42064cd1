import Verif.Model.Starts
import Verif.Model.TorchCost
import Verif.Props.TorchEval
import Verif.Props.Params
import Verif.Props.Fed
import Verif.Props.FedDrift
/-! # C121: ready-made starting points -/
set_option linter.unusedSectionVars false
namespace Verif.Props
open Verif Verif.Starts X0Env

variable {A V S Ω : Type} [DecidableEq A] [DecidableEq S]

/-- SPEC: agent after agent, each state is a fresh draw of the shape of the agent's cost, made with the generator as the draw before left it -/
inductive DrawnInTurn (shape : A → S) (draw : S → Ω → V × Ω) : Ω → List (A × V) → Ω → Prop
  | done (ω : Ω) : DrawnInTurn shape draw ω [] ω
  | next (ω : Ω) (a : A) {rest : List (A × V)} {ω' : Ω} (h : DrawnInTurn shape draw (draw (shape a) ω).2 rest ω') :
      DrawnInTurn shape draw ω ((a, (draw (shape a) ω).1) :: rest) ω'

theorem drawEach_keys (shape : A → S) (draw : S → Ω → V × Ω) : ∀ (l : List A) (ω : Ω), (drawEach shape draw l ω).1.map Prod.fst = l
  | [], _ => rfl
  | a :: t, ω => by simp [drawEach, drawEach_keys shape draw t]

theorem drawEach_turn (shape : A → S) (draw : S → Ω → V × Ω) : ∀ (l : List A) (ω : Ω), DrawnInTurn shape draw ω (drawEach shape draw l ω).1 (drawEach shape draw l ω).2
  | [], ω => .done ω
  | a :: t, ω => .next ω a (drawEach_turn shape draw t _)

theorem drawEach_all (shape : A → S) (draw : S → Ω → V × Ω) (P : A → V → Prop) (h : ∀ a ω, P a (draw (shape a) ω).1) :
    ∀ (l : List A) (ω : Ω), ∀ p ∈ (drawEach shape draw l ω).1, P p.1 p.2
  | [], _, p, hp => by cases hp
  | a :: t, ω, p, hp => by
    rcases List.mem_cons.1 hp with rfl | hp
    · exact h a ω
    · exact drawEach_all shape draw P h t _ p hp

/-- C121: `normal_initialization` gives every node of the network, the server too, its own draw; passed as `x0` to an algorithm these are exactly the states
it starts from -/
theorem C121_normal (e : X0Env A V S) (he : RealEnv e) (draw : S → Ω → V × Ω) (hd : ∀ s ω, e.shapeOf (draw s ω).1 = s) (ω : Ω) :
    let r := normalInit e draw ω
    r.1.map Prod.fst = e.graph ∧ DrawnInTurn e.costShape draw ω r.1 r.2 ∧ initialStates e (.dict r.1) = .ok r.1 := by
  refine ⟨drawEach_keys _ _ _ _, drawEach_turn _ _ _ _, resolve_again he (drawEach_keys _ _ _ _) ?_⟩
  exact drawEach_all e.costShape draw (fun a v => e.shapeOf v = e.costShape a) (fun a ω => hd _ ω) e.graph ω

/-- C121: `uniform_initialization` raises ValueError, without drawing, exactly if `high` is not above `low`; otherwise it is as above, and whatever holds
of every drawn array (entries between the bounds) holds of every starting state -/
theorem C121_uniform (e : X0Env A V S) (he : RealEnv e) (low high : Rat) (draw : S → Ω → V × Ω) (hd : ∀ s ω, e.shapeOf (draw s ω).1 = s)
    (between : V → Prop) (hb : ∀ s ω, between (draw s ω).1) (ω : Ω) :
    (high ≤ low → uniformInit e low high draw ω = (.error .valueError, ω)) ∧
    (low < high → ∃ r, uniformInit e low high draw ω = (.ok r, (drawEach e.costShape draw e.graph ω).2) ∧ r.map Prod.fst = e.graph ∧
      (∃ ω', DrawnInTurn e.costShape draw ω r ω') ∧ (∀ p ∈ r, between p.2) ∧ initialStates e (.dict r) = .ok r) := by
  unfold uniformInit
  refine ⟨fun h => if_pos h, fun h => ?_⟩
  rw [if_neg (Rat.not_le.2 h)]
  refine ⟨_, rfl, drawEach_keys _ _ _ _, ⟨_, drawEach_turn _ _ _ _⟩, drawEach_all e.costShape draw (fun _ v => between v) (fun a ω => hb _ ω) e.graph ω,
    resolve_again he (drawEach_keys _ _ _ _) ?_⟩
  exact drawEach_all e.costShape draw (fun a v => e.shapeOf v = e.costShape a) (fun a ω => hd _ ω) e.graph ω

theorem torchEach_ok (params : A → Option V) (v : A → V) : ∀ l : List A, (∀ a ∈ l, params a = some (v a)) → torchEach params l = .ok (l.map fun a => (a, v a))
  | [], _ => rfl
  | a :: t, h => by
    unfold torchEach
    rw [h a List.mem_cons_self, torchEach_ok params v t fun b hb => h b (List.mem_cons_of_mem _ hb)]
    rfl

theorem torchEach_bad (params : A → Option V) : ∀ l : List A, (∃ a ∈ l, params a = none) → torchEach params l = .error .typeError
  | [], ⟨_, h, _⟩ => by cases h
  | a :: t, ⟨b, hb, hn⟩ => by
    unfold torchEach
    cases ha : params a with
    | none => rfl
    | some v =>
      have : b ∈ t := by
        rcases List.mem_cons.1 hb with rfl | hb
        · rw [ha] at hn; cases hn
        · exact hb
      rw [torchEach_bad params t ⟨b, this, hn⟩]

/-- C121: `pytorch_initialization(network)` gives every node the parameters its model has at that moment, and they are what the algorithm starts from; it raises
TypeError exactly if some node of the network, the server included, has a cost that is no PyTorchCost -/
theorem C121_torch (e : X0Env A V S) (he : RealEnv e) (params : A → Option V) :
    (∀ v : A → V, (∀ a ∈ e.graph, params a = some (v a)) → (∀ a ∈ e.graph, e.shapeOf (v a) = e.costShape a) →
      torchInit e params false = .ok (.dict (e.graph.map fun a => (a, v a))) ∧
      initialStates e (.dict (e.graph.map fun a => (a, v a))) = .ok (e.graph.map fun a => (a, v a))) ∧
    ((∃ a ∈ e.graph, params a = none) ↔ torchInit e params false = .error .typeError) := by
  refine ⟨fun v h1 h2 => ⟨?_, ?_⟩, fun h => ?_, fun h => ?_⟩
  · unfold torchInit
    rw [torchEach_ok params v _ h1]
    rfl
  · refine resolve_again he (by simp [List.map_map, Function.comp_def]) fun p hp => ?_
    obtain ⟨a, ha, rfl⟩ := List.mem_map.1 hp
    exact h2 a ha
  · unfold torchInit
    rw [torchEach_bad params _ h]
    rfl
  · by_contra hne
    push Not at hne
    have hv : ∀ a ∈ e.graph, ∃ v, params a = some v := fun a ha => Option.ne_none_iff_exists'.1 (hne a ha)
    have : ∃ r, torchEach params e.graph = .ok r := by
      have : ∀ l : List A, (∀ a ∈ l, ∃ v, params a = some v) → ∃ r, torchEach params l = .ok r := by
        intro l
        induction l with
        | nil => intro _; exact ⟨[], rfl⟩
        | cons a t ih =>
          intro hl
          obtain ⟨v, hv⟩ := hl a List.mem_cons_self
          obtain ⟨r, hr⟩ := ih fun b hb => hl b (List.mem_cons_of_mem _ hb)
          exact ⟨(a, v) :: r, by unfold torchEach; rw [hv, hr]⟩
      exact this _ hv
    obtain ⟨r, hr⟩ := this
    unfold torchInit at h
    rw [hr] at h
    cases h

/-- C121, a defect. In a `FedNetwork` with the default server, whose cost is a ZeroCost, `pytorch_initialization(network)` always raises TypeError, whatever
the clients' models; with `all_same=True` it works and starts everybody, the server too, from the first client's model -/
theorem C121_federated (e : X0Env A V S) (sv : A) (hsv : e.server = some sv) (hg : ∀ a, a ∈ e.graph ↔ a = sv ∨ a ∈ e.agents) (params : A → Option V) (hz : params sv = none)
    (c : A) (cs : List A) (hc : e.agents = c :: cs) :
    torchInit e params false = .error .typeError ∧
    ∀ v, params c = some v → (∀ a ∈ e.graph, e.shapeOf v = e.costShape a) →
      torchInit e params true = .ok (.arr v) ∧ initialStates e (.arr v) = .ok (e.graph.map fun a => (a, v)) := by
  refine ⟨?_, fun v hv hs => ⟨?_, (C22_array e v).1 hs⟩⟩
  · unfold torchInit
    rw [torchEach_bad params _ ⟨sv, (hg sv).2 (.inl rfl), hz⟩]
    rfl
  · unfold torchInit
    rw [hc]
    dsimp only
    rw [hv]
    rfl

/-- C121: `all_same=True` looks at the first agent only: other agents may have any costs, and their shapes are checked only when the states are used -/
theorem C121_all_same (e : X0Env A V S) (params : A → Option V) (c : A) (cs : List A) (hc : e.agents = c :: cs) :
    (params c = none → torchInit e params true = .error .typeError) ∧
    ∀ v, params c = some v → torchInit e params true = .ok (.arr v) ∧
      ((∃ a ∈ e.graph, e.shapeOf v ≠ e.costShape a) → initialStates e (.arr v) = .error .valueError) := by
  unfold torchInit
  rw [hc]
  refine ⟨fun h => by dsimp only; rw [h]; rfl, fun v hv => ⟨by dsimp only; rw [hv]; rfl, (C22_array e v).2⟩⟩

/-- C121: agents whose costs share one model object start from the same point -/
theorem C121_shared_model (e : X0Env A V S) {M : Type} (modelOf : A → M) (current : M → V) (params : A → Option V) (hp : ∀ a ∈ e.graph, params a = some (current (modelOf a)))
    (r : List (A × V)) (h : torchInit e params false = .ok (.dict r)) (a b : A) (va vb : V) (ha : (a, va) ∈ r) (hb : (b, vb) ∈ r) (hab : modelOf a = modelOf b) : va = vb := by
  unfold torchInit at h
  rw [torchEach_ok params (fun a => current (modelOf a)) _ hp] at h
  cases h
  obtain ⟨x, _, hx⟩ := List.mem_map.1 ha
  obtain ⟨y, _, hy⟩ := List.mem_map.1 hb
  cases hx; cases hy
  rw [hab]

/-- a counter as generator: three agents get 0, 1, 2 -/
def countDraw : Unit → Nat → Rat × Nat := fun _ k => ((k : Rat), k + 1)

example : normalInit (scalarEnv [4, 5, 6]) countDraw 0 = ([(4, 0), (5, 1), (6, 2)], 3) := by decide +kernel
example : initialStates (scalarEnv [4, 5, 6]) (.dict (normalInit (scalarEnv [4, 5, 6]) countDraw 0).1) = .ok (normalInit (scalarEnv [4, 5, 6]) countDraw 0).1 :=
  (C121_normal (scalarEnv [4, 5, 6]) (scalarEnv_real _ (by decide)) countDraw (fun _ _ => rfl) 0).2.2
example : uniformInit (scalarEnv [4, 5]) 1 1 countDraw 0 = (.error .valueError, 0) :=
  (C121_uniform (scalarEnv [4, 5]) (scalarEnv_real _ (by decide)) 1 1 countDraw (fun _ _ => rfl) (fun _ => True) (fun _ _ => trivial) 0).1 (by decide +kernel)

/-- two clients with models and a server without -/
def fedEnv : X0Env Nat Rat Unit := { scalarEnv [1, 2] with graph := [1, 2, 0], server := some 0 }
def fedModels : Nat → Option Rat := fun a => if a = 0 then none else some (a : Rat)

example : torchInit fedEnv fedModels false = .error .typeError ∧ torchInit fedEnv fedModels true = .ok (.arr 1) :=
  let h := C121_federated fedEnv 0 rfl (by simp [fedEnv, scalarEnv]; omega) fedModels rfl 1 [2] rfl
  ⟨h.1, (h.2 1 rfl (fun _ _ => rfl)).1⟩

example : torchInit (scalarEnv [1, 2]) (fun a => some (a : Rat)) false = .ok (.dict [(1, 1), (2, 2)]) :=
  ((C121_torch (scalarEnv [1, 2]) (scalarEnv_real _ (by decide)) (fun a => some (a : Rat))).1 (fun a => (a : Rat)) (fun _ _ => rfl) (fun _ _ => rfl)).1

end Verif.Props

namespace Verif.Props
open Verif Verif.Part Verif.Batch Verif.Torch
variable {X Ω : Type}

theorem flatten_splitBy : ∀ (sizes : List Nat) (x : List ℝ), x.length = sizes.sum → (splitBy sizes x).flatten = x
  | [], x, h => by
    rw [List.sum_nil, List.length_eq_zero_iff] at h
    rw [h]; rfl
  | k :: sizes, x, h => by
    show x.take k ++ (splitBy sizes (x.drop k)).flatten = x
    rw [flatten_splitBy sizes (x.drop k) (by rw [List.length_drop, h, List.sum_cons, Nat.add_sub_cancel_left]), List.take_append_drop]

/-- SPEC: `pytorch_initialization` would now read the entries `y` from the cost's model -/
def ModelAt (net : Torch.Net X) (w : Torch.World X) (y : List ℝ) : Prop := (getParams net w).2.store (getParams net w).1 = y

theorem modelAt_set {net : Torch.Net X} {w w' : Torch.World X} {x : Nat} (h : setParams net w x = .ok w') (s' : St X) : ModelAt net { w' with st := s' } (w.store x) := by
  unfold setParams at h
  split at h
  · cases h
  · rename_i hl
    push Not at hl
    cases h
    unfold ModelAt getParams World.tensors
    dsimp only
    rw [if_pos rfl]
    exact flatten_splitBy _ _ hl

/-- C121: evaluating a cost moves its model: after `function`, `gradient`, per-sample gradients or `predict` at `x`, also when drawing the batch failed,
`pytorch_initialization` gives `x`, not the model's initialization -/
theorem C121_after_evaluation (r : Rng Ω) (c : Cfg X) (net : Torch.Net X) (w : Torch.World X) (x : Nat) (hx : (w.store x).length = net.total) (ix : Indices) (ω : Ω)
    {I Y : Type} (fwd : List (List ℝ) → List I → List Y) (inputs : List I) :
    ModelAt net (functionT r c net w x ix ω).2.1 (w.store x) ∧ ModelAt net (gradientT r c net w x ix ω).2.1 (w.store x) ∧
    ModelAt net (sampleGradsT r c net w x ix ω).2.1 (w.store x) ∧ ModelAt net (predictT c net fwd w x inputs).2 (w.store x) := by
  have hs : setParams net w x = .ok { w with params := x } := by
    unfold setParams
    rw [if_neg (by simpa using hx)]
  have key := fun s' => modelAt_set hs s'
  refine ⟨?_, ?_, ?_, ?_⟩
  · unfold functionT
    rw [hs]
    dsimp only
    split <;> exact key _
  · unfold gradientT
    rw [hs]
    dsimp only
    split <;> exact key _
  · unfold sampleGradsT
    rw [hs]
    dsimp only
    split <;> exact key _
  · unfold predictT
    rw [hs]
    dsimp only
    split <;> exact key w.st

/-- C121: a point of the wrong size leaves the model where it was -/
theorem C121_wrong_size (r : Rng Ω) (c : Cfg X) (net : Torch.Net X) (w : Torch.World X) (x : Nat) (hx : (w.store x).length ≠ net.total) (ix : Indices) (ω : Ω) (y : List ℝ)
    (hy : ModelAt net w y) : (functionT r c net w x ix ω).1 = .error .valueError ∧ ModelAt net (functionT r c net w x ix ω).2.1 y ∧
      (gradientT r c net w x ix ω).1 = .error .valueError ∧ ModelAt net (gradientT r c net w x ix ω).2.1 y := by
  have hs : setParams net w x = .error .valueError := by
    unfold setParams
    rw [if_pos hx]
  unfold functionT gradientT
  rw [hs]
  exact ⟨rfl, hy, rfl, hy⟩

/-- the line network of C98: after one evaluation at tensor 0 the model holds its entries -/
example : ModelAt (avgNet [1, 1] lineLoss lineGrad) (functionT straight lineCfg (avgNet [1, 1] lineLoss lineGrad) lineWorld 0 .batch ()).2.1 [1, 0] :=
  (C121_after_evaluation _ lineCfg (avgNet [1, 1] lineLoss lineGrad) lineWorld 0 rfl .batch () (I := Unit) (Y := Unit) (fun _ _ => []) []).1

end Verif.Props

namespace Verif.Props
open Verif Verif.Fed
variable {A E Ω : Type} [DecidableEq A] [AddCommGroup E] [Module ℝ E] {n : Net A} {server : A} {clients : List A}

/-- C121: of the drawn states FedAvg uses only the server's: over ideal channels with all clients selected and deterministic gradients, two starts that agree
at the server give the same server state after every number of rounds -/
theorem C121_fedavg_server_only (G : Grad A Ω E) (g : A → E → E) (hg : ∀ c x ω, (G c x ω).1 = g c x) (η : ℝ) (K : Nat)
    (w : World A E Ω) (hf : IsFed n server clients) (hup : ServerUp w server) (hcl : clients ≠ [])
    (hact : ∀ c ∈ clients, ∀ it ω, (w.isActive c it ω).1 = true)
    (hideal : ∀ a ∈ server :: clients, Fed.Exact w a ∧ Fed.Lossless w a) (x0 x0' : A → E) (hx : x0 server = x0' server) (s s' : FSys A E Ω E E) (k : Nat) :
    ∃ r r', (fedAvg G η K).after none server w n x0 s k = .ok r ∧ (fedAvg G η K).after none server w n x0' s' k = .ok r' ∧ r.srv = r'.srv := by
  obtain ⟨r, h1, h2⟩ := C29_fedavg_ideal_run G g hg η K w hf hup hcl hact hideal x0 s k
  obtain ⟨r', h3, h4⟩ := C29_fedavg_ideal_run G g hg η K w hf hup hcl hact hideal x0' s' k
  exact ⟨r, r', h1, h3, by rw [h2, h4, hx]⟩

/-- the two-client network: the clients' own starting points do not matter -/
example (g : Nat → ℝ → ℝ) (k : Nat) (s : FSys Nat ℝ Unit ℝ ℝ) : ∃ r r', (fedAvg (fun c x ω => (g c x, ω)) (1 / 10) 3).after none 0 (ideal ℝ) fedNet2 (fun _ => 1) s k = .ok r ∧
    (fedAvg (fun c x ω => (g c x, ω)) (1 / 10) 3).after none 0 (ideal ℝ) fedNet2 (fun a => if a = 0 then 1 else 7) s k = .ok r' ∧ r.srv = r'.srv :=
  C121_fedavg_server_only _ g (fun _ _ _ => rfl) _ _ (ideal ℝ) fedNet2_isFed (fun _ _ => rfl) (by simp) (fun _ _ _ _ => rfl) (fun a _ => ⟨ideal_exact _ a, ideal_lossless _ a⟩) _ _ (by simp) s s k

end Verif.Props
