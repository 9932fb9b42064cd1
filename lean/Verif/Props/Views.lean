import Verif.Model.Views
import Verif.Props.Topology
import Verif.Model.StateMetrics
set_option linter.unusedSectionVars false
/-!
# C130: metrics views

`Views.fromAgent m obj a` is `AgentMetricsView.from_agent(a)` at memory `m`; `v.history m'` is `v.x_history` looked at later, at memory `m'`.
-/
namespace Verif.Props
open Verif Topology Views

section
variable {A C V K S Act : Type} [DecidableEq A] [DecidableEq C] [DecidableEq S]
variable (shapeOf : V → S) (copy : V → V)

/-- SPEC: different agents have different history objects, and addresses beyond `next` are free. True of agents right after construction;
`A` is the (finite) set of agents of the program. -/
structure Separate (m : Mem A C V K S Act) : Prop where
  apart : ∀ a b, m.ref a = m.ref b → a = b
  used : ∀ a, m.ref a < m.next

theorem step_separate (m : Mem A C V K S Act) (h : Separate m) (o : Op A C V K S Act) : Separate (step shapeOf copy m o) := by
  cases o with
  | other a f => exact ⟨h.apart, h.used⟩
  | snapshot a it force =>
    simp only [step]
    split
    · exact ⟨h.apart, h.used⟩
    · exact h
  | init a x aux =>
    refine ⟨fun b c e => ?_, fun b => ?_⟩
    · simp only [step, Function.update_apply] at e
      split at e <;> split at e
      · rename_i h1 h2; rw [h1, h2]
      · exact absurd e.symm (Nat.ne_of_lt (h.used c))
      · exact absurd e (Nat.ne_of_lt (h.used b))
      · exact h.apart b c e
    · simp only [step, Function.update_apply]
      split
      · exact Nat.lt_succ_self _
      · exact Nat.lt_succ_of_lt (h.used b)

theorem run_separate (m : Mem A C V K S Act) (h : Separate m) (ops : List (Op A C V K S Act)) : Separate (Views.run shapeOf copy m ops) := by
  induction ops generalizing m with
  | nil => exact h
  | cons o t ih => exact ih _ (step_separate shapeOf copy m h o)

/-- SPEC: what an operation does to the agents when every agent has a history of its own -/
def agentAfter (m : A → Agent A C V K S Act) (o : Op A C V K S Act) (b : A) : Agent A C V K S Act :=
  match o with
  | .other a f => if b = a then { f (m a) with history := (m a).history } else m b
  | .snapshot a it force =>
    if b = a then (match (m a).snapshot copy it force with | .ok r => r | .error _ => m a) else m b
  | .init a x aux => if b = a then ((m a).init shapeOf copy x aux).1 else m b

/-- Operations on one agent never change another one, and the agents behave as those of Model/Agent. -/
theorem C130_agents (m : Mem A C V K S Act) (h : Separate m) (o : Op A C V K S Act) (b : A) :
    (step shapeOf copy m o).agent b = agentAfter shapeOf copy m.agent o b := by
  cases o with
  | other a f =>
    simp only [step, agentAfter, Mem.agent, Function.update_apply]
    split
    · rename_i e; rw [e]
    · rfl
  | snapshot a it force =>
    simp only [step, agentAfter]
    cases hs : (m.agent a).snapshot copy it force with
    | error e =>
      dsimp only
      split
      · rename_i e'; rw [e']
      · rfl
    | ok r =>
      dsimp only
      by_cases e : b = a
      · subst e
        rw [if_pos rfl]
        simp [Mem.agent]
      · rw [if_neg e]
        have hne : m.ref b ≠ m.ref a := fun hr => e (h.apart b a hr)
        simp [Mem.agent, Function.update_of_ne hne, Function.update_of_ne e]
  | init a x aux =>
    simp only [step, agentAfter]
    by_cases e : b = a
    · subst e
      rw [if_pos rfl]
      simp [Mem.agent]
    · rw [if_neg e]
      have hne : m.ref b ≠ m.next := Nat.ne_of_lt (h.used b)
      simp [Mem.agent, Function.update_of_ne e, Function.update_of_ne hne]

/-! ### one agent -/

/-- SPEC: is the operation `a.initialize(...)` -/
def isInit (a : A) : Op A C V K S Act → Bool
  | .init b _ _ => decide (b = a)
  | _ => false

/-- SPEC: is the operation `a._snapshot(...)` -/
def isSnapshot (a : A) : Op A C V K S Act → Bool
  | .snapshot b _ _ => decide (b = a)
  | _ => false

/-- SPEC: the operations before the agent is next initialised -/
def untilInit (a : A) (ops : List (Op A C V K S Act)) : List (Op A C V K S Act) := ops.takeWhile (fun o => !isInit a o)

theorem mem_untilInit (a : A) (ops : List (Op A C V K S Act)) (o : Op A C V K S Act) (h : o ∈ untilInit a ops) : isInit a o = false := by
  induction ops with
  | nil => cases h
  | cons o' t ih =>
    cases hi : isInit a o' with
    | true => simp [untilInit, hi] at h
    | false =>
      have e : untilInit a (o' :: t) = o' :: untilInit a t := by simp [untilInit, hi]
      rw [e] at h
      rcases List.mem_cons.1 h with rfl | h
      · exact hi
      · exact ih h

theorem untilInit_self (a : A) (ops : List (Op A C V K S Act)) (h : ∀ o ∈ ops, isInit a o = false) : untilInit a ops = ops := by
  induction ops with
  | nil => rfl
  | cons o t ih =>
    have e : untilInit a (o :: t) = o :: untilInit a t := by simp [untilInit, h o (by simp)]
    rw [e, ih (fun o' ho => h o' (by simp [ho]))]

theorem untilInit_prefix (a : A) (l r : List (Op A C V K S Act)) (o : Op A C V K S Act) (h : o ∈ untilInit a l) : o ∈ untilInit a (l ++ r) := by
  induction l with
  | nil => cases h
  | cons o' t ih =>
    cases hi : isInit a o' with
    | true => simp [untilInit, hi] at h
    | false =>
      have e : untilInit a (o' :: t) = o' :: untilInit a t := by simp [untilInit, hi]
      have e2 : untilInit a (o' :: t ++ r) = o' :: untilInit a (t ++ r) := by simp [untilInit, hi]
      rw [e] at h
      rw [e2]
      rcases List.mem_cons.1 h with rfl | h
      · simp
      · exact List.mem_cons_of_mem _ (ih h)

theorem step_heap (m : Mem A C V K S Act) (h : Separate m) (o : Op A C V K S Act) (p : Nat) (hp : p < m.next)
    (ho : ∀ a, m.ref a = p → isSnapshot a o = false) : (step shapeOf copy m o).heap p = m.heap p := by
  cases o with
  | other a f => rfl
  | snapshot a it force =>
    simp only [step]
    split
    · refine Function.update_of_ne (fun e => ?_) _ _
      have := ho a e.symm
      simp [isSnapshot] at this
    · rfl
  | init a x aux => exact Function.update_of_ne (Nat.ne_of_lt hp) _ _

theorem step_next (m : Mem A C V K S Act) (o : Op A C V K S Act) : m.next ≤ (step shapeOf copy m o).next := by
  cases o with
  | other a f => exact le_rfl
  | snapshot a it force => simp only [step]; split <;> exact le_rfl
  | init a x aux => exact Nat.le_succ _

theorem step_ref (m : Mem A C V K S Act) (o : Op A C V K S Act) (a : A) (ho : isInit a o = false) : (step shapeOf copy m o).ref a = m.ref a := by
  cases o with
  | other b f => rfl
  | snapshot b it force => simp only [step]; split <;> rfl
  | init b x aux =>
    refine Function.update_of_ne (fun e => ?_) _ _
    simp [isInit, e] at ho

theorem step_ref_init (m : Mem A C V K S Act) (h : Separate m) (o : Op A C V K S Act) (a : A) (ho : isInit a o = true) (p : Nat) (hp : p < m.next)
    (b : A) (hb : (step shapeOf copy m o).ref b = p) : b ≠ a ∧ m.ref b = p := by
  cases o with
  | other c f => cases ho
  | snapshot c it force => cases ho
  | init c x aux =>
    have hc : c = a := by simpa [isInit] using ho
    subst hc
    simp only [step, Function.update_apply] at hb
    split at hb
    · exact absurd hb.symm (Nat.ne_of_lt hp)
    · rename_i e; exact ⟨e, hb⟩

/-- an object that no agent refers to any more is never changed -/
theorem run_heap_orphan (m : Mem A C V K S Act) (h : Separate m) (ops : List (Op A C V K S Act)) (p : Nat) (hp : p < m.next)
    (ho : ∀ a, m.ref a ≠ p) : (Views.run shapeOf copy m ops).heap p = m.heap p := by
  induction ops generalizing m with
  | nil => rfl
  | cons o t ih =>
    have hno : ∀ a, (step shapeOf copy m o).ref a ≠ p := by
      intro a
      cases hi : isInit a o with
      | false => rw [step_ref shapeOf copy m o a hi]; exact ho a
      | true => exact fun e => ho a (step_ref_init shapeOf copy m h o a hi p hp a e).2
    have := ih (step shapeOf copy m o) (step_separate shapeOf copy m h o) (lt_of_lt_of_le hp (step_next shapeOf copy m o)) hno
    rw [← step_heap shapeOf copy m h o p hp (fun a e => absurd e (ho a))]
    exact this

/-- SPEC: every counter of the view is the agent's counter of the same name -/
structure SameCounters (c : Counters) (a : Agent A C V K S Act) : Prop where
  updates : c.nXUpdates = a.nXUpdates
  function : c.nFunction = a.nFunction
  gradient : c.nGradient = a.nGradient
  hessian : c.nHessian = a.nHessian
  proximal : c.nProximal = a.nProximal
  sent : c.nSent = a.nSent
  received : c.nReceived = a.nReceived
  dropped : c.nDropped = a.nDropped
  selected : c.nSelected = a.nSelected

theorem countersOf_same (a : Agent A C V K S Act) : SameCounters (countersOf a) a := ⟨rfl, rfl, rfl, rfl, rfl, rfl, rfl, rfl, rfl⟩

/-- The counters of a view are those of the agent when the view was made. Its history is the agent's own as long as the agent is not
initialised again, and from then on stays what it was just before. -/
theorem C130_view (m : Mem A C V K S Act) (h : Separate m) (obj : Nat) (a : A) (ops : List (Op A C V K S Act)) :
    (fromAgent m obj a).id = a ∧ SameCounters (fromAgent m obj a).counters (m.agent a) ∧
    (fromAgent m obj a).history (Views.run shapeOf copy m ops) = ((Views.run shapeOf copy m (untilInit a ops)).agent a).history := by
  refine ⟨rfl, countersOf_same _, ?_⟩
  induction ops generalizing m with
  | nil => rfl
  | cons o t ih =>
    have hs := step_separate shapeOf copy m h o
    cases hi : isInit a o with
    | false =>
      have e1 : untilInit a (o :: t) = o :: untilInit a t := by simp [untilInit, hi]
      have e2 : (fromAgent (step shapeOf copy m o) obj a).hist = m.ref a := step_ref shapeOf copy m o a hi
      rw [e1]
      have := ih (step shapeOf copy m o) hs
      simp only [AgentView.history, e2] at this
      exact this
    | true =>
      have e1 : untilInit a (o :: t) = [] := by simp [untilInit, hi]
      rw [e1]
      show (Views.run shapeOf copy (step shapeOf copy m o) t).heap (m.ref a) = m.heap (m.ref a)
      have hp := h.used a
      have hsnap : ∀ b, isSnapshot b o = false := by
        intro b
        cases o with
        | other c f => rfl
        | snapshot c it force => cases hi
        | init c x aux => rfl
      rw [run_heap_orphan shapeOf copy _ hs t _ (lt_of_lt_of_le hp (step_next shapeOf copy m o)),
        step_heap shapeOf copy m h o _ hp (fun b _ => hsnap b)]
      intro b e
      obtain ⟨h1, h2⟩ := step_ref_init shapeOf copy m h o a hi _ hp b e
      exact h1 (h.apart _ _ h2)

/-- As long as the agent is not initialised again, the view shows the agent's current history, later snapshots included. -/
theorem C130_live (m : Mem A C V K S Act) (h : Separate m) (obj : Nat) (a : A) (ops : List (Op A C V K S Act))
    (hno : ∀ o ∈ ops, isInit a o = false) :
    (fromAgent m obj a).history (Views.run shapeOf copy m ops) = ((Views.run shapeOf copy m ops).agent a).history := by
  have e : untilInit a ops = ops := by
    exact untilInit_self a ops hno
  have := (C130_view shapeOf copy m h obj a ops).2.2
  rwa [e] at this

/-- SPEC: the agent's state is not snapshotted before it is initialised again -/
def NoSnapshotBeforeInit (a : A) (ops : List (Op A C V K S Act)) : Prop := ∀ o ∈ untilInit a ops, isSnapshot a o = false

theorem settled_history (m : Mem A C V K S Act) (h : Separate m) (a : A) (ops : List (Op A C V K S Act))
    (hno : ∀ o ∈ ops, isInit a o = false ∧ isSnapshot a o = false) :
    ((Views.run shapeOf copy m ops).agent a).history = (m.agent a).history := by
  induction ops generalizing m with
  | nil => rfl
  | cons o t ih =>
    have ho := hno o (by simp)
    refine (ih _ (step_separate shapeOf copy m h o) (fun o' ho' => hno o' (by simp [ho']))).trans ?_
    show (step shapeOf copy m o).heap ((step shapeOf copy m o).ref a) = m.heap (m.ref a)
    rw [step_ref shapeOf copy m o a ho.1]
    refine step_heap shapeOf copy m h o _ (h.used a) (fun b e => ?_)
    rw [h.apart b a e]
    exact ho.2

/-- If no snapshot is taken before the agent is initialised again, as after a finished run, then whatever happens later, even new runs of
the same agent, the view does not change. -/
theorem C130_settled (m : Mem A C V K S Act) (h : Separate m) (obj : Nat) (a : A) (ops : List (Op A C V K S Act)) (hs : NoSnapshotBeforeInit a ops) :
    (fromAgent m obj a).history (Views.run shapeOf copy m ops) = (m.agent a).history := by
  rw [(C130_view shapeOf copy m h obj a ops).2.2]
  refine settled_history shapeOf copy m h a _ (fun o ho => ⟨?_, hs o ho⟩)
  exact mem_untilInit a ops o ho

/-! ### networks -/

theorem viewsOf_get (m : Mem A C V K S Act) (start : Nat) (l : List A) (i : Nat) :
    (viewsOf m start l)[i]? = l[i]?.map (fromAgent m (start + i)) := by
  induction l generalizing start i with
  | nil => simp [viewsOf]
  | cons a t ih =>
    cases i with
    | zero => simp [viewsOf]
    | succ i =>
      simp only [viewsOf, List.getElem?_cons_succ]
      rw [ih, show start + 1 + i = start + (i + 1) by omega]

theorem viewsOf_length (m : Mem A C V K S Act) (start : Nat) (l : List A) : (viewsOf m start l).length = l.length := by
  induction l generalizing start with
  | nil => rfl
  | cons a t ih => simp [viewsOf, ih]

theorem viewsOf_ids (m : Mem A C V K S Act) (start : Nat) (l : List A) : (viewsOf m start l).map AgentView.id = l := by
  induction l generalizing start with
  | nil => rfl
  | cons a t ih => simp [viewsOf, ih, fromAgent]

theorem mem_viewsOf (m : Mem A C V K S Act) (start : Nat) (l : List A) (v : AgentView A) (h : v ∈ viewsOf m start l) :
    ∃ i, l[i]? = some v.id ∧ v = fromAgent m (start + i) v.id ∧ i < l.length := by
  obtain ⟨i, hi⟩ := List.mem_iff_getElem?.1 h
  rw [viewsOf_get] at hi
  cases ha : l[i]? with
  | none => rw [ha] at hi; cases hi
  | some a =>
    rw [ha] at hi
    have hv : v = fromAgent m (start + i) a := (Option.some.inj hi).symm
    have hid : v.id = a := by rw [hv]; rfl
    refine ⟨i, by rw [ha, hid], by rw [hid]; exact hv, ?_⟩
    by_contra hge
    rw [List.getElem?_eq_none (by omega)] at ha
    cases ha

theorem viewsOf_nodup (m : Mem A C V K S Act) (start : Nat) (l : List A) (hl : l.Nodup) : (viewsOf m start l).Nodup := by
  have := viewsOf_ids m start l
  exact List.Nodup.of_map AgentView.id (by rw [this]; exact hl)

theorem copyGraph_spec {N : Type} [DecidableEq N] (g : Graph N) (hg : g.OK) :
    (copyGraph g).OK ∧ (copyGraph g).nodes = g.nodes ∧ ∀ a b, b ∈ (copyGraph g).nbrs a ↔ b ∈ g.nbrs a := by
  obtain ⟨l, hl⟩ : ∃ l, l = g.nodes.flatMap fun u => (g.nbrs u).map fun v => ((u, v), g.weight u v) := ⟨_, rfl⟩
  have hc : copyGraph g = addEdges (g.nodes.foldl Graph.addNode Graph.empty) l := by rw [hl]; rfl
  have hmem : ∀ e ∈ l, e.1.2 ∈ g.nbrs e.1.1 := by
    intro e he
    rw [hl, List.mem_flatMap] at he
    obtain ⟨u, _, he⟩ := he
    obtain ⟨v, hv, rfl⟩ := List.mem_map.1 he
    exact hv
  have hn0 : (g.nodes.foldl Graph.addNode Graph.empty).nodes = g.nodes := by
    rw [addNodes_nodes _ _ (by simpa [Graph.empty] using hg.nodup)]; rfl
  refine ⟨by rw [hc]; exact addEdges_ok _ _ (addNodes_ok _ _ empty_ok), ?_, fun a b => ?_⟩
  · rw [hc, addEdges_nodes _ _ (fun e he => by rw [hn0]; exact hg.mem _ _ (hmem e he)), hn0]
  · rw [hc, mem_addEdges, addNodes_nbrs]
    constructor
    · rintro (h | ⟨e, he, hj⟩)
      · cases h
      · rcases hj with ⟨rfl, rfl⟩ | ⟨rfl, rfl⟩
        · exact hmem e he
        · exact hg.symm _ _ (hmem e he)
    · intro h
      refine Or.inr ⟨((a, b), g.weight a b), ?_, Or.inl ⟨rfl, rfl⟩⟩
      rw [hl, List.mem_flatMap]
      exact ⟨a, (hg.mem a b h).1, List.mem_map.2 ⟨b, h, rfl⟩⟩

/-- SPEC: the view `nv` shows every agent of the network `g` once, in order, with its counters and its history, and the same neighbours -/
structure Shows (m : Mem A C V K S Act) (g : Graph A) (nv : NetView A) : Prop where
  ids : nv.graph.nodes.map AgentView.id = g.nodes
  counters : ∀ v ∈ nv.graph.nodes, SameCounters v.counters (m.agent v.id)
  history : ∀ v ∈ nv.graph.nodes, v.history m = (m.agent v.id).history
  once : (nv.graph.nodes.map AgentView.id).Nodup
  edges : ∀ u ∈ nv.graph.nodes, ∀ v ∈ nv.graph.nodes, (v ∈ nv.graph.nbrs u ↔ v.id ∈ g.nbrs u.id)
  within : ∀ u v, v ∈ nv.graph.nbrs u → u ∈ nv.graph.nodes ∧ v ∈ nv.graph.nodes
  neighbours_once : ∀ u, (nv.graph.nbrs u).Nodup

theorem shows_graph (m : Mem A C V K S Act) (start : Nat) (g : Graph A) (hg : g.OK) (fed : Bool) (server : Option (AgentView A)) :
    Shows m g ⟨copyGraph (relabel (agentFor g.nodes (viewsOf m start g.nodes)) g), fed, server⟩ ∧
    (copyGraph (relabel (agentFor g.nodes (viewsOf m start g.nodes)) g)).nodes = viewsOf m start g.nodes := by
  obtain ⟨h, hh⟩ : ∃ h, h = relabel (agentFor g.nodes (viewsOf m start g.nodes)) g := ⟨_, rfl⟩
  have hr := relabel_replaces g hg (viewsOf m start g.nodes) (viewsOf_nodup m start _ hg.nodup) (viewsOf_length m start _)
  rw [← hh] at hr ⊢
  have hk : h.OK := by rw [hh]; exact relabel_ok _ _
  obtain ⟨c1, c2, c3⟩ := copyGraph_spec h hk
  have hn : (copyGraph h).nodes = viewsOf m start g.nodes := c2.trans hr.nodes
  refine ⟨⟨?_, ?_, ?_, ?_, ?_, ?_, c1.nbrs_nodup⟩, hn⟩
  · show (copyGraph h).nodes.map _ = _
    rw [hn, viewsOf_ids]
  · intro v hv
    rw [show (NetView.mk (copyGraph h) fed server).graph.nodes = viewsOf m start g.nodes from hn] at hv
    obtain ⟨i, _, e, _⟩ := mem_viewsOf m start _ v hv
    rw [e]; exact countersOf_same _
  · intro v hv
    rw [show (NetView.mk (copyGraph h) fed server).graph.nodes = viewsOf m start g.nodes from hn] at hv
    obtain ⟨i, _, e, _⟩ := mem_viewsOf m start _ v hv
    rw [e]; rfl
  · show ((copyGraph h).nodes.map _).Nodup
    rw [hn, viewsOf_ids]; exact hg.nodup
  · intro u hu v hv
    rw [show (NetView.mk (copyGraph h) fed server).graph.nodes = viewsOf m start g.nodes from hn] at hu hv
    obtain ⟨i, hi, ei, _⟩ := mem_viewsOf m start _ u hu
    obtain ⟨j, hj, ej, _⟩ := mem_viewsOf m start _ v hv
    rw [show (v ∈ (NetView.mk (copyGraph h) fed server).graph.nbrs u) = (v ∈ (copyGraph h).nbrs u) from rfl, c3]
    refine hr.edges i j u.id v.id u v hi hj ?_ ?_
    · rw [viewsOf_get, hi, Option.map_some, ← ei]
    · rw [viewsOf_get, hj, Option.map_some, ← ej]
  · intro u v huv
    exact c1.mem u v huv

/-- The view of a peer-to-peer network: all agents are shown, with their neighbours, and there are no clients and no server. -/
theorem C130_p2p (m : Mem A C V K S Act) (start : Nat) (g : Graph A) (hg : g.OK) : ∃ nv, fromNetwork m start .p2p g = .ok nv ∧
    Shows m g nv ∧ nv.agents = nv.graph.nodes ∧ nv.clients = .error .valueError ∧ nv.getServer = .error .valueError ∧
    ∀ u ∈ nv.agents, ∃ l, nv.neighbors u = .ok l ∧ nv.connectedAgents u = .ok l ∧ l.Nodup ∧ ∀ v, v ∈ l ↔ v ∈ nv.agents ∧ v.id ∈ g.nbrs u.id := by
  obtain ⟨hs, hn⟩ := shows_graph m start g hg false none
  refine ⟨_, rfl, hs, by simp [NetView.agents], by simp [NetView.clients], by simp [NetView.getServer], fun u hu => ?_⟩
  generalize hnv : (NetView.mk (copyGraph (relabel (agentFor g.nodes (viewsOf m start g.nodes)) g)) false none) = nv at *
  have hf : nv.federated = false := by rw [← hnv]
  have hag : nv.agents = nv.graph.nodes := by simp [NetView.agents, hf]
  rw [hag] at hu ⊢
  refine ⟨nv.graph.nbrs u, by simp [NetView.neighbors, NetView.connectedAgents, hf, hu], by simp [NetView.connectedAgents, hu],
    hs.neighbours_once u, fun v => ⟨fun h => ?_, fun h => (hs.edges u hu v h.1).2 h.2⟩⟩
  exact ⟨(hs.within u v h).2, (hs.edges u hu v (hs.within u v h).2).1 h⟩

theorem star_ok (server : A) (clients : List A) : (star server clients).OK := by
  unfold Topology.star
  have : ∀ (l : List A) (g : Graph A), g.OK → (l.foldl (fun g c => g.addEdge server c none) g).OK := by
    intro l
    induction l with
    | nil => exact fun g h => h
    | cons c t ih => exact fun g h => ih _ (addEdge_ok g _ _ _ h)
  exact this _ _ (addNodes_ok _ _ empty_ok)

/-- The view of a federated network: the server is shown as the server, the clients, in their order, as clients and as `agents()`; the
server is connected to exactly the clients and every client to the server only; `neighbors` is refused. -/
theorem C130_fed (m : Mem A C V K S Act) (start : Nat) (server : A) (clients : List A) (hn : (server :: clients).Nodup) :
    ∃ nv sv cs, fromNetwork m start (.fed server) (star server clients) = .ok nv ∧ Shows m (star server clients) nv ∧
    nv.getServer = .ok sv ∧ sv.id = server ∧ nv.clients = .ok cs ∧ nv.agents = cs ∧ cs.map AgentView.id = clients ∧
    nv.graph.nodes = sv :: cs ∧
    (∃ l, nv.connectedAgents sv = .ok l ∧ l.Nodup ∧ ∀ v, v ∈ l ↔ v ∈ cs) ∧ (∀ c ∈ cs, nv.connectedAgents c = .ok [sv]) ∧
    ∀ v, nv.neighbors v = .error .valueError := by
  obtain ⟨hf, _⟩ := C128_star server clients hn
  have hnodes : (star server clients).nodes = server :: clients := hf.nodes
  have hsn : (star server clients).nbrs server = clients := hf.server_nbrs
  have hcn : ∀ c ∈ clients, (star server clients).nbrs c = [server] := hf.client_nbrs
  have hg := star_ok server clients
  obtain ⟨sv, hsv⟩ : ∃ sv, sv = fromAgent m start server := ⟨_, rfl⟩
  obtain ⟨cs, hcs⟩ : ∃ cs, cs = viewsOf m (start + 1) clients := ⟨_, rfl⟩
  have hviews : viewsOf m start (star server clients).nodes = sv :: cs := by rw [hnodes, hsv, hcs]; rfl
  obtain ⟨hs, hk⟩ := shows_graph m start (star server clients) hg true (some sv)
  have hmap : agentFor (star server clients).nodes (viewsOf m start (star server clients).nodes) server = some sv := by
    rw [hviews, hnodes]; simp [agentFor]
  have hid : sv.id = server := by rw [hsv]; rfl
  have hids : cs.map AgentView.id = clients := by rw [hcs, viewsOf_ids]
  have hsc : sv ∉ cs := fun h => (List.nodup_cons.1 hn).1 (by rw [← hids, ← hid]; exact List.mem_map.2 ⟨sv, h, rfl⟩)
  generalize hnv : (NetView.mk (copyGraph (relabel (agentFor (star server clients).nodes (viewsOf m start (star server clients).nodes))
    (star server clients))) true (some sv)) = nv at *
  have hfed : nv.federated = true := by rw [← hnv]
  have hsrv : nv.server = some sv := by rw [← hnv]
  have hno : nv.graph.nodes = sv :: cs := by rw [← hnv]; exact hk.trans hviews
  have hag : nv.agents = cs := by
    unfold NetView.agents
    rw [if_pos hfed, hno, hsrv, List.filter_cons_of_neg (by simp)]
    exact List.filter_eq_self.2 (fun a ha => by
      rw [decide_eq_true_eq]; exact fun e => hsc (by rw [← Option.some.inj e]; exact ha))
  have hmem : ∀ u ∈ nv.graph.nodes, ∀ v, v ∈ nv.graph.nbrs u ↔ v ∈ nv.graph.nodes ∧ v.id ∈ (star server clients).nbrs u.id := fun u hu v =>
    ⟨fun h => ⟨(hs.within u v h).2, (hs.edges u hu v (hs.within u v h).2).1 h⟩, fun h => (hs.edges u hu v h.1).2 h.2⟩
  have hcid : ∀ v ∈ cs, v.id ∈ clients := fun v hv => by rw [← hids]; exact List.mem_map.2 ⟨v, hv, rfl⟩
  refine ⟨nv, sv, cs, ?_, hs, by simp [NetView.getServer, hfed, hsrv], hid, by simp [NetView.clients, hfed, hag], hag, hids, hno, ?_, ?_, ?_⟩
  · simp only [fromNetwork]
    rw [hmap, ← hnv]
  · refine ⟨nv.graph.nbrs sv, by simp [NetView.connectedAgents, hno], hs.neighbours_once sv, fun v => ?_⟩
    rw [hmem sv (by rw [hno]; simp), hid, hsn, hno]
    constructor
    · rintro ⟨h1, h2⟩
      rcases List.mem_cons.1 h1 with rfl | h1
      · exact absurd (by rw [← hid]; exact h2) (List.nodup_cons.1 hn).1
      · exact h1
    · exact fun h => ⟨List.mem_cons_of_mem _ h, hcid v h⟩
  · intro c hc
    have hcnode : c ∈ nv.graph.nodes := by rw [hno]; exact List.mem_cons_of_mem _ hc
    have hl : ∀ v, v ∈ nv.graph.nbrs c ↔ v = sv := by
      intro v
      rw [hmem c hcnode, hcn _ (hcid c hc), List.mem_singleton, hno]
      constructor
      · rintro ⟨h1, h2⟩
        rcases List.mem_cons.1 h1 with h1 | h1
        · exact h1
        · exact absurd (by rw [← h2]; exact hcid v h1) (List.nodup_cons.1 hn).1
      · rintro rfl
        exact ⟨by simp, hid⟩
    have hperm : (nv.graph.nbrs c).Perm [sv] :=
      (List.perm_ext_iff_of_nodup (hs.neighbours_once c) (List.nodup_singleton sv)).2 (fun v => by rw [hl, List.mem_singleton])
    rw [NetView.connectedAgents, if_pos hcnode, List.perm_singleton.1 hperm]
  · intro v
    simp [NetView.neighbors, hfed]

/-- Other kinds of networks are refused. -/
theorem C130_other (m : Mem A C V K S Act) (start : Nat) (g : Graph A) : fromNetwork m start .other g = .error .valueError := rfl

/-- A view object that is not in the network view is refused; this holds of the views in any other view of the same network, too: objects
are compared by identity, not by the agent they show. -/
theorem C130_outsider (m m' : Mem A C V K S Act) (start start' : Nat) (g : Graph A) (hg : g.OK) (fed : Kind A) (nv nv' : NetView A)
    (h : fromNetwork m start fed g = .ok nv) (h' : fromNetwork m' start' fed g = .ok nv') (hlater : start + g.nodes.length ≤ start')
    (v : AgentView A) (hv : v ∈ nv'.graph.nodes) : nv.connectedAgents v = .error .valueError ∧ nv.neighbors v = .error .valueError := by
  have hnodes : ∀ (m : Mem A C V K S Act) (start : Nat) (nv : NetView A), fromNetwork m start fed g = .ok nv →
      nv.graph.nodes = viewsOf m start g.nodes := by
    intro m start nv h
    have hk := (shows_graph m start g hg true none).2
    unfold fromNetwork at h
    dsimp only at h
    cases fed with
    | p2p => rw [← Except.ok.inj h]; exact hk
    | fed s =>
      dsimp only at h
      cases hs : agentFor g.nodes (viewsOf m start g.nodes) s with
      | none => rw [hs] at h; cases h
      | some v => rw [hs] at h; rw [← Except.ok.inj h]; exact hk
    | other => cases h
  have hout : v ∉ nv.graph.nodes := by
    intro hin
    rw [hnodes m start nv h] at hin
    rw [hnodes m' start' nv' h'] at hv
    obtain ⟨i, _, e, hi⟩ := mem_viewsOf m start _ v hin
    obtain ⟨j, _, e', _⟩ := mem_viewsOf m' start' _ v hv
    have o1 : v.obj = start + i := by rw [e]; rfl
    have o2 : v.obj = start' + j := by rw [e']; rfl
    omega
  have hc : nv.connectedAgents v = .error .valueError := by rw [NetView.connectedAgents, if_neg hout]
  refine ⟨hc, ?_⟩
  unfold NetView.neighbors
  split
  · rfl
  · exact hc

/-- `iterations` of a view lists, in increasing order and once each, the iterations at which some agent, the server included, has a
snapshot. -/
theorem C130_iterations (m : Mem A C V K S Act) (g : Graph A) (nv : NetView A) (hs : Shows m g nv) :
    (nv.iterations m).Pairwise (· < ·) ∧ ∀ k, k ∈ nv.iterations m ↔ ∃ a ∈ g.nodes, k ∈ (m.agent a).history.keysList := by
  constructor
  · have hp : (nv.iterations m).Pairwise (fun a b => decide (a ≤ b) = true) :=
      List.pairwise_mergeSort (fun a b c h1 h2 => by simp only [decide_eq_true_eq] at *; omega)
        (fun a b => by simp only [Bool.or_eq_true, decide_eq_true_eq]; omega) _
    have hn : (nv.iterations m).Nodup := (List.mergeSort_perm _ _).nodup_iff.2 (List.nodup_dedup _)
    have := hp.and hn
    exact this.imp (fun h => lt_of_le_of_ne (by simpa using h.1) h.2)
  · intro k
    have : k ∈ nv.iterations m ↔ ∃ v ∈ nv.graph.nodes, k ∈ (v.history m).keysList := by
      unfold NetView.iterations
      rw [(List.mergeSort_perm _ _).mem_iff, List.mem_dedup, List.mem_flatMap]
    rw [this, ← hs.ids]
    constructor
    · rintro ⟨v, hv, hk⟩
      exact ⟨v.id, List.mem_map.2 ⟨v, hv, rfl⟩, by rw [← hs.history v hv]; exact hk⟩
    · rintro ⟨a, ha, hk⟩
      obtain ⟨v, hv, rfl⟩ := List.mem_map.1 ha
      exact ⟨v, hv, by rw [hs.history v hv]; exact hk⟩

/-! ### caches -/

/-- SPEC: the operations on agents among the events -/
def opsOf {Q : Type} : List (Event A C V K S Act Q) → List (Op A C V K S Act)
  | [] => []
  | .op o :: t => o :: opsOf t
  | .call _ :: t => opsOf t
  | .forget _ :: t => opsOf t

/-- SPEC: the calls among the events -/
def callsOf {Q : Type} : List (Event A C V K S Act Q) → List Q
  | [] => []
  | .call q :: t => q :: callsOf t
  | .op _ :: t => callsOf t
  | .forget _ :: t => callsOf t

theorem cached_correct {Q R : Type} [DecidableEq Q] (f : Q → Py R) (c : Cache Q R) (hc : ∀ e ∈ c, f e.1 = .ok e.2) (q : Q) :
    (cached f c q).1 = f q ∧ ∀ e ∈ (cached f c q).2, f e.1 = .ok e.2 := by
  unfold cached
  cases hfd : c.find? (fun e => decide (e.1 = q)) with
  | some e =>
    have h1 := List.mem_of_find?_eq_some hfd
    have h2 := List.find?_some hfd
    simp only [decide_eq_true_eq] at h2
    exact ⟨by rw [← h2]; exact (hc e h1).symm, hc⟩
  | none =>
    dsimp only
    cases hq : f q with
    | error e => exact ⟨rfl, hc⟩
    | ok r =>
      refine ⟨rfl, fun e he => ?_⟩
      rcases List.mem_cons.1 he with rfl | he
      · exact hq
      · exact hc e he

/-- a cache is not noticeable if the function's results are not changed by the operations in between -/
theorem results_steady {Q R : Type} [DecidableEq Q] (f : Mem A C V K S Act → Q → Py R) (f0 : Q → Py R) (m : Mem A C V K S Act)
    (c : Cache Q R) (hc : ∀ e ∈ c, f0 e.1 = .ok e.2) (ev : List (Event A C V K S Act Q))
    (hst : ∀ l, l <+: opsOf ev → ∀ q ∈ callsOf ev, f (Views.run shapeOf copy m l) q = f0 q) :
    results shapeOf copy f m c ev = (callsOf ev).map f0 := by
  induction ev generalizing m c with
  | nil => rfl
  | cons e t ih =>
    cases e with
    | call q =>
      have hq : f m q = f0 q := hst [] (List.nil_prefix) q (by simp [callsOf])
      have heq : cached (f m) c q = cached f0 c q := by unfold cached; rw [hq]
      obtain ⟨h1, h2⟩ := cached_correct f0 c hc q
      simp only [results, callsOf, List.map_cons, heq, h1]
      congr 1
      exact ih m _ h2 (fun l hl q' hq' => hst l hl q' (by simp [callsOf, hq']))
    | forget p =>
      simp only [results, callsOf]
      exact ih m _ (fun e he => hc e (List.mem_filter.1 he).1) hst
    | op o =>
      simp only [results, callsOf]
      refine ih _ c hc (fun l hl q hq => ?_)
      exact hst (o :: l) (by simpa [opsOf] using hl) q hq

theorem mapM_histories (m m' : Mem A C V K S Act) (it : Int) (l : List (AgentView A)) (h : ∀ v ∈ l, v.history m' = v.history m) :
    l.mapM (fun a => (a.history m').getX it) = l.mapM (fun a => (a.history m).getX it) := by
  induction l with
  | nil => rfl
  | cons v t ih =>
    rw [List.mapM_cons, List.mapM_cons, h v (by simp), ih (fun u hu => h u (by simp [hu]))]

/-- SPEC: the function looks at agents only through the histories of the views in its arguments -/
def LooksAtHistories {Q R : Type} (f : Mem A C V K S Act → Q → Py R) (viewsIn : Q → List (AgentView A)) : Prop :=
  ∀ m m' q, (∀ v ∈ viewsIn q, v.history m' = v.history m) → f m' q = f m q

/-- While the agents' states are not snapshotted before they are initialised again, a function of the views' histories called through its
cache always returns what it was when the views were made, whatever else is computed, forgotten and done with the agents. -/
theorem C130_cached {Q R : Type} [DecidableEq Q] (f : Mem A C V K S Act → Q → Py R) (viewsIn : Q → List (AgentView A))
    (hf : LooksAtHistories f viewsIn) (m : Mem A C V K S Act) (h : Separate m) (ev : List (Event A C V K S Act Q))
    (hviews : ∀ q ∈ callsOf ev, ∀ v ∈ viewsIn q, (∃ obj, v = fromAgent m obj v.id) ∧ NoSnapshotBeforeInit v.id (opsOf ev)) :
    results shapeOf copy f m [] ev = (callsOf ev).map (f m) := by
  refine results_steady shapeOf copy f (f m) m [] (fun e he => by cases he) ev (fun l hl q hq => ?_)
  refine hf m _ q (fun v hv => ?_)
  obtain ⟨⟨obj, hv1⟩, hv2⟩ := hviews q hq v hv
  obtain ⟨r, hr⟩ := hl
  have hset : NoSnapshotBeforeInit v.id l := fun o ho => hv2 o (by rw [← hr]; exact untilInit_prefix v.id l r o ho)
  have := C130_settled shapeOf copy m h obj v.id l hset
  rw [← hv1] at this
  rw [this, hv1]
  rfl

/-- The mean state is such a function ... -/
theorem C130_mean_looks [Add V] (div : V → Nat → V) :
    LooksAtHistories (xMean div : Mem A C V K S Act → List (AgentView A) × Int → Py V) Prod.fst := by
  intro m m' q h
  unfold xMean
  rw [mapM_histories m m' q.2 q.1 h]

/-- ... and so are the predictions of an agent. -/
theorem C130_predictions_look {P R : Type} (predict : P → A → V → Py R) :
    LooksAtHistories (predictAgent predict : Mem A C V K S Act → AgentView A × Int × P → Py R) (fun q => [q.1]) := by
  intro m m' q h
  unfold predictAgent
  rw [h q.1 (by simp)]

end

/-- The mean is the one of C75, taken of the histories the views show. -/
theorem C130_same_mean {A C E K S Act : Type} [NormedAddCommGroup E] [NormedSpace ℝ E] (m : Mem A C E K S Act) (vs : List (AgentView A))
    (it : Int) (f : A → E → ℝ) (g : A → E → E) :
    xMean (fun v n => (n : ℝ)⁻¹ • v) m (vs, it) = SMet.xMean (vs.map fun v => ⟨f v.id, g v.id, v.history m, v.counters.nSelected⟩) it := by
  have h : ∀ l : List (AgentView A), SMet.statesAt (l.map fun v => ⟨f v.id, g v.id, v.history m, v.counters.nSelected⟩) it = l.mapM fun a => (a.history m).getX it := by
    intro l
    unfold SMet.statesAt
    induction l with
    | nil => rfl
    | cons v t ih => rw [List.map_cons, List.mapM_cons, List.mapM_cons, ih]
  unfold xMean SMet.xMean
  rw [h]
  dsimp only
  cases vs.mapM fun a => (a.history m).getX it with
  | error e => rfl
  | ok xs => cases xs <;> rfl

/-! ### examples -/

/-- an agent right after construction -/
def newAgent (i : Fin 2) : Agent (Fin 2) Unit Rat Unit Unit Unit :=
  { id := i, index := i.val, period := 1, costShape := (), activation := (), isServer := false, noCountDepth := 0, x := none,
    history := History.empty, aux := PyDict.empty, inbox := Inbox.empty, nXUpdates := 0, nSent := 0, nReceived := 0, nDropped := 0,
    nSelected := 0, nFunction := 0, nGradient := 0, nHessian := 0, nProximal := 0 }

/-- two new agents -/
def twoNew : Mem (Fin 2) Unit Rat Unit Unit Unit := ⟨fun _ => History.empty, 2, Fin.val, newAgent⟩

theorem twoNew_separate : Separate twoNew := ⟨fun _ _ e => Fin.ext e, fun a => a.isLt⟩

/-- `agent.x = v` -/
def assign (a : Fin 2) (v : Rat) : Op (Fin 2) Unit Rat Unit Unit Unit := .other a fun b => b.setX v

/-- `agent.initialize(x=v)` -/
def start (a : Fin 2) (v : Rat) : Op (Fin 2) Unit Rat Unit Unit Unit := .init a (some v) none

/-- the operations with shapes and copies that do not matter -/
def runTwo (ops : List (Op (Fin 2) Unit Rat Unit Unit Unit)) : Mem (Fin 2) Unit Rat Unit Unit Unit :=
  Views.run (fun _ => ()) id twoNew ops

theorem runTwo_separate (ops : List (Op (Fin 2) Unit Rat Unit Unit Unit)) : Separate (runTwo ops) :=
  run_separate _ _ _ twoNew_separate ops

/-- **C130 (refuted: "immutable view of agent").** A snapshot taken after the view was made appears in the view's history. -/
theorem C130_immutable_refuted : ∃ (m : Mem (Fin 2) Unit Rat Unit Unit Unit) (ops : List (Op (Fin 2) Unit Rat Unit Unit Unit)), Separate m ∧
    (fromAgent m 0 0).history (Views.run (fun _ => ()) id m ops) ≠ (fromAgent m 0 0).history m := by
  refine ⟨runTwo [start 0 0], [assign 0 1, .snapshot 0 1 false], runTwo_separate _, fun h => ?_⟩
  have := congrArg History.keysList h
  revert this
  decide +kernel

/-- the mean as a number -/
def ratMean (v : Rat) (n : Nat) : Rat := v / n

/-- **C130 (refuted: `x_mean` is the mean of the final states).** If the agents go on after `x_mean` was called, a later call with the same
views returns the old mean. -/
theorem C130_cached_refuted : ∃ (m : Mem (Fin 2) Unit Rat Unit Unit Unit) (more : List (Op (Fin 2) Unit Rat Unit Unit Unit)) (v : AgentView (Fin 2)),
    Separate m ∧ v = fromAgent m 0 0 ∧
    results (fun _ => ()) id (xMean ratMean) m [] (.call ([v], -1) :: more.map .op ++ [.call ([v], -1)]) = [.ok 0, .ok 0] ∧
    xMean ratMean (Views.run (fun _ => ()) id m more) ([v], -1) = .ok 1 := by
  refine ⟨runTwo [start 0 0], [assign 0 1, .snapshot 0 1 false], _, runTwo_separate _, rfl, ?_, ?_⟩ <;> decide +kernel

/-- concrete instance: after a run the agent is initialised and run again; the view still shows the first run -/
example : NoSnapshotBeforeInit 0 [start 0 5, assign 0 6, .snapshot 0 1 false] ∧
    (fromAgent (runTwo [start 0 0, assign 0 1, .snapshot 0 1 false]) 0 0).history
      (runTwo ([start 0 0, assign 0 1, .snapshot 0 1 false] ++ [start 0 5, assign 0 6, .snapshot 0 1 false])) =
    ((runTwo [start 0 0, assign 0 1, .snapshot 0 1 false]).agent 0).history := by
  have hs : NoSnapshotBeforeInit 0 [start 0 5, assign 0 6, .snapshot 0 1 false] := fun o ho => by simp [untilInit, isInit, start] at ho
  refine ⟨hs, ?_⟩
  have := C130_settled (fun _ => ()) id _ (runTwo_separate [start 0 0, assign 0 1, .snapshot 0 1 false]) 0 0 _ hs
  unfold runTwo Views.run at this ⊢
  rw [List.foldl_append]
  exact this

/-- concrete instance of the cached mean: the two agents are restarted between two calls -/
example : results (fun _ => ()) id (xMean ratMean) (runTwo [start 0 2, start 1 4]) []
    [.call ([fromAgent (runTwo [start 0 2, start 1 4]) 0 0, fromAgent (runTwo [start 0 2, start 1 4]) 1 1], -1), .op (start 0 7),
     .forget fun _ => true, .op (.snapshot 0 3 true),
     .call ([fromAgent (runTwo [start 0 2, start 1 4]) 0 0, fromAgent (runTwo [start 0 2, start 1 4]) 1 1], -1)] = [.ok 3, .ok 3] := by
  have hs : ∀ a : Fin 2, (a = 0 ∨ a = 1) → NoSnapshotBeforeInit a [start 0 7, (.snapshot 0 3 true : Op (Fin 2) Unit Rat Unit Unit Unit)] := by
    intro a ha o ho
    rcases ha with rfl | rfl
    · simp [untilInit, isInit, start] at ho
    · simp [untilInit, isInit, start] at ho
      rcases ho with rfl | rfl <;> rfl
  rw [C130_cached (fun _ => ()) id (xMean ratMean) Prod.fst (C130_mean_looks ratMean) _ (runTwo_separate _)]
  · decide +kernel
  · intro q hq v hv
    simp only [callsOf, List.mem_cons, List.not_mem_nil, or_false, or_self] at hq
    subst hq
    simp only [List.mem_cons, List.not_mem_nil, or_false] at hv
    rcases hv with rfl | rfl
    · exact ⟨⟨0, rfl⟩, hs 0 (Or.inl rfl)⟩
    · exact ⟨⟨1, rfl⟩, hs 1 (Or.inr rfl)⟩

/-- concrete instance: the view of two connected agents -/
example : ∃ nv, fromNetwork (⟨fun _ => History.empty, 2, Fin.val, newAgent⟩ : Mem (Fin 2) Unit Rat Unit Unit Unit) 7 .p2p
    ((Graph.empty : Graph (Fin 2)).addEdge 0 1 none) = .ok nv ∧ nv.agents.map AgentView.id = [0, 1] := by
  obtain ⟨nv, h1, hs, h2, _⟩ := C130_p2p (⟨fun _ => History.empty, 2, Fin.val, newAgent⟩ : Mem (Fin 2) Unit Rat Unit Unit Unit) 7
    ((Graph.empty : Graph (Fin 2)).addEdge 0 1 none) (addEdge_ok _ _ _ _ empty_ok)
  exact ⟨nv, h1, by rw [h2, hs.ids]; rfl⟩

end Verif.Props
