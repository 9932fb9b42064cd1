import Verif.Lemmas.Topology
import Verif.Props.Construct
import Verif.Props.Rates
import Verif.Props.Network
set_option linter.unusedSectionVars false
/-!
# C128: a network has the topology of the graph it was built from

`Topology.p2p reg g agents x` is `P2PNetwork(g, agents, ...)`, `star` the graph a `FedNetwork` builds; `Graph.net`/`Graph.fedNet` are the
static networks of Model/Network, so what is proved here about them (`Net.WF`, `JoinedUp`, `IsFed`) are the hypotheses that the
other properties make about networks.
-/
namespace Verif.Props
open Verif Topology

section
variable {N A Sig : Type} [DecidableEq N] [DecidableEq A] [DecidableEq Sig]

/-- SPEC: a simple undirected graph made with `add_node` and `add_edge` -/
inductive MadeByHand : Graph N → Prop where
  | empty : MadeByHand Graph.empty
  | node (g a) : MadeByHand g → MadeByHand (g.addNode a)
  | edge (g u v d) : MadeByHand g → MadeByHand (g.addEdge u v d)

/-- Such graphs list nodes and neighbours once, neighbours are nodes, and adjacency and weights are symmetric. -/
theorem C128_graphs (g : Graph N) (h : MadeByHand g) : g.OK := by
  induction h with
  | empty => exact empty_ok
  | node g a _ ih => exact addNode_ok g a ih
  | edge g u v d _ ih => exact addEdge_ok g u v d ih

/-- SPEC: `h` is `g` with the i-th node replaced by the i-th agent -/
structure Replaces (g : Graph N) (agents : List A) (h : Graph A) : Prop where
  nodes : h.nodes = agents
  within : ∀ a b, b ∈ h.nbrs a → a ∈ agents ∧ b ∈ agents
  edges : ∀ (i j : Nat) (x y : N) (a b : A), g.nodes[i]? = some x → g.nodes[j]? = some y → agents[i]? = some a → agents[j]? = some b →
    (b ∈ h.nbrs a ↔ y ∈ g.nbrs x)
  weights : ∀ (i j : Nat) (x y : N) (a b : A), g.nodes[i]? = some x → g.nodes[j]? = some y → agents[i]? = some a → agents[j]? = some b →
    y ∈ g.nbrs x → h.weight a b = g.weight x y

/-- the renamed edges of `relabel` -/
def renamedEdges (f : N → Option A) (g : Graph N) : List ((A × A) × Option ℝ) :=
  g.edges.filterMap fun e => (f e.1).bind fun a => (f e.2).map fun b => ((a, b), g.weight e.1 e.2)

theorem mem_renamedEdges (f : N → Option A) (g : Graph N) (e : (A × A) × Option ℝ) :
    e ∈ renamedEdges f g ↔ ∃ x y, (x, y) ∈ g.edges ∧ f x = some e.1.1 ∧ f y = some e.1.2 ∧ g.weight x y = e.2 := by
  unfold renamedEdges
  rw [List.mem_filterMap]
  constructor
  · rintro ⟨⟨x, y⟩, he, h⟩
    rw [Option.bind_eq_some_iff] at h
    obtain ⟨a, ha, h⟩ := h
    rw [Option.map_eq_some_iff] at h
    obtain ⟨b, hb, h⟩ := h
    subst h
    exact ⟨x, y, he, ha, hb, rfl⟩
  · rintro ⟨x, y, he, ha, hb, hw⟩
    refine ⟨(x, y), he, ?_⟩
    show (f x).bind _ = _
    rw [ha]
    show (f y).map _ = _
    rw [hb, hw]; rfl

theorem relabel_eq (f : N → Option A) (g : Graph N) :
    relabel f g = addEdges ((g.nodes.filterMap f).foldl Graph.addNode Graph.empty) (renamedEdges f g) := rfl

theorem relabel_ok (f : N → Option A) (g : Graph N) : (relabel f g).OK := by
  rw [relabel_eq]; exact addEdges_ok _ _ (addNodes_ok _ _ empty_ok)

theorem mem_relabel (f : N → Option A) (g : Graph N) (hg : g.OK) (a b : A) :
    b ∈ (relabel f g).nbrs a ↔ ∃ x y, f x = some a ∧ f y = some b ∧ y ∈ g.nbrs x := by
  rw [relabel_eq, mem_addEdges, addNodes_nbrs]
  constructor
  · rintro (h | ⟨e, he, hj⟩)
    · cases h
    · obtain ⟨x, y, hxy, hx, hy, _⟩ := (mem_renamedEdges f g e).1 he
      rcases hj with ⟨rfl, rfl⟩ | ⟨rfl, rfl⟩
      · exact ⟨x, y, hx, hy, (edges_iff g hg x y).2 (Or.inl hxy)⟩
      · exact ⟨y, x, hy, hx, (edges_iff g hg y x).2 (Or.inr hxy)⟩
  · rintro ⟨x, y, hx, hy, hxy⟩
    rcases (edges_iff g hg x y).1 hxy with h | h
    · exact Or.inr ⟨((a, b), g.weight x y), (mem_renamedEdges f g _).2 ⟨x, y, h, hx, hy, rfl⟩, Or.inl ⟨rfl, rfl⟩⟩
    · exact Or.inr ⟨((b, a), g.weight y x), (mem_renamedEdges f g _).2 ⟨y, x, h, hy, hx, rfl⟩, Or.inr ⟨rfl, rfl⟩⟩

theorem relabel_weight (f : N → Option A) (g : Graph N) (hg : g.OK) (hf : ∀ x y a, f x = some a → f y = some a → x = y) (x y : N) (a b : A)
    (hx : f x = some a) (hy : f y = some b) (hxy : y ∈ g.nbrs x) : (relabel f g).weight a b = g.weight x y := by
  have hstart : ((g.nodes.filterMap f).foldl Graph.addNode Graph.empty).weight a b = none := by rw [addNodes_weight]; rfl
  have hmem : b ∈ (relabel f g).nbrs a := (mem_relabel f g hg a b).2 ⟨x, y, hx, hy, hxy⟩
  rw [relabel_eq, mem_addEdges, addNodes_nbrs] at hmem
  have hj := hmem.resolve_left (by intro h; cases h)
  rw [relabel_eq, addEdges_weight _ _ (addNodes_ok _ _ empty_ok) a b (g.weight x y) _ (Or.inl hstart), if_pos hj]
  intro e he hje
  obtain ⟨x', y', _, hx', hy', hw⟩ := (mem_renamedEdges f g e).1 he
  rcases hje with ⟨rfl, rfl⟩ | ⟨rfl, rfl⟩
  · rw [hf x x' _ hx hx', hf y y' _ hy hy', hw]
  · rw [hf x y' _ hx hy', hf y x' _ hy hx', hg.weight_symm, hw]

theorem relabel_replaces (g : Graph N) (hg : g.OK) (agents : List A) (ha : agents.Nodup) (hl : agents.length = g.nodes.length) :
    Replaces g agents (relabel (agentFor g.nodes agents) g) := by
  have hinj := agentFor_inj g.nodes agents ha
  have hstart : ((g.nodes.filterMap (agentFor g.nodes agents)).foldl Graph.addNode Graph.empty).nodes = agents := by
    rw [filterMap_agentFor g.nodes agents hg.nodup hl, addNodes_nodes _ _ (by simpa [Graph.empty] using ha)]; rfl
  have hin : ∀ x a, agentFor g.nodes agents x = some a → a ∈ agents := fun x a h => by
    obtain ⟨i, _, h2⟩ := agentFor_some _ _ _ _ h
    exact List.mem_of_getElem? h2
  refine ⟨?_, ?_, ?_, ?_⟩
  · rw [relabel_eq, addEdges_nodes, hstart]
    intro e he
    obtain ⟨x, y, _, hx, hy, _⟩ := (mem_renamedEdges _ _ e).1 he
    rw [hstart]
    exact ⟨hin _ _ hx, hin _ _ hy⟩
  · intro a b h
    obtain ⟨x, y, hx, hy, _⟩ := (mem_relabel _ g hg a b).1 h
    exact ⟨hin _ _ hx, hin _ _ hy⟩
  · intro i j x y a b hx hy hai hbj
    have h1 := agentFor_get g.nodes agents hg.nodup i x a hx hai
    have h2 := agentFor_get g.nodes agents hg.nodup j y b hy hbj
    rw [mem_relabel _ g hg]
    constructor
    · rintro ⟨x', y', hx', hy', h⟩
      rw [hinj x x' a h1 hx', hinj y y' b h2 hy']; exact h
    · intro h; exact ⟨x, y, h1, h2, h⟩
  · intro i j x y a b hx hy hai hbj h
    exact relabel_weight _ g hg hinj x y a b (agentFor_get g.nodes agents hg.nodup i x a hx hai)
      (agentFor_get g.nodes agents hg.nodup j y b hy hbj) h

/-- what the constructor got through -/
theorem p2p_built (reg : A → Int) (g : Graph N) (agents : List A) (x : Construct.Args A Sig) (h : Graph A)
    (hok : (p2p reg g agents x).2 = .ok h) :
    h = relabel (agentFor g.nodes agents) g ∧ agents.length = g.nodes.length ∧ agents.Nodup ∧ Connected h := by
  unfold p2p at hok
  dsimp only at hok
  generalize hx : ({ x with connected := isConnected (relabel (agentFor g.nodes agents) g) } : Construct.Args A Sig) = x' at hok
  cases hr : (Construct.p2p reg g.nodes.length agents x').2 with
  | error e => rw [hr] at hok; cases hok
  | ok l =>
    rw [hr] at hok
    have hh : relabel (agentFor g.nodes agents) g = h := by
      have : (Except.ok (relabel (agentFor g.nodes agents) g) : Py (Graph A)) = .ok h := hok
      exact Except.ok.inj this
    have hla : l = agents := ((call_cases reg (.p2p g.nodes.length agents x')).2 l hr).1
    rw [hla] at hr
    obtain ⟨h1, h2, _, ⟨_, _, h3⟩, _⟩ := (C10_p2p_accepts reg g.nodes.length agents x').1 hr
    refine ⟨hh.symm, h1, h2, ?_⟩
    rw [← hx] at h3
    rw [← hh]
    exact (isConnected_iff _).1 h3

/-- **C128.** A peer-to-peer network that could be constructed is the given graph with the i-th agent in the place of the i-th node:
`agents()` is the given list, two agents are neighbours exactly if the nodes they replaced are, and edges keep their weights. -/
theorem C128_p2p (reg : A → Int) (g : Graph N) (hg : g.OK) (agents : List A) (x : Construct.Args A Sig) (h : Graph A)
    (hok : (p2p reg g agents x).2 = .ok h) : Replaces g agents h := by
  obtain ⟨rfl, hl, hn, _⟩ := p2p_built reg g agents x h hok
  exact relabel_replaces g hg agents hn hl

/-- Its nodes and neighbour lists have no duplicates and are symmetric, and any agent can be reached from any other: what the other
properties assume of a peer-to-peer network holds of every network that could be constructed. -/
theorem C128_wellformed (reg : A → Int) (g : Graph N) (agents : List A) (x : Construct.Args A Sig) (h : Graph A)
    (hok : (p2p reg g agents x).2 = .ok h) : h.net.WF ∧ JoinedUp h.net ∧ h.net.nodes ≠ [] ∧ h.net.queryAgents = h.net.nodes := by
  obtain ⟨he, _, _, hc⟩ := p2p_built reg g agents x h hok
  have hk : h.OK := by rw [he]; exact relabel_ok _ _
  exact ⟨⟨hk.nodup, hk.nbrs_nodup, fun a b hb => (hk.mem a b hb).2, hk.symm, fun a ha => ha, hk.nodup⟩, hc.2, hc.1, rfl⟩

/-- without self-loops in the given graph there are none in the network, and the default weights are symmetric, non-negative, sum to one
and are positive exactly on the edges -/
theorem C128_default_weights (reg : A → Int) (g : Graph N) (hg : g.OK) (hs : ∀ x, x ∉ g.nbrs x) (agents : List A) (x : Construct.Args A Sig)
    (h : Graph A) (hok : (p2p reg g agents x).2 = .ok h) : Loopless h.net ∧ GoodWeights h.net (weights h.net) := by
  have hloop : Loopless h.net := by
    intro a ha
    obtain ⟨he, _, hn, _⟩ := p2p_built reg g agents x h hok
    have ha' : a ∈ (relabel (agentFor g.nodes agents) g).nbrs a := by rw [← he]; exact ha
    obtain ⟨x, y, hx, hy, hxy⟩ := (mem_relabel _ g hg a a).1 ha'
    rw [agentFor_inj g.nodes agents hn x y a hx hy] at hxy
    exact hs y hxy
  exact ⟨hloop, metropolis_good h.net (C128_wellformed reg g agents x h hok).1 hloop⟩

/-- Every agent has as many neighbours as the node it replaced. -/
theorem C128_degrees (reg : A → Int) (g : Graph N) (hg : g.OK) (agents : List A) (x : Construct.Args A Sig) (h : Graph A)
    (hok : (p2p reg g agents x).2 = .ok h) (i : Nat) (v : N) (a : A) (hv : g.nodes[i]? = some v) (ha : agents[i]? = some a) :
    (h.nbrs a).length = (g.nbrs v).length ∧ degree h.net a = degree g.net v := by
  have hr := C128_p2p reg g hg agents x h hok
  obtain ⟨he, hl, hn, _⟩ := p2p_built reg g agents x h hok
  have hk : h.OK := by rw [he]; exact relabel_ok _ _
  have hsome : ∀ y ∈ g.nbrs v, ∃ (j : Nat) (b : A), g.nodes[j]? = some y ∧ agents[j]? = some b ∧ agentFor g.nodes agents y = some b := by
    intro y hy
    obtain ⟨j, hj, e⟩ := List.mem_iff_getElem.1 (hg.mem v y hy).2
    have hj' : j < agents.length := by rw [hl]; exact hj
    have e' : g.nodes[j]? = some y := by rw [← e]; exact List.getElem?_eq_getElem hj
    exact ⟨j, agents[j], e', List.getElem?_eq_getElem hj', agentFor_get _ _ hg.nodup j y _ e' (List.getElem?_eq_getElem hj')⟩
  have hlen : ∀ l : List N, (∀ y ∈ l, ∃ b, agentFor g.nodes agents y = some b) → (l.filterMap (agentFor g.nodes agents)).length = l.length := by
    intro l
    induction l with
    | nil => intro _; rfl
    | cons y t ih =>
      intro hy
      obtain ⟨b, hb⟩ := hy y (by simp)
      rw [List.filterMap_cons, hb]
      show (_ :: _).length = _
      rw [List.length_cons, List.length_cons, ih (fun z hz => hy z (List.mem_cons_of_mem _ hz))]
  have hperm : (h.nbrs a).Perm ((g.nbrs v).filterMap (agentFor g.nodes agents)) := by
    refine (List.perm_ext_iff_of_nodup (hk.nbrs_nodup a) ?_).2 ?_
    · exact (hg.nbrs_nodup v).filterMap (fun x y b hx hy => agentFor_inj g.nodes agents hn x y b hx hy)
    · intro b
      rw [List.mem_filterMap]
      constructor
      · intro hb
        obtain ⟨j, hj, e⟩ := List.mem_iff_getElem.1 (hr.within a b hb).2
        have hj' : j < g.nodes.length := by rw [← hl]; exact hj
        have e' : agents[j]? = some b := by rw [← e]; exact List.getElem?_eq_getElem hj
        exact ⟨g.nodes[j], (hr.edges i j v _ a b hv (List.getElem?_eq_getElem hj') ha e').1 hb,
          agentFor_get _ _ hg.nodup j _ b (List.getElem?_eq_getElem hj') e'⟩
      · rintro ⟨y, hy, hb⟩
        obtain ⟨j, b', h1, h2, h3⟩ := hsome y hy
        rw [h3] at hb
        rw [← Option.some.inj hb]
        exact (hr.edges i j v y a b' hv h1 ha h2).2 hy
  have hfirst : (h.nbrs a).length = (g.nbrs v).length := by
    rw [hperm.length_eq]
    exact hlen _ (fun y hy => by obtain ⟨_, b, _, _, h3⟩ := hsome y hy; exact ⟨b, h3⟩)
  refine ⟨hfirst, ?_⟩
  show (h.nbrs a).length + (if a ∈ h.nbrs a then 1 else 0) = (g.nbrs v).length + (if v ∈ g.nbrs v then 1 else 0)
  rw [hfirst]
  congr 1
  have := hr.edges i i v v a a hv hv ha ha
  by_cases hx : v ∈ g.nbrs v
  · rw [if_pos hx, if_pos (this.2 hx)]
  · rw [if_neg hx, if_neg (fun h' => hx (this.1 h'))]

/-- Whether a construction succeeds depends on the given graph being connected, not on how networkx stores the relabelled one. -/
theorem C128_connected (g : Graph N) (hg : g.OK) (agents : List A) (ha : agents.Nodup) (hl : agents.length = g.nodes.length) :
    Connected (relabel (agentFor g.nodes agents) g) ↔ Connected g := by
  have hr := relabel_replaces g hg agents ha hl
  obtain ⟨h, hh⟩ : ∃ h, h = relabel (agentFor g.nodes agents) g := ⟨_, rfl⟩
  rw [← hh] at hr ⊢
  have hinj := agentFor_inj g.nodes agents ha
  have e1 : ∀ x y a b, agentFor g.nodes agents x = some a → agentFor g.nodes agents y = some b → (b ∈ h.nbrs a ↔ y ∈ g.nbrs x) := by
    intro x y a b hx hy
    obtain ⟨i, h1, h2⟩ := agentFor_some _ _ _ _ hx
    obtain ⟨j, h3, h4⟩ := agentFor_some _ _ _ _ hy
    exact hr.edges i j x y a b h1 h3 h2 h4
  have tot : ∀ x ∈ g.nodes, ∃ a ∈ agents, agentFor g.nodes agents x = some a := by
    intro x hx
    obtain ⟨i, hi, e⟩ := List.mem_iff_getElem.1 hx
    have hi' : i < agents.length := by rw [hl]; exact hi
    exact ⟨agents[i], List.getElem_mem hi', agentFor_get _ _ hg.nodup i x _ (by rw [← e]; exact List.getElem?_eq_getElem hi)
      (List.getElem?_eq_getElem hi')⟩
  have sur : ∀ a ∈ agents, ∃ x ∈ g.nodes, agentFor g.nodes agents x = some a := by
    intro a ha'
    obtain ⟨i, hi, e⟩ := List.mem_iff_getElem.1 ha'
    have hi' : i < g.nodes.length := by rw [← hl]; exact hi
    exact ⟨g.nodes[i], List.getElem_mem hi', agentFor_get _ _ hg.nodup i _ a (List.getElem?_eq_getElem hi')
      (by rw [← e]; exact List.getElem?_eq_getElem hi)⟩
  unfold Connected
  rw [hr.nodes]
  refine and_congr ?_ ⟨?_, ?_⟩
  · constructor
    · intro hne e
      rw [e] at hl
      exact hne (List.length_eq_zero_iff.1 hl)
    · intro hne e
      rw [e] at hl
      exact hne (List.length_eq_zero_iff.1 hl.symm)
  · intro hc x hx y hy
    obtain ⟨a, haa, hxa⟩ := tot x hx
    obtain ⟨b, hbb, hyb⟩ := tot y hy
    have := hc a haa b hbb
    have key : ∀ b, Relation.ReflTransGen (fun a b => b ∈ h.nbrs a) a b → ∀ y, agentFor g.nodes agents y = some b →
        Relation.ReflTransGen (fun a b => b ∈ g.nbrs a) x y := by
      intro b hp
      induction hp with
      | refl => intro y hy; rw [hinj x y a hxa hy]
      | tail hpre hstep ih =>
        intro y hy
        rename_i c d
        obtain ⟨z, _, hz⟩ := sur c (hr.within c d hstep).1
        exact (ih z hz).tail ((e1 z y c d hz hy).1 hstep)
    exact key b this y hyb
  · intro hc a haa b hbb
    obtain ⟨x, hx, hxa⟩ := sur a haa
    obtain ⟨y, hy, hyb⟩ := sur b hbb
    have key : ∀ y, Relation.ReflTransGen (fun a b => b ∈ g.nbrs a) x y → ∀ b, agentFor g.nodes agents y = some b →
        Relation.ReflTransGen (fun a b => b ∈ h.nbrs a) a b := by
      intro y hp
      induction hp with
      | refl => intro b hb; rw [hxa] at hb; rw [Option.some.inj hb]
      | tail hpre hstep ih =>
        intro b hb
        rename_i c d
        obtain ⟨z, _, hz⟩ := tot c (hg.mem c d hstep).1
        exact (ih z hz).tail ((e1 c d z b hz hb).2 hstep)
    exact key y (hc x hx y hy) b hyb

/-- `Network.edges` (`graph.edges`): every edge once, in one of its two directions. -/
theorem C128_edges (g : Graph A) (hg : g.OK) : g.edges.Nodup ∧ (∀ a b, b ∈ g.nbrs a ↔ (a, b) ∈ g.edges ∨ (b, a) ∈ g.edges) ∧
    (∀ a b, a ≠ b → ¬ ((a, b) ∈ g.edges ∧ (b, a) ∈ g.edges)) :=
  ⟨edgesFrom_nodup g hg.nbrs_nodup _ _ hg.nodup, edges_iff g hg, fun a b hab h => edgesFrom_once g _ _ hg.nodup a b hab h.1 h.2⟩

/-- The adjacency matrix is symmetric and, if no edge of the given graph has a weight, 1 exactly between neighbours and 0 elsewhere. -/
theorem C128_adjacency (reg : A → Int) (g : Graph N) (hg : g.OK) (agents : List A) (x : Construct.Args A Sig) (h : Graph A)
    (hok : (p2p reg g agents x).2 = .ok h) :
    (∀ a b, h.adjacency a b = h.adjacency b a) ∧
    (∀ (i j : Nat) (v w : N) (a b : A), g.nodes[i]? = some v → g.nodes[j]? = some w → agents[i]? = some a → agents[j]? = some b →
      h.adjacency a b = if w ∈ g.nbrs v then (g.weight v w).getD 1 else 0) ∧
    ((∀ v w, g.weight v w = none) → ∀ a b, (h.adjacency a b = 1 ↔ b ∈ h.nbrs a) ∧ (h.adjacency a b = 0 ↔ b ∉ h.nbrs a)) := by
  have hr := C128_p2p reg g hg agents x h hok
  obtain ⟨he, hl, hn, _⟩ := p2p_built reg g agents x h hok
  have hk : h.OK := by rw [he]; exact relabel_ok _ _
  refine ⟨fun a b => ?_, fun i j v w a b hv hw ha hb => ?_, fun hnone a b => ?_⟩
  · unfold Graph.adjacency
    rw [hk.weight_symm a b]
    by_cases hab : b ∈ h.nbrs a
    · rw [if_pos hab, if_pos (hk.symm a b hab)]
    · rw [if_neg hab, if_neg (fun h' => hab (hk.symm b a h'))]
  · unfold Graph.adjacency
    by_cases hvw : w ∈ g.nbrs v
    · rw [if_pos hvw, if_pos ((hr.edges i j v w a b hv hw ha hb).2 hvw), hr.weights i j v w a b hv hw ha hb hvw]
    · rw [if_neg hvw, if_neg (fun h' => hvw ((hr.edges i j v w a b hv hw ha hb).1 h'))]
  · have hval : b ∈ h.nbrs a → h.adjacency a b = 1 := by
      intro hab
      obtain ⟨v, w, hva, hwb, hvw⟩ := (mem_relabel _ g hg a b).1 (by rw [← he]; exact hab)
      obtain ⟨i, h1, h2⟩ := agentFor_some _ _ _ _ hva
      obtain ⟨j, h3, h4⟩ := agentFor_some _ _ _ _ hwb
      unfold Graph.adjacency
      rw [if_pos hab, hr.weights i j v w a b h1 h3 h2 h4 hvw, hnone]; rfl
    have hzero : b ∉ h.nbrs a → h.adjacency a b = 0 := fun hab => by unfold Graph.adjacency; rw [if_neg hab]
    by_cases hab : b ∈ h.nbrs a
    · rw [hval hab]
      exact ⟨⟨fun _ => hab, fun _ => rfl⟩, ⟨fun h0 => absurd h0 one_ne_zero, fun h0 => absurd hab h0⟩⟩
    · rw [hzero hab]
      exact ⟨⟨fun h0 => absurd h0.symm one_ne_zero, fun h0 => absurd h0 hab⟩, ⟨fun _ => hab, fun _ => rfl⟩⟩

/-- The star of a federated network: the server's neighbours are the clients in the given order, every client's only neighbour is the
server, `agents()` are the clients. -/
theorem C128_star (server : A) (clients : List A) (hn : (server :: clients).Nodup) :
    IsFed ((star server clients).fedNet server) server clients ∧ JoinedUp ((star server clients).fedNet server) := by
  have hs := (List.nodup_cons.1 hn).1
  have hc := (List.nodup_cons.1 hn).2
  obtain ⟨g0, hg0⟩ : ∃ g0 : Graph A, g0 = (server :: clients).foldl Graph.addNode Graph.empty := ⟨_, rfl⟩
  have hg0ok : g0.OK := by rw [hg0]; exact addNodes_ok _ _ empty_ok
  have hg0n : g0.nodes = server :: clients := by
    rw [hg0, addNodes_nodes _ _ (by simpa [Graph.empty] using hn)]; rfl
  have hg0b : ∀ a, g0.nbrs a = [] := by intro a; rw [hg0, addNodes_nbrs]; rfl
  have key : ∀ (l : List A) (g : Graph A), g.OK → g.nodes = server :: clients → (∀ c ∈ l, c ∈ clients) → l.Nodup →
      (∀ c ∈ l, g.nbrs c = [] ∧ c ∉ g.nbrs server) →
      (l.foldl (fun g c => g.addEdge server c none) g).nodes = server :: clients ∧
      (l.foldl (fun g c => g.addEdge server c none) g).OK ∧
      (l.foldl (fun g c => g.addEdge server c none) g).nbrs server = g.nbrs server ++ l ∧
      ∀ c, c ≠ server → (l.foldl (fun g c => g.addEdge server c none) g).nbrs c = if c ∈ l then [server] else g.nbrs c := by
    intro l
    induction l with
    | nil => intro g hk hno _ _ _; exact ⟨hno, hk, by simp, fun c _ => by simp⟩
    | cons c t ih =>
      intro g hk hno hcl hln hl
      have hcn := List.nodup_cons.1 hln
      have hcs : c ≠ server := fun e => hs (by rw [← e]; exact hcl c (by simp))
      have hserver : server ∈ g.nodes := by rw [hno]; simp
      have hcnode : c ∈ g.nodes := by rw [hno]; exact List.mem_cons_of_mem _ (hcl c (by simp))
      have hnb : ∀ y, (g.addEdge server c none).nbrs y = if y = c then g.nbrs c ++ [server] else if y = server then g.nbrs server ++ [c]
          else g.nbrs y := by
        intro y
        unfold Graph.addEdge
        show link (link ((g.addNode server).addNode c).nbrs server c) c server y = _
        rw [addNode_nbrs, addNode_nbrs]
        unfold link
        by_cases hy : y = c
        · rw [if_pos hy, if_pos hy, if_neg hcs, (hl c (by simp)).1, if_neg (by simp)]
        · rw [if_neg hy, if_neg hy]
          by_cases hy' : y = server
          · rw [if_pos hy', if_pos hy', if_neg (hl c (by simp)).2]
          · rw [if_neg hy', if_neg hy']
      have hstep := ih (g.addEdge server c none) (addEdge_ok g _ _ _ hk)
        (by rw [addEdge_nodes_of_mem g _ _ _ hserver hcnode, hno]) (fun c' h' => hcl c' (List.mem_cons_of_mem _ h')) hcn.2
        (fun c' h' => by
          have hne : c' ≠ c := fun e => hcn.1 (by rw [← e]; exact h')
          have hns : c' ≠ server := fun e => hs (by rw [← e]; exact hcl c' (List.mem_cons_of_mem _ h'))
          refine ⟨by rw [hnb, if_neg hne, if_neg hns]; exact (hl c' (List.mem_cons_of_mem _ h')).1, ?_⟩
          rw [hnb, if_neg (fun e => hcs e.symm), if_pos rfl]
          intro hm
          rcases List.mem_append.1 hm with hm | hm
          · exact (hl c' (List.mem_cons_of_mem _ h')).2 hm
          · exact hne (List.mem_singleton.1 hm))
      obtain ⟨s1, s2, s3, s4⟩ := hstep
      rw [List.foldl_cons]
      refine ⟨s1, s2, ?_, fun c' hc' => ?_⟩
      · rw [s3, hnb, if_neg (fun e => hcs e.symm), if_pos rfl]; simp
      · rw [s4 c' hc', hnb]
        by_cases e : c' = c
        · subst e
          rw [if_neg hcn.1, if_pos rfl, (hl c' (by simp)).1]; simp
        · rw [if_neg e, if_neg hc']
          by_cases ht : c' ∈ t
          · rw [if_pos ht, if_pos (List.mem_cons_of_mem _ ht)]
          · rw [if_neg ht, if_neg (fun hm => (List.mem_cons.1 hm).elim e ht)]
  obtain ⟨k1, k2, k3, k4⟩ := key clients g0 hg0ok hg0n (fun c h => h) hc (fun c _ => ⟨hg0b c, by rw [hg0b]; simp⟩)
  have hst : star server clients = clients.foldl (fun g c => g.addEdge server c none) g0 := by rw [hg0]; rfl
  rw [← hst] at k1 k2 k3 k4
  rw [hg0b, List.nil_append] at k3
  have hq : ((star server clients).fedNet server).queryAgents = clients := by
    show (star server clients).nodes.filter _ = _
    rw [k1, List.filter_cons_of_neg (by simp)]
    exact List.filter_eq_self.2 (fun a ha => by
      rw [decide_eq_true_eq]; exact fun e => hs (by rw [← e]; exact ha))
  have hcl : ∀ c ∈ clients, (star server clients).nbrs c = [server] := fun c h => by
    rw [k4 c (fun e => hs (by rw [← e]; exact h)), if_pos h]
  refine ⟨⟨⟨k2.nodup, k2.nbrs_nodup, fun a b hb => (k2.mem a b hb).2, k2.symm, fun a ha => (List.mem_filter.1 ha).1,
    k2.nodup.filter _⟩, k1, k3, hcl, hq⟩, ?_⟩
  have toServer : ∀ i ∈ (star server clients).nodes, Relation.ReflTransGen (fun a b => b ∈ (star server clients).nbrs a) i server := by
    intro i hi
    rw [k1] at hi
    rcases List.mem_cons.1 hi with rfl | hi
    · exact .refl
    · exact .single (by rw [hcl i hi]; simp)
  have fromServer : ∀ j ∈ (star server clients).nodes, Relation.ReflTransGen (fun a b => b ∈ (star server clients).nbrs a) server j := by
    intro j hj
    rw [k1] at hj
    rcases List.mem_cons.1 hj with rfl | hj
    · exact .refl
    · exact .single (by rw [k3]; exact hj)
  exact fun i hi j hj => (toServer i hi).trans (fromServer j hj)

end

/-! ### the weights property -/

/-- SPEC: a matrix the property accepts: square of the number of agents, on the framework and device of their costs -/
def Fits (h : Home) (v : Arr) : Prop := v.shape = [h.n, h.n] ∧ v.framework = h.framework ∧ v.device = h.device

instance (h : Home) (v : Arr) : Decidable (Fits h v) := by unfold Fits; infer_instance

/-- SPEC: the matrix in use after a sequence of uses: the last accepted one; before any was accepted, what the rule gave when first asked -/
def inUse (h : Home) (before : Option Arr) : List Use → Option Arr
  | [] => before
  | .get rule :: t => inUse h (some (before.getD rule)) t
  | .set v :: t => inUse h (if Fits h v then some v else before) t

theorem write_fits (h : Home) (v : Arr) (w : Option Arr) :
    (Fits h v → writeW h v w = (.ok (), some v)) ∧ (¬ Fits h v → writeW h v w = (.error .valueError, w)) := by
  unfold writeW Fits
  by_cases h1 : v.shape = [h.n, h.n]
  · by_cases h2 : v.framework = h.framework
    · by_cases h3 : v.device = h.device
      · simp [h1, h2, h3]
      · simp [h1, h2, h3]
    · simp [h1, h2]
  · simp [h1]

/-- Assigning a matrix succeeds exactly if it fits and is then what `weights` returns; otherwise ValueError is raised and the weights
stay as they were. -/
theorem C128_set_weights (h : Home) (v : Arr) (w : Option Arr) :
    (Fits h v → (writeW h v w).1 = .ok () ∧ ∀ rule, (readW rule (writeW h v w).2).1 = v) ∧
    (¬ Fits h v → (writeW h v w).1 = .error .valueError ∧ (writeW h v w).2 = w) := by
  refine ⟨fun hf => ?_, fun hf => ?_⟩
  · rw [(write_fits h v w).1 hf]; exact ⟨rfl, fun _ => rfl⟩
  · rw [(write_fits h v w).2 hf]; exact ⟨rfl, rfl⟩

/-- After any sequence of reads and assignments, caught errors included, `weights` returns the matrix assigned last among the fitting
ones; if there was none, the Metropolis matrix of the moment it was first asked for, and now if never. -/
theorem C128_weights_history (h : Home) (uses : List Use) (rule : Arr) (w : Option Arr) :
    after h w uses = inUse h w uses ∧ (readW rule (after h w uses)).1 = (inUse h w uses).getD rule := by
  have key : after h w uses = inUse h w uses := by
    induction uses generalizing w with
    | nil => rfl
    | cons u t ih =>
      cases u with
      | get r =>
        show after h (readW r w).2 t = inUse h (some (w.getD r)) t
        rw [ih]; cases w <;> rfl
      | set v =>
        show after h (writeW h v w).2 t = inUse h (if Fits h v then some v else w) t
        rw [ih]
        by_cases hf : Fits h v
        · rw [(write_fits h v w).1 hf, if_pos hf]
        · rw [(write_fits h v w).2 hf, if_neg hf]
  refine ⟨key, ?_⟩
  rw [key]
  cases inUse h w uses <;> rfl

/-- ... so reading never changes what later reads return, even if the graph has changed in between -/
theorem C128_weights_stay (h : Home) (w : Option Arr) (first later : Arr) (more : List Arr) :
    (readW later (after h w (.get first :: more.map Use.get))).1 = (readW first w).1 := by
  rw [(C128_weights_history h _ later w).2]
  have key : ∀ (l : List Arr) (v : Arr), inUse h (some v) (l.map Use.get) = some v := by
    intro l
    induction l with
    | nil => intro v; rfl
    | cons r t ih => intro v; exact ih v
  show (inUse h (some (w.getD first)) (more.map Use.get)).getD later = _
  rw [key]
  cases w <;> rfl

/-! ### examples -/

/-- a path 10 - 20 - 30 made with `add_edge`, the second edge carrying the given weight -/
def pathGraph (d : Option ℝ) : Graph Nat := (Graph.empty.addEdge 10 20 none).addEdge 20 30 d

theorem pathGraph_made (d : Option ℝ) : MadeByHand (pathGraph d) := .edge _ _ _ _ (.edge _ _ _ _ .empty)

theorem pathGraph_nodes (d : Option ℝ) : (pathGraph d).nodes = [10, 20, 30] := by rfl

theorem pathGraph_connected (d : Option ℝ) : Connected (pathGraph d) := by
  refine ⟨by rw [pathGraph_nodes]; simp, fun i hi j hj => ?_⟩
  have e1 : (pathGraph d).nbrs 10 = [20] := by rfl
  have e2 : (pathGraph d).nbrs 20 = [10, 30] := by rfl
  have e3 : (pathGraph d).nbrs 30 = [20] := by rfl
  rw [pathGraph_nodes] at hi hj
  have up : ∀ i ∈ [10, 20, 30], Relation.ReflTransGen (fun a b => b ∈ (pathGraph d).nbrs a) i 20 := by
    intro i hi
    simp only [List.mem_cons, List.not_mem_nil, or_false] at hi
    rcases hi with rfl | rfl | rfl
    · exact .single (by rw [e1]; simp)
    · exact .refl
    · exact .single (by rw [e3]; simp)
  have down : ∀ j ∈ [10, 20, 30], Relation.ReflTransGen (fun a b => b ∈ (pathGraph d).nbrs a) 20 j := by
    intro i hi
    simp only [List.mem_cons, List.not_mem_nil, or_false] at hi
    rcases hi with rfl | rfl | rfl
    · exact .single (by rw [e2]; simp)
    · exact .refl
    · exact .single (by rw [e2]; simp)
  exact (up i hi).trans (down j hj)

/-- the constructor accepts the path with agents 7, 5, 6 -/
theorem path_accepted (d : Option ℝ) : (p2p (fun _ => -1) (pathGraph d) [7, 5, 6] (plain .none)).2 =
    .ok (relabel (agentFor [10, 20, 30] [7, 5, 6]) (pathGraph d)) := by
  unfold p2p
  rw [pathGraph_nodes]
  have hc := (C128_connected (pathGraph d) (C128_graphs _ (pathGraph_made d)) [7, 5, 6] (by decide) (by rw [pathGraph_nodes]; rfl)).2 (pathGraph_connected d)
  rw [pathGraph_nodes] at hc
  have := (C10_p2p_accepts (fun _ => -1) 3 [7, 5, 6]
    { plain .none with connected := isConnected (relabel (agentFor [10, 20, 30] [7, 5, 6]) (pathGraph d)) }).2
    ⟨rfl, by decide, by simp, ⟨rfl, rfl, (isConnected_iff _).2 hc⟩, by simp [plain], trivial, trivial, trivial⟩
  dsimp only
  show Except.map _ (Construct.p2p _ 3 _ _).2 = _
  rw [this]; rfl

/-- concrete instance: agent 5 took the middle place -/
example : (relabel (agentFor [10, 20, 30] [7, 5, 6]) (pathGraph none)).nbrs 5 = [7, 6] := by rfl

/-- **C128.** The adjacency matrix is not always 0/1, although the documentation calls it the adjacency matrix of the network: an edge
attribute `weight` of the given graph is what stands in it. With weight 0 neighbours look unconnected. -/
theorem C128_adjacency_refuted : ∃ (reg : Nat → Int) (g : Graph Nat) (agents : List Nat) (h : Graph Nat), MadeByHand g ∧
    (p2p reg g agents (plain .none)).2 = .ok h ∧
    ¬ ∀ a b, (h.adjacency a b = 1 ↔ b ∈ h.nbrs a) ∧ (h.adjacency a b = 0 ↔ b ∉ h.nbrs a) := by
  refine ⟨_, pathGraph (some 0), [7, 5, 6], _, pathGraph_made _, path_accepted _, fun h => ?_⟩
  have hadj := (C128_adjacency _ _ (C128_graphs _ (pathGraph_made (some 0))) _ _ _ (path_accepted (some 0))).2.1 1 2 20 30 5 6
    (by rfl) (by rfl) rfl rfl
  have hmem : 30 ∈ (pathGraph (some 0)).nbrs 20 := by
    have : (pathGraph (some 0)).nbrs 20 = [10, 30] := by rfl
    rw [this]; simp
  have hw : (pathGraph (some 0)).weight 20 30 = some 0 := by
    unfold pathGraph
    rw [addEdge_weight, if_pos (Or.inl ⟨rfl, rfl⟩)]; rfl
  rw [if_pos hmem, hw] at hadj
  have h0 := (h 5 6).2.1 hadj
  exact h0 (((C128_p2p _ _ (C128_graphs _ (pathGraph_made (some 0))) _ _ _ (path_accepted (some 0))).edges 1 2 20 30 5 6
    (by rfl) (by rfl) rfl rfl).2 hmem)

/-- concrete instance: a star of two clients -/
example : (star 9 [4, 3]).nbrs 9 = [4, 3] ∧ (star 9 [4, 3]).nbrs 3 = [9] := ⟨by rfl, by rfl⟩

/-- a matrix of the right kind for three agents, and one of the wrong shape -/
def threeByThree (c : ℝ) : Arr := ⟨[3, 3], 0, 0, fun _ _ => c⟩
/-- a matrix with two rows -/
def twoByTwo : Arr := ⟨[2, 2], 0, 0, fun _ _ => 0⟩

/-- concrete instance: the matrix assigned before a rejected one stays in use -/
example : inUse ⟨3, 0, 0⟩ none [.get (threeByThree 1), .set (threeByThree 2), .set twoByTwo] = some (threeByThree 2) := by
  have h1 : Fits ⟨3, 0, 0⟩ (threeByThree 2) := ⟨rfl, rfl, rfl⟩
  have h2 : ¬ Fits ⟨3, 0, 0⟩ twoByTwo := by rintro ⟨h, _⟩; exact absurd h (by decide)
  show inUse _ (if Fits _ (threeByThree 2) then some _ else _) _ = _
  rw [if_pos h1]
  show inUse _ (if Fits _ twoByTwo then some _ else _) _ = _
  rw [if_neg h2]; rfl

end Verif.Props
