import Verif.Model.Topology
import Mathlib.Data.List.Nodup
/-! # Facts about `Graph` operations -/
set_option linter.unusedSectionVars false
namespace Verif.Topology
variable {N A : Type} [DecidableEq N] [DecidableEq A]

/-- what networkx keeps true of a simple undirected graph -/
structure Graph.OK (g : Graph N) : Prop where
  nodup : g.nodes.Nodup
  nbrs_nodup : ∀ a, (g.nbrs a).Nodup
  mem : ∀ a b, b ∈ g.nbrs a → a ∈ g.nodes ∧ b ∈ g.nodes
  symm : ∀ a b, b ∈ g.nbrs a → a ∈ g.nbrs b
  weight_symm : ∀ a b, g.weight a b = g.weight b a

theorem empty_ok : (Graph.empty : Graph N).OK where
  nodup := List.nodup_nil
  nbrs_nodup _ := List.nodup_nil
  mem a b h := by cases h
  symm a b h := by cases h
  weight_symm _ _ := rfl

theorem addNode_nodes (g : Graph N) (a x : N) : x ∈ (g.addNode a).nodes ↔ x ∈ g.nodes ∨ x = a := by
  unfold Graph.addNode
  split
  · constructor
    · exact Or.inl
    · rintro (h | h)
      · exact h
      · subst h; assumption
  · simp

theorem addNode_nbrs (g : Graph N) (a : N) : (g.addNode a).nbrs = g.nbrs := by
  unfold Graph.addNode; split <;> rfl

theorem addNode_weight (g : Graph N) (a : N) : (g.addNode a).weight = g.weight := by
  unfold Graph.addNode; split <;> rfl

theorem addNode_of_mem (g : Graph N) (a : N) (h : a ∈ g.nodes) : g.addNode a = g := by
  unfold Graph.addNode; rw [if_pos h]

theorem addNode_ok (g : Graph N) (a : N) (h : g.OK) : (g.addNode a).OK where
  nodup := by
    unfold Graph.addNode
    split
    · exact h.nodup
    · rename_i ha
      exact List.nodup_append.2 ⟨h.nodup, (by simp), fun x hx y hy e => ha (by
        rw [List.mem_singleton.1 hy] at e; rw [← e]; exact hx)⟩
  nbrs_nodup x := by rw [addNode_nbrs]; exact h.nbrs_nodup x
  mem x y hy := by
    rw [addNode_nbrs] at hy
    exact ⟨(addNode_nodes g a x).2 (Or.inl (h.mem x y hy).1), (addNode_nodes g a y).2 (Or.inl (h.mem x y hy).2)⟩
  symm x y hy := by rw [addNode_nbrs] at *; exact h.symm x y hy
  weight_symm x y := by rw [addNode_weight]; exact h.weight_symm x y

theorem mem_link (nbrs : N → List N) (u v x y : N) : y ∈ link nbrs u v x ↔ y ∈ nbrs x ∨ (x = u ∧ y = v) := by
  unfold link
  by_cases hx : x = u
  · subst hx
    rw [if_pos rfl]
    by_cases hv : v ∈ nbrs x
    · rw [if_pos hv]
      constructor
      · exact Or.inl
      · rintro (h | ⟨_, h⟩)
        · exact h
        · rw [h]; exact hv
    · rw [if_neg hv]; simp
  · rw [if_neg hx]; simp [hx]

theorem link_nodup (nbrs : N → List N) (u v : N) (h : ∀ x, (nbrs x).Nodup) (x : N) : (link nbrs u v x).Nodup := by
  unfold link
  split
  · split
    · exact h u
    · rename_i hv
      exact List.nodup_append.2 ⟨h u, (by simp), fun z hz y hy e => hv (by
        rw [List.mem_singleton.1 hy] at e; rw [← e]; exact hz)⟩
  · exact h x

theorem addEdge_nodes (g : Graph N) (u v : N) (d : Option ℝ) (x : N) :
    x ∈ (g.addEdge u v d).nodes ↔ x ∈ g.nodes ∨ x = u ∨ x = v := by
  unfold Graph.addEdge
  show x ∈ ((g.addNode u).addNode v).nodes ↔ _
  rw [addNode_nodes, addNode_nodes, or_assoc]

theorem addEdge_nodes_of_mem (g : Graph N) (u v : N) (d : Option ℝ) (hu : u ∈ g.nodes) (hv : v ∈ g.nodes) :
    (g.addEdge u v d).nodes = g.nodes := by
  unfold Graph.addEdge
  show ((g.addNode u).addNode v).nodes = _
  rw [addNode_of_mem g u hu, addNode_of_mem g v hv]

theorem mem_addEdge (g : Graph N) (u v : N) (d : Option ℝ) (x y : N) :
    y ∈ (g.addEdge u v d).nbrs x ↔ y ∈ g.nbrs x ∨ (x = u ∧ y = v) ∨ (x = v ∧ y = u) := by
  unfold Graph.addEdge
  show y ∈ link (link ((g.addNode u).addNode v).nbrs u v) v u x ↔ _
  rw [mem_link, mem_link, addNode_nbrs, addNode_nbrs, or_assoc]

theorem addEdge_weight (g : Graph N) (u v : N) (d : Option ℝ) (x y : N) :
    (g.addEdge u v d).weight x y = if (x = u ∧ y = v) ∨ (x = v ∧ y = u) then d.or (g.weight u v) else g.weight x y := by
  unfold Graph.addEdge
  show (if (x = u ∧ y = v) ∨ (x = v ∧ y = u) then d.or (((g.addNode u).addNode v).weight u v) else
    ((g.addNode u).addNode v).weight x y) = _
  rw [addNode_weight, addNode_weight]

theorem addEdge_ok (g : Graph N) (u v : N) (d : Option ℝ) (h : g.OK) : (g.addEdge u v d).OK where
  nodup := (addNode_ok _ v (addNode_ok g u h)).nodup
  nbrs_nodup x := by
    unfold Graph.addEdge
    exact link_nodup _ _ _ (link_nodup _ _ _ (addNode_ok _ v (addNode_ok g u h)).nbrs_nodup) x
  mem x y hy := by
    rw [addEdge_nodes, addEdge_nodes]
    rcases (mem_addEdge g u v d x y).1 hy with hy | ⟨rfl, rfl⟩ | ⟨rfl, rfl⟩
    · exact ⟨Or.inl (h.mem x y hy).1, Or.inl (h.mem x y hy).2⟩
    · exact ⟨Or.inr (Or.inl rfl), Or.inr (Or.inr rfl)⟩
    · exact ⟨Or.inr (Or.inr rfl), Or.inr (Or.inl rfl)⟩
  symm x y hy := by
    rw [mem_addEdge] at *
    rcases hy with hy | ⟨rfl, rfl⟩ | ⟨rfl, rfl⟩
    · exact Or.inl (h.symm x y hy)
    · exact Or.inr (Or.inr ⟨rfl, rfl⟩)
    · exact Or.inr (Or.inl ⟨rfl, rfl⟩)
  weight_symm x y := by
    rw [addEdge_weight, addEdge_weight, h.weight_symm x y]
    by_cases hc : (x = u ∧ y = v) ∨ (x = v ∧ y = u)
    · rw [if_pos hc, if_pos (hc.symm.imp And.symm And.symm)]
    · rw [if_neg hc, if_neg (fun hc' => hc (hc'.symm.imp And.symm And.symm))]

/-! ### folding -/

theorem addNodes_ok (l : List N) (g : Graph N) (h : g.OK) : (l.foldl Graph.addNode g).OK := by
  induction l generalizing g with
  | nil => exact h
  | cons a t ih => exact ih _ (addNode_ok g a h)

theorem addNodes_nbrs (l : List N) (g : Graph N) : (l.foldl Graph.addNode g).nbrs = g.nbrs := by
  induction l generalizing g with
  | nil => rfl
  | cons a t ih => rw [List.foldl_cons, ih, addNode_nbrs]

theorem addNodes_weight (l : List N) (g : Graph N) : (l.foldl Graph.addNode g).weight = g.weight := by
  induction l generalizing g with
  | nil => rfl
  | cons a t ih => rw [List.foldl_cons, ih, addNode_weight]

theorem addNodes_nodes (l : List N) (g : Graph N) (hn : (g.nodes ++ l).Nodup) :
    (l.foldl Graph.addNode g).nodes = g.nodes ++ l := by
  induction l generalizing g with
  | nil => simp
  | cons a t ih =>
    have ha : a ∉ g.nodes := fun h => (List.nodup_append.1 hn).2.2 a h a (by simp) rfl
    have he : (g.addNode a).nodes = g.nodes ++ [a] := by unfold Graph.addNode; rw [if_neg ha]
    rw [List.foldl_cons, ih _ (by rw [he]; simpa using hn), he]; simp

/-- an edge with data joins `a` and `b` -/
def Joins (e : (N × N) × Option ℝ) (a b : N) : Prop := (a = e.1.1 ∧ b = e.1.2) ∨ (a = e.1.2 ∧ b = e.1.1)

instance (e : (N × N) × Option ℝ) (a b : N) : Decidable (Joins e a b) := by unfold Joins; infer_instance

/-- adding edges one after the other -/
def addEdges (g : Graph N) (l : List ((N × N) × Option ℝ)) : Graph N := l.foldl (fun h e => h.addEdge e.1.1 e.1.2 e.2) g

theorem addEdges_ok (l : List ((N × N) × Option ℝ)) (g : Graph N) (h : g.OK) : (addEdges g l).OK := by
  induction l generalizing g with
  | nil => exact h
  | cons e t ih => exact ih _ (addEdge_ok g _ _ _ h)

theorem addEdges_nodes (l : List ((N × N) × Option ℝ)) (g : Graph N) (h : ∀ e ∈ l, e.1.1 ∈ g.nodes ∧ e.1.2 ∈ g.nodes) :
    (addEdges g l).nodes = g.nodes := by
  induction l generalizing g with
  | nil => rfl
  | cons e t ih =>
    have he := addEdge_nodes_of_mem g e.1.1 e.1.2 e.2 (h e (by simp)).1 (h e (by simp)).2
    show (addEdges (g.addEdge e.1.1 e.1.2 e.2) t).nodes = _
    rw [ih _ (fun e' he' => by rw [he]; exact h e' (List.mem_cons_of_mem _ he')), he]

theorem mem_addEdges (l : List ((N × N) × Option ℝ)) (g : Graph N) (a b : N) :
    b ∈ (addEdges g l).nbrs a ↔ b ∈ g.nbrs a ∨ ∃ e ∈ l, Joins e a b := by
  induction l generalizing g with
  | nil => simp [addEdges]
  | cons e t ih =>
    show b ∈ (addEdges (g.addEdge e.1.1 e.1.2 e.2) t).nbrs a ↔ _
    rw [ih, mem_addEdge, or_assoc]
    constructor
    · rintro (h | h | ⟨e', he', h⟩)
      · exact Or.inl h
      · exact Or.inr ⟨e, by simp, h⟩
      · exact Or.inr ⟨e', List.mem_cons_of_mem _ he', h⟩
    · rintro (h | ⟨e', he', h⟩)
      · exact Or.inl h
      · rcases List.mem_cons.1 he' with rfl | he'
        · exact Or.inr (Or.inl h)
        · exact Or.inr (Or.inr ⟨e', he', h⟩)

/-- the weight of an edge after adding edges among which all that join `a` and `b` carry `w` -/
theorem addEdges_weight (l : List ((N × N) × Option ℝ)) (g : Graph N) (hg : g.OK) (a b : N) (w : Option ℝ)
    (hl : ∀ e ∈ l, Joins e a b → e.2 = w) (h0 : g.weight a b = none ∨ g.weight a b = w) :
    (addEdges g l).weight a b = if ∃ e ∈ l, Joins e a b then w else g.weight a b := by
  induction l generalizing g with
  | nil => simp [addEdges]
  | cons e t ih =>
    show (addEdges (g.addEdge e.1.1 e.1.2 e.2) t).weight a b = _
    have hw := addEdge_weight g e.1.1 e.1.2 e.2 a b
    by_cases hj : Joins e a b
    · have hjj : (a = e.1.1 ∧ b = e.1.2) ∨ (a = e.1.2 ∧ b = e.1.1) := hj
      have hab : g.weight e.1.1 e.1.2 = g.weight a b := by
        rcases hjj with ⟨rfl, rfl⟩ | ⟨rfl, rfl⟩
        · rfl
        · exact hg.weight_symm _ _
      have hnew : (g.addEdge e.1.1 e.1.2 e.2).weight a b = w := by
        rw [hw, if_pos hjj, hl e (by simp) hj, hab]
        rcases h0 with h0 | h0 <;> rw [h0]
        · cases w <;> rfl
        · cases w <;> rfl
      rw [ih _ (addEdge_ok g _ _ _ hg) (fun e' he' => hl e' (List.mem_cons_of_mem _ he')) (Or.inr hnew), hnew]
      rw [if_pos (⟨e, by simp, hj⟩ : ∃ e' ∈ e :: t, Joins e' a b)]
      split <;> rfl
    · have hjj : ¬ ((a = e.1.1 ∧ b = e.1.2) ∨ (a = e.1.2 ∧ b = e.1.1)) := hj
      rw [if_neg hjj] at hw
      rw [ih _ (addEdge_ok g _ _ _ hg) (fun e' he' => hl e' (List.mem_cons_of_mem _ he')) (by rw [hw]; exact h0), hw]
      by_cases hx : ∃ e' ∈ t, Joins e' a b
      · rw [if_pos hx, if_pos (by obtain ⟨e', he', h⟩ := hx; exact ⟨e', List.mem_cons_of_mem _ he', h⟩)]
      · rw [if_neg hx, if_neg]
        rintro ⟨e', he', h⟩
        rcases List.mem_cons.1 he' with rfl | he'
        · exact hj h
        · exact hx ⟨e', he', h⟩

/-! ### the edge list -/

theorem edgesFrom_sound (g : Graph N) (l seen : List N) (e : N × N) (h : e ∈ g.edgesFrom l seen) :
    e.1 ∈ l ∧ e.2 ∈ g.nbrs e.1 ∧ e.2 ∉ seen := by
  induction l generalizing seen with
  | nil => cases h
  | cons n t ih =>
    rcases List.mem_append.1 h with h | h
    · obtain ⟨b, hb, rfl⟩ := List.mem_map.1 h
      rw [List.mem_filter, decide_eq_true_eq] at hb
      exact ⟨by simp, hb.1, hb.2⟩
    · obtain ⟨h1, h2, h3⟩ := ih _ h
      exact ⟨List.mem_cons_of_mem _ h1, h2, fun hs => h3 (List.mem_cons_of_mem _ hs)⟩

theorem edgesFrom_complete (g : Graph N) (hs : ∀ a b, b ∈ g.nbrs a → a ∈ g.nbrs b) (l seen : List N) (a b : N)
    (ha : a ∈ l) (hb : b ∈ l) (ha' : a ∉ seen) (hb' : b ∉ seen) (h : b ∈ g.nbrs a) :
    (a, b) ∈ g.edgesFrom l seen ∨ (b, a) ∈ g.edgesFrom l seen := by
  induction l generalizing seen with
  | nil => cases ha
  | cons n t ih =>
    by_cases hna : a = n
    · subst hna
      exact Or.inl (List.mem_append_left _ (List.mem_map.2 ⟨b, by rw [List.mem_filter, decide_eq_true_eq]; exact ⟨h, hb'⟩, rfl⟩))
    · by_cases hnb : b = n
      · subst hnb
        exact Or.inr (List.mem_append_left _ (List.mem_map.2
          ⟨a, by rw [List.mem_filter, decide_eq_true_eq]; exact ⟨hs a b h, ha'⟩, rfl⟩))
      · have hat : a ∈ t := (List.mem_cons.1 ha).resolve_left hna
        have hbt : b ∈ t := (List.mem_cons.1 hb).resolve_left hnb
        have := ih (n :: seen) hat hbt (fun hm => (List.mem_cons.1 hm).elim hna ha') (fun hm => (List.mem_cons.1 hm).elim hnb hb')
        exact this.imp (List.mem_append_right _) (List.mem_append_right _)

theorem edgesFrom_once (g : Graph N) (l seen : List N) (hl : l.Nodup) (a b : N) (hab : a ≠ b)
    (h1 : (a, b) ∈ g.edgesFrom l seen) (h2 : (b, a) ∈ g.edgesFrom l seen) : False := by
  induction l generalizing seen with
  | nil => cases h1
  | cons n t ih =>
    have hn := List.nodup_cons.1 hl
    rcases List.mem_append.1 h1 with k1 | k1
    · obtain ⟨x, hx, e⟩ := List.mem_map.1 k1
      obtain ⟨rfl, rfl⟩ := Prod.mk.inj e
      rcases List.mem_append.1 h2 with k2 | k2
      · obtain ⟨y, hy, e'⟩ := List.mem_map.1 k2
        exact hab (Prod.mk.inj e').1
      · exact (edgesFrom_sound g t _ _ k2).2.2 (by simp)
    · rcases List.mem_append.1 h2 with k2 | k2
      · obtain ⟨x, hx, e⟩ := List.mem_map.1 k2
        obtain ⟨rfl, rfl⟩ := Prod.mk.inj e
        exact (edgesFrom_sound g t _ _ k1).2.2 (by simp)
      · exact ih _ hn.2 k1 k2

theorem edgesFrom_nodup (g : Graph N) (hg : ∀ a, (g.nbrs a).Nodup) (l seen : List N) (hl : l.Nodup) : (g.edgesFrom l seen).Nodup := by
  induction l generalizing seen with
  | nil => exact List.nodup_nil
  | cons n t ih =>
    have hn := List.nodup_cons.1 hl
    refine List.nodup_append.2 ⟨?_, ih _ hn.2, ?_⟩
    · exact List.Nodup.map (fun x y e => (Prod.mk.inj e).2) ((hg n).filter _)
    · intro e he e' he' h
      obtain ⟨b, _, rfl⟩ := List.mem_map.1 he
      exact hn.1 (by rw [← h] at he'; exact (edgesFrom_sound g t _ _ he').1)

theorem edges_iff (g : Graph N) (hg : g.OK) (a b : N) : b ∈ g.nbrs a ↔ (a, b) ∈ g.edges ∨ (b, a) ∈ g.edges := by
  constructor
  · intro h
    exact edgesFrom_complete g hg.symm _ _ a b (hg.mem a b h).1 (hg.mem a b h).2 (by simp) (by simp) h
  · rintro (h | h)
    · exact (edgesFrom_sound g _ _ _ h).2.1
    · exact hg.symm _ _ (edgesFrom_sound g _ _ _ h).2.1

/-! ### the mapping -/

theorem agentFor_some (nodes : List N) (agents : List A) (x : N) (a : A) (h : agentFor nodes agents x = some a) :
    ∃ i : Nat, nodes[i]? = some x ∧ agents[i]? = some a := by
  induction nodes generalizing agents with
  | nil => cases agents <;> simp [agentFor] at h
  | cons n t ih =>
    cases agents with
    | nil => simp [agentFor] at h
    | cons b l =>
      unfold agentFor at h
      split at h
      · rename_i hx
        exact ⟨0, by rw [hx]; rfl, by simpa using h⟩
      · obtain ⟨i, h1, h2⟩ := ih l h
        exact ⟨i + 1, by simpa using h1, by simpa using h2⟩

theorem agentFor_get (nodes : List N) (agents : List A) (hn : nodes.Nodup) (i : Nat) (x : N) (a : A)
    (hx : nodes[i]? = some x) (ha : agents[i]? = some a) : agentFor nodes agents x = some a := by
  induction nodes generalizing agents i with
  | nil => simp at hx
  | cons n t ih =>
    have hn' := List.nodup_cons.1 hn
    cases agents with
    | nil => simp at ha
    | cons b l =>
      unfold agentFor
      cases i with
      | zero =>
        simp only [List.getElem?_cons_zero, Option.some.injEq] at hx ha
        rw [if_pos hx.symm, ha]
      | succ j =>
        simp only [List.getElem?_cons_succ] at hx ha
        rw [if_neg (fun e => hn'.1 (by rw [← e]; exact List.mem_of_getElem? hx))]
        exact ih l hn'.2 j hx ha

theorem getElem?_inj_of_nodup {B : Type} {l : List B} (hl : l.Nodup) {i j : Nat} {a : B} (hi : l[i]? = some a) (hj : l[j]? = some a) :
    i = j := by
  obtain ⟨h1, e1⟩ := List.getElem?_eq_some_iff.1 hi
  obtain ⟨h2, e2⟩ := List.getElem?_eq_some_iff.1 hj
  exact (List.Nodup.getElem_inj_iff hl).1 (e1.trans e2.symm)

theorem agentFor_inj (nodes : List N) (agents : List A) (ha : agents.Nodup) (x y : N) (a : A)
    (hx : agentFor nodes agents x = some a) (hy : agentFor nodes agents y = some a) : x = y := by
  obtain ⟨i, h1, h2⟩ := agentFor_some nodes agents x a hx
  obtain ⟨j, h3, h4⟩ := agentFor_some nodes agents y a hy
  have := getElem?_inj_of_nodup ha h2 h4
  subst this
  rw [h1] at h3
  exact Option.some.inj h3

theorem filterMap_agentFor (nodes : List N) (agents : List A) (hn : nodes.Nodup) (hl : agents.length = nodes.length) :
    nodes.filterMap (agentFor nodes agents) = agents := by
  have key : ∀ (ns : List N) (as : List A), ns.Nodup → as.length = ns.length → ∀ f : N → Option A,
      (∀ (i : Nat) (x : N) (a : A), ns[i]? = some x → as[i]? = some a → f x = some a) → ns.filterMap f = as := by
    intro ns
    induction ns with
    | nil => intro as _ hl f _; have : as = [] := List.length_eq_zero_iff.1 hl; rw [this]; rfl
    | cons n t ih =>
      intro as hn hl f hf
      cases as with
      | nil => simp at hl
      | cons a l =>
        rw [List.filterMap_cons, hf 0 n a rfl rfl]
        show a :: _ = _
        rw [ih l (List.nodup_cons.1 hn).2 (by simpa using hl) f (fun i x b h1 h2 => hf (i + 1) x b (by simpa using h1) (by simpa using h2))]
  exact key nodes agents hn hl _ (fun i x a h1 h2 => agentFor_get nodes agents hn i x a h1 h2)

theorem isConnected_iff (g : Graph N) : isConnected g = true ↔ Connected g := by
  classical
  unfold isConnected
  exact decide_eq_true_iff

end Verif.Topology
