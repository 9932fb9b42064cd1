import Verif.Lemmas.MaxFlow
/-!
# The label/partition flow network
-/
set_option linter.unusedSectionVars false
namespace Verif
namespace Part

open Finset

/-- add a list of edges -/
def addEdges (g : FlowNet) (E : List (Nat × Nat × Int)) : FlowNet := E.foldl (fun g e => addFlowEdge g e.1 e.2.1 e.2.2) g

/-- contribution of an edge to a capacity -/
def contrib (a b : Nat) (e : Nat × Nat × Int) : Int := if a = e.1 ∧ b = e.2.1 then e.2.2 else 0

theorem addFlowEdge_cap (g : FlowNet) (u v : Nat) (c : Int) (a b : Nat) :
    (addFlowEdge g u v c).cap a b = g.cap a b + contrib a b (u, v, c) := by
  unfold addFlowEdge contrib
  split
  · rename_i h; subst h; simp
  · simp only [setCap_apply]
    split
    · rename_i h; obtain ⟨rfl, rfl⟩ := h; rfl
    · simp

theorem addFlowEdge_adj (g : FlowNet) (u v : Nat) (c : Int) (a b : Nat) :
    b ∈ (addFlowEdge g u v c).adj a ↔ b ∈ g.adj a ∨ (c ≠ 0 ∧ ((u = a ∧ v = b) ∨ (u = b ∧ v = a))) := by
  unfold addFlowEdge
  by_cases h : c = 0
  · simp [h]
  · simp only [h, if_false]
    by_cases h1 : a = v
    · by_cases h2 : a = u
      · subst h1; subst h2; simp [List.mem_append]; tauto
      · subst h1
        have h2' : ¬ u = a := fun e => h2 e.symm
        simp [List.mem_append, h2, h2']
        tauto
    · have h1' : ¬ v = a := fun e => h1 e.symm
      by_cases h2 : a = u
      · subst h2; simp [List.mem_append, h1, h1']; tauto
      · have h2' : ¬ u = a := fun e => h2 e.symm
        simp [h1, h1', h2, h2']

theorem addEdges_cap (E : List (Nat × Nat × Int)) (g : FlowNet) (a b : Nat) :
    (addEdges g E).cap a b = g.cap a b + (E.map (contrib a b)).sum := by
  unfold addEdges
  induction E generalizing g with
  | nil => simp
  | cons e E ih => rw [List.foldl_cons, ih, addFlowEdge_cap]; simp only [List.map_cons, List.sum_cons]; ring

theorem addEdges_adj (E : List (Nat × Nat × Int)) (g : FlowNet) (a b : Nat) :
    b ∈ (addEdges g E).adj a ↔ b ∈ g.adj a ∨
      ∃ e ∈ E, e.2.2 ≠ 0 ∧ ((e.1 = a ∧ e.2.1 = b) ∨ (e.1 = b ∧ e.2.1 = a)) := by
  unfold addEdges
  induction E generalizing g with
  | nil => simp
  | cons e E ih =>
    rw [List.foldl_cons, ih, addFlowEdge_adj]
    simp only [List.exists_mem_cons_iff]
    rw [or_assoc]

variable {L : Type} [DecidableEq L]

/-- the three layers of edges -/
def layer1 (labels : List L) (supply : L → Nat) : List (Nat × Nat × Int) :=
  labels.zipIdx.map (fun li => (0, 1 + li.2, ((supply li.1 : Nat) : Int)))

def layer2 (labels : List L) (allowed : Nat → L → Bool) (counts : List Nat) : List (Nat × Nat × Int) :=
  labels.zipIdx.flatMap (fun li => ((List.range counts.length).filter (fun j => allowed j li.1)).map
    (fun j => (1 + li.2, 1 + labels.length + j, ((counts.sum : Nat) : Int))))

def layer3 (nL : Nat) (counts : List Nat) : List (Nat × Nat × Int) :=
  counts.zipIdx.map (fun cj => (1 + nL + cj.2, 1 + nL + counts.length, ((cj.1 : Nat) : Int)))

theorem foldl_filter_if {A B : Type} (p : B → Bool) (f : A → B → A) (l : List B) (a : A) :
    l.foldl (fun a b => if p b = true then f a b else a) a = (l.filter p).foldl f a := by
  induction l generalizing a with
  | nil => rfl
  | cons b l ih => by_cases h : p b = true <;> simp [h, ih]

theorem foldl_flatMap' {A B C : Type} (f : A → C → A) (g : B → List C) (l : List B) (a : A) :
    (l.flatMap g).foldl f a = l.foldl (fun a b => (g b).foldl f a) a := by
  induction l generalizing a with
  | nil => rfl
  | cons b l ih => simp [List.foldl_append, ih]

theorem labelNet_eq (labels : List L) (supply : L → Nat) (allowed : Nat → L → Bool) (counts : List Nat) :
    labelNet labels supply allowed counts =
      addEdges ⟨fun _ => [], fun _ _ => 0⟩
        (layer1 labels supply ++ (layer2 labels allowed counts ++ layer3 labels.length counts)) := by
  unfold labelNet addEdges layer1 layer2 layer3
  simp only [List.foldl_append, List.foldl_map, foldl_flatMap']
  simp only [foldl_filter_if]

theorem sum_flatMap' {B C : Type} (g : B → List C) (f : C → Int) (l : List B) :
    ((l.flatMap g).map f).sum = (l.map (fun b => ((g b).map f).sum)).sum := by
  induction l with
  | nil => rfl
  | cons b l ih => simp [List.sum_append, ih]

theorem sum_zipIdx_ite {T : Type} (l : List T) (k o : Nat) (f : T → Int) :
    ((l.zipIdx o).map (fun li => if k + o = li.2 then f li.1 else 0)).sum = (l[k]?).elim 0 f := by
  induction l generalizing k o with
  | nil => simp
  | cons a t ih =>
    simp only [List.zipIdx_cons, List.map_cons, List.sum_cons]
    cases k with
    | zero =>
      have hz : ((t.zipIdx (o + 1)).map (fun li => if 0 + o = li.2 then f li.1 else 0)).sum = 0 := by
        apply List.sum_eq_zero
        intro x hx
        obtain ⟨li, hli, rfl⟩ := List.mem_map.1 hx
        have := List.le_snd_of_mem_zipIdx hli
        rw [if_neg (by omega)]
      rw [hz]
      simp
    | succ k =>
      rw [if_neg (by omega)]
      have := ih k (o + 1)
      rw [show k + (o + 1) = k + 1 + o by omega] at this
      rw [this]
      simp

theorem sum_map_zero {T : Type} (l : List T) (f : T → Int) (h : ∀ x ∈ l, f x = 0) : (l.map f).sum = 0 := by
  apply List.sum_eq_zero
  intro x hx
  obtain ⟨y, hy, rfl⟩ := List.mem_map.1 hx
  exact h y hy

theorem sum_filter_range_ite (n j : Nat) (p : Nat → Bool) (T : Int) :
    (((List.range n).filter p).map (fun i => if j = i then T else 0)).sum = if j < n ∧ p j = true then T else 0 := by
  induction n with
  | zero => simp
  | succ n ih =>
    rw [List.range_succ, List.filter_append, List.map_append, List.sum_append, ih]
    by_cases hp : p n = true
    · by_cases hj : j = n
      · subst hj; simp [hp]
      · have h1 : (j < n + 1) = (j < n) := by apply propext; omega
        simp [hp, hj, h1]
    · by_cases hj : j = n
      · subst hj; simp [hp]
      · have h1 : (j < n + 1) = (j < n) := by apply propext; omega
        simp [hp, h1]

section Values
variable (labels : List L) (supply : L → Nat) (allowed : Nat → L → Bool) (counts : List Nat)

theorem cap_eq (a b : Nat) : (labelNet labels supply allowed counts).cap a b =
    ((layer1 labels supply).map (contrib a b)).sum + (((layer2 labels allowed counts).map (contrib a b)).sum +
      ((layer3 labels.length counts).map (contrib a b)).sum) := by
  rw [labelNet_eq, addEdges_cap, List.map_append, List.sum_append, List.map_append, List.sum_append]
  simp

theorem mem_layer1 {e : Nat × Nat × Int} (h : e ∈ layer1 labels supply) :
    ∃ i l, labels[i]? = some l ∧ e = (0, 1 + i, ((supply l : Nat) : Int)) := by
  obtain ⟨⟨l, i⟩, hli, rfl⟩ := List.mem_map.1 h
  exact ⟨i, l, by simpa [List.mem_zipIdx_iff_getElem?] using hli, rfl⟩

theorem mem_layer2 {e : Nat × Nat × Int} (h : e ∈ layer2 labels allowed counts) :
    ∃ i l j, labels[i]? = some l ∧ j < counts.length ∧ allowed j l = true ∧
      e = (1 + i, 1 + labels.length + j, ((counts.sum : Nat) : Int)) := by
  obtain ⟨⟨l, i⟩, hli, he⟩ := List.mem_flatMap.1 h
  obtain ⟨j, hj, rfl⟩ := List.mem_map.1 he
  obtain ⟨h1, h2⟩ := List.mem_filter.1 hj
  exact ⟨i, l, j, by simpa [List.mem_zipIdx_iff_getElem?] using hli, List.mem_range.1 h1, h2, rfl⟩

theorem mem_layer3 {nL : Nat} {e : Nat × Nat × Int} (h : e ∈ layer3 nL counts) :
    ∃ j c, counts[j]? = some c ∧ e = (1 + nL + j, 1 + nL + counts.length, ((c : Nat) : Int)) := by
  obtain ⟨⟨c, j⟩, hli, rfl⟩ := List.mem_map.1 h
  exact ⟨j, c, by simpa [List.mem_zipIdx_iff_getElem?] using hli, rfl⟩

theorem getElem?_lt {T : Type} {l : List T} {i : Nat} {x : T} (h : l[i]? = some x) : i < l.length :=
  (List.getElem?_eq_some_iff.1 h).1

theorem cap_source (i : Nat) (l : L) (h : labels[i]? = some l) :
    (labelNet labels supply allowed counts).cap 0 (1 + i) = supply l := by
  rw [cap_eq]
  have h2 : ((layer2 labels allowed counts).map (contrib 0 (1 + i))).sum = 0 := by
    apply sum_map_zero
    intro e he
    obtain ⟨i', l', j, _, _, _, rfl⟩ := mem_layer2 labels allowed counts he
    simp only [contrib]; rw [if_neg (by omega)]
  have h3 : ((layer3 labels.length counts).map (contrib 0 (1 + i))).sum = 0 := by
    apply sum_map_zero
    intro e he
    obtain ⟨j, c, _, rfl⟩ := mem_layer3 counts he
    simp only [contrib]; rw [if_neg (by omega)]
  rw [h2, h3]
  unfold layer1
  rw [List.map_map]
  have : (labels.zipIdx.map (contrib 0 (1 + i) ∘ fun li => (0, 1 + li.2, ((supply li.1 : Nat) : Int)))) =
      labels.zipIdx.map (fun li => if i + 0 = li.2 then ((supply li.1 : Nat) : Int) else 0) := by
    apply List.map_congr_left
    intro li _
    simp only [contrib, Function.comp_apply, true_and, Nat.add_left_cancel_iff, Nat.add_zero]
  rw [this, sum_zipIdx_ite labels i 0 (fun l => ((supply l : Nat) : Int)), h]
  simp

theorem cap_middle (i j : Nat) (l : L) (h : labels[i]? = some l) (hj : j < counts.length) :
    (labelNet labels supply allowed counts).cap (1 + i) (1 + labels.length + j) =
      if allowed j l = true then ((counts.sum : Nat) : Int) else 0 := by
  rw [cap_eq]
  have hi := getElem?_lt h
  have h2 : ((layer1 labels supply).map (contrib (1 + i) (1 + labels.length + j))).sum = 0 := by
    apply sum_map_zero
    intro e he
    obtain ⟨i', l', _, rfl⟩ := mem_layer1 labels supply he
    simp only [contrib]; rw [if_neg (by omega)]
  have h3 : ((layer3 labels.length counts).map (contrib (1 + i) (1 + labels.length + j))).sum = 0 := by
    apply sum_map_zero
    intro e he
    obtain ⟨j, c, _, rfl⟩ := mem_layer3 counts he
    simp only [contrib]; rw [if_neg (by omega)]
  rw [h2, h3]
  unfold layer2
  rw [sum_flatMap']
  have : labels.zipIdx.map (fun li => ((((List.range counts.length).filter (fun j => allowed j li.1)).map
      (fun j => (1 + li.2, 1 + labels.length + j, ((counts.sum : Nat) : Int)))).map
        (contrib (1 + i) (1 + labels.length + j))).sum) =
      labels.zipIdx.map (fun li => if i + 0 = li.2 then (if allowed j li.1 = true then ((counts.sum : Nat) : Int) else 0) else 0) := by
    apply List.map_congr_left
    intro li _
    rw [List.map_map]
    by_cases hli : i = li.2
    · have e1 : ((List.range counts.length).filter (fun j => allowed j li.1)).map
          (contrib (1 + i) (1 + labels.length + j) ∘ fun j => (1 + li.2, 1 + labels.length + j, ((counts.sum : Nat) : Int))) =
          ((List.range counts.length).filter (fun j => allowed j li.1)).map
            (fun k => if j = k then ((counts.sum : Nat) : Int) else 0) := by
        apply List.map_congr_left
        intro k _
        simp only [contrib, Function.comp_apply, ← hli, true_and, Nat.add_left_cancel_iff]
      rw [e1, sum_filter_range_ite]
      simp [hli, hj]
    · rw [if_neg (by simpa using hli)]
      apply sum_map_zero
      intro k _
      simp only [contrib, Function.comp_apply]
      rw [if_neg (by omega)]
  rw [this, sum_zipIdx_ite labels i 0 (fun l => if allowed j l = true then ((counts.sum : Nat) : Int) else 0), h]
  simp

theorem cap_sink (j : Nat) (c : Nat) (h : counts[j]? = some c) :
    (labelNet labels supply allowed counts).cap (1 + labels.length + j) (1 + labels.length + counts.length) = c := by
  rw [cap_eq]
  have h1 : ((layer1 labels supply).map (contrib (1 + labels.length + j) (1 + labels.length + counts.length))).sum = 0 := by
    apply sum_map_zero
    intro e he
    obtain ⟨i', l', _, rfl⟩ := mem_layer1 labels supply he
    simp only [contrib]; rw [if_neg (by omega)]
  have h2 : ((layer2 labels allowed counts).map (contrib (1 + labels.length + j) (1 + labels.length + counts.length))).sum = 0 := by
    apply sum_map_zero
    intro e he
    obtain ⟨i', l', j', hi', hj', _, rfl⟩ := mem_layer2 labels allowed counts he
    have := getElem?_lt hi'
    simp only [contrib]; rw [if_neg (by omega)]
  rw [h1, h2]
  unfold layer3
  rw [List.map_map]
  have : (counts.zipIdx.map (contrib (1 + labels.length + j) (1 + labels.length + counts.length) ∘
      fun cj => (1 + labels.length + cj.2, 1 + labels.length + counts.length, ((cj.1 : Nat) : Int)))) =
      counts.zipIdx.map (fun cj => if j + 0 = cj.2 then ((cj.1 : Nat) : Int) else 0) := by
    apply List.map_congr_left
    intro li _
    simp only [contrib, Function.comp_apply, and_true, Nat.add_left_cancel_iff, Nat.add_zero]
  rw [this, sum_zipIdx_ite counts j 0 (fun c => ((c : Nat) : Int)), h]
  simp

/-- shape of the capacities that may be non-zero -/
inductive Arc (labels : List L) (counts : List Nat) : Nat → Nat → Prop
  | source (i : Nat) : i < labels.length → Arc labels counts 0 (1 + i)
  | middle (i j : Nat) : i < labels.length → j < counts.length → Arc labels counts (1 + i) (1 + labels.length + j)
  | sink (j : Nat) : j < counts.length → Arc labels counts (1 + labels.length + j) (1 + labels.length + counts.length)

theorem Arc.inv {a b : Nat} (h : Arc labels counts a b) :
    (a = 0 ∧ 1 ≤ b ∧ b ≤ labels.length) ∨
    (∃ i j : Nat, i < labels.length ∧ j < counts.length ∧ (a = 1 + i ∧ b = 1 + labels.length + j)) ∨
    (∃ j : Nat, j < counts.length ∧ (a = 1 + labels.length + j ∧ b = 1 + labels.length + counts.length)) := by
  cases h with
  | source i hi => left; omega
  | middle i j hi hj => right; left; exact ⟨i, j, hi, hj, rfl, rfl⟩
  | sink j hj => right; right; exact ⟨j, hj, rfl, rfl⟩

theorem cap_ne_zero {a b : Nat} (h : (labelNet labels supply allowed counts).cap a b ≠ 0) :
    Arc labels counts a b ∧ ∃ e ∈ layer1 labels supply ++ (layer2 labels allowed counts ++ layer3 labels.length counts),
      e.1 = a ∧ e.2.1 = b ∧ e.2.2 ≠ 0 := by
  rw [labelNet_eq, addEdges_cap] at h
  simp only [zero_add] at h
  obtain ⟨e, he, hne⟩ : ∃ e ∈ layer1 labels supply ++ (layer2 labels allowed counts ++ layer3 labels.length counts),
      contrib a b e ≠ 0 := by
    by_contra hno
    push Not at hno
    exact h (sum_map_zero _ _ hno)
  have hab : a = e.1 ∧ b = e.2.1 := by
    by_contra hx
    exact hne (if_neg hx)
  have hc : e.2.2 ≠ 0 := by
    rw [contrib, if_pos hab] at hne
    exact hne
  refine ⟨?_, e, he, hab.1.symm, hab.2.symm, hc⟩
  rw [hab.1, hab.2]
  rcases List.mem_append.1 he with h1 | h1
  · obtain ⟨i, l, hi, rfl⟩ := mem_layer1 labels supply h1
    exact Arc.source i (getElem?_lt hi)
  · rcases List.mem_append.1 h1 with h1 | h1
    · obtain ⟨i, l, j, hi, hj, _, rfl⟩ := mem_layer2 labels allowed counts h1
      exact Arc.middle i j (getElem?_lt hi) hj
    · obtain ⟨j, c, hj, rfl⟩ := mem_layer3 counts h1
      exact Arc.sink j (getElem?_lt hj)

theorem labelNet_ok : NetOK (1 + labels.length + counts.length + 1) 0 (1 + labels.length + counts.length)
    (labelNet labels supply allowed counts).adj (labelNet labels supply allowed counts).cap := by
  refine ⟨by omega, by omega, by omega, ?_, ?_, ?_⟩
  · intro u v
    rw [labelNet_eq, addEdges_cap]
    simp only [zero_add]
    have : ∀ x ∈ (layer1 labels supply ++ (layer2 labels allowed counts ++ layer3 labels.length counts)).map (contrib u v), 0 ≤ x := by
      intro x hx
      obtain ⟨e, he, rfl⟩ := List.mem_map.1 hx
      unfold contrib
      split
      · rcases List.mem_append.1 he with h1 | h1
        · obtain ⟨i, l, hi, rfl⟩ := mem_layer1 labels supply h1; simp
        · rcases List.mem_append.1 h1 with h1 | h1
          · obtain ⟨i, l, j, hi, hj, _, rfl⟩ := mem_layer2 labels allowed counts h1; simp only; omega
          · obtain ⟨j, c, hj, rfl⟩ := mem_layer3 counts h1; simp
      · exact le_rfl
    exact List.sum_nonneg this
  · intro u v h
    obtain ⟨harc, e, he, h1, h2, h3⟩ := cap_ne_zero labels supply allowed counts h
    rw [labelNet_eq]
    refine ⟨(addEdges_adj _ _ _ _).2 (Or.inr ⟨e, he, h3, Or.inl ⟨h1, h2⟩⟩),
      (addEdges_adj _ _ _ _).2 (Or.inr ⟨e, he, h3, Or.inr ⟨h1, h2⟩⟩), ?_⟩
    cases harc <;> omega
  · intro u hu v hv
    rw [labelNet_eq] at hv
    rcases (addEdges_adj _ _ _ _).1 hv with h | ⟨e, he, _, h⟩
    · simp at h
    · have : e.1 < 1 + labels.length + counts.length + 1 ∧ e.2.1 < 1 + labels.length + counts.length + 1 := by
        rcases List.mem_append.1 he with h1 | h1
        · obtain ⟨i, l, hi, rfl⟩ := mem_layer1 labels supply h1
          have := getElem?_lt hi; simp only; omega
        · rcases List.mem_append.1 h1 with h1 | h1
          · obtain ⟨i, l, j, hi, hj, _, rfl⟩ := mem_layer2 labels allowed counts h1
            have := getElem?_lt hi; simp only; omega
          · obtain ⟨j, c, hj, rfl⟩ := mem_layer3 counts h1
            have := getElem?_lt hj; simp only; omega
      omega

theorem sum_nodes (nL nP : Nat) (g : Nat → Int) : ∑ w ∈ range (1 + nL + nP + 1), g w =
    g 0 + ∑ i ∈ range nL, g (1 + i) + ∑ j ∈ range nP, g (1 + nL + j) + g (1 + nL + nP) := by
  rw [Finset.sum_range_succ, Finset.sum_range_add, Finset.sum_range_add]
  simp

theorem sum_counts : ∑ j ∈ range counts.length, ((counts.getD j 0 : Nat) : Int) = ((counts.sum : Nat) : Int) := by
  induction counts with
  | nil => simp
  | cons c cs ih =>
    rw [List.length_cons, Finset.sum_range_succ']
    simp only [List.getD_cons_succ, List.getD_cons_zero, List.sum_cons]
    rw [ih]; push_cast; ring

/-- arcs not in the network carry nothing -/
theorem zero_of_not_arc {r : Caps} {F : Int}
    (hr : ResInv (1 + labels.length + counts.length + 1) 0 (1 + labels.length + counts.length)
      (labelNet labels supply allowed counts).cap r F) {a b : Nat}
    (h1 : (labelNet labels supply allowed counts).cap a b = 0) (h2 : (labelNet labels supply allowed counts).cap b a = 0) :
    r a b = 0 := by
  have := hr.anti a b
  have := hr.nonneg a b
  have := hr.nonneg b a
  omega

theorem cap_zero_of (a b : Nat) (h : ¬ Arc labels counts a b) : (labelNet labels supply allowed counts).cap a b = 0 := by
  by_contra hne
  exact h (cap_ne_zero labels supply allowed counts hne).1

theorem sink_bound : ∑ w ∈ range (1 + labels.length + counts.length + 1),
    (labelNet labels supply allowed counts).cap w (1 + labels.length + counts.length) = ((counts.sum : Nat) : Int) := by
  rw [sum_nodes]
  have h0 : (labelNet labels supply allowed counts).cap 0 (1 + labels.length + counts.length) = 0 := by
    apply cap_zero_of
    intro h
    rcases Arc.inv labels counts h with h | ⟨i', j', hi', hj', h⟩ | ⟨j', hj', h⟩ <;> omega
  have h1 : ∑ i ∈ range labels.length, (labelNet labels supply allowed counts).cap (1 + i) (1 + labels.length + counts.length) = 0 := by
    apply Finset.sum_eq_zero
    intro i hi
    have hi := Finset.mem_range.1 hi
    apply cap_zero_of
    intro h
    rcases Arc.inv labels counts h with h | ⟨i', j', hi', hj', h⟩ | ⟨j', hj', h⟩ <;> omega
  have h3 : (labelNet labels supply allowed counts).cap (1 + labels.length + counts.length) (1 + labels.length + counts.length) = 0 := by
    apply cap_zero_of
    intro h
    rcases Arc.inv labels counts h with h | ⟨i', j', hi', hj', h⟩ | ⟨j', hj', h⟩ <;> omega
  rw [h0, h1, h3, ← sum_counts]
  simp only [zero_add, add_zero]
  refine Finset.sum_congr rfl (fun j hj => ?_)
  have hj := Finset.mem_range.1 hj
  exact cap_sink labels supply allowed counts j _ (by simp [List.getD_eq_getElem?_getD, hj])

/-- An allocation of label samples to partitions. -/
structure AllocOK (x : Nat → Nat → Int) : Prop where
  nonneg : ∀ i j : Nat, i < labels.length → j < counts.length → 0 ≤ x i j
  allowed : ∀ (i j : Nat) (l : L), labels[i]? = some l → j < counts.length → x i j ≠ 0 → allowed j l = true
  supply : ∀ (i : Nat) (l : L), labels[i]? = some l → ∑ j ∈ range counts.length, x i j ≤ ((supply l : Nat) : Int)
  size : ∀ j c : Nat, counts[j]? = some c → ∑ i ∈ range labels.length, x i j = ((c : Nat) : Int)

theorem alloc_sound {r : Caps}
    (hr : ResInv (1 + labels.length + counts.length + 1) 0 (1 + labels.length + counts.length)
      (labelNet labels supply allowed counts).cap r ((counts.sum : Nat) : Int)) :
    AllocOK labels supply allowed counts (fun i j => r (1 + labels.length + j) (1 + i)) := by
  set cap := (labelNet labels supply allowed counts).cap with hcap
  set nL := labels.length with hnL
  set nP := counts.length with hnP
  set T := 1 + nL + nP with hT
  have hback : ∀ i j, i < nL → j < nP → cap (1 + nL + j) (1 + i) = 0 := by
    intro i j hi hj
    apply cap_zero_of
    intro h
    rcases Arc.inv labels counts h with h | ⟨i', j', hi', hj', h⟩ | ⟨j', hj', h⟩ <;> omega
  have hx : ∀ i j, i < nL → j < nP → r (1 + nL + j) (1 + i) = cap (1 + i) (1 + nL + j) - r (1 + i) (1 + nL + j) := by
    intro i j hi hj
    have := hr.anti (1 + nL + j) (1 + i)
    rw [hback i j hi hj] at this
    omega
  have zero : ∀ a b, ¬ Arc labels counts a b → ¬ Arc labels counts b a → cap a b - r a b = 0 := by
    intro a b h1 h2
    have e1 := cap_zero_of labels supply allowed counts a b h1
    have e2 := cap_zero_of labels supply allowed counts b a h2
    have := zero_of_not_arc labels supply allowed counts hr e1 e2
    rw [this]
    simpa using e1
  -- conservation at a label
  have hlab : ∀ i, i < nL → ∑ j ∈ range nP, r (1 + nL + j) (1 + i) = cap 0 (1 + i) - r 0 (1 + i) := by
    intro i hi
    have hc := hr.cons (1 + i) (by omega)
    rw [sum_nodes, if_neg (by omega), if_neg (by omega)] at hc
    have h1 : ∑ k ∈ range nL, (cap (1 + i) (1 + k) - r (1 + i) (1 + k)) = 0 := by
      apply Finset.sum_eq_zero
      intro k hk
      have hk := Finset.mem_range.1 hk
      apply zero <;> intro h
      · rcases Arc.inv labels counts h with h | ⟨i', j', hi', hj', h⟩ | ⟨j', hj', h⟩ <;> omega
      · rcases Arc.inv labels counts h with h | ⟨i', j', hi', hj', h⟩ | ⟨j', hj', h⟩ <;> omega
    have h2 : cap (1 + i) T - r (1 + i) T = 0 := by
      apply zero <;> intro h
      · rcases Arc.inv labels counts h with h | ⟨i', j', hi', hj', h⟩ | ⟨j', hj', h⟩ <;> omega
      · rcases Arc.inv labels counts h with h | ⟨i', j', hi', hj', h⟩ | ⟨j', hj', h⟩ <;> omega
    have h3 := hr.flow_anti (1 + i) 0
    rw [h1, h2, h3] at hc
    rw [Finset.sum_congr rfl (fun j hj => hx i j hi (Finset.mem_range.1 hj))]
    omega
  -- conservation at a partition
  have hpart : ∀ j, j < nP → ∑ i ∈ range nL, r (1 + nL + j) (1 + i) = cap (1 + nL + j) T - r (1 + nL + j) T := by
    intro j hj
    have hc := hr.cons (1 + nL + j) (by omega)
    rw [sum_nodes, if_neg (by omega), if_neg (by omega)] at hc
    have h1 : ∑ k ∈ range nP, (cap (1 + nL + j) (1 + nL + k) - r (1 + nL + j) (1 + nL + k)) = 0 := by
      apply Finset.sum_eq_zero
      intro k hk
      have hk := Finset.mem_range.1 hk
      apply zero <;> intro h
      · rcases Arc.inv labels counts h with h | ⟨i', j', hi', hj', h⟩ | ⟨j', hj', h⟩ <;> omega
      · rcases Arc.inv labels counts h with h | ⟨i', j', hi', hj', h⟩ | ⟨j', hj', h⟩ <;> omega
    have h2 : cap (1 + nL + j) 0 - r (1 + nL + j) 0 = 0 := by
      apply zero <;> intro h
      · rcases Arc.inv labels counts h with h | ⟨i', j', hi', hj', h⟩ | ⟨j', hj', h⟩ <;> omega
      · rcases Arc.inv labels counts h with h | ⟨i', j', hi', hj', h⟩ | ⟨j', hj', h⟩ <;> omega
    rw [h1, h2] at hc
    have h4 : ∑ i ∈ range nL, (cap (1 + nL + j) (1 + i) - r (1 + nL + j) (1 + i)) =
        - ∑ i ∈ range nL, r (1 + nL + j) (1 + i) := by
      rw [← Finset.sum_neg_distrib]
      refine Finset.sum_congr rfl (fun i hi => ?_)
      rw [hback i j (Finset.mem_range.1 hi) hj]
      ring
    have hc' := hc
    rw [h4] at hc'
    linarith
  refine ⟨?_, ?_, ?_, ?_⟩
  · intro i j _ _
    exact hr.nonneg _ _
  · intro i j l hl hj hne
    by_contra hna
    have hi := getElem?_lt hl
    have h1 := cap_middle labels supply allowed counts i j l hl hj
    rw [if_neg hna] at h1
    have h2 := zero_of_not_arc labels supply allowed counts hr (hback i j hi hj) h1
    exact hne h2
  · intro i l hl
    have hi := getElem?_lt hl
    rw [hlab i hi]
    have h1 : cap 0 (1 + i) = ((supply l : Nat) : Int) := cap_source labels supply allowed counts i l hl
    have h2 := hr.nonneg 0 (1 + i)
    rw [h1]
    omega
  · -- every arc into the sink is saturated
    have hc := hr.cons T (by omega)
    rw [sum_nodes, if_neg (by omega), if_pos rfl] at hc
    have h1 : ∑ k ∈ range nL, (cap T (1 + k) - r T (1 + k)) = 0 := by
      apply Finset.sum_eq_zero
      intro k hk
      have hk := Finset.mem_range.1 hk
      apply zero <;> intro h
      · rcases Arc.inv labels counts h with h | ⟨i', j', hi', hj', h⟩ | ⟨j', hj', h⟩ <;> omega
      · rcases Arc.inv labels counts h with h | ⟨i', j', hi', hj', h⟩ | ⟨j', hj', h⟩ <;> omega
    have h2 : cap T 0 - r T 0 = 0 := by
      apply zero <;> intro h
      · rcases Arc.inv labels counts h with h | ⟨i', j', hi', hj', h⟩ | ⟨j', hj', h⟩ <;> omega
      · rcases Arc.inv labels counts h with h | ⟨i', j', hi', hj', h⟩ | ⟨j', hj', h⟩ <;> omega
    have h3 : cap T T - r T T = 0 := by
      apply zero <;> intro h
      · rcases Arc.inv labels counts h with h | ⟨i', j', hi', hj', h⟩ | ⟨j', hj', h⟩ <;> omega
      · rcases Arc.inv labels counts h with h | ⟨i', j', hi', hj', h⟩ | ⟨j', hj', h⟩ <;> omega
    have h4 : ∑ j ∈ range nP, (cap T (1 + nL + j) - r T (1 + nL + j)) =
        - ∑ j ∈ range nP, (((counts.getD j 0 : Nat) : Int) - r (1 + nL + j) T) := by
      rw [← Finset.sum_neg_distrib]
      refine Finset.sum_congr rfl (fun j hj => ?_)
      have hj := Finset.mem_range.1 hj
      have h5 : cap (1 + nL + j) T = ((counts.getD j 0 : Nat) : Int) := cap_sink labels supply allowed counts j (counts.getD j 0) (by simp [List.getD_eq_getElem?_getD, hj, ← hnP])
      rw [hr.flow_anti T (1 + nL + j), h5]
    have h1' := h1
    rw [h2, h1, h3, h4, Finset.sum_sub_distrib, sum_counts] at hc
    have hsat : ∑ j ∈ range nP, r (1 + nL + j) T = 0 := by omega
    intro j c hcj
    have hj := getElem?_lt hcj
    have hz : r (1 + nL + j) T = 0 :=
      (Finset.sum_eq_zero_iff_of_nonneg (fun k _ => hr.nonneg _ _)).1 hsat j (Finset.mem_range.2 hj)
    have h6 : cap (1 + nL + j) T = ((c : Nat) : Int) := cap_sink labels supply allowed counts j c hcj
    rw [hpart j hj, hz, h6]
    ring

/-- the flow of an allocation -/
def allocFlow (x : Nat → Nat → Int) (a b : Nat) : Int :=
  if a = 0 ∧ 1 ≤ b ∧ b ≤ labels.length then ∑ j ∈ range counts.length, x (b - 1) j
  else if 1 ≤ a ∧ a ≤ labels.length ∧ 1 + labels.length ≤ b ∧ b < 1 + labels.length + counts.length then
    x (a - 1) (b - (1 + labels.length))
  else if 1 + labels.length ≤ a ∧ a < 1 + labels.length + counts.length ∧ b = 1 + labels.length + counts.length then
    ((counts.getD (a - (1 + labels.length)) 0 : Nat) : Int)
  else 0

theorem alloc_complete {x : Nat → Nat → Int} (hx : AllocOK labels supply allowed counts x) (S : Finset Nat)
    (hS : S ⊆ range (1 + labels.length + counts.length + 1)) (hs : 0 ∈ S) (htS : 1 + labels.length + counts.length ∉ S) :
    ((counts.sum : Nat) : Int) ≤ ∑ u ∈ S, ∑ w ∈ range (1 + labels.length + counts.length + 1) \ S,
      (labelNet labels supply allowed counts).cap u w := by
  set cap := (labelNet labels supply allowed counts).cap with hcap
  set nL := labels.length with hnL
  set nP := counts.length with hnP
  set T := 1 + nL + nP with hT
  set G := allocFlow labels counts x with hG
  have hlab : ∀ i, i < nL → ∃ l, labels[i]? = some l := fun i hi => ⟨_, List.getElem?_eq_getElem hi⟩
  have hGs : ∀ i, i < nL → G 0 (1 + i) = ∑ j ∈ range nP, x i j := by
    intro i hi
    simp only [hG, allocFlow]
    rw [if_pos ⟨trivial, by omega, by omega⟩]
    simp [← hnP]
  have hGm : ∀ i j, i < nL → j < nP → G (1 + i) (1 + nL + j) = x i j := by
    intro i j hi hj
    simp only [hG, allocFlow]
    rw [if_neg (by omega), if_pos (by omega)]
    congr 1 <;> omega
  have hGt : ∀ j, j < nP → G (1 + nL + j) T = ((counts.getD j 0 : Nat) : Int) := by
    intro j hj
    simp only [hG, allocFlow]
    rw [if_neg (by omega), if_neg (by omega), if_pos (by omega)]
    congr 2
    omega
  have hG0 : ∀ a b, ¬ Arc labels counts a b → G a b = 0 := by
    intro a b h
    simp only [hG, allocFlow]
    split
    · rename_i h1
      exact absurd (by
        have := Arc.source (labels := labels) (counts := counts) (b - 1) (by omega)
        rw [show 1 + (b - 1) = b by omega, ← h1.1] at this
        exact this) h
    · split
      · rename_i h1
        exact absurd (by
          have := Arc.middle (labels := labels) (counts := counts) (a - 1) (b - (1 + nL)) (by omega) (by omega)
          rw [show 1 + (a - 1) = a by omega, show 1 + labels.length + (b - (1 + nL)) = b by omega] at this
          exact this) h
      · split
        · rename_i h1
          exact absurd (by
            have := Arc.sink (labels := labels) (counts := counts) (a - (1 + nL)) (by omega)
            rw [show 1 + labels.length + (a - (1 + nL)) = a by omega, ← h1.2.2] at this
            exact this) h
        · rfl
  have hGle : ∀ a b, 0 ≤ G a b ∧ G a b ≤ cap a b := by
    intro a b
    by_cases harc : Arc labels counts a b
    · cases harc with
      | source i hi =>
        obtain ⟨l, hl⟩ := hlab i hi
        rw [hGs i hi, hcap, cap_source labels supply allowed counts i l hl]
        exact ⟨Finset.sum_nonneg (fun j hj => hx.nonneg i j hi (Finset.mem_range.1 hj)), hx.supply i l hl⟩
      | middle i j hi hj =>
        obtain ⟨l, hl⟩ := hlab i hi
        rw [hGm i j hi hj, hcap, cap_middle labels supply allowed counts i j l hl hj]
        refine ⟨hx.nonneg i j hi hj, ?_⟩
        by_cases hne : x i j = 0
        · rw [hne]; split <;> omega
        · rw [if_pos (hx.allowed i j l hl hj hne)]
          have h1 : x i j ≤ ∑ k ∈ range nL, x k j :=
            Finset.single_le_sum (f := fun k => x k j) (fun k hk => hx.nonneg k j (Finset.mem_range.1 hk) hj) (Finset.mem_range.2 hi)
          have hcj : counts[j]? = some (counts.getD j 0) := by simp [List.getD_eq_getElem?_getD, hj]
          rw [hx.size j _ hcj] at h1
          have h2 : ((counts.getD j 0 : Nat) : Int) ≤ ∑ k ∈ range nP, ((counts.getD k 0 : Nat) : Int) :=
            Finset.single_le_sum (f := fun k => ((counts.getD k 0 : Nat) : Int)) (fun k _ => by positivity) (Finset.mem_range.2 hj)
          rw [sum_counts] at h2
          omega
      | sink j hj =>
        have hcj : counts[j]? = some (counts.getD j 0) := by simp [List.getD_eq_getElem?_getD, hj]
        rw [hGt j hj, hcap, cap_sink labels supply allowed counts j _ hcj]
        exact ⟨by positivity, le_rfl⟩
    · rw [hG0 a b harc, hcap, cap_zero_of labels supply allowed counts a b harc]
      exact ⟨le_rfl, le_rfl⟩
  refine flow_le_cut (t := T) (s := 0) (fun a b => G a b - G b a) _ (fun u v => by ring) ?_ ?_ S hS hs htS
  · intro v hv
    rw [sum_nodes]
    rcases Nat.lt_or_ge v (1 + nL) with h1 | h1
    · rcases Nat.eq_zero_or_pos v with rfl | h0
      · -- source
        rw [if_pos rfl, if_neg (by omega)]
        have a0 : ∀ a, G a 0 = 0 := by
          intro a
          apply hG0
          intro h
          rcases Arc.inv labels counts h with h | ⟨i', j', hi', hj', h⟩ | ⟨j', hj', h⟩ <;> omega
        have a1 : G 0 T = 0 := by
          apply hG0; intro h
          rcases Arc.inv labels counts h with h | ⟨i', j', hi', hj', h⟩ | ⟨j', hj', h⟩ <;> omega
        have a2 : ∑ j ∈ range nP, (G 0 (1 + nL + j) - G (1 + nL + j) 0) = 0 := by
          apply Finset.sum_eq_zero
          intro j hj
          rw [a0, hG0 0 (1 + nL + j) (by
            intro h
            rcases Arc.inv labels counts h with h | ⟨i', j', hi', hj', h⟩ | ⟨j', hj', h⟩ <;> omega)]
          ring
        have a3 : ∑ i ∈ range nL, (G 0 (1 + i) - G (1 + i) 0) = ((counts.sum : Nat) : Int) := by
          rw [← sum_counts]
          have : ∀ i ∈ range nL, G 0 (1 + i) - G (1 + i) 0 = ∑ j ∈ range nP, x i j := by
            intro i hi
            rw [a0, hGs i (Finset.mem_range.1 hi)]; ring
          rw [Finset.sum_congr rfl this, Finset.sum_comm]
          refine Finset.sum_congr rfl (fun j hj => ?_)
          have hj := Finset.mem_range.1 hj
          exact hx.size j _ (by simp [List.getD_eq_getElem?_getD, hj])
        rw [a1, a2, a3, a0]
        simp [a0]
      · -- label
        obtain ⟨i, rfl⟩ : ∃ i, v = 1 + i := ⟨v - 1, by omega⟩
        have hi : i < nL := by omega
        rw [if_neg (by omega), if_neg (by omega)]
        have a1 : ∑ k ∈ range nL, (G (1 + i) (1 + k) - G (1 + k) (1 + i)) = 0 := by
          apply Finset.sum_eq_zero
          intro k hk
          have hk := Finset.mem_range.1 hk
          rw [hG0 (1 + i) (1 + k) (by
            intro h
            rcases Arc.inv labels counts h with h | ⟨i', j', hi', hj', h⟩ | ⟨j', hj', h⟩ <;> omega), hG0 (1 + k) (1 + i) (by
            intro h
            rcases Arc.inv labels counts h with h | ⟨i', j', hi', hj', h⟩ | ⟨j', hj', h⟩ <;> omega)]
          ring
        have a2 : G (1 + i) T - G T (1 + i) = 0 := by
          rw [hG0 (1 + i) T (by
            intro h
            rcases Arc.inv labels counts h with h | ⟨i', j', hi', hj', h⟩ | ⟨j', hj', h⟩ <;> omega), hG0 T (1 + i) (by
            intro h
            rcases Arc.inv labels counts h with h | ⟨i', j', hi', hj', h⟩ | ⟨j', hj', h⟩ <;> omega)]
          ring
        have a3 : G (1 + i) 0 = 0 := by
          apply hG0; intro h
          rcases Arc.inv labels counts h with h | ⟨i', j', hi', hj', h⟩ | ⟨j', hj', h⟩ <;> omega
        have a4 : ∑ j ∈ range nP, (G (1 + i) (1 + nL + j) - G (1 + nL + j) (1 + i)) = ∑ j ∈ range nP, x i j := by
          refine Finset.sum_congr rfl (fun j hj => ?_)
          have hj := Finset.mem_range.1 hj
          rw [hGm i j hi hj, hG0 (1 + nL + j) (1 + i) (by
            intro h
            rcases Arc.inv labels counts h with h | ⟨i', j', hi', hj', h⟩ | ⟨j', hj', h⟩ <;> omega)]
          ring
        rw [a1, a2, a3, a4, hGs i hi]
        ring
    · rcases Nat.lt_or_ge v T with h2 | h2
      · -- partition
        obtain ⟨j, rfl⟩ : ∃ j, v = 1 + nL + j := ⟨v - (1 + nL), by omega⟩
        have hj : j < nP := by omega
        rw [if_neg (by omega), if_neg (by omega)]
        have a1 : ∑ k ∈ range nP, (G (1 + nL + j) (1 + nL + k) - G (1 + nL + k) (1 + nL + j)) = 0 := by
          apply Finset.sum_eq_zero
          intro k hk
          have hk := Finset.mem_range.1 hk
          rw [hG0 (1 + nL + j) (1 + nL + k) (by
            intro h
            rcases Arc.inv labels counts h with h | ⟨i', j', hi', hj', h⟩ | ⟨j', hj', h⟩ <;> omega), hG0 (1 + nL + k) (1 + nL + j) (by
            intro h
            rcases Arc.inv labels counts h with h | ⟨i', j', hi', hj', h⟩ | ⟨j', hj', h⟩ <;> omega)]
          ring
        have a2 : G (1 + nL + j) 0 - G 0 (1 + nL + j) = 0 := by
          rw [hG0 (1 + nL + j) 0 (by
            intro h
            rcases Arc.inv labels counts h with h | ⟨i', j', hi', hj', h⟩ | ⟨j', hj', h⟩ <;> omega), hG0 0 (1 + nL + j) (by
            intro h
            rcases Arc.inv labels counts h with h | ⟨i', j', hi', hj', h⟩ | ⟨j', hj', h⟩ <;> omega)]
          ring
        have a3 : G T (1 + nL + j) = 0 := by
          apply hG0; intro h
          rcases Arc.inv labels counts h with h | ⟨i', j', hi', hj', h⟩ | ⟨j', hj', h⟩ <;> omega
        have a4 : ∑ i ∈ range nL, (G (1 + nL + j) (1 + i) - G (1 + i) (1 + nL + j)) = - ((counts.getD j 0 : Nat) : Int) := by
          rw [← hx.size j _ (by simp [List.getD_eq_getElem?_getD, hj, ← hnP] : counts[j]? = some (counts.getD j 0)),
            ← Finset.sum_neg_distrib]
          refine Finset.sum_congr rfl (fun i hi => ?_)
          have hi := Finset.mem_range.1 hi
          rw [hGm i j hi hj, hG0 (1 + nL + j) (1 + i) (by
            intro h
            rcases Arc.inv labels counts h with h | ⟨i', j', hi', hj', h⟩ | ⟨j', hj', h⟩ <;> omega)]
          ring
        rw [a1, a2, a3, a4, hGt j hj]
        ring
      · -- sink
        have hvT : v = T := by omega
        subst hvT
        rw [if_neg (by omega), if_pos rfl]
        have a0 : ∀ b, G T b = 0 := by
          intro b
          apply hG0
          intro h
          rcases Arc.inv labels counts h with h | ⟨i', j', hi', hj', h⟩ | ⟨j', hj', h⟩ <;> omega
        have a1 : G 0 T = 0 := by
          apply hG0; intro h
          rcases Arc.inv labels counts h with h | ⟨i', j', hi', hj', h⟩ | ⟨j', hj', h⟩ <;> omega
        have a2 : ∑ i ∈ range nL, (G T (1 + i) - G (1 + i) T) = 0 := by
          apply Finset.sum_eq_zero
          intro i hi
          have hi := Finset.mem_range.1 hi
          rw [a0, hG0 (1 + i) T (by
            intro h
            rcases Arc.inv labels counts h with h | ⟨i', j', hi', hj', h⟩ | ⟨j', hj', h⟩ <;> omega)]
          ring
        have a3 : ∑ j ∈ range nP, (G T (1 + nL + j) - G (1 + nL + j) T) = - ((counts.sum : Nat) : Int) := by
          rw [← sum_counts, ← Finset.sum_neg_distrib]
          refine Finset.sum_congr rfl (fun j hj => ?_)
          rw [a0, hGt j (Finset.mem_range.1 hj)]
          ring
        rw [a1, a2, a3, a0, a0]
        ring
  · intro u v
    have h1 := (hGle u v).2
    have h2 := (hGle v u).1
    omega

end Values
end Part
end Verif
