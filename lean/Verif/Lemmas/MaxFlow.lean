import Verif.Model.MaxFlow
import Mathlib.Algebra.BigOperators.Group.Finset.Basic
import Mathlib.Algebra.BigOperators.Ring.Finset
import Mathlib.Algebra.Order.BigOperators.Group.Finset
import Mathlib.Algebra.BigOperators.Group.Finset.Sigma
import Mathlib.Tactic.Linarith
import Mathlib.Tactic.Ring
import Mathlib.Tactic.Push
/-!
# Correctness of the maximum-flow loop (generic networks)
-/
set_option linter.unusedSectionVars false
namespace Verif
namespace Part

open Finset

/-- a network on nodes `0..N-1` -/
structure NetOK (N s t : Nat) (adj : Nat → List Nat) (c : Caps) : Prop where
  sN : s < N
  tN : t < N
  st : s ≠ t
  nonneg : ∀ u v, 0 ≤ c u v
  supp : ∀ u v, c u v ≠ 0 → v ∈ adj u ∧ u ∈ adj v ∧ u < N ∧ v < N
  range : ∀ u, u < N → ∀ v ∈ adj u, v < N

/-- residual invariant for a flow of value `F` -/
structure ResInv (N s t : Nat) (c r : Caps) (F : Int) : Prop where
  nonneg : ∀ u v, 0 ≤ r u v
  anti : ∀ u v, r u v + r v u = c u v + c v u
  cons : ∀ v, v < N → ∑ w ∈ range N, (c v w - r v w) = (if v = s then F else 0) - (if v = t then F else 0)

theorem resInv_init {N s t : Nat} {adj : Nat → List Nat} {c : Caps} (h : NetOK N s t adj c) : ResInv N s t c c 0 := by
  refine ⟨h.nonneg, fun _ _ => rfl, fun v _ => ?_⟩
  simp

theorem ResInv.adj {N s t : Nat} {adj : Nat → List Nat} {c r : Caps} {F : Int} (h : NetOK N s t adj c)
    (hr : ResInv N s t c r F) {u v : Nat} (hp : 0 < r u v) : v ∈ adj u ∧ u < N ∧ v < N := by
  by_cases h1 : c u v = 0
  · by_cases h2 : c v u = 0
    · have := hr.anti u v
      have := hr.nonneg v u
      omega
    · obtain ⟨a, b, x, y⟩ := h.supp v u h2
      exact ⟨b, y, x⟩
  · obtain ⟨a, b, x, y⟩ := h.supp u v h1
    exact ⟨a, x, y⟩

/-! ### augmenting -/

/-- indicator of an edge -/
def ind (e : Nat × Nat) (a b : Nat) : Int := if e.1 = a ∧ e.2 = b then 1 else 0

theorem setCap_apply (r : Caps) (u v : Nat) (x : Int) (a b : Nat) :
    setCap r u v x a b = if a = u ∧ b = v then x else r a b := rfl

theorem augment_apply (f : Int) (es : List (Nat × Nat)) (r : Caps) (a b : Nat) :
    augment f es r a b = r a b - f * (es.map (fun e => ind e a b)).sum + f * (es.map (fun e => ind e b a)).sum := by
  induction es generalizing r with
  | nil => simp [augment]
  | cons e es ih =>
    obtain ⟨u, v⟩ := e
    simp only [augment, ih, List.map_cons, List.sum_cons]
    have key : setCap (setCap r u v (r u v - f)) v u (setCap r u v (r u v - f) v u + f) a b =
        r a b - f * ind (u, v) a b + f * ind (u, v) b a := by
      simp only [setCap_apply, ind]
      by_cases p : a = u ∧ b = v
      · obtain ⟨rfl, rfl⟩ := p
        by_cases hab : a = b
        · subst hab; simp
        · have hba : ¬ b = a := fun e => hab e.symm
          simp [hab, hba]
      · by_cases q : a = v ∧ b = u
        · obtain ⟨rfl, rfl⟩ := q
          have hab : ¬ a = b := fun e => p ⟨e, e.symm⟩
          have hba : ¬ b = a := fun e => hab e.symm
          simp [hab, hba]
        · have p' : ¬ (u = a ∧ v = b) := fun e => p ⟨e.1.symm, e.2.symm⟩
          have q' : ¬ (u = b ∧ v = a) := fun e => q ⟨e.2.symm, e.1.symm⟩
          simp [p, q, p', q']
    rw [key]
    ring

theorem ind_nonneg (e : Nat × Nat) (a b : Nat) : 0 ≤ ind e a b := by unfold ind; split <;> simp

theorem sum_ind_nonneg (es : List (Nat × Nat)) (a b : Nat) : 0 ≤ (es.map (fun e => ind e a b)).sum := by
  induction es with
  | nil => simp
  | cons e es ih => simp only [List.map_cons, List.sum_cons]; have := ind_nonneg e a b; omega

theorem sum_ind_zero (es : List (Nat × Nat)) (a b : Nat) (h : ∀ e ∈ es, e.2 ≠ b) :
    (es.map (fun e => ind e a b)).sum = 0 := by
  induction es with
  | nil => simp
  | cons e es ih =>
    have := h e (by simp)
    simp [ind, this] at ih ⊢
    exact ih (fun x y hx => h (x, y) (List.mem_cons_of_mem _ hx))

theorem sum_ind_le (es : List (Nat × Nat)) (a b : Nat) (hd : (es.map Prod.snd).Nodup) :
    (es.map (fun e => ind e a b)).sum = if (a, b) ∈ es then 1 else 0 := by
  induction es with
  | nil => simp
  | cons e es ih =>
    obtain ⟨u, v⟩ := e
    simp only [List.map_cons, List.nodup_cons] at hd
    simp only [List.map_cons, List.sum_cons]
    by_cases h : u = a ∧ v = b
    · obtain ⟨rfl, rfl⟩ := h
      rw [sum_ind_zero es u v (fun e he hev => hd.1 (hev ▸ List.mem_map.2 ⟨e, he, rfl⟩))]
      simp [ind]
    · rw [ih hd.2]
      have : (a, b) ≠ (u, v) := by
        intro e; simp only [Prod.mk.injEq] at e; exact h ⟨e.1.symm, e.2.symm⟩
      simp [ind, h, List.mem_cons, this]

theorem sum_row_ind (N : Nat) (e : Nat × Nat) (v : Nat) (h : e.2 < N) :
    ∑ w ∈ range N, ind e v w = if v = e.1 then 1 else 0 := by
  by_cases hv : v = e.1
  · subst hv
    simp [ind, h]
  · have hv' : ¬ e.1 = v := fun x => hv x.symm
    simp [ind, hv, hv']

theorem sum_col_ind (N : Nat) (e : Nat × Nat) (v : Nat) (h : e.1 < N) :
    ∑ w ∈ range N, ind e w v = if v = e.2 then 1 else 0 := by
  by_cases hv : v = e.2
  · subst hv
    simp [ind, h]
  · have hv' : ¬ e.2 = v := fun x => hv x.symm
    simp [ind, hv, hv']

theorem sum_list_sum (N : Nat) (es : List (Nat × Nat)) (g : Nat × Nat → Nat → Int) :
    ∑ w ∈ range N, (es.map (fun e => g e w)).sum = (es.map (fun e => ∑ w ∈ range N, g e w)).sum := by
  induction es with
  | nil => simp
  | cons e es ih => simp only [List.map_cons, List.sum_cons, Finset.sum_add_distrib, ih]

/-- what a walk from the sink back to the source delivers -/
structure PathOK (N s t : Nat) (r : Caps) (es : List (Nat × Nat)) : Prop where
  pos : ∀ e ∈ es, 0 < r e.1 e.2
  nodup : (es.map Prod.snd).Nodup
  tele : ∀ φ : Nat → Int, (es.map (fun e => φ e.1 - φ e.2)).sum = φ s - φ t
  inN : ∀ e ∈ es, e.1 < N ∧ e.2 < N

theorem pathFlow_aux (r : Caps) (es : List (Nat × Nat)) (m : Int) :
    es.foldl (fun m e => min m (r e.1 e.2)) m ≤ m ∧ (∀ e ∈ es, es.foldl (fun m e => min m (r e.1 e.2)) m ≤ r e.1 e.2) ∧
    (0 < m → (∀ e ∈ es, 0 < r e.1 e.2) → 0 < es.foldl (fun m e => min m (r e.1 e.2)) m) := by
  induction es generalizing m with
  | nil => simp
  | cons e es ih =>
    obtain ⟨h1, h2, h3⟩ := ih (min m (r e.1 e.2))
    simp only [List.foldl_cons]
    refine ⟨h1.trans (min_le_left _ _), ?_, ?_⟩
    · intro x hx
      rcases List.mem_cons.1 hx with rfl | hx
      · exact h1.trans (min_le_right _ _)
      · exact h2 x hx
    · intro hm hp
      exact h3 (lt_min hm (hp e (by simp))) (fun x hx => hp x (List.mem_cons_of_mem _ hx))

theorem pathFlow_le (r : Caps) (es : List (Nat × Nat)) : ∀ e ∈ es, pathFlow r es ≤ r e.1 e.2 := (pathFlow_aux r es _).2.1

theorem pathFlow_pos (r : Caps) (es : List (Nat × Nat)) (h : ∀ e ∈ es, 0 < r e.1 e.2) : 0 < pathFlow r es :=
  (pathFlow_aux r es _).2.2 (by unfold int64Max; omega) h

theorem resInv_augment {N s t : Nat} {c r : Caps} {F f : Int} (hr : ResInv N s t c r F) {es : List (Nat × Nat)}
    (hp : PathOK N s t r es) (hf : 0 ≤ f) (hle : ∀ e ∈ es, f ≤ r e.1 e.2) :
    ResInv N s t c (augment f es r) (F + f) := by
  refine ⟨?_, ?_, ?_⟩
  · intro u v
    rw [augment_apply, sum_ind_le es u v hp.nodup]
    have h2 := mul_nonneg hf (sum_ind_nonneg es v u)
    have h3 := hr.nonneg u v
    split
    · rename_i h
      have := hle _ h
      simp only at this
      linarith
    · linarith
  · intro u v
    rw [augment_apply, augment_apply]
    have := hr.anti u v
    linarith
  · intro v hv
    have h1 : ∀ w, c v w - augment f es r v w =
        (c v w - r v w) + (f * (es.map (fun e => ind e v w)).sum - f * (es.map (fun e => ind e w v)).sum) := by
      intro w; rw [augment_apply]; ring
    simp only [h1, Finset.sum_add_distrib, Finset.sum_sub_distrib, ← Finset.mul_sum]
    rw [sum_list_sum, sum_list_sum]
    have e1 : es.map (fun e => ∑ w ∈ range N, ind e v w) = es.map (fun e => if v = e.1 then (1 : Int) else 0) :=
      List.map_congr_left (fun e he => sum_row_ind N e v (hp.inN e he).2)
    have e2 : es.map (fun e => ∑ w ∈ range N, ind e w v) = es.map (fun e => if v = e.2 then (1 : Int) else 0) :=
      List.map_congr_left (fun e he => sum_col_ind N e v (hp.inN e he).1)
    rw [e1, e2]
    have htele := hp.tele (fun x => if v = x then (1 : Int) else 0)
    have hsub : ∀ l : List (Nat × Nat), (l.map (fun e => (if v = e.1 then (1 : Int) else 0) - (if v = e.2 then (1 : Int) else 0))).sum =
        (l.map (fun e => if v = e.1 then (1 : Int) else 0)).sum - (l.map (fun e => if v = e.2 then (1 : Int) else 0)).sum := by
      intro l
      induction l with
      | nil => simp
      | cons e l ih => simp only [List.map_cons, List.sum_cons, ih]; ring
    rw [hsub] at htele
    have hc := hr.cons v hv
    rw [Finset.sum_sub_distrib] at hc
    rw [hc, ← mul_sub, htele]
    split_ifs <;> ring

/-! ### breadth-first search -/

/-- the search tree: `rank` decreases along parents -/
structure Tree (N s : Nat) (r : Caps) (par : Parents) (rank : Nat → Nat) (k : Nat) : Prop where
  src : par s = some s
  parent : ∀ x y, x ≠ s → par x = some y → (∃ z, par y = some z) ∧ rank y < rank x ∧ 0 < r y x
  rankN : ∀ x, (∃ z, par x = some z) → rank x < k
  inN : ∀ x, (∃ z, par x = some z) → x < N

/-- number of unvisited nodes -/
def unvisited (N : Nat) (par : Parents) : Nat := ((List.range N).filter (fun x => (par x).isNone)).length

theorem unvisited_set {N : Nat} {par : Parents} {v : Nat} (node : Nat) (hv : v < N) (hn : par v = none) :
    unvisited N (fun a => if a = v then some node else par a) + 1 = unvisited N par := by
  unfold unvisited
  induction N with
  | zero => omega
  | succ N ih =>
    rw [List.range_succ, List.filter_append, List.filter_append, List.length_append, List.length_append]
    rcases Nat.lt_or_ge v N with h | h
    · have := ih h
      have hne : N ≠ v := by omega
      simp only [List.filter_cons, List.filter_nil, hne, if_false] at *
      omega
    · have hvN : v = N := by omega
      subst hvN
      have : (List.range v).filter (fun x => Option.isNone (if x = v then some node else par x)) =
          (List.range v).filter (fun x => (par x).isNone) := by
        apply List.filter_congr
        intro x hx
        have : x ≠ v := by have := List.mem_range.1 hx; omega
        simp [this]
      rw [this]
      simp [hn]

/-- visited nodes -/
abbrev Vis (par : Parents) (x : Nat) : Prop := ∃ z, par x = some z

theorem scan_spec {N s t : Nat} {adj : Nat → List Nat} {c r : Caps} {F : Int} (h : NetOK N s t adj c)
    (hr : ResInv N s t c r F) (node : Nat) (vs : List Nat) (par : Parents) (q : List Nat) (rank : Nat → Nat) (k : Nat)
    (ht : Tree N s r par rank k) (hk : k + unvisited N par ≤ N) (hnode : Vis par node) (hnt : par t = none) :
    ∃ rank' k', Tree N s r (scan r t node vs par q).1.1 rank' k' ∧
      k' + unvisited N (scan r t node vs par q).1.1 ≤ N ∧
      (∀ x, Vis par x → Vis (scan r t node vs par q).1.1 x) ∧
      ((scan r t node vs par q).2 = true → Vis (scan r t node vs par q).1.1 t) ∧
      ((scan r t node vs par q).2 = false →
        (scan r t node vs par q).1.1 t = none ∧
        (∀ v ∈ vs, 0 < r node v → Vis (scan r t node vs par q).1.1 v) ∧
        (∀ x, Vis (scan r t node vs par q).1.1 x → Vis par x ∨ x ∈ (scan r t node vs par q).1.2) ∧
        (∀ x ∈ q, x ∈ (scan r t node vs par q).1.2) ∧
        (∀ x ∈ (scan r t node vs par q).1.2, x ∈ q ∨ Vis (scan r t node vs par q).1.1 x) ∧
        (scan r t node vs par q).1.2.length + unvisited N (scan r t node vs par q).1.1 = q.length + unvisited N par) := by
  induction vs generalizing par q rank k with
  | nil =>
    refine ⟨rank, k, ht, hk, fun x hx => hx, by simp [scan], fun _ => ?_⟩
    exact ⟨hnt, by simp, fun x hx => Or.inl hx, fun x hx => hx, fun x hx => Or.inl hx, rfl⟩
  | cons v vs ih =>
    by_cases hskip : (par v).isSome = true ∨ r node v ≤ 0
    · have e : scan r t node (v :: vs) par q = scan r t node vs par q := by rw [scan, if_pos hskip]
      rw [e]
      obtain ⟨rank', k', h1, h2, h3, h4, h5⟩ := ih par q rank k ht hk hnode hnt
      refine ⟨rank', k', h1, h2, h3, h4, fun hf => ?_⟩
      obtain ⟨a, b, c', d, e', f⟩ := h5 hf
      refine ⟨a, ?_, c', d, e', f⟩
      intro x hx hpos
      rcases List.mem_cons.1 hx with rfl | hx
      · rcases hskip with hs | hs
        · exact h3 x (Option.isSome_iff_exists.1 hs)
        · omega
      · exact b x hx hpos
    · push Not at hskip
      obtain ⟨hvn, hvp⟩ := hskip
      have hvnone : par v = none := by
        cases hx : par v with
        | none => rfl
        | some z => rw [hx] at hvn; simp at hvn
      obtain ⟨_, hnN, hvN⟩ := hr.adj h hvp
      set par' : Parents := fun a => if a = v then some node else par a with hpar'
      have hvs : v ≠ s := by rintro rfl; rw [ht.src] at hvnone; cases hvnone
      have hnv : node ≠ v := by
        rintro rfl; obtain ⟨z, hz⟩ := hnode; rw [hz] at hvnone; cases hvnone
      have hu : unvisited N par' + 1 = unvisited N par := unvisited_set node hvN hvnone
      have hvis' : ∀ x, Vis par x → Vis par' x := by
        rintro x ⟨z, hz⟩
        by_cases hx : x = v
        · subst hx; exact ⟨node, by simp [hpar']⟩
        · exact ⟨z, by simp [hpar', hx, hz]⟩
      have htree : Tree N s r par' (fun x => if x = v then k else rank x) (k + 1) := by
        refine ⟨by simp [hpar', Ne.symm hvs, ht.src], ?_, ?_, ?_⟩
        · intro x y hx hxy
          by_cases hxv : x = v
          · subst hxv
            simp only [hpar', if_true, Option.some.injEq] at hxy
            subst hxy
            refine ⟨hvis' _ hnode, ?_, hvp⟩
            simp only [if_true, if_neg hnv]
            exact ht.rankN _ hnode
          · simp only [hpar', if_neg hxv] at hxy
            obtain ⟨hy, hrk, hpos⟩ := ht.parent x y hx hxy
            have hyv : y ≠ v := by rintro rfl; obtain ⟨z, hz⟩ := hy; rw [hz] at hvnone; cases hvnone
            exact ⟨hvis' _ hy, by simp only [if_neg hxv, if_neg hyv]; exact hrk, hpos⟩
        · rintro x ⟨z, hz⟩
          by_cases hxv : x = v
          · simp [hxv]
          · simp only [hpar', if_neg hxv] at hz
            simp only [if_neg hxv]
            have := ht.rankN x ⟨z, hz⟩
            omega
        · rintro x ⟨z, hz⟩
          by_cases hxv : x = v
          · subst hxv; exact hvN
          · simp only [hpar', if_neg hxv] at hz
            exact ht.inN x ⟨z, hz⟩
      have hk' : k + 1 + unvisited N par' ≤ N := by omega
      by_cases hvt : v = t
      · have e : scan r t node (v :: vs) par q = ((par', q), true) := by
          rw [scan, if_neg (by push Not; exact ⟨by simpa using hvn, hvp⟩)]
          simp only
          rw [if_pos hvt]
        rw [e]
        refine ⟨_, k + 1, htree, hk', hvis', fun _ => ⟨node, by simp [hpar', hvt]⟩, fun hf => by simp at hf⟩
      · have e : scan r t node (v :: vs) par q = scan r t node vs par' (q ++ [v]) := by
          rw [scan, if_neg (by push Not; exact ⟨by simpa using hvn, hvp⟩)]
          simp only
          rw [if_neg hvt]
        rw [e]
        obtain ⟨rank', k', h1, h2, h3, h4, h5⟩ := ih par' (q ++ [v]) _ (k + 1) htree hk' (hvis' _ hnode)
          (by simp only [hpar', if_neg (Ne.symm hvt)]; exact hnt)
        refine ⟨rank', k', h1, h2, fun x hx => h3 x (hvis' x hx), h4, fun hf => ?_⟩
        obtain ⟨a, b, c', d, e', f⟩ := h5 hf
        refine ⟨a, ?_, ?_, fun x hx => d x (List.mem_append_left _ hx), ?_, ?_⟩
        · intro x hx hpos
          rcases List.mem_cons.1 hx with rfl | hx
          · exact h3 x ⟨node, by simp [hpar']⟩
          · exact b x hx hpos
        · intro x hx
          rcases c' x hx with ⟨z, hz⟩ | hq
          · by_cases hxv : x = v
            · subst hxv; exact Or.inr (d x (by simp))
            · simp only [hpar', if_neg hxv] at hz
              exact Or.inl ⟨z, hz⟩
          · exact Or.inr hq
        · intro x hx
          rcases e' x hx with hq | hv
          · rcases List.mem_append.1 hq with hq | hq
            · exact Or.inl hq
            · simp only [List.mem_singleton] at hq
              subst hq
              exact Or.inr (h3 x ⟨node, by simp [hpar']⟩)
          · exact Or.inr hv
        · rw [f, List.length_append, List.length_singleton]; omega

theorem bfs_spec {N s t : Nat} {adj : Nat → List Nat} {c r : Caps} {F : Int} (h : NetOK N s t adj c)
    (hr : ResInv N s t c r F) (fuel : Nat) (q : List Nat) (par : Parents) (rank : Nat → Nat) (k : Nat)
    (ht : Tree N s r par rank k) (hk : k + unvisited N par ≤ N) (hnt : par t = none)
    (hq : ∀ x ∈ q, Vis par x) (hclosed : ∀ u, Vis par u → u ∉ q → ∀ v, 0 < r u v → Vis par v)
    (hfuel : q.length + unvisited N par ≤ fuel) :
    ∃ par', bfs adj r t fuel q par = some par' ∧ ∃ rank' k', Tree N s r par' rank' k' ∧ k' ≤ N ∧
      (par' t = none → ∀ u v, Vis par' u → 0 < r u v → Vis par' v) := by
  induction fuel generalizing q par rank k with
  | zero =>
    have : q = [] := List.eq_nil_of_length_eq_zero (by omega)
    subst this
    exact ⟨par, by simp [bfs], rank, k, ht, by omega, fun _ u v hu hv => hclosed u hu (by simp) v hv⟩
  | succ fuel ih =>
    cases q with
    | nil => exact ⟨par, by simp [bfs], rank, k, ht, by omega, fun _ u v hu hv => hclosed u hu (by simp) v hv⟩
    | cons node q =>
      have hnode := hq node (by simp)
      obtain ⟨rank', k', h1, h2, h3, h4, h5⟩ := scan_spec h hr node (adj node) par q rank k ht hk hnode hnt
      rw [bfs]
      by_cases hfound : (scan r t node (adj node) par q).2 = true
      · rw [if_pos hfound]
        refine ⟨_, rfl, rank', k', h1, by omega, fun hn => ?_⟩
        obtain ⟨z, hz⟩ := h4 hfound
        rw [hz] at hn; cases hn
      · rw [if_neg hfound]
        obtain ⟨a, b, c', d, e', f⟩ := h5 (by simpa using hfound)
        refine ih _ _ rank' k' h1 h2 a ?_ ?_ ?_
        · intro x hx
          rcases e' x hx with hx | hx
          · exact h3 x (hq x (List.mem_cons_of_mem _ hx))
          · exact hx
        · intro u hu hnq v hpos
          by_cases hun : u = node
          · subst hun
            exact b v (hr.adj h hpos).1 hpos
          · rcases c' u hu with hu' | hu'
            · have : u ∉ node :: q := by
                rw [List.mem_cons, not_or]
                exact ⟨hun, fun hm => hnq (d u hm)⟩
              exact h3 v (hclosed u hu' this v hpos)
            · exact absurd hu' hnq
        · rw [f]
          simp only [List.length_cons] at hfuel
          omega

theorem unvisited_start (N s : Nat) (hs : s < N) :
    unvisited N (fun a => if a = s then some s else none) + 1 = N := by
  have := unvisited_set (N := N) (par := fun _ => none) s hs rfl
  rw [this]
  simp [unvisited]

theorem findAugmentingPath_spec {N s t : Nat} {adj : Nat → List Nat} {c r : Caps} {F : Int} (h : NetOK N s t adj c)
    (hr : ResInv N s t c r F) (fuel : Nat) (hfuel : N ≤ fuel) :
    ∃ par, findAugmentingPath adj r s t fuel = some par ∧ ∃ rank k, Tree N s r par rank k ∧ k ≤ N ∧
      (par t = none → ∀ u v, Vis par u → 0 < r u v → Vis par v) := by
  have hu := unvisited_start N s h.sN
  refine bfs_spec h hr fuel [s] _ (fun _ => 0) 1 ⟨by simp, ?_, ?_, ?_⟩ (by omega) (by simp [Ne.symm h.st]) ?_ ?_ ?_
  · intro x y hx hxy
    simp [hx] at hxy
  · intro x _
    simp
  · rintro x ⟨z, hz⟩
    by_cases hx : x = s
    · subst hx; exact h.sN
    · simp [hx] at hz
  · intro x hx
    simp only [List.mem_singleton] at hx
    subst hx
    exact ⟨x, by simp⟩
  · rintro u ⟨z, hz⟩ hnq v hpos
    by_cases hx : u = s
    · subst hx; simp at hnq
    · simp [hx] at hz
  · simp only [List.length_singleton]; omega

theorem walk_spec {N s : Nat} {r : Caps} {par : Parents} {rank : Nat → Nat} {k : Nat} (ht : Tree N s r par rank k)
    (fuel node : Nat) (hv : Vis par node) (hf : rank node ≤ fuel) :
    ∃ es, walk par s fuel node = some es ∧ PathOK N s node r es ∧ ∀ e ∈ es, rank e.2 ≤ rank node := by
  induction fuel generalizing node with
  | zero =>
    by_cases h : node = s
    · subst h
      exact ⟨[], by simp [walk], ⟨by simp, by simp, by simp, by simp⟩, by simp⟩
    · obtain ⟨z, hz⟩ := hv
      have := (ht.parent node z h hz).2.1
      omega
  | succ fuel ih =>
    by_cases h : node = s
    · subst h
      exact ⟨[], by simp [walk], ⟨by simp, by simp, by simp, by simp⟩, by simp⟩
    · obtain ⟨z, hz⟩ := hv
      obtain ⟨hzv, hrk, hpos⟩ := ht.parent node z h hz
      obtain ⟨es, he, hok, hle⟩ := ih z hzv (by omega)
      refine ⟨(z, node) :: es, by simp [walk, h, hz, he], ⟨?_, ?_, ?_, ?_⟩, ?_⟩
      · intro e hm
        rcases List.mem_cons.1 hm with rfl | hm
        · exact hpos
        · exact hok.pos e hm
      · rw [List.map_cons, List.nodup_cons]
        refine ⟨?_, hok.nodup⟩
        intro hm
        obtain ⟨e, hm, hn⟩ := List.mem_map.1 hm
        have := hle e hm
        simp only at hn
        rw [hn] at this
        omega
      · intro φ
        rw [List.map_cons, List.sum_cons, hok.tele φ]
        ring
      · intro e hm
        rcases List.mem_cons.1 hm with rfl | hm
        · exact ⟨ht.inN z hzv, ht.inN node ⟨z, hz⟩⟩
        · exact hok.inN e hm
      · intro e hm
        rcases List.mem_cons.1 hm with rfl | hm
        · exact le_rfl
        · have := hle e hm; omega

/-! ### cuts -/

theorem flow_across_cut {N s t : Nat} (g : Nat → Nat → Int) (V : Int) (hanti : ∀ u v, g u v = - g v u)
    (hcons : ∀ v, v < N → ∑ w ∈ range N, g v w = (if v = s then V else 0) - (if v = t then V else 0))
    (S : Finset Nat) (hS : S ⊆ range N) (hs : s ∈ S) (htS : t ∉ S) :
    V = ∑ u ∈ S, ∑ w ∈ range N \ S, g u w := by
  have h1 : ∑ u ∈ S, ∑ w ∈ range N, g u w = V := by
    rw [Finset.sum_congr rfl (fun u hu => hcons u (Finset.mem_range.1 (hS hu)))]
    rw [Finset.sum_sub_distrib]
    simp [hs, htS]
  have h2 : ∑ u ∈ S, ∑ w ∈ S, g u w = 0 := by
    have hc : ∑ u ∈ S, ∑ w ∈ S, g u w = ∑ u ∈ S, ∑ w ∈ S, g w u := Finset.sum_comm
    have hn : ∑ u ∈ S, ∑ w ∈ S, g w u = - ∑ u ∈ S, ∑ w ∈ S, g u w := by
      rw [← Finset.sum_neg_distrib]
      refine Finset.sum_congr rfl (fun u _ => ?_)
      rw [← Finset.sum_neg_distrib]
      exact Finset.sum_congr rfl (fun w _ => hanti w u)
    omega
  rw [← h1]
  have : ∀ u ∈ S, ∑ w ∈ range N, g u w = ∑ w ∈ range N \ S, g u w + ∑ w ∈ S, g u w := fun u _ =>
    (Finset.sum_sdiff hS).symm
  rw [Finset.sum_congr rfl this, Finset.sum_add_distrib, h2, add_zero]

theorem ResInv.flow_anti {N s t : Nat} {c r : Caps} {F : Int} (hr : ResInv N s t c r F) (u v : Nat) :
    c u v - r u v = -(c v u - r v u) := by
  have := hr.anti u v
  omega

/-- the flow value is bounded by the capacity into the sink -/
theorem ResInv.bound {N s t : Nat} {adj : Nat → List Nat} {c r : Caps} {F : Int} (h : NetOK N s t adj c)
    (hr : ResInv N s t c r F) : F ≤ ∑ w ∈ range N, c w t := by
  have h1 := hr.cons t h.tN
  rw [if_neg (Ne.symm h.st), if_pos rfl] at h1
  have h2 : ∑ w ∈ range N, (c t w - r t w) = - ∑ w ∈ range N, (c w t - r w t) := by
    rw [← Finset.sum_neg_distrib]
    exact Finset.sum_congr rfl (fun w _ => hr.flow_anti t w)
  have h3 : ∑ w ∈ range N, (c w t - r w t) ≤ ∑ w ∈ range N, c w t :=
    Finset.sum_le_sum (fun w _ => by have := hr.nonneg w t; omega)
  omega

/-- The loop terminates; its result is a flow whose value equals the capacity of a cut. -/
theorem maxFlow_spec {N s t : Nat} {adj : Nat → List Nat} {c : Caps} (h : NetOK N s t adj c) (inner : Nat) (hin : N ≤ inner)
    (fuel : Nat) (r : Caps) (F : Int) (hr : ResInv N s t c r F)
    (hfuel : ∑ w ∈ range N, c w t - F < fuel) :
    ∃ F' r', maxFlow adj s t inner fuel r F = some (F', r') ∧ ResInv N s t c r' F' ∧
      ∃ S : Finset Nat, S ⊆ range N ∧ s ∈ S ∧ t ∉ S ∧ F' = ∑ u ∈ S, ∑ w ∈ range N \ S, c u w := by
  induction fuel generalizing r F with
  | zero =>
    have := hr.bound h
    push_cast at hfuel
    omega
  | succ fuel ih =>
    obtain ⟨par, hp, rank, k, ht, hk, hcl⟩ := findAugmentingPath_spec h hr inner hin
    rw [maxFlow, hp]
    simp only
    cases hpt : par t with
    | none =>
      simp only
      refine ⟨F, r, rfl, hr, ?_⟩
      classical
      let S : Finset Nat := (range N).filter (fun x => (par x).isSome)
      have hmem : ∀ x, x ∈ S ↔ Vis par x := by
        intro x
        simp only [S, Finset.mem_filter, Finset.mem_range, Option.isSome_iff_exists]
        exact ⟨fun hx => hx.2, fun hx => ⟨ht.inN x hx, hx⟩⟩
      have hSsub : S ⊆ range N := Finset.filter_subset _ _
      have hsS : s ∈ S := (hmem s).2 ⟨s, ht.src⟩
      have htS : t ∉ S := fun hx => by obtain ⟨z, hz⟩ := (hmem t).1 hx; rw [hz] at hpt; cases hpt
      refine ⟨S, hSsub, hsS, htS, ?_⟩
      rw [flow_across_cut (fun u v => c u v - r u v) F hr.flow_anti hr.cons S hSsub hsS htS]
      refine Finset.sum_congr rfl (fun u hu => Finset.sum_congr rfl (fun w hw => ?_))
      have hw' := Finset.mem_sdiff.1 hw
      have hzero : r u w = 0 := by
        have h0 := hr.nonneg u w
        by_contra hne
        have : 0 < r u w := lt_of_le_of_ne h0 (Ne.symm hne)
        exact hw'.2 ((hmem w).2 (hcl hpt u w ((hmem u).1 hu) this))
      simp only [hzero, sub_zero]
    | some z =>
      simp only
      have hrk := ht.rankN t ⟨z, hpt⟩
      obtain ⟨es, he, hok, _⟩ := walk_spec ht inner t ⟨z, hpt⟩ (by omega)
      rw [he]
      simp only
      have hpos := pathFlow_pos r es hok.pos
      refine ih _ _ (resInv_augment hr hok hpos.le (pathFlow_le r es)) ?_
      push_cast at hfuel
      omega

/-- any flow is bounded by any cut, hence by the computed value -/
theorem flow_le_cut {N s t : Nat} {c : Caps} (g : Nat → Nat → Int) (V : Int) (hanti : ∀ u v, g u v = - g v u)
    (hcons : ∀ v, v < N → ∑ w ∈ range N, g v w = (if v = s then V else 0) - (if v = t then V else 0))
    (hle : ∀ u v, g u v ≤ c u v) (S : Finset Nat) (hS : S ⊆ range N) (hs : s ∈ S) (htS : t ∉ S) :
    V ≤ ∑ u ∈ S, ∑ w ∈ range N \ S, c u w := by
  rw [flow_across_cut g V hanti hcons S hS hs htS]
  exact Finset.sum_le_sum (fun u _ => Finset.sum_le_sum (fun w _ => hle u w))

end Part
end Verif
