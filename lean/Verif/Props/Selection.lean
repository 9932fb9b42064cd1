import Mathlib.Tactic.Linarith
import Mathlib.Data.List.Range
import Verif.Model.Selection
import Verif.Lemmas.Exchange
set_option linter.unusedSectionVars false
/-!
# C16, C17: client selection
-/
namespace Verif.Props
open Verif.Selection

section
variable {A : Type} [DecidableEq A]

/-- Specification: a sample of `k` distinct clients from the pool. -/
structure ValidSample (clients : List A) (k : Nat) (out : List A) : Prop where
  distinct : out.Nodup
  subset : ∀ a ∈ out, a ∈ clients
  count : out.length = k

/-- Number of clients a validated size asks for, as documented: at most the pool, a fraction rounded down but at least 1. -/
def Requested (s : Size) (n k : Nat) : Prop :=
  (∃ m : Int, s.num = some m ∧ (k : Int) = min m n) ∨
  (∃ f : Rat, s.frac = some f ∧ 1 ≤ k ∧ ((k : Rat) ≤ f * n ∨ k = 1) ∧ f * n < k + 1)

/-- contract of `random.sample(l, k)` / `choice(n, size=k, replace=False)`: `k` distinct positions of the pool -/
def SampleOK (pick : Nat → Nat → List Nat) : Prop :=
  ∀ n k, k ≤ n → (pick n k).Nodup ∧ (pick n k).length = k ∧ ∀ i ∈ pick n k, i < n

/-- contract of `choice(n, size=k, replace=False, p=...)` -/
def WeightedSampleOK (pick : List Nat → Nat → List Nat) : Prop :=
  ∀ l k, k ≤ (l.filter (fun m => decide (0 < m))).length →
    (pick l k).Nodup ∧ (pick l k).length = k ∧ ∀ i ∈ pick l k, ∃ m : Nat, l[i]? = some m ∧ 0 < m

theorem resolve_spec (s : Size) (hs : validate s = .ok ()) (n : Nat) (hn : 0 < n) :
    Requested s n (resolve s n) ∧ 1 ≤ resolve s n ∧ resolve s n ≤ n := by
  unfold validate at hs
  unfold resolve Requested
  rcases hnum : s.num with _ | m
  · rcases hfr : s.frac with _ | f
    · simp [hnum, hfr] at hs
    · simp only [hnum, hfr] at hs
      split_ifs at hs with h
      simp only
      have hf0 : (0 : Rat) ≤ f * n := mul_nonneg h.1.le (by positivity)
      have hfn : f * n ≤ n := by
        have : f * n ≤ 1 * n := mul_le_mul_of_nonneg_right h.2 (by positivity)
        simpa using this
      have hfl0 : 0 ≤ ⌊f * (n : Rat)⌋ := Int.floor_nonneg.2 hf0
      obtain ⟨q, hq⟩ := Int.eq_ofNat_of_zero_le hfl0
      rw [hq]
      have hqle : (q : Rat) ≤ f * n := by
        have := Int.floor_le (f * (n : Rat)); rw [hq] at this; exact_mod_cast this
      have hqlt : f * n < (q : Rat) + 1 := by
        have := Int.lt_floor_add_one (f * (n : Rat)); rw [hq] at this; exact_mod_cast this
      have hqn : q ≤ n := by exact_mod_cast hqle.trans hfn
      have hk : min (max 1 (Int.toNat (q : Int))) n = max 1 q := by
        simp; omega
      rw [hk]
      refine ⟨Or.inr ⟨f, rfl, by omega, ?_, ?_⟩, by omega, by omega⟩
      · rcases Nat.eq_zero_or_pos q with h0 | h0
        · right; omega
        · left; rw [show max 1 q = q by omega]; exact hqle
      · have : (q : Rat) ≤ ((max 1 q : Nat) : Rat) := by exact_mod_cast le_max_right 1 q
        linarith
  · rcases hfr : s.frac with _ | f
    · simp only [hnum, hfr] at hs
      split_ifs at hs with h
      simp only
      refine ⟨Or.inl ⟨m, rfl, by omega⟩, by omega, by omega⟩
    · simp [hnum, hfr] at hs

theorem pickAt_valid (clients : List A) (hc : clients.Nodup) (idx : List Nat) (hn : idx.Nodup)
    (hi : ∀ i ∈ idx, i < clients.length) : ValidSample clients idx.length (pickAt clients idx) := by
  unfold pickAt
  induction idx with
  | nil => exact ⟨by simp, by simp, rfl⟩
  | cons i t ih =>
    have hlt := hi i (by simp)
    obtain ⟨h1, h2, h3⟩ := ih (List.nodup_cons.1 hn).2 (fun j hj => hi j (by simp [hj]))
    have hs : clients[i]? = some clients[i] := by simp [hlt]
    rw [List.filterMap_cons_some hs]
    refine ⟨?_, ?_, by simp [h3]⟩
    · rw [List.nodup_cons]
      refine ⟨?_, h1⟩
      intro hmem
      obtain ⟨j, hj, hji⟩ := List.mem_filterMap.1 hmem
      have hjlt := hi j (by simp [hj])
      rw [List.getElem?_eq_getElem hjlt, Option.some.injEq] at hji
      have := (List.Nodup.getElem_inj_iff hc).1 hji
      subst this
      exact (List.nodup_cons.1 hn).1 hj
    · intro a ha
      rcases List.mem_cons.1 ha with rfl | ha
      · exact List.getElem_mem hlt
      · exact h2 a ha

/-- Uniform selection. -/
theorem C16_uniform (s : Size) (hs : validate s = .ok ()) (pick : Nat → Nat → List Nat) (hp : SampleOK pick)
    (clients : List A) (hc : clients.Nodup) :
    (clients = [] → uniform s pick clients = []) ∧
    (clients ≠ [] → ∃ k, Requested s clients.length k ∧ 1 ≤ k ∧ ValidSample clients k (uniform s pick clients)) := by
  refine ⟨by rintro rfl; simp [uniform], fun hne => ?_⟩
  have hn : 0 < clients.length := List.length_pos_of_ne_nil hne
  obtain ⟨hr, h1, hle⟩ := resolve_spec s hs clients.length hn
  refine ⟨_, hr, h1, ?_⟩
  simp only [uniform, hne, if_false]
  split_ifs with h
  · exact ⟨hc, fun _ h => h, h.symm⟩
  · obtain ⟨hnd, hlen, hlt⟩ := hp clients.length _ hle
    have := pickAt_valid clients hc _ hnd hlt
    rwa [hlen] at this

example : validate ⟨some 2, none⟩ = .ok () ∧ validate ⟨none, some (1/3)⟩ = .ok () := by decide +kernel
example : SampleOK (fun _ k => List.range k) :=
  fun n k h => ⟨List.nodup_range, by simp, fun i hi => by have := List.mem_range.1 hi; omega⟩
example : uniform ⟨some 2, none⟩ (fun _ k => List.range k) [5, 6, 7] = [5, 6] := by decide

/-- Data-size weighted selection: an error only if some client's data size is unknown or fewer than the requested number
of clients have data; otherwise a valid sample. -/
theorem C16_data_size (s : Size) (hs : validate s = .ok ()) (size : A → Option Nat) (pick : List Nat → Nat → List Nat)
    (hp : WeightedSampleOK pick) (clients : List A) (hc : clients.Nodup) :
    (clients = [] → Selection.dataSize s size pick clients = .ok []) ∧
    (clients ≠ [] → ∃ k, Requested s clients.length k ∧ 1 ≤ k ∧
      ((∃ out, Selection.dataSize s size pick clients = .ok out ∧ ValidSample clients k out) ∨
       (Selection.dataSize s size pick clients = .error .valueError ∧
         ((∃ c ∈ clients, size c = none) ∨
          (clients.filter (fun c => decide (0 < (size c).getD 0))).length < k)))) := by
  refine ⟨by rintro rfl; simp [Selection.dataSize], fun hne => ?_⟩
  have hn : 0 < clients.length := List.length_pos_of_ne_nil hne
  obtain ⟨hr, h1, hle⟩ := resolve_spec s hs clients.length hn
  refine ⟨_, hr, h1, ?_⟩
  simp only [Selection.dataSize, hne, if_false]
  have hfl : ((clients.map (fun c => (size c).getD 0)).filter (fun m => decide (0 < m))).length =
      (clients.filter (fun c => decide (0 < (size c).getD 0))).length := by
    rw [List.filter_map]; simp [Function.comp_def]
  split_ifs with h h2 h3
  · exact Or.inl ⟨_, rfl, hc, fun _ h => h, h.symm⟩
  · refine Or.inr ⟨rfl, Or.inl ?_⟩
    obtain ⟨c, hc1, hc2⟩ := List.any_eq_true.1 h2
    exact ⟨c, hc1, by simpa using hc2⟩
  · exact Or.inr ⟨rfl, Or.inr (by omega)⟩
  · refine Or.inl ⟨_, rfl, ?_⟩
    obtain ⟨hnd, hlen, hlt⟩ := hp (clients.map (fun c => (size c).getD 0)) (resolve s clients.length) (by omega)
    have := pickAt_valid clients hc _ hnd (fun i hi => by
      obtain ⟨m, hm, _⟩ := hlt i hi
      have := (List.getElem?_eq_some_iff.1 hm).1
      simpa using this)
    rwa [hlen] at this

example : WeightedSampleOK (fun l k => ((List.range l.length).filter (fun i => decide (0 < l.getD i 0))).take k) := by
  intro l k hk
  have hlen : ((List.range l.length).filter (fun i => decide (0 < l.getD i 0))).length =
      (l.filter (fun m => decide (0 < m))).length := by
    have : l = (List.range l.length).map (fun i => l.getD i 0) := by
      apply List.ext_getElem
      · simp
      · intro i h1 h2; simp [List.getD, h1]
    conv_rhs => rw [this, List.filter_map]
    simp [Function.comp_def]
  refine ⟨(List.nodup_range.filter _).sublist (List.take_sublist _ _), by rw [List.length_take]; omega, ?_⟩
  intro i hi
  have := List.mem_of_mem_take hi
  simp only [List.mem_filter, List.mem_range, decide_eq_true_eq] at this
  refine ⟨l[i]'this.1, by simp [this.1], ?_⟩
  have h2 := this.2
  simpa [List.getD, this.1] using h2

/-- past number of selections of a client, as recorded by the scheme -/
def cnt (counts : PyDict A Nat) (a : A) : Nat := (counts.get? a).getD 0

theorem fair_counts (counts : PyDict A Nat) (sel : List A) (hs : sel.Nodup) (a : A) :
    cnt (sel.foldl (fun c a => c.set a ((c.get? a).getD 0 + 1)) counts) a =
      cnt counts a + (if a ∈ sel then 1 else 0) := by
  induction sel generalizing counts with
  | nil => simp
  | cons b t ih =>
    rw [List.foldl_cons, ih _ (List.nodup_cons.1 hs).2]
    have hbt := (List.nodup_cons.1 hs).1
    by_cases hab : a = b
    · subst hab; simp [cnt, hbt]
    · simp [cnt, hab]

theorem fair_sorted (counts : PyDict A Nat) (clients : List A) :
    (pySorted (fun a b => decide ((counts.get? a).getD 0 ≤ (counts.get? b).getD 0)) clients).Pairwise
      (fun a b => cnt counts a ≤ cnt counts b) := by
  have h := pySorted_pairwise (le := fun a b => decide ((counts.get? a).getD 0 ≤ (counts.get? b).getD 0))
    (by intro a b c h1 h2; simp only [decide_eq_true_eq] at *; omega)
    (by intro a b; simp only [Bool.or_eq_true, decide_eq_true_eq]; omega) clients
  exact h.imp (fun h => by simpa [cnt] using h)

/-- the selected list -/
theorem fair_valid (s : Size) (hs : validate s = .ok ()) (counts : PyDict A Nat) (clients : List A) (hc : clients.Nodup)
    (hne : clients ≠ []) :
    ValidSample clients (resolve s clients.length) (fair s counts clients).1 := by
  have hn : 0 < clients.length := List.length_pos_of_ne_nil hne
  obtain ⟨hr, h1, hle⟩ := resolve_spec s hs clients.length hn
  simp only [fair, hne, if_false]
  split_ifs with h
  · exact ⟨hc, fun _ h => h, h.symm⟩
  · have hperm : (pySorted (fun a b => decide ((counts.get? a).getD 0 ≤ (counts.get? b).getD 0)) clients).Perm clients :=
      pySorted_perm _ _
    refine ⟨(hperm.nodup_iff.2 hc).sublist (List.take_sublist _ _),
      fun a ha => hperm.mem_iff.1 (List.mem_of_mem_take ha), ?_⟩
    rw [List.length_take, hperm.length_eq]; omega

/-- every unselected client has been selected at least as often as every selected one -/
theorem fair_exchange (s : Size) (counts : PyDict A Nat) (clients : List A) (hne : clients ≠ []) (a b : A)
    (ha : a ∈ (fair s counts clients).1) (hb : b ∈ clients) (hb' : b ∉ (fair s counts clients).1) :
    cnt counts a ≤ cnt counts b := by
  simp only [fair, hne, if_false] at ha hb'
  split_ifs at ha hb' with h
  · exact absurd hb hb'
  · have hperm : (pySorted (fun a b => decide ((counts.get? a).getD 0 ≤ (counts.get? b).getD 0)) clients).Perm clients :=
      pySorted_perm _ _
    exact take_le_drop (fair_sorted counts clients) _ ha (mem_drop_of_not_mem_take (hperm.mem_iff.2 hb) hb')

/-- Fair selection: a valid sample minimising the total number of past selections among all samples of that size, and the
scheme's counts are incremented exactly for the selected clients. -/
theorem C16_fair (s : Size) (hs : validate s = .ok ()) (counts : PyDict A Nat) (clients : List A) (hc : clients.Nodup) :
    (clients = [] → fair s counts clients = ([], counts)) ∧
    (clients ≠ [] → ∃ k, Requested s clients.length k ∧ 1 ≤ k ∧ ValidSample clients k (fair s counts clients).1 ∧
      (∀ S, ValidSample clients k S →
        (((fair s counts clients).1).map (cnt counts)).sum ≤ (S.map (cnt counts)).sum)) ∧
    (∀ a, cnt (fair s counts clients).2 a = cnt counts a + (if a ∈ (fair s counts clients).1 then 1 else 0)) := by
  refine ⟨by rintro rfl; simp [fair], fun hne => ?_, fun a => ?_⟩
  · obtain ⟨hr, h1, hle⟩ := resolve_spec s hs clients.length (List.length_pos_of_ne_nil hne)
    have hv := fair_valid s hs counts clients hc hne
    refine ⟨_, hr, h1, hv, ?_⟩
    intro S hS
    apply list_sum_le_of_exchange _ _ _ hv.distinct hS.distinct (hv.count.trans hS.count.symm)
    intro a ha b hb hb'
    exact fair_exchange s counts clients hne a b ha (hS.subset b hb) hb'
  · by_cases hne : clients = []
    · subst hne; simp [fair]
    · have hv := fair_valid s hs counts clients hc hne
      have h2 : (fair s counts clients).2 =
          (fair s counts clients).1.foldl (fun c a => c.set a ((c.get? a).getD 0 + 1)) counts := by
        simp only [fair, hne, if_false]
      rw [h2, fair_counts counts _ hv.distinct]

/-- Fair selection keeps the given order among clients with equal counts: if `b` is selected, so is every client listed
earlier that has not been selected more often. -/
theorem C16_fair_stable (s : Size) (counts : PyDict A Nat) (pre mid post : List A) (a b : A)
    (hc : (pre ++ a :: mid ++ b :: post).Nodup) (hle : cnt counts a ≤ cnt counts b)
    (hb : b ∈ (fair s counts (pre ++ a :: mid ++ b :: post)).1) :
    a ∈ (fair s counts (pre ++ a :: mid ++ b :: post)).1 := by
  set clients := pre ++ a :: mid ++ b :: post with hcl
  have hne : clients ≠ [] := by simp [hcl]
  simp only [fair, hne, if_false] at hb ⊢
  split_ifs at hb ⊢ with h
  · simp [hcl]
  · set srt := pySorted (fun a b => decide ((counts.get? a).getD 0 ≤ (counts.get? b).getD 0)) clients with hsrt
    have hsub : [a, b].Sublist srt := by
      apply pair_sublist_pySorted
      · simpa [cnt] using hle
      · rw [hcl, List.append_assoc]
        refine List.Sublist.trans ?_ (List.sublist_append_right pre _)
        simp only [List.cons_append]
        refine List.Sublist.cons_cons a ?_
        refine List.Sublist.trans ?_ (List.sublist_append_right mid _)
        simp
    have hnd : srt.Nodup := (pySorted_perm _ _).nodup_iff.2 hc
    by_contra hna
    have hadrop : a ∈ srt.drop (resolve s clients.length) :=
      mem_drop_of_not_mem_take (hsub.subset (by simp)) hna
    -- b in take, a in drop: then [b, a] is also a sublist, contradicting nodup
    have hsub2 : [b, a].Sublist srt := by
      conv_rhs => rw [← List.take_append_drop (resolve s clients.length) srt]
      have h1 : [b].Sublist (srt.take (resolve s clients.length)) := List.singleton_sublist.2 hb
      have h2 : [a].Sublist (srt.drop (resolve s clients.length)) := List.singleton_sublist.2 hadrop
      exact h1.append h2
    have hp1 : srt.Pairwise (fun x y => ¬ (x = b ∧ y = a)) := by
      rw [List.pairwise_iff_forall_sublist]
      rintro x y hxy ⟨rfl, rfl⟩
      rw [List.nodup_iff_sublist] at hnd
      obtain ⟨l1, l2, hl, hs1, hs2⟩ := List.cons_sublist_iff.1 hsub
      obtain ⟨m1, m2, hm, ht1, ht2⟩ := List.cons_sublist_iff.1 hsub2
      obtain ⟨i, hi, hbi⟩ := List.getElem_of_mem hs1
      have hyx : y ≠ x := by
        rintro rfl
        exact hnd y hsub
      -- positions
      have hnd' : srt.Nodup := List.nodup_iff_sublist.2 hnd
      have hidx1 : srt.idxOf y < srt.idxOf x := by
        have hx2 : x ∈ l2 := List.singleton_sublist.1 hs2
        have hxl1 : x ∉ l1 := by
          intro hx1
          rw [hl] at hnd'
          exact (List.nodup_append.1 hnd').2.2 x hx1 x hx2 rfl
        rw [hl, List.idxOf_append_of_mem hs1, List.idxOf_append_of_notMem hxl1]
        have := List.idxOf_lt_length_of_mem hs1
        omega
      have hidx2 : srt.idxOf x < srt.idxOf y := by
        have hx2 : y ∈ m2 := List.singleton_sublist.1 ht2
        have hxl1 : y ∉ m1 := by
          intro hx1
          rw [hm] at hnd'
          exact (List.nodup_append.1 hnd').2.2 y hx1 y hx2 rfl
        rw [hm, List.idxOf_append_of_mem ht1, List.idxOf_append_of_notMem hxl1]
        have := List.idxOf_lt_length_of_mem ht1
        omega
      omega
    exact (List.pairwise_iff_forall_sublist.1 hp1 hsub2) ⟨rfl, rfl⟩

example : (fair ⟨some 2, none⟩ ⟨[(1, 3), (2, 1)]⟩ [1, 2, 3, 4]).1 = [3, 4] := by decide +kernel
example : (fair ⟨some 2, none⟩ ⟨[(1, 3), (3, 1)]⟩ [1, 2, 3]).2.entries = [(1, 3), (3, 2), (2, 1)] := by decide +kernel

/-- `HighLossSelection`: a valid sample maximising the total loss; in particular no unselected client has a larger loss
than a selected one. -/
theorem C16_high_loss (s : Size) (hs : validate s = .ok ()) (loss : A → ℝ) (tie : Nat → Nat) (clients : List A)
    (hc : clients.Nodup) :
    (clients = [] → highLoss s loss tie clients = []) ∧
    (clients ≠ [] → ∃ k, Requested s clients.length k ∧ 1 ≤ k ∧ ValidSample clients k (highLoss s loss tie clients) ∧
      (∀ a ∈ highLoss s loss tie clients, ∀ b ∈ clients, b ∉ highLoss s loss tie clients → loss b ≤ loss a) ∧
      (∀ S, ValidSample clients k S → (S.map loss).sum ≤ ((highLoss s loss tie clients).map loss).sum)) := by
  refine ⟨by rintro rfl; simp [highLoss], fun hne => ?_⟩
  have hn : 0 < clients.length := List.length_pos_of_ne_nil hne
  obtain ⟨hr, h1, hle⟩ := resolve_spec s hs clients.length hn
  have main : ValidSample clients (resolve s clients.length) (highLoss s loss tie clients) ∧
      (∀ a ∈ highLoss s loss tie clients, ∀ b ∈ clients, b ∉ highLoss s loss tie clients → loss b ≤ loss a) := by
    simp only [highLoss, hne, if_false]
    split_ifs with h
    · exact ⟨⟨hc, fun _ h => h, h.symm⟩, fun a _ b hb hb' => absurd hb hb'⟩
    · set lossAt : Nat → ℝ := fun i => ((clients[i]?).map loss).getD 0 with hla
      set srt := pySorted (hlLe lossAt tie) (List.range clients.length) with hsrt
      have hperm : srt.Perm (List.range clients.length) := pySorted_perm _ _
      have hnd : srt.Nodup := hperm.nodup_iff.2 List.nodup_range
      have hlt : ∀ i ∈ srt.take (resolve s clients.length), i < clients.length := fun i hi =>
        List.mem_range.1 (hperm.mem_iff.1 (List.mem_of_mem_take hi))
      have hlen : (srt.take (resolve s clients.length)).length = resolve s clients.length := by
        rw [List.length_take, hperm.length_eq, List.length_range]; omega
      have hv := pickAt_valid clients hc _ (hnd.sublist (List.take_sublist (resolve s clients.length) srt)) hlt
      rw [hlen] at hv
      refine ⟨hv, ?_⟩
      have hsorted : srt.Pairwise (fun i j => lossAt j ≤ lossAt i) := by
        have := pySorted_pairwise (le := hlLe lossAt tie)
          (by intro a b c h1 h2
              simp only [hlLe, decide_eq_true_eq] at *
              rcases h1 with h1 | ⟨h1, h1'⟩ <;> rcases h2 with h2 | ⟨h2, h2'⟩
              · left; linarith
              · left; linarith
              · left; linarith
              · right; exact ⟨h1.trans h2, h1'.trans h2'⟩)
          (by intro a b
              simp only [hlLe, Bool.or_eq_true, decide_eq_true_eq]
              rcases lt_trichotomy (lossAt a) (lossAt b) with h | h | h
              · right; left; exact h
              · rcases le_total (tie a) (tie b) with h' | h'
                · left; right; exact ⟨h, h'⟩
                · right; right; exact ⟨h.symm, h'⟩
              · left; left; exact h) (List.range clients.length)
        refine this.imp (fun h => ?_)
        simp only [hlLe, decide_eq_true_eq] at h
        rcases h with h | ⟨h, _⟩
        · exact h.le
        · exact h.ge
      intro a ha b hb hb'
      obtain ⟨i, hi, hai⟩ := List.mem_filterMap.1 ha
      obtain ⟨j, hj, rfl⟩ := List.getElem_of_mem hb
      have hjs : j ∈ srt := hperm.mem_iff.2 (List.mem_range.2 hj)
      have hjn : j ∉ srt.take (resolve s clients.length) := by
        intro hmem
        apply hb'
        exact List.mem_filterMap.2 ⟨j, hmem, by simp [hj]⟩
      have := take_le_drop hsorted _ hi (mem_drop_of_not_mem_take hjs hjn)
      simpa [hla, hai, hj] using this
  refine ⟨_, hr, h1, main.1, main.2, ?_⟩
  intro S hS
  have := list_sum_le_of_exchange (fun a => - loss a) _ S main.1.distinct hS.distinct
    (main.1.count.trans hS.count.symm)
    (fun a ha b hb hb' => neg_le_neg (main.2 a ha b (hS.subset b hb) hb'))
  have hneg : ∀ l : List A, (l.map (fun a => - loss a)).sum = - (l.map loss).sum := by
    intro l; induction l with
    | nil => simp
    | cons x t ih => simp only [List.map_cons, List.sum_cons, ih]; ring
  rw [hneg, hneg] at this
  linarith

/-- Constructor guard shared by all schemes. -/
theorem C16_size_guard (s : Size) :
    (validate s = .ok () ∨ validate s = .error .valueError) ∧
    (validate s = .ok () ↔ (∃ m : Int, s.num = some m ∧ s.frac = none ∧ 0 < m) ∨
      (∃ f : Rat, s.frac = some f ∧ s.num = none ∧ 0 < f ∧ f ≤ 1)) := by
  unfold validate
  rcases hnum : s.num with _ | m <;> rcases hfr : s.frac with _ | f <;> simp only <;>
    refine ⟨by (try split_ifs) <;> simp, ?_⟩ <;> (try split_ifs) <;> simp_all

/-! ## C17 -/

/-- number of rounds in which a client was selected -/
def timesSelected (h : List (List A)) (a : A) : Nat := (h.map (fun sel => sel.count a)).sum

theorem fair_balanced_step (s : Size) (hs : validate s = .ok ()) (counts : PyDict A Nat) (clients : List A)
    (hc : clients.Nodup) (hb : ∀ a ∈ clients, ∀ b ∈ clients, cnt counts a ≤ cnt counts b + 1) :
    ∀ a ∈ clients, ∀ b ∈ clients,
      cnt (fair s counts clients).2 a ≤ cnt (fair s counts clients).2 b + 1 := by
  intro a ha b hb'
  have h := (C16_fair s hs counts clients hc).2.2
  rw [h a, h b]
  have h0 := hb a ha b hb'
  by_cases h1 : a ∈ (fair s counts clients).1 <;> by_cases h2 : b ∈ (fair s counts clients).1 <;> simp only [h1, h2, if_true, if_false]
  · omega
  · have := fair_exchange s counts clients (List.ne_nil_of_mem ha) a b h1 hb' h2; omega
  · omega
  · omega

theorem fairRounds_counts (s : Size) (hs : validate s = .ok ()) (clients : List A) (hc : clients.Nodup) (n : Nat)
    (counts : PyDict A Nat) (a : A) :
    cnt (fairRounds s clients n counts).2 a = cnt counts a + timesSelected (fairRounds s clients n counts).1 a := by
  induction n generalizing counts with
  | zero => simp [fairRounds, timesSelected]
  | succ n ih =>
    simp only [fairRounds]
    rw [ih, (C16_fair s hs counts clients hc).2.2 a]
    have hnd : (fair s counts clients).1.Nodup := by
      by_cases hne : clients = []
      · subst hne; simp [fair]
      · exact (fair_valid s hs counts clients hc hne).distinct
    simp only [timesSelected, List.map_cons, List.sum_cons]
    by_cases h : a ∈ (fair s counts clients).1
    · rw [List.count_eq_one_of_mem hnd h]; simp [h]; omega
    · rw [List.count_eq_zero_of_not_mem h]; simp [h]

/-- With a fixed pool, after any number of rounds of a new FairSelection the numbers of times two clients have been
selected differ by at most one. -/
theorem C17_fair_balanced (s : Size) (hs : validate s = .ok ()) (clients : List A) (hc : clients.Nodup) (n : Nat)
    (a b : A) (ha : a ∈ clients) (hb : b ∈ clients) :
    timesSelected (fairRounds s clients n PyDict.empty).1 a ≤
      timesSelected (fairRounds s clients n PyDict.empty).1 b + 1 := by
  have main : ∀ (counts : PyDict A Nat), (∀ a ∈ clients, ∀ b ∈ clients, cnt counts a ≤ cnt counts b + 1) →
      ∀ a ∈ clients, ∀ b ∈ clients,
      cnt (fairRounds s clients n counts).2 a ≤ cnt (fairRounds s clients n counts).2 b + 1 := by
    clear ha hb a b
    induction n with
    | zero => exact fun counts h => h
    | succ n ih =>
      intro counts h
      exact ih _ (fair_balanced_step s hs counts clients hc h)
  have := main PyDict.empty (by simp [cnt]) a ha b hb
  rw [fairRounds_counts s hs clients hc, fairRounds_counts s hs clients hc] at this
  simpa [cnt] using this

theorem timesSelected_total (s : Size) (hs : validate s = .ok ()) (clients : List A) (hc : clients.Nodup)
    (hne : clients ≠ []) (n : Nat) (counts : PyDict A Nat) :
    (clients.map (timesSelected (fairRounds s clients n counts).1)).sum = n * resolve s clients.length := by
  induction n generalizing counts with
  | zero =>
    have : timesSelected ([] : List (List A)) = fun _ => 0 := by funext a; simp [timesSelected]
    simp [fairRounds, this]
  | succ n ih =>
    simp only [fairRounds]
    have hv := fair_valid s hs counts clients hc hne
    have h1 : (clients.map (fun a => (fair s counts clients).1.count a)).sum = (fair s counts clients).1.length := by
      have hcnt : ∀ a, (fair s counts clients).1.count a = if a ∈ (fair s counts clients).1 then 1 else 0 := by
        intro a
        by_cases h : a ∈ (fair s counts clients).1
        · rw [List.count_eq_one_of_mem hv.distinct h]; simp [h]
        · rw [List.count_eq_zero_of_not_mem h]; simp [h]
      simp only [hcnt]
      rw [← List.sum_toFinset _ hc, ← List.toFinset_card_of_nodup hv.distinct, ← Finset.sum_filter,
        Finset.sum_const, smul_eq_mul, mul_one]
      congr 1
      ext x
      simp only [Finset.mem_filter, List.mem_toFinset]
      exact ⟨fun h => h.2, fun h => ⟨hv.subset x h, h⟩⟩
    have h2 : (clients.map (timesSelected ((fair s counts clients).1 :: (fairRounds s clients n (fair s counts clients).2).1))).sum
        = (clients.map (fun a => (fair s counts clients).1.count a)).sum +
          (clients.map (timesSelected (fairRounds s clients n (fair s counts clients).2).1)).sum := by
      rw [← List.sum_map_add]
      congr 1
    rw [h2, h1, ih, hv.count]; ring

/-- Every client gets its fair share of the `n*k` selections, rounded down or up. -/
theorem C17_fair_share (s : Size) (hs : validate s = .ok ()) (clients : List A) (hc : clients.Nodup) (n : Nat)
    (a : A) (ha : a ∈ clients) :
    ∃ k, Requested s clients.length k ∧
      clients.length * timesSelected (fairRounds s clients n PyDict.empty).1 a < n * k + clients.length ∧
      n * k < clients.length * (timesSelected (fairRounds s clients n PyDict.empty).1 a + 1) := by
  have hne : clients ≠ [] := List.ne_nil_of_mem ha
  obtain ⟨hr, _, _⟩ := resolve_spec s hs clients.length (List.length_pos_of_ne_nil hne)
  refine ⟨_, hr, ?_⟩
  have htot := timesSelected_total s hs clients hc hne n PyDict.empty
  have hbal := fun b hb => C17_fair_balanced s hs clients hc n a b ha hb
  have hbal' := fun b hb => C17_fair_balanced s hs clients hc n b a hb ha
  rw [← htot]
  generalize timesSelected (fairRounds s clients n PyDict.empty).1 = f at *
  have key : ∀ (l : List A), (∀ b ∈ l, f a ≤ f b + 1) → (∀ b ∈ l, f b ≤ f a + 1) →
      l.length * f a ≤ (l.map f).sum + l.length ∧ (l.map f).sum ≤ l.length * (f a + 1) ∧
      (a ∈ l → l.length * f a < (l.map f).sum + l.length ∧ (l.map f).sum < l.length * (f a + 1)) := by
    intro l
    induction l with
    | nil => simp
    | cons x t ih =>
      intro h1 h2
      obtain ⟨i1, i2, i3⟩ := ih (fun b hb => h1 b (by simp [hb])) (fun b hb => h2 b (by simp [hb]))
      have hx1 := h1 x (by simp)
      have hx2 := h2 x (by simp)
      simp only [List.map_cons, List.sum_cons, List.length_cons]
      have e1 : (t.length + 1) * f a = t.length * f a + f a := by ring
      have e2 : (t.length + 1) * (f a + 1) = t.length * (f a + 1) + (f a + 1) := by ring
      rw [e1, e2]
      refine ⟨by omega, by omega, fun hmem => ?_⟩
      rcases List.mem_cons.1 hmem with rfl | hmem
      · omega
      · have := i3 hmem; omega
  exact ((key clients hbal hbal').2.2 ha)

example : (fairRounds ⟨some 2, none⟩ [1, 2, 3] 3 PyDict.empty).1 = [[1, 2], [3, 1], [2, 3]] := by decide +kernel

end
end Verif.Props
