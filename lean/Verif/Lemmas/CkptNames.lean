import Verif.Model.CkptNames
import Verif.Lemmas.Checkpoint
/-! # Facts about checkpoint file names -/
set_option linter.unusedSectionVars false
namespace Verif.Names
open Verif Verif.Ckpt

theorem pre_eq : pre = ['c','h','e','c','k','p','o','i','n','t','_'] := by rfl
theorem pkl_eq : pkl = ['.','p','k','l'] := by rfl
theorem zst_eq : zst = ['.','p','k','l','.','z','s','t'] := by rfl
theorem progress_eq : progressName = ['p','r','o','g','r','e','s','s','.','j','s','o','n'] := by rfl
theorem complete_eq : completeName = ['c','o','m','p','l','e','t','e','.','j','s','o','n'] := by rfl

theorem padded_digits (i : Nat) (c : Char) (h : c ∈ padded i) : c.isDigit = true := by
  unfold padded at h
  rcases List.mem_append.1 h with h | h
  · rw [List.eq_of_mem_replicate h]; rfl
  · exact Nat.isDigit_of_mem_toDigits (by decide) (by decide) h

theorem padded_ne_nil (i : Nat) : padded i ≠ [] := by
  unfold padded
  intro h
  exact Nat.toDigits_ne_nil (List.append_eq_nil_iff.1 h).2

theorem padded_value (i : Nat) : Nat.ofDigitChars 10 (padded i) 0 = i := by
  unfold padded
  rw [Nat.ofDigitChars_append, Nat.ofDigitChars_replicate_zero, Nat.mul_zero, Nat.ofDigitChars_ten_toDigits]

theorem padded_inj {i j : Nat} (h : padded i = padded j) : i = j := by
  rw [← padded_value i, ← padded_value j, h]

theorem globs_iff (suffix f : Name) : globs suffix f = true ↔ ∃ mid, f = pre ++ (mid ++ suffix) := by
  unfold globs between
  constructor
  · intro h
    split at h
    · rename_i hc
      simp only [Bool.and_eq_true, List.isPrefixOf_iff_prefix, List.isSuffixOf_iff_suffix] at hc
      obtain ⟨⟨r, hr⟩, ⟨q, hq⟩⟩ := hc
      refine ⟨q, ?_⟩
      rw [← hr] at hq ⊢
      rw [List.drop_left] at hq
      rw [hq]
    · cases h
  · rintro ⟨mid, rfl⟩
    rw [if_pos]
    · rfl
    · simp only [Bool.and_eq_true, List.isPrefixOf_iff_prefix, List.isSuffixOf_iff_suffix]
      refine ⟨List.prefix_append _ _, ?_⟩
      rw [List.drop_left]
      exact List.suffix_append _ _

theorem iterationOf_digits {ds rest : Name} (hd : ∀ c ∈ ds, c.isDigit = true) (hn : ds ≠ []) (hr : rest = pkl ∨ rest = zst) :
    iterationOf (pre ++ (ds ++ rest)) = .ok (Nat.ofDigitChars 10 ds 0) := by
  have ht : (ds ++ rest).takeWhile Char.isDigit = ds := by
    rw [List.takeWhile_append_of_pos hd]
    rcases hr with rfl | rfl
    · rw [pkl_eq]; simp [Char.isDigit]
    · rw [zst_eq]; simp [Char.isDigit]
  have hdr : (ds ++ rest).dropWhile Char.isDigit = rest := by
    rw [List.dropWhile_append_of_pos hd]
    rcases hr with rfl | rfl
    · rw [pkl_eq]; simp [Char.isDigit]
    · rw [zst_eq]; simp [Char.isDigit]
  unfold iterationOf
  rw [if_pos (List.isPrefixOf_iff_prefix.2 (List.prefix_append _ _)), List.drop_left]
  simp only [ht, hdr]
  rw [if_pos ⟨hn, by rcases hr with h | h <;> simp [h]⟩]

theorem iterationOf_zst (i : Nat) : iterationOf (zstName i) = .ok i :=
  (iterationOf_digits (padded_digits i) (padded_ne_nil i) (.inr rfl)).trans (by rw [padded_value])

theorem iterationOf_pkl (i : Nat) : iterationOf (pklName i) = .ok i :=
  (iterationOf_digits (padded_digits i) (padded_ne_nil i) (.inl rfl)).trans (by rw [padded_value])

theorem zst_inj {i j : Nat} (h : zstName i = zstName j) : i = j := by
  have := iterationOf_zst i
  rw [h, iterationOf_zst] at this
  cases this; rfl

theorem pkl_inj {i j : Nat} (h : pklName i = pklName j) : i = j := by
  have := iterationOf_pkl i
  rw [h, iterationOf_pkl] at this
  cases this; rfl

theorem not_both {f : Name} (h1 : globs pkl f = true) (h2 : globs zst f = true) : False := by
  obtain ⟨a, rfl⟩ := (globs_iff _ _).1 h1
  obtain ⟨b, hb⟩ := (globs_iff _ _).1 h2
  have hb := List.append_cancel_left hb
  have s1 : pkl <:+ (b ++ zst) := by rw [← hb]; exact List.suffix_append _ _
  have s2 : zst <:+ (b ++ zst) := List.suffix_append _ _
  have := List.suffix_of_suffix_length_le s1 s2 (by rw [pkl_eq, zst_eq]; decide)
  rw [pkl_eq, zst_eq] at this
  revert this
  decide

theorem globs_zst (i : Nat) : globs zst (zstName i) = true := (globs_iff _ _).2 ⟨_, rfl⟩
theorem globs_pkl (i : Nat) : globs pkl (pklName i) = true := (globs_iff _ _).2 ⟨_, rfl⟩
theorem globs_pkl_zst (i : Nat) : globs pkl (zstName i) = false := by
  cases h : globs pkl (zstName i)
  · rfl
  · exact (not_both h (globs_zst i)).elim
theorem globs_zst_pkl (i : Nat) : globs zst (pklName i) = false := by
  cases h : globs zst (pklName i)
  · rfl
  · exact (not_both (globs_pkl i) h).elim
theorem zst_ne_pkl (i j : Nat) : zstName i ≠ pklName j := by
  intro h
  exact not_both (h ▸ globs_pkl j) (globs_zst i)

theorem pre_not_progress (x : Name) : pre ++ x ≠ progressName := by
  rw [pre_eq, progress_eq]; simp
theorem pre_not_complete (x : Name) : pre ++ x ≠ completeName := by
  rw [pre_eq, complete_eq]; simp
theorem globs_progress (s : Name) : globs s progressName = false := by
  cases h : globs s progressName
  · rfl
  · obtain ⟨mid, hm⟩ := (globs_iff _ _).1 h
    exact (pre_not_progress _ hm.symm).elim
theorem globs_complete (s : Name) : globs s completeName = false := by
  cases h : globs s completeName
  · rfl
  · obtain ⟨mid, hm⟩ := (globs_iff _ _).1 h
    exact (pre_not_complete _ hm.symm).elim
theorem progress_ne_complete : progressName ≠ completeName := by
  rw [progress_eq, complete_eq]; simp

variable {S : Type}

theorem applyOps_append (l l' : List (Op S)) (d : Folder S) : applyOps (l ++ l') d = applyOps l' (applyOps l d) := List.foldl_append

/-- sorting numbers with their names is sorting the numbers -/
theorem sorted_names (name : Nat → Name) (l : List Nat) (hl : l.Nodup) (keyed : List (Nat × Name)) (h : keyed.Perm (l.map fun i => (i, name i))) :
    pySorted (fun a b => decide (b.1 ≤ a.1)) keyed = (pySorted (fun a b => decide (b ≤ a)) l).map fun i => (i, name i) := by
  have p1 := pySorted_perm (fun a b : Nat × Name => decide (b.1 ≤ a.1)) keyed
  have s1 := pySorted_pairwise (le := fun a b : Nat × Name => decide (b.1 ≤ a.1)) (by simp; omega) (by simp; omega) keyed
  have p2 := pySorted_perm (fun a b : Nat => decide (b ≤ a)) l
  have s2 := pySorted_pairwise (le := fun a b : Nat => decide (b ≤ a)) (by simp; omega) (by simp; omega) l
  have p3 : (pySorted (fun a b : Nat × Name => decide (b.1 ≤ a.1)) keyed).Perm ((pySorted (fun a b => decide (b ≤ a)) l).map fun i => (i, name i)) :=
    (p1.trans h).trans (p2.map _).symm
  refine p3.eq_of_pairwise (le := fun a b => decide (b.1 ≤ a.1) = true) ?_ s1 ?_
  · intro a b ha hb h1 h2
    have ma := (p1.trans h).mem_iff.1 ha
    have mb := p3.symm.mem_iff.1 hb
    have mb := (p1.trans h).mem_iff.1 mb
    obtain ⟨i, _, rfl⟩ := List.mem_map.1 ma
    obtain ⟨j, _, rfl⟩ := List.mem_map.1 mb
    simp only [decide_eq_true_eq] at h1 h2
    have : i = j := by omega
    rw [this]
  · rw [List.pairwise_map]
    exact s2

end Verif.Names
