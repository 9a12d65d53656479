import Verif.Proof.Chained

/-!
# C13: `is_sorted` characterises sorted output sets

Output sets occurring in the tool are `Chained` (C22).
-/

namespace Sortnet

variable {n : ℕ}

/-- On reachable sets `is_sorted` holds iff the set is a chain. -/
theorem C13_is_sorted (s : Bitmap n) (hs : Chained s.toSet) :
    s.isSorted = true ↔ IsChain (· ≤ ·) s.toSet := by
  rw [isSorted_iff, hs.isChain_iff]
  constructor
  · rintro (h | h)
    · intro v hv w hw e
      have hn : ∀ i j : Fin n, i = j := by intro i j; apply Fin.ext; omega
      by_contra hne
      obtain ⟨i, hi⟩ := Function.ne_iff.1 hne
      have hconst : ∀ u : Fin n → Bool, u = fun _ => u i := by intro u; funext j; rw [hn j i]
      rw [hconst v, hconst w] at e
      have h0 : 0 < n := i.pos
      cases h1 : v i <;> cases h2 : w i
      · exact hi (by rw [h1, h2])
      · rw [h1, h2, weight_false, weight_true] at e; omega
      · rw [h1, h2, weight_false, weight_true] at e; omega
      · exact hi (by rw [h1, h2])
    · exact h
  · exact Or.inr

/-- Equivalently, iff no comparator is needed. -/
theorem C13_is_sorted_UB (s : Bitmap n) (hs : Chained s.toSet) : s.isSorted = true ↔ UB s.toSet 0 := by
  rw [C13_is_sorted s hs, UB_zero_iff]

/-- Equivalently, iff it has at most `n + 1` vectors. -/
theorem C13_is_sorted_len (s : Bitmap n) (hs : Chained s.toSet) : s.isSorted = true ↔ s.len ≤ n + 1 := by
  classical
  rw [C13_is_sorted s hs]
  have h : ∀ v, v ∈ Finset.univ.filter (· ∈ s.toSet) ↔ v ∈ s.toSet := by simp
  rw [len_eq_card s _ h, ← Chained.isChain_iff_card]
  · simp
  · simpa using hs

/-- Without the hypothesis: a chain is always reported as sorted. -/
theorem C13_chain_is_sorted (s : Bitmap n) (hs : IsChain (· ≤ ·) s.toSet) : s.isSorted = true := by
  rw [isSorted_iff]
  right
  intro v hv w hw e; exact injOn_weight_of_isChain hs hv hw e

/-- The hypothesis is needed: an unreachable set on which `is_sorted` and being a chain differ. -/
theorem C13_needs_chained : ∃ s : Bitmap 3, s.isSorted = true ∧ ¬ IsChain (· ≤ ·) s.toSet := by
  refine ⟨fun x => x == 1#3 || x == 6#3, by decide +kernel, ?_⟩
  intro h
  have h1 : vecOf 1#3 ∈ Bitmap.toSet (n := 3) (fun x => x == 1#3 || x == 6#3) := by
    rw [Bitmap.vecOf_mem]; decide
  have h2 : vecOf 6#3 ∈ Bitmap.toSet (n := 3) (fun x => x == 1#3 || x == 6#3) := by
    rw [Bitmap.vecOf_mem]; decide
  rcases h.total h1 h2 with h | h
  · exact absurd (h 0) (by decide)
  · exact absurd (h 1) (by decide)

/-- Non-vacuity: `all_values` is chained, unsorted for three channels and sorted for one. -/
example : Chained (allValues 3).toSet ∧ (allValues 3).isSorted = false ∧
    Chained (allValues 1).toSet ∧ (allValues 1).isSorted = true := by
  refine ⟨?_, by decide +kernel, ?_, by decide +kernel⟩ <;> rw [toSet_allValues] <;> exact chained_univ

end Sortnet
