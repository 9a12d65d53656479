import Verif.Proof.CheckerSound

/-!
# C04: the vector tries of the verified checker implement finite sets

`isMemberVt` is the membership operation; all other operations are described through it.
-/

namespace Sortnet.Checker

/-- Tries built from a list contain exactly the elements of the list. -/
theorem C04_build (xs : List Bool) (ls : List (List Bool)) :
    isMemberVt xs (vtList ls) = true ↔ xs ∈ ls := isMemberVt_vtList xs ls

/-- Listing a trie lists its elements, each exactly once. -/
theorem C04_list (a : VectTrie) :
    (listVt a).Nodup ∧ ∀ xs, xs ∈ listVt a ↔ isMemberVt xs a = true :=
  ⟨listVt_nodup a, mem_listVt a⟩

/-- The size of a trie is the number of its elements. -/
theorem C04_size (a : VectTrie) (S : Finset (List Bool))
    (hS : ∀ xs, xs ∈ S ↔ isMemberVt xs a = true) : lengthVt a = S.card := by
  have : S = (listVt a).toFinset := by ext xs; simp [hS, mem_listVt]
  rw [this, List.toFinset_card_of_nodup (listVt_nodup a), lengthVt_eq]

/-- Union. -/
theorem C04_union (a b : VectTrie) (xs : List Bool) :
    isMemberVt xs (vtUnion a b) = true ↔ isMemberVt xs a = true ∨ isMemberVt xs b = true := by
  simp [isMemberVt_union]

/-- Inclusion. -/
theorem C04_subset (a b : VectTrie) :
    isSubsetVt a b = true ↔ ∀ xs, isMemberVt xs a = true → isMemberVt xs b = true :=
  isSubsetVt_iff a b

/-- Removing an extremal channel keeps the lists with the removed entry equal to `!pol`. -/
theorem C04_prune (pol : Bool) (n i : ℕ) (hi : i < n) (a : VectTrie)
    (ha : ∀ xs, isMemberVt xs a = true → xs.length = n) (ys : List Bool) :
    isMemberVt ys (pruneExtremalVt pol i a) = true ↔
      ∃ xs, isMemberVt xs a = true ∧ xs[i]? = some (!pol) ∧ ys = xs.eraseIdx i := by
  rw [isMemberVt_prune]
  constructor
  · rintro (⟨h1, h2⟩ | ⟨h1, h2⟩)
    · have := ha _ h2; omega
    · refine ⟨_, h2, ?_, ?_⟩
      · rw [List.getElem?_append_right (by simp [h1])]
        simp [h1]
      · rw [List.eraseIdx_append_of_length_le (by simp [h1])]
        simp [h1]
  · rintro ⟨xs, h1, h2, rfl⟩
    have hl := ha _ h1
    right
    have h3 : i < xs.length := by omega
    have h4 : (xs.eraseIdx i).length = n - 1 := by rw [List.length_eraseIdx_of_lt h3, hl]
    refine ⟨by omega, ?_⟩
    have : List.take i (xs.eraseIdx i) ++ (!pol) :: List.drop i (xs.eraseIdx i) = xs := by
      have h5 : (!pol) = xs[i] := by
        rw [List.getElem?_eq_getElem h3] at h2; exact (Option.some.inj h2).symm
      rw [h5, List.eraseIdx_eq_take_drop_succ, List.take_append_of_le_length (by simp; omega),
        List.drop_append_of_le_length (by simp; omega)]
      simp [List.take_take]
    rw [this]; exact h1

/-- Permuting and inverting. -/
theorem C04_permute (u : Undef) (ps : List ℕ) (a : VectTrie) (ys : List Bool) :
    isMemberVt ys (permuteVt u ps a) = true ↔
      ∃ xs, isMemberVt xs a = true ∧ ys = ps.map fun p => xs.getD p u.bool := by
  rw [mem_permuteVt]
  simp only [permuteListVect, eq_comm, ← nth_eq_getD]

theorem C04_invert (z : Bool) (a : VectTrie) (ys : List Bool) :
    isMemberVt ys (invertVt z a) = true ↔
      ∃ xs, isMemberVt xs a = true ∧ ys = if z then xs.map (fun b => !b) else xs := by
  rw [mem_invertVt]
  simp only [eq_comm]

/-- The hypotheses are met by tries built from vectors of a common width. -/
example : isMemberVt [true, false]
    (pruneExtremalVt true 1 (vtList [[true, false, false], [false, true, true]])) = true := by
  rw [C04_prune true 3 1 (by omega) _ (by
    intro xs hxs
    rw [C04_build] at hxs
    simp only [List.mem_cons, List.not_mem_nil, or_false] at hxs
    rcases hxs with rfl | rfl <;> rfl)]
  exact ⟨[true, false, false], by decide, rfl, rfl⟩

end Sortnet.Checker
