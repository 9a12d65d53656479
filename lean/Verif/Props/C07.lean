import Verif.Proof.Huffman

/-!
# C07: `max_plus_1_huffman` computes the optimal merge value

Values are bytes (`< 256`).  `none` is the overflow of a byte, which happens exactly if the optimal
value does not fit in a byte.
-/

namespace Sortnet

/-- On a non-empty list of bytes, the result is the minimum over all ways of merging. -/
theorem C07_optimal (bs : List ℕ) (hne : bs ≠ []) (hb : ∀ b ∈ bs, b < 256) (v : ℕ) (hv : v < 256) :
    maxPlus1Huffman bs = some v ↔ IsOptMerge bs v := by
  have h0 := isOptMerge_optMerge hne
  rw [isOptMerge_iff hne] at h0
  rw [maxPlus1Huffman_spec bs hne hb h0, isOptMerge_iff hne]
  constructor
  · intro h
    split_ifs at h with h1
    cases h
    exact h0
  · intro h
    obtain rfl := h.unique h0
    rw [if_pos hv]

/-- Closed form: the result is the least `K` with `∑ 2 ^ b ≤ 2 ^ K`. -/
theorem C07_closed_form (bs : List ℕ) (hne : bs ≠ []) (hb : ∀ b ∈ bs, b < 256) (v : ℕ)
    (h : maxPlus1Huffman bs = some v) (K : ℕ) : v ≤ K ↔ (bs.map (2 ^ ·)).sum ≤ 2 ^ K := by
  rw [maxPlus1Huffman_spec bs hne hb isPsumLog_clog] at h
  split_ifs at h with h1
  cases h
  exact isPsumLog_clog K

/-- The addition overflows iff no way of merging has a result that fits in a byte. -/
theorem C07_overflow (bs : List ℕ) (hne : bs ≠ []) (hb : ∀ b ∈ bs, b < 256) :
    maxPlus1Huffman bs = none ↔ ∀ t : MergeTree, t.leaves.Perm bs → 256 ≤ t.value := by
  have h0 := isOptMerge_optMerge hne
  have h1 := h0
  rw [isOptMerge_iff hne] at h1
  rw [maxPlus1Huffman_spec bs hne hb h1]
  obtain ⟨⟨t, ht, htv⟩, hmin⟩ := h0
  split_ifs with h
  · simp only [false_iff, not_forall]
    exact ⟨t, ht, by omega⟩
  · simp only [true_iff]
    intro t ht
    have := hmin t ht
    omega

/-- An empty list gives 0. -/
theorem C07_empty : maxPlus1Huffman [] = some 0 := by decide +kernel

/-- The result does not depend on the order. -/
theorem C07_order (as bs : List ℕ) (h : as.Perm bs) (hb : ∀ b ∈ bs, b < 256) :
    maxPlus1Huffman as = maxPlus1Huffman bs := by
  by_cases hne : bs = []
  · subst hne; rw [List.perm_nil.1 h]
  · have hne' : as ≠ [] := by rintro rfl; exact hne (List.nil_perm.1 h)
    rw [maxPlus1Huffman_spec bs hne hb isPsumLog_clog,
      maxPlus1Huffman_spec as hne' (fun x hx => hb x (h.mem_iff.1 hx)) (isPsumLog_clog.perm h.symm)]

/-- The result is monotone in each value. -/
theorem C07_monotone (as bs : List ℕ) (h : List.Forall₂ (· ≤ ·) as bs) (hb : ∀ b ∈ bs, b < 256)
    (w : ℕ) (hw : maxPlus1Huffman bs = some w) : ∃ v ≤ w, maxPlus1Huffman as = some v := by
  by_cases hne : bs = []
  · subst hne
    cases h
    exact ⟨w, le_rfl, hw⟩
  · have hne' : as ≠ [] := by rintro rfl; cases h; exact hne rfl
    have ha : ∀ a ∈ as, a < 256 := by
      clear hw hne hne'
      induction h with
      | nil => simp
      | cons h1 _ ih =>
        intro x hx
        rcases List.mem_cons.1 hx with rfl | hx
        · have := hb _ (List.mem_cons_self ..); omega
        · exact ih (fun b hb' => hb b (List.mem_cons_of_mem _ hb')) x hx
    rw [maxPlus1Huffman_spec bs hne hb isPsumLog_clog] at hw
    split_ifs at hw with h1
    cases hw
    have hle := IsPsumLog.mono (psum_le_psum h) (isPsumLog_clog (bs := as)) (isPsumLog_clog (bs := bs))
    refine ⟨_, hle, ?_⟩
    rw [maxPlus1Huffman_spec as hne' ha isPsumLog_clog, if_pos (by omega)]

/-- Non-vacuity: the value of an unsorted list with repetitions, and an overflow. -/
example : maxPlus1Huffman [3, 1, 4, 1, 5, 3] = some 7 ∧ maxPlus1Huffman [255, 7] = none ∧
    (∀ b ∈ [3, 1, 4, 1, 5, 3], b < 256) := by decide +kernel

end Sortnet
