import Verif.Model.Subsume
import Verif.Proof.OutputSet
import Verif.Proof.Sorted
import Verif.Proof.Chained
import Mathlib.Algebra.Order.BigOperators.Group.List
import Mathlib.Order.Interval.Finset.Fin

/-!
# Counting abstractions are monotone under permuted inclusion
-/

namespace Sortnet

variable {n : ℕ}

/-- The array index of the permuted vector: channel `k` is channel `τ k` of the old one. -/
def permIdx (τ : Equiv.Perm (Fin n)) (x : BitVec n) : BitVec n := idxOf (vecOf x ∘ τ)

theorem vecOf_permIdx (τ : Equiv.Perm (Fin n)) (x : BitVec n) : vecOf (permIdx τ x) = vecOf x ∘ τ :=
  vecOf_idxOf _

theorem permIdx_injective (τ : Equiv.Perm (Fin n)) : Function.Injective (permIdx τ) := by
  intro x y h
  have := congrArg vecOf h
  rw [vecOf_permIdx, vecOf_permIdx] at this
  apply vec_ext
  intro i
  simpa using congrFun this (τ.symm i)

theorem permIdx_surjective (τ : Equiv.Perm (Fin n)) : Function.Surjective (permIdx τ) := by
  intro y
  refine ⟨permIdx τ.symm y, vec_ext fun i => ?_⟩
  simp [vecOf_permIdx]

theorem permIdx_xor (τ : Equiv.Perm (Fin n)) (x y : BitVec n) :
    permIdx τ (x ^^^ y) = permIdx τ x ^^^ permIdx τ y := by
  apply vec_ext; intro i; simp [vecOf_permIdx]

theorem permIdx_bit (τ : Equiv.Perm (Fin n)) (c : Fin n) : permIdx τ (bit (τ c)) = bit c := by
  apply vec_ext; intro i; simp [vecOf_permIdx]

theorem permIdx_or (τ : Equiv.Perm (Fin n)) (x y : BitVec n) :
    permIdx τ (x ||| y) = permIdx τ x ||| permIdx τ y := by
  apply vec_ext; intro i; simp [vecOf_permIdx]

theorem permIdx_and (τ : Equiv.Perm (Fin n)) (x y : BitVec n) :
    permIdx τ (x &&& y) = permIdx τ x &&& permIdx τ y := by
  apply vec_ext; intro i; simp [vecOf_permIdx]

theorem permIdx_not (τ : Equiv.Perm (Fin n)) (x : BitVec n) :
    permIdx τ (~~~ x) = ~~~ permIdx τ x := by
  apply vec_ext; intro i; simp [vecOf_permIdx]

theorem countOnes_permIdx (τ : Equiv.Perm (Fin n)) (x : BitVec n) :
    countOnes (permIdx τ x) = countOnes x := by
  rw [countOnes_eq, countOnes_eq, vecOf_permIdx, weight_comp_perm]

theorem permSet_subset_iff (τ : Equiv.Perm (Fin n)) (s t : Bitmap n) :
    permSet τ s.toSet ⊆ t.toSet ↔ ∀ x, s x = true → t (permIdx τ x) = true := by
  constructor
  · intro h x hx
    have : vecOf x ∘ τ ∈ t.toSet := h ⟨vecOf x, (s.vecOf_mem x).2 hx, rfl⟩
    rwa [Bitmap.mem_toSet] at this
  · rintro h _ ⟨v, hv, rfl⟩
    obtain ⟨x, rfl⟩ := vecOf_surjective v
    rw [Bitmap.mem_toSet]
    exact h x ((s.vecOf_mem x).1 hv)

theorem map_permIdx_maskIndices (τ : Equiv.Perm (Fin n)) (m m' : BitVec n) (hm : permIdx τ m = m') :
    ((maskIndices n m.toNat).map (permIdx τ)).Perm (maskIndices n m'.toNat) := by
  rw [List.perm_ext_iff_of_nodup ((maskIndices_nodup n _).map (permIdx_injective τ)) (maskIndices_nodup n _)]
  intro y
  obtain ⟨x, rfl⟩ := permIdx_surjective τ y
  rw [List.mem_map_of_injective (permIdx_injective τ), mem_maskIndices, mem_maskIndices, ← hm, ← permIdx_and]
  exact ⟨fun h => by rw [h], fun h => permIdx_injective τ h⟩

/-- Sums over the indices of masked loops, with the summands of the one dominated by the permuted
summands of the other. -/
theorem sum_maskIndices_le (τ : Equiv.Perm (Fin n)) (m m' : BitVec n) (hm : permIdx τ m = m')
    (f g : BitVec n → ℕ) (h : ∀ x, x &&& m = m → f x ≤ g (permIdx τ x)) :
    ((maskIndices n m.toNat).map f).sum ≤ ((maskIndices n m'.toNat).map g).sum := by
  rw [← ((map_permIdx_maskIndices τ m m' hm).map g).sum_eq, List.map_map]
  apply List.sum_le_sum
  intro x hx
  exact h x ((mem_maskIndices m x).1 hx)

/-- A loop that adds to entries of a buffer computes sums. -/
theorem foldl_add_buffer {ι : Type} (L : List ι) (f : ι → (ℕ → ℕ) → (ℕ → ℕ)) (g : ι → ℕ → ℕ)
    (h : ∀ i b j, f i b j = b j + g i j) (b : ℕ → ℕ) (j : ℕ) :
    L.foldl (fun b i => f i b) b j = b j + (L.map fun i => g i j).sum := by
  induction L generalizing b with
  | nil => simp
  | cons i L ih => rw [List.foldl_cons, ih, h, List.map_cons, List.sum_cons]; omega

/-- The bit mask of the lowest `k` channels. -/
theorem vecOf_lowMask (k : ℕ) (i : Fin n) : vecOf (BitVec.ofNat n (2 ^ k - 1)) i = decide (i.val < k) := by
  unfold vecOf
  rw [BitVec.getLsbD_ofNat, Nat.testBit_two_pow_sub_one]
  simp

/-- The key of an index in `low_channels_channel_abstraction`. -/
def lowKey (k : ℕ) (c : Fin n) (x : BitVec n) : ℕ :=
  countOnes (x &&& ~~~ (BitVec.ofNat n (2 ^ k - 1) ||| bit c)) +
    (n - k) * (x &&& BitVec.ofNat n (2 ^ k - 1)).toNat

/-- The summand for one index in `low_channels_channel_abstraction`. -/
def lowTerm (s : Bitmap n) (k : ℕ) (c : Fin n) (x : BitVec n) (j : ℕ) : ℕ :=
  (if j = 0 + 3 * lowKey k c x then (s (x ^^^ bit c)).toNat else 0) +
  (if j = 1 + 3 * lowKey k c x then (s x).toNat else 0) +
  (if j = 2 + 3 * lowKey k c x then (s (x ^^^ bit c) && s x).toNat else 0)

theorem lowAbs_eq (s : Bitmap n) (k : ℕ) (c : Fin n) (j : ℕ) :
    s.lowChannelsChannelAbstraction k c j =
      ((maskIndices n (bit c).toNat).map fun x => lowTerm s k c x j).sum := by
  unfold Bitmap.lowChannelsChannelAbstraction
  rw [maskLoop_eq, foldl_add_buffer _ _ (fun x j => lowTerm s k c x j), Nat.zero_add]
  intro x b j
  unfold lowTerm
  simp only [Function.update_apply]
  have e : countOnes (x &&& ~~~(BitVec.ofNat n (2 ^ k - 1) ||| bit c)) +
        (n - k) * (x &&& BitVec.ofNat n (2 ^ k - 1)).toNat = lowKey k c x := rfl
  rw [e]
  generalize lowKey k c x = K
  by_cases h0 : j = 0 + 3 * K
  · subst h0
    simp
  by_cases h1 : j = 1 + 3 * K
  · subst h1
    simp
  by_cases h2 : j = 2 + 3 * K
  · subst h2
    have : ¬ (2 + 3 * K = 1 + 3 * K) := by omega
    have : ¬ (2 + 3 * K = 3 * K) := by omega
    simp [*]
  · rw [if_neg h0, if_neg h1, if_neg h2, if_neg h0, if_neg h1, if_neg h2]; rfl

/-- Only indices below `low_channels_channel_abstraction_len` are written. -/
theorem lowAbs_index_lt (k : ℕ) (c : Fin n) (hc : k ≤ c) (x : BitVec n) :
    2 + 3 * lowKey k c x < lowChannelsChannelAbstractionLen n k := by
  unfold lowKey
  change _ < (n - k) * 2 ^ k * 3
  have hw : countOnes (x &&& ~~~ (BitVec.ofNat n (2 ^ k - 1) ||| bit c)) < n - k := by
    rw [countOnes_eq, weight]
    have hsub : (Finset.univ.filter fun i => vecOf (x &&& ~~~ (BitVec.ofNat n (2 ^ k - 1) ||| bit c)) i = true) ⊆
        (Finset.univ.filter fun i : Fin n => k ≤ i.val).erase c := by
      intro i
      simp only [Finset.mem_filter, Finset.mem_univ, true_and, vecOf_and, vecOf_not, vecOf_or, vecOf_lowMask,
        vecOf_bit, Finset.mem_erase]
      simp only [Bool.not_or, Bool.and_eq_true, Bool.not_eq_true', decide_eq_false_iff_not, not_lt]
      tauto
    have hcard : (Finset.univ.filter fun i : Fin n => k ≤ i.val).card = n - k := by
      have hkn : k < n := lt_of_le_of_lt hc c.isLt
      have h1 : (Finset.univ.filter fun i : Fin n => k ≤ i.val) = Finset.Ici ⟨k, hkn⟩ := by
        ext i; simp [Fin.le_def]
      rw [h1, Fin.card_Ici]
    refine lt_of_le_of_lt (Finset.card_le_card hsub) ?_
    rw [Finset.card_erase_of_mem (by simp [hc]), hcard]
    have := c.isLt
    omega
  have hl : (x &&& BitVec.ofNat n (2 ^ k - 1)).toNat < 2 ^ k := by
    rw [BitVec.toNat_and]
    refine lt_of_le_of_lt Nat.and_le_right ?_
    rw [BitVec.toNat_ofNat]
    refine lt_of_le_of_lt (Nat.mod_le _ _) ?_
    have := Nat.two_pow_pos k
    omega
  have : (n - k) * (x &&& BitVec.ofNat n (2 ^ k - 1)).toNat ≤ (n - k) * (2 ^ k - 1) :=
    Nat.mul_le_mul_left _ (by omega)
  have h2 : (n - k) * (2 ^ k - 1) + (n - k) = (n - k) * 2 ^ k := by
    have := Nat.two_pow_pos k
    obtain ⟨m, hm⟩ := Nat.exists_eq_succ_of_ne_zero this.ne'
    rw [hm]; simp [Nat.mul_succ]
  omega

theorem lowKey_permIdx (τ : Equiv.Perm (Fin n)) (k : ℕ) (l h : Fin n) (hτ : ∀ i : Fin n, i.val < k → τ i = i)
    (hl : τ h = l) (x : BitVec n) : lowKey k h (permIdx τ x) = lowKey k l x := by
  have hm : permIdx τ (BitVec.ofNat n (2 ^ k - 1)) = BitVec.ofNat n (2 ^ k - 1) := by
    apply vec_ext
    intro i
    rw [vecOf_permIdx, Function.comp_apply, vecOf_lowMask, vecOf_lowMask]
    by_cases hi : i.val < k
    · rw [hτ i hi]
    · have : ¬ (τ i).val < k := by
        intro hlt
        have := hτ (τ i) hlt
        exact hi (by rw [← τ.injective this]; exact hlt)
      simp [hi, this]
  have hlow : permIdx τ x &&& BitVec.ofNat n (2 ^ k - 1) = x &&& BitVec.ofNat n (2 ^ k - 1) := by
    apply vec_ext
    intro i
    rw [vecOf_and, vecOf_and, vecOf_lowMask, vecOf_permIdx, Function.comp_apply]
    by_cases hi : i.val < k
    · rw [hτ i hi]
    · simp [hi]
  unfold lowKey
  rw [hlow]
  congr 1
  conv_lhs => rw [← hm, ← permIdx_bit τ h, hl, ← permIdx_or, ← permIdx_not, ← permIdx_and, countOnes_permIdx]

theorem lowAbs_mono (τ : Equiv.Perm (Fin n)) (k : ℕ) (l h : Fin n) (hτ : ∀ i : Fin n, i.val < k → τ i = i)
    (hl : τ h = l) (s t : Bitmap n) (hst : permSet τ s.toSet ⊆ t.toSet) (j : ℕ) :
    s.lowChannelsChannelAbstraction k l j ≤ t.lowChannelsChannelAbstraction k h j := by
  rw [lowAbs_eq, lowAbs_eq]
  rw [permSet_subset_iff] at hst
  have hb : permIdx τ (bit l) = bit h := by rw [← hl, permIdx_bit]
  have hmono : ∀ x, (s x).toNat ≤ (t (permIdx τ x)).toNat := by
    intro x
    cases hx : s x
    · simp
    · rw [hst x hx]
  apply sum_maskIndices_le τ _ _ hb
  intro x _
  unfold lowTerm
  rw [lowKey_permIdx τ k l h hτ hl, ← hb, ← permIdx_xor]
  have hmono2 : (s (x ^^^ bit l) && s x).toNat ≤ (t (permIdx τ (x ^^^ bit l)) && t (permIdx τ x)).toNat := by
    cases hx : s x
    · simp
    · cases hx' : s (x ^^^ bit l)
      · simp
      · rw [hst _ hx, hst _ hx']
  have h0 := hmono (x ^^^ bit l)
  have h1 := hmono x
  split_ifs <;> omega

end Sortnet
