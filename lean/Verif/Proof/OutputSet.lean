import Verif.Proof.Bits
import Verif.Theory.Basic

/-!
# Correctness of the operations on output sets
-/

namespace Sortnet

set_option linter.unusedSimpArgs false

variable {n : ℕ}

theorem superset_iff (x m : BitVec n) : x &&& m = m ↔ ∀ i, vecOf m i = true → vecOf x i = true := by
  constructor
  · intro h i hi
    have := congrArg (vecOf · i) h
    simp only [vecOf_and, hi, Bool.and_true] at this
    exact this
  · intro h
    apply vec_ext
    intro i
    have := h i
    cases h1 : vecOf m i <;> simp_all

theorem xor_pair_eq (x y m : BitVec n) : x ^^^ m = y ↔ x = y ^^^ m := by
  constructor <;> rintro rfl <;> simp [BitVec.xor_assoc]

theorem or_mem_maskIndices (x m : BitVec n) : x ||| m ∈ maskIndices n m.toNat := by
  rw [mem_maskIndices, superset_iff]
  intro i hi; simp [hi]

theorem superset_pair {c0 c1 : Fin n} {x : BitVec n} :
    x &&& (bit c0 ||| bit c1) = bit c0 ||| bit c1 ↔ vecOf x c0 = true ∧ vecOf x c1 = true := by
  rw [superset_iff]
  constructor
  · intro h; exact ⟨h c0 (by simp), h c1 (by simp)⟩
  · rintro ⟨h0, h1⟩ i hi
    simp only [vecOf_or, vecOf_bit, Bool.or_eq_true, decide_eq_true_eq] at hi
    rcases hi with rfl | rfl <;> assumption

section pair

variable {c0 c1 : Fin n}

theorem pair_key0 (hc : c0 ≠ c1) {i : BitVec n}
    (hi : i &&& (bit c0 ||| bit c1) = bit c0 ||| bit c1) :
    (i ^^^ bit c0) ||| (bit c0 ||| bit c1) = i := by
  rw [superset_pair] at hi
  apply vec_ext
  intro k
  by_cases h0 : k = c0 <;> by_cases h1 : k = c1 <;> simp_all

theorem pair_key1 (hc : c0 ≠ c1) {i : BitVec n}
    (hi : i &&& (bit c0 ||| bit c1) = bit c0 ||| bit c1) :
    (i ^^^ bit c1) ||| (bit c0 ||| bit c1) = i := by
  rw [superset_pair] at hi
  apply vec_ext
  intro k
  by_cases h0 : k = c0 <;> by_cases h1 : k = c1 <;> simp_all

theorem xor_bit_ne (hc : c0 ≠ c1) (i : BitVec n) : i ^^^ bit c0 ≠ i ^^^ bit c1 := by
  intro h
  have := congrArg (vecOf · c0) h
  simp [hc] at this

theorem key_eq_cases (hc : c0 ≠ c1) (x : BitVec n) :
    (x = (x ||| (bit c0 ||| bit c1)) ^^^ bit c0 ↔ vecOf x c0 = false ∧ vecOf x c1 = true) ∧
    (x = (x ||| (bit c0 ||| bit c1)) ^^^ bit c1 ↔ vecOf x c0 = true ∧ vecOf x c1 = false) := by
  have hc' := hc.symm
  refine ⟨⟨fun h => ?_, fun h => ?_⟩, ⟨fun h => ?_, fun h => ?_⟩⟩
  · have h0 := congrArg (vecOf · c0) h
    have h1 := congrArg (vecOf · c1) h
    simp [hc, hc'] at h0 h1
    exact ⟨h0, h1⟩
  · apply vec_ext
    intro k
    by_cases h0 : k = c0 <;> by_cases h1 : k = c1 <;> simp_all
  · have h0 := congrArg (vecOf · c0) h
    have h1 := congrArg (vecOf · c1) h
    simp [hc, hc'] at h0 h1
    exact ⟨h0, h1⟩
  · apply vec_ext
    intro k
    by_cases h0 : k = c0 <;> by_cases h1 : k = c1 <;> simp_all

theorem applyComparator_fold (s : Bitmap n) (hc : c0 ≠ c1) :
    (∀ x, (s.applyComparator c0 c1).1 x =
      (let i := x ||| (bit c0 ||| bit c1)
       Function.update (Function.update s (i ^^^ bit c0) false) (i ^^^ bit c1)
        (s (i ^^^ bit c1) || s (i ^^^ bit c0)) x)) ∧
    (s.applyComparator c0 c1).2 =
      ((maskIndices n (bit c0 ||| bit c1).toNat).any (fun i => s (i ^^^ bit c0)) &&
        (maskIndices n (bit c0 ||| bit c1).toNat).any (fun i => s (i ^^^ bit c1))) := by
  have main := foldl_local (fun x : BitVec n => x ||| (bit c0 ||| bit c1))
    (fun i (bm : Bitmap n) =>
      Function.update (Function.update bm (i ^^^ bit c0) false) (i ^^^ bit c1)
        (Function.update bm (i ^^^ bit c0) false (i ^^^ bit c1) || bm (i ^^^ bit c0)))
    (fun i (bm : Bitmap n) (a : Bool × Bool) =>
      (a.1 || bm (i ^^^ bit c0), a.2 || Function.update bm (i ^^^ bit c0) false (i ^^^ bit c1)))
    (maskIndices n (bit c0 ||| bit c1).toNat) (maskIndices_nodup _ _)
    (by
      intro i hi s x hx
      rw [mem_maskIndices] at hi
      have h0 : x ≠ i ^^^ bit c0 := by rintro rfl; exact hx (pair_key0 hc hi)
      have h1 : x ≠ i ^^^ bit c1 := by rintro rfl; exact hx (pair_key1 hc hi)
      simp [h0, h1])
    (by
      intro i hi s s' h x hx
      rw [mem_maskIndices] at hi
      have h0 := h _ (pair_key0 hc hi)
      have h1 := h _ (pair_key1 hc hi)
      have hx := h x hx
      simp only [Function.update_apply, h0, h1, hx])
    (by
      intro i hi s s' a h
      rw [mem_maskIndices] at hi
      have h0 := h _ (pair_key0 hc hi)
      have h1 := h _ (pair_key1 hc hi)
      simp only [Function.update_apply, h0, h1])
    s (false, false)
  have hne : ∀ i : BitVec n, Function.update s (i ^^^ bit c0) false (i ^^^ bit c1) = s (i ^^^ bit c1) :=
    fun i => Function.update_of_ne (xor_bit_ne hc i).symm _ _
  constructor
  · intro x
    unfold Bitmap.applyComparator
    dsimp only
    rw [maskLoop_eq]
    refine (main.1 x).trans ?_
    rw [if_pos (or_mem_maskIndices _ _)]
    simp only [hne]
  · unfold Bitmap.applyComparator
    dsimp only
    rw [maskLoop_eq]
    have h2 := main.2
    have h3 : ∀ (L : List (BitVec n)) (a : Bool × Bool),
        L.foldl (fun (a : Bool × Bool) i => (a.1 || s (i ^^^ bit c0), a.2 || s (i ^^^ bit c1))) a =
        (a.1 || L.any (fun i => s (i ^^^ bit c0)), a.2 || L.any (fun i => s (i ^^^ bit c1))) := by
      intro L
      induction L with
      | nil => intro a; simp
      | cons i L ih => intro a; rw [List.foldl_cons, ih]; simp [Bool.or_assoc]
    simp only [hne] at h2
    rw [h3] at h2
    simp only [Bool.false_or] at h2
    have h4 : (((maskIndices n (bit c0 ||| bit c1).toNat).foldl
      (fun (st : Bitmap n × Bool × Bool) x =>
      (Function.update (Function.update st.1 (x ^^^ bit c0) false) (x ^^^ bit c1)
        (Function.update st.1 (x ^^^ bit c0) false (x ^^^ bit c1) || st.1 (x ^^^ bit c0)),
        st.2.1 || st.1 (x ^^^ bit c0), st.2.2 || Function.update st.1 (x ^^^ bit c0) false (x ^^^ bit c1)))
        (s, false, false)).2) = _ := h2
    rw [h4]

/-- Pointwise result of `apply_comparator`. -/
theorem applyComparator_apply (s : Bitmap n) (hc : c0 ≠ c1) (x : BitVec n) :
    (s.applyComparator c0 c1).1 x =
      if vecOf x c0 = false ∧ vecOf x c1 = true then false
      else if vecOf x c0 = true ∧ vecOf x c1 = false then s x || s (x ^^^ (bit c0 ||| bit c1))
      else s x := by
  rw [(applyComparator_fold s hc).1 x]
  obtain ⟨k0, k1⟩ := key_eq_cases hc x
  simp only [Function.update_apply]
  simp only [k0, k1]
  by_cases h1 : vecOf x c0 = true ∧ vecOf x c1 = false
  · have : ¬ (vecOf x c0 = false ∧ vecOf x c1 = true) := by rintro ⟨h, _⟩; simp [h] at h1
    rw [if_pos h1, if_neg this, if_pos h1, ← k1.2 h1]
    clear k0 k1 this
    obtain ⟨ha, hb⟩ := h1
    congr 2
    apply vec_ext
    intro k
    have hc' := hc.symm
    by_cases h0 : k = c0 <;> by_cases h1 : k = c1 <;> simp_all
  · rw [if_neg h1, if_neg h1]

theorem applyCmp_vecOf (hc : c0 ≠ c1) (x : BitVec n) :
    applyCmp (c1, c0) (vecOf x) =
      if vecOf x c0 = false ∧ vecOf x c1 = true then vecOf (x ^^^ (bit c0 ||| bit c1)) else vecOf x := by
  split_ifs with h
  · obtain ⟨h0, h1⟩ := h
    funext k
    have hc' := hc.symm
    by_cases e0 : k = c0
    · subst e0; simp [applyCmp, h0, h1]
    · by_cases e1 : k = c1
      · subst e1; simp [applyCmp, h0, h1, e0]
      · simp [applyCmp, e0, e1]
  · exact applyCmp_id (by rintro ⟨h1, h2⟩; exact h ⟨h2, h1⟩)

/-- `apply_comparator` computes the image. -/
theorem applyComparator_toSet (s : Bitmap n) (hc : c0 ≠ c1) :
    (s.applyComparator c0 c1).1.toSet = applyCmp (c1, c0) '' s.toSet := by
  have hc' := hc.symm
  ext v
  obtain ⟨x, rfl⟩ := vecOf_surjective v
  rw [Bitmap.vecOf_mem, applyComparator_apply s hc, s.toSet_eq_image, Set.image_image]
  simp only [Set.mem_image, Set.mem_ofPred_eq, applyCmp_vecOf hc]
  constructor
  · split_ifs with h1 h2
    · simp
    · intro h
      rw [Bool.or_eq_true] at h
      rcases h with h | h
      · refine ⟨x, h, ?_⟩
        rw [if_neg h1]
      · refine ⟨_, h, ?_⟩
        rw [if_pos (by simp [h2, hc, hc'])]
        congr 1
        simp [BitVec.xor_assoc]
    · intro h
      exact ⟨x, h, by rw [if_neg h1]⟩
  · rintro ⟨y, hy, he⟩
    split_ifs at he with h
    · have := vecOf_injective he
      subst this
      rw [if_neg (by simp [h, hc, hc']), if_pos (by simp [h, hc, hc'])]
      simp [BitVec.xor_assoc, hy]
    · have := vecOf_injective he
      subst this
      rw [if_neg h]
      split_ifs <;> simp [hy]

/-- `apply_comparator` returns whether both orders of the two channels occurred. -/
theorem applyComparator_flag (s : Bitmap n) (hc : c0 ≠ c1) :
    (s.applyComparator c0 c1).2 = true ↔
      (∃ v ∈ s.toSet, v c0 = false ∧ v c1 = true) ∧ (∃ v ∈ s.toSet, v c0 = true ∧ v c1 = false) := by
  have hc' := hc.symm
  rw [(applyComparator_fold s hc).2, Bool.and_eq_true, List.any_eq_true, List.any_eq_true]
  simp only [mem_maskIndices, superset_pair]
  refine and_congr ⟨?_, ?_⟩ ⟨?_, ?_⟩
  · rintro ⟨x, ⟨h0, h1⟩, hx⟩
    exact ⟨_, (s.vecOf_mem _).2 hx, by simp [h0], by simp [h1, hc']⟩
  · rintro ⟨v, hv, h0, h1⟩
    obtain ⟨x, rfl⟩ := vecOf_surjective v
    refine ⟨x ^^^ bit c0, by simp [h0, h1, hc'], ?_⟩
    simp only [BitVec.xor_assoc, BitVec.xor_self, BitVec.xor_zero]
    exact (s.vecOf_mem _).1 hv
  · rintro ⟨x, ⟨h0, h1⟩, hx⟩
    exact ⟨_, (s.vecOf_mem _).2 hx, by simp [h0, hc], by simp [h1]⟩
  · rintro ⟨v, hv, h0, h1⟩
    obtain ⟨x, rfl⟩ := vecOf_surjective v
    refine ⟨x ^^^ bit c1, by simp [h0, h1, hc], ?_⟩
    simp only [BitVec.xor_assoc, BitVec.xor_self, BitVec.xor_zero]
    exact (s.vecOf_mem _).1 hv

/-- Pointwise result of `swap_channels`. -/
theorem swapChannels_apply (s : Bitmap n) (x : BitVec n) :
    (s.swapChannels c0 c1) x = s (idxOf (vecOf x ∘ Equiv.swap c0 c1)) := by
  unfold Bitmap.swapChannels
  split_ifs with hc
  · subst hc; simp [idxOf_vecOf]
  · dsimp only
    rw [maskLoop_eq]
    have hc' : c1 ≠ c0 := fun h => hc h.symm
    rw [foldl_local' (fun x : BitVec n => x ||| (bit c0 ||| bit c1))
      (fun i (bm : Bitmap n) =>
        Function.update (Function.update bm (i ^^^ bit c0) (bm (i ^^^ bit c1)))
          (i ^^^ bit c1) (bm (i ^^^ bit c0))) _ (maskIndices_nodup _ _)]
    · rw [if_pos (or_mem_maskIndices _ _)]
      obtain ⟨k0, k1⟩ := key_eq_cases hc x
      simp only [Function.update_apply]
      simp only [k0, k1]
      clear k0 k1
      split_ifs with h1 h2
      · congr 1
        apply vecOf_injective
        rw [vecOf_idxOf]
        funext k
        by_cases e0 : k = c0
        · subst e0; simp [h1]
        · by_cases e1 : k = c1
          · subst e1; simp [h1, hc, hc']
          · simp [Equiv.swap_apply_of_ne_of_ne, e0, e1]
      · congr 1
        apply vecOf_injective
        rw [vecOf_idxOf]
        funext k
        by_cases e0 : k = c0
        · subst e0; simp [h2, hc, hc']
        · by_cases e1 : k = c1
          · subst e1; simp [h2]
          · simp [Equiv.swap_apply_of_ne_of_ne, e0, e1]
      · congr 1
        apply vecOf_injective
        rw [vecOf_idxOf]
        have he : vecOf x c0 = vecOf x c1 := by
          cases a : vecOf x c0 <;> cases b : vecOf x c1 <;> simp_all
        funext k
        by_cases e0 : k = c0
        · subst e0; simp [he]
        · by_cases e1 : k = c1
          · subst e1; simp [he]
          · simp [Equiv.swap_apply_of_ne_of_ne, e0, e1]
    · intro i hi s x hx
      rw [mem_maskIndices] at hi
      have h0 : x ≠ i ^^^ bit c0 := by rintro rfl; exact hx (pair_key0 hc hi)
      have h1 : x ≠ i ^^^ bit c1 := by rintro rfl; exact hx (pair_key1 hc hi)
      simp [h0, h1]
    · intro i hi s s' h x hx
      rw [mem_maskIndices] at hi
      have h0 := h _ (pair_key0 hc hi)
      have h1 := h _ (pair_key1 hc hi)
      have hx := h x hx
      simp only [Function.update_apply, h0, h1, hx]

theorem swapChannels_toSet (s : Bitmap n) :
    (s.swapChannels c0 c1).toSet = permSet (Equiv.swap c0 c1) s.toSet := by
  ext v
  rw [Bitmap.mem_toSet, swapChannels_apply, vecOf_idxOf, mem_permSet, Equiv.symm_swap, Bitmap.mem_toSet]

theorem swapChannels_swapChannels (s : Bitmap n) :
    (s.swapChannels c0 c1).swapChannels c0 c1 = s := by
  funext x
  rw [swapChannels_apply, swapChannels_apply, vecOf_idxOf]
  congr 1
  apply vecOf_injective
  rw [vecOf_idxOf]
  funext k
  simp

end pair

/-! ## `invert` -/

theorem ofNat_sub_eq_not (x : BitVec n) : BitVec.ofNat n (2 ^ n - 1 - x.toNat) = ~~~ x := by
  apply BitVec.eq_of_toNat_eq
  rw [BitVec.toNat_not, BitVec.toNat_ofNat, Nat.mod_eq_of_lt]
  have := Nat.two_pow_pos n
  omega

theorem invert_apply (s : Bitmap n) (x : BitVec n) : s.invert x = s (~~~ x) := by
  rw [Bitmap.invert, ofNat_sub_eq_not]

theorem idxOf_vnot (v : Fin n → Bool) : idxOf (vnot v) = ~~~ (idxOf v) := by
  apply vecOf_injective
  rw [vecOf_idxOf]
  funext i
  rw [vecOf_not, vecOf_idxOf]; rfl

theorem invert_toSet (s : Bitmap n) : s.invert.toSet = complSet s.toSet := by
  ext v
  rw [Bitmap.mem_toSet, invert_apply, mem_complSet, Bitmap.mem_toSet, idxOf_vnot]

theorem invert_invert (s : Bitmap n) : s.invert.invert = s := by
  funext x
  simp [invert_apply]

/-- The model of `invert` is list reversal of the stored entries. -/
theorem invert_toList (s : Bitmap n) : s.invert.toList = s.toList.reverse := by
  apply List.ext_getElem
  · simp [Bitmap.toList, indices]
  · intro i h1 h2
    simp only [Bitmap.toList, indices, List.length_map, List.length_range] at h1
    simp only [Bitmap.toList, indices, List.getElem_map, List.getElem_range, List.getElem_reverse,
      List.length_map, List.length_range, Bitmap.invert]
    congr 2
    rw [BitVec.toNat_ofNat, Nat.mod_eq_of_lt h1]

/-! ## `is_channel_unconstrained`, `subsumes_unpermuted`, `channel_is_extremal` -/

theorem mem_indices' (x : BitVec n) : x ∈ indices n := mem_indices x

theorem all_indices (p : BitVec n → Bool) : (indices n).all p = true ↔ ∀ x, p x = true := by
  rw [List.all_eq_true]
  exact ⟨fun h x => h x (mem_indices x), fun h x _ => h x⟩

theorem isChannelUnconstrained_iff (s : Bitmap n) (c : Fin n) :
    s.isChannelUnconstrained c = true ↔ ∀ x, s x = s (x ^^^ bit c) := by
  unfold Bitmap.isChannelUnconstrained
  rw [maskLoop_eq, foldl_and_eq, Bool.true_and, List.all_eq_true]
  simp only [mem_maskIndices, superset_iff, vecOf_bit, decide_eq_true_eq, forall_eq, beq_iff_eq]
  constructor
  · intro h x
    by_cases hx : vecOf x c = true
    · exact h x hx
    · have := h (x ^^^ bit c) (by simp only [Bool.not_eq_true] at hx; simp [hx])
      simpa [BitVec.xor_assoc] using this.symm
  · intro h x _; exact h x

theorem isChannelUnconstrained_toSet (s : Bitmap n) (c : Fin n) :
    s.isChannelUnconstrained c = true ↔
      ∀ v, v ∈ s.toSet ↔ Function.update v c (!(v c)) ∈ s.toSet := by
  rw [isChannelUnconstrained_iff]
  have key : ∀ x : BitVec n, Function.update (vecOf x) c (!(vecOf x c)) = vecOf (x ^^^ bit c) := by
    intro x
    funext i
    by_cases h : i = c
    · subst h; simp
    · simp [h]
  constructor
  · intro h v
    obtain ⟨x, rfl⟩ := vecOf_surjective v
    rw [key, Bitmap.vecOf_mem, Bitmap.vecOf_mem, h x]
  · intro h x
    have := h (vecOf x)
    rw [key, Bitmap.vecOf_mem, Bitmap.vecOf_mem] at this
    exact Bool.eq_iff_iff.2 this

theorem subsumesUnpermuted_iff (s t : Bitmap n) :
    s.subsumesUnpermuted t = true ↔ s.toSet ⊆ t.toSet := by
  unfold Bitmap.subsumesUnpermuted Bitmap.toList
  rw [List.zip_map', List.all_map, all_indices]
  constructor
  · intro h v hv
    rw [Bitmap.mem_toSet] at hv ⊢
    have := h (idxOf v)
    simpa [hv] using this
  · intro h x
    have := @h (vecOf x)
    simp only [Bitmap.vecOf_mem] at this
    cases hx : s x <;> simp_all

end Sortnet
