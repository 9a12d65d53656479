import Verif.Proof.OutputSet
import Mathlib.Tactic.IntervalCases

/-!
# Packing and unpacking output sets
-/

namespace Sortnet

theorem packByte_bits : ∀ b0 b1 b2 b3 b4 b5 b6 b7 : Bool, ∀ i : Fin 8,
    ((packByte [b0, b1, b2, b3, b4, b5, b6, b7] &&& (1 <<< UInt8.ofNat i)) != 0) =
      [b0, b1, b2, b3, b4, b5, b6, b7][i] := by
  decide +kernel

theorem packByte_eq (l : List Bool) : packByte l = packByte
    [l[0]?.getD false, l[1]?.getD false, l[2]?.getD false, l[3]?.getD false,
     l[4]?.getD false, l[5]?.getD false, l[6]?.getD false, l[7]?.getD false] := by
  simp [packByte]

theorem packByte_bit (l : List Bool) (i : ℕ) (hi : i < 8) :
    ((packByte l &&& (1 <<< UInt8.ofNat i)) != 0) = l[i]?.getD false := by
  rw [packByte_eq]
  rw [packByte_bits _ _ _ _ _ _ _ _ ⟨i, hi⟩]
  interval_cases i <;> rfl

theorem unpackByte_packByte (l : List Bool) (h : l.length ≤ 8) :
    unpackByte (packByte l) l.length = l := by
  apply List.ext_getElem
  · simp [unpackByte]
  · intro i h1 h2
    simp only [unpackByte, List.getElem_map, List.getElem_range]
    rw [packByte_bit l i (by omega)]
    simp [h2]

theorem unpackBits_packBits (old l : List Bool) (h : old.length = l.length) :
    unpackBits old (packBits l) = some l := by
  induction hl : l.length using Nat.strongRecOn generalizing old l with
  | _ k ih =>
    unfold packBits unpackBits
    by_cases h0 : l.length = 0
    · have : l = [] := List.length_eq_zero_iff.1 h0
      subst this
      simp [h]
    · rw [if_neg (by omega), if_neg h0]
      by_cases h8 : 8 ≤ old.length
      · rw [if_pos h8]
        simp only
        rw [ih (l.drop 8).length (by rw [List.length_drop]; omega) (old.drop 8) (l.drop 8)
          (by simp [h]) rfl]
        have ht : (l.take 8).length = 8 := by rw [List.length_take]; omega
        have := unpackByte_packByte (l.take 8) (by omega)
        rw [ht] at this
        rw [this]
        simp
      · rw [if_neg h8]
        simp only
        have ht : l.take 8 = l := List.take_of_length_le (by omega)
        have := unpackByte_packByte l (by omega)
        rw [ht, h, this]

theorem packBits_length (l : List Bool) : (packBits l).length = (l.length + 7) / 8 := by
  fun_induction packBits l with
  | case1 l h => simp [h]
  | case2 l h ih => rw [List.length_cons, ih, List.length_drop]; omega

theorem toList_length {n : ℕ} (s : Bitmap n) : s.toList.length = 2 ^ n := by
  simp [Bitmap.toList, indices]

theorem packed_length {n : ℕ} (s : Bitmap n) : s.packed.length = packedLen n := by
  rw [Bitmap.packed, packBits_length, toList_length]; rfl

theorem fromPacked_packed {n : ℕ} (s : Bitmap n) : fromPackedList n s.packed = some s.toList :=
  unpackBits_packBits _ _ (by rw [toList_length, toList_length])

theorem toList_injective {n : ℕ} : Function.Injective (Bitmap.toList (n := n)) := by
  intro s t h
  funext x
  unfold Bitmap.toList at h
  rw [List.map_inj_left] at h
  exact h x (mem_indices x)

theorem ofList_toList {n : ℕ} (s : Bitmap n) : Bitmap.ofList n s.toList (toList_length s) = s := by
  funext x
  simp [Bitmap.ofList, Bitmap.toList, indices]

theorem toList_ofList {n : ℕ} (l : List Bool) (h : l.length = 2 ^ n) : (Bitmap.ofList n l h).toList = l := by
  apply List.ext_getElem
  · rw [toList_length, h]
  · intro i h1 h2
    have : i < 2 ^ n := by omega
    simp [Bitmap.ofList, Bitmap.toList, indices, Nat.mod_eq_of_lt this]

theorem packed_injective {n : ℕ} : Function.Injective (Bitmap.packed (n := n)) := by
  intro s t h
  have h1 := fromPacked_packed s
  rw [h, fromPacked_packed] at h1
  exact (toList_injective (Option.some.inj h1)).symm

/-- Unpacking keeps the number of entries. -/
theorem unpackBits_length (old : List Bool) (src : List UInt8) {l : List Bool}
    (h : unpackBits old src = some l) : l.length = old.length := by
  fun_induction unpackBits old src generalizing l with
  | case1 old src h0 => simp at h; subst h; simp [h0]
  | case2 old h0 h8 ih =>
    simp only [Option.map_eq_some_iff] at h
    obtain ⟨a, ha, rfl⟩ := h
    rw [List.length_append, ih ha, List.length_take, List.length_drop]; omega
  | case3 old h0 h8 b src ih =>
    simp only [Option.map_eq_some_iff] at h
    obtain ⟨a, ha, rfl⟩ := h
    rw [List.length_append, ih ha, List.length_drop]
    simp [unpackByte]; omega
  | case4 old h0 h8 => simp at h
  | case5 old h0 h8 b src => simp at h; subst h; simp [unpackByte]

/-- With enough bytes unpacking does not panic. -/
theorem unpackBits_isSome (old : List Bool) (src : List UInt8)
    (h : (old.length + 7) / 8 ≤ src.length) : (unpackBits old src).isSome := by
  fun_induction unpackBits old src with
  | case1 old src h0 => simp
  | case2 old h0 h8 ih => simp at h; omega
  | case3 old h0 h8 b src ih =>
    simp only [Option.isSome_map]
    apply ih
    rw [List.length_drop]
    rw [List.length_cons] at h
    omega
  | case4 old h0 h8 => simp at h; omega
  | case5 old h0 h8 b src => simp

end Sortnet
