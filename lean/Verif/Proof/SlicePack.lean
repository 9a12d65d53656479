import Verif.Proof.SliceOps

/-! # Packing and unpacking on slices -/

namespace Sortnet.Slice

variable {n : ℕ}

theorem asU8_eq (b : Bool) : OutputSet.asU8 b = b.toUInt8 := by cases b <;> rfl

theorem packRemainder_eq (l : List Bool) : OutputSet.packRemainder l = packByte l := by
  simp only [OutputSet.packRemainder, packByte, asU8_eq]

/-- The unchecked accesses are in bounds for a chunk of eight entries. -/
theorem packChunk_eq (l : List Bool) (h : l.length = 8) : OutputSet.packChunk l = some (packByte l) := by
  match l, h with
  | [a, b, c, d, e, f, g, i], _ => simp [OutputSet.packChunk, getUnchecked, packByte, asU8_eq]

theorem packIntoSlice_eq (l : List Bool) (t : List UInt8) (h : t.length = (l.length + 7) / 8) :
    OutputSet.packIntoSlice l t = some (packBits l) := by
  induction l using packBits.induct generalizing t with
  | case1 l hl =>
    rw [OutputSet.packIntoSlice.eq_def, packBits, if_pos hl, if_neg (by omega), if_pos hl]
    rw [hl] at h
    rw [List.length_eq_zero_iff.1 (by omega : t.length = 0)]
  | case2 l hl ih =>
    have hp : packBits l = packByte (l.take 8) :: packBits (l.drop 8) := by rw [packBits, if_neg hl]
    rw [OutputSet.packIntoSlice.eq_def, hp]
    match t, h with
    | [], h => simp only [List.length_nil] at h; omega
    | _ :: ts, h =>
      by_cases h8 : 8 ≤ l.length
      · rw [if_pos h8]
        simp only
        rw [packChunk_eq _ (by rw [List.length_take]; omega),
          ih ts (by rw [List.length_drop]; simp only [List.length_cons] at h; omega)]
        rfl
      · rw [if_neg h8, if_neg hl]
        simp only [List.length_cons] at h
        have hts : ts = [] := List.length_eq_zero_iff.1 (by omega)
        subst hts
        simp only
        rw [packRemainder_eq, List.take_of_length_le (by omega), List.drop_eq_nil_of_le (by omega)]
        simp [packBits]

theorem packed_eq (s : Bitmap n) : (ofBitmap s).packed = some s.packed := by
  unfold OutputSet.packed OutputSet.packedLen
  exact packIntoSlice_eq _ _ (by simp [ofBitmap])

theorem packedPvec_eq (hn : n ≤ 11) (s : Bitmap n) : (ofBitmap s).packedPvec = some s.packed := by
  unfold OutputSet.packedPvec OutputSet.packedLen
  have h : ((ofBitmap s).bitmap.length + 7) / 8 ≤ capP := by
    have : (ofBitmap s).bitmap.length = 2 ^ n := toList_length s
    have h2 := pow_le_capB hn
    unfold capB at h2
    unfold capP
    omega
  rw [collect_replicate h]
  exact packIntoSlice_eq _ _ (by simp [ofBitmap])

/-- The unchecked accesses are in bounds for a chunk of eight entries. -/
theorem unpackChunk_eq (l : List Bool) (h : l.length = 8) (b : UInt8) :
    OutputSet.unpackChunk l b = some (unpackByte b 8) := by
  match l, h with
  | [a, b, c, d, e, f, g, i], _ =>
    simp [OutputSet.unpackChunk, putUnchecked, put, unpackByte, OutputSet.bitOf, List.range_succ]

theorem unpackBits_nil (l : List Bool) : unpackBits l [] = if l.length % 8 = 0 then some l else none := by
  induction h : l.length using Nat.strong_induction_on generalizing l with
  | _ k ih =>
    subst h
    rw [unpackBits]
    by_cases h0 : l.length = 0
    · rw [if_pos h0, h0, if_pos rfl, List.length_eq_zero_iff.1 h0]
    · rw [if_neg h0]
      by_cases h8 : 8 ≤ l.length
      · rw [if_pos h8]
        rw [ih _ (by rw [List.length_drop]; omega) (l.drop 8) rfl, List.length_drop]
        have e : (l.length - 8) % 8 = l.length % 8 := by omega
        rw [e]
        by_cases hm : l.length % 8 = 0
        · rw [if_pos hm, if_pos hm, Option.map_some, List.take_append_drop]
        · rw [if_neg hm, if_neg hm]; rfl
      · rw [if_neg h8, if_neg (by omega)]

theorem unpackFromSlice_eq (l : List Bool) (src : List UInt8) :
    OutputSet.unpackFromSlice l src = unpackBits l src := by
  induction h : l.length using Nat.strong_induction_on generalizing l src with
  | _ k ih =>
    subst h
    by_cases h8 : 8 ≤ l.length
    · match src with
      | [] => rw [OutputSet.unpackFromSlice, if_pos h8, unpackBits_nil]
      | b :: bs =>
        rw [OutputSet.unpackFromSlice, if_pos h8, unpackBits, if_neg (by omega), if_pos h8]
        rw [unpackChunk_eq _ (by rw [List.length_take]; omega), ih _ (by rw [List.length_drop]; omega) (l.drop 8) bs rfl]
        cases unpackBits (l.drop 8) bs <;> rfl
    · rw [OutputSet.unpackFromSlice.eq_def, if_neg h8, unpackBits.eq_def]
      by_cases h0 : l.length = 0
      · rw [if_pos h0, if_pos h0]
      · rw [if_neg h0, if_neg h0, if_neg h8]
        match src with
        | [] => rfl
        | b :: bs =>
          simp only [unpackByte, Option.some.injEq]
          apply List.ext_getElem?
          intro i
          by_cases hi : i < l.length
          · simp [hi, OutputSet.bitOf]
          · rw [List.getElem?_eq_none (by simpa using hi), List.getElem?_eq_none (by simpa using hi)]

end Sortnet.Slice
