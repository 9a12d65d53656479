import Verif.Model.SliceSet
import Verif.Proof.OutputSet
import Verif.Proof.Pack
import Verif.Proof.CanonFp

/-! # Slices and bitmaps: basic facts -/

namespace Sortnet.Slice

variable {n : ℕ} {σ τ : Type}

theorem getElem?_toList (s : Bitmap n) {i : ℕ} (h : i < 2 ^ n) : s.toList[i]? = some (s (BitVec.ofNat n i)) := by
  simp [Bitmap.toList, indices, h]

theorem put_toList (s : Bitmap n) {i : ℕ} (h : i < 2 ^ n) (v : Bool) :
    put s.toList i v = some (Bitmap.toList (Function.update s (BitVec.ofNat n i) v)) := by
  unfold put
  rw [if_pos (by rw [toList_length]; exact h)]
  congr 1
  apply List.ext_getElem?
  intro j
  rw [List.getElem?_set]
  by_cases hj : j < 2 ^ n
  · rw [getElem?_toList _ hj, getElem?_toList _ hj]
    by_cases hij : i = j
    · subst hij
      simp [toList_length, h]
    · have : BitVec.ofNat n j ≠ BitVec.ofNat n i := by
        intro e
        have := congrArg BitVec.toNat e
        simp only [BitVec.toNat_ofNat, Nat.mod_eq_of_lt h, Nat.mod_eq_of_lt hj] at this
        exact hij this.symm
      simp [hij, this]
  · have h1 : s.toList[j]? = none := by rw [List.getElem?_eq_none_iff, toList_length]; omega
    have h2 : (Bitmap.toList (Function.update s (BitVec.ofNat n i) v))[j]? = none := by
      rw [List.getElem?_eq_none_iff, toList_length]; omega
    rw [h1, h2, if_neg (by rintro rfl; exact hj h)]

/-- A buffer as a list. -/
def buf (len : ℕ) (b : ℕ → σ) : List σ := (List.range len).map b

theorem buf_length (len : ℕ) (b : ℕ → σ) : (buf len b).length = len := by simp [buf]

theorem getElem?_buf {len : ℕ} (b : ℕ → σ) {i : ℕ} (h : i < len) : (buf len b)[i]? = some (b i) := by
  simp [buf, h]

theorem put_buf {len : ℕ} (b : ℕ → σ) {i : ℕ} (h : i < len) (v : σ) :
    put (buf len b) i v = some (buf len (Function.update b i v)) := by
  unfold put
  rw [if_pos (by rw [buf_length]; exact h)]
  congr 1
  apply List.ext_getElem?
  intro j
  rw [List.getElem?_set]
  by_cases hj : j < len
  · rw [getElem?_buf _ hj, getElem?_buf _ hj]
    by_cases hij : i = j
    · subst hij; simp [buf_length, h]
    · rw [if_neg hij, Function.update_of_ne (fun e => hij e.symm)]
  · have h1 : ∀ b : ℕ → σ, (buf len b)[j]? = none := by
      intro b; rw [List.getElem?_eq_none_iff, buf_length]; omega
    rw [h1, h1, if_neg (by rintro rfl; exact hj h)]

theorem add_buf {len : ℕ} (b : ℕ → ℕ) {i : ℕ} (h : i < len) (k : ℕ) :
    add (buf len b) i k = some (buf len (Function.update b i (b i + k))) := by
  simp [add, getElem?_buf b h, put_buf b h]

theorem buf_zero (len : ℕ) (z : σ) : List.replicate len z = buf len fun _ => z := by
  simp [buf, List.map_const']

theorem buf_congr {len : ℕ} {b b' : ℕ → σ} (h : ∀ i < len, b i = b' i) : buf len b = buf len b' := by
  unfold buf
  exact List.map_congr_left fun i hi => h i (List.mem_range.1 hi)

/-! ## Loops -/

theorem whileLoop_eq (mask : ℕ) (body : ℕ → τ → Option τ) (f : BitVec n → σ → σ) (enc : σ → τ)
    (h : ∀ i < 2 ^ n, i &&& mask = mask → ∀ st, body i (enc st) = some (enc (f (BitVec.ofNat n i) st)))
    (index : ℕ) (hi : index &&& mask = mask) (st : σ) :
    whileLoop (2 ^ n) mask body index (enc st) = some (enc (maskLoop n mask f index st)) := by
  induction index, st using maskLoop.induct n mask f with
  | case1 index st hlt ih =>
    rw [whileLoop, maskLoop, if_pos hlt, if_pos hlt, h index hlt hi st]
    exact ih (nat_or_and_mask _ _)
  | case2 index st hge =>
    rw [whileLoop, maskLoop, if_neg hge, if_neg hge]

theorem foldlM_zipIdx_eq (s : Bitmap n) (body : τ → Bool × ℕ → Option τ) (f : σ → BitVec n → σ) (enc : σ → τ)
    (h : ∀ x st, body (enc st) (s x, x.toNat) = some (enc (f st x))) (st : σ) :
    s.toList.zipIdx.foldlM body (enc st) = some (enc ((indices n).foldl f st)) := by
  have key : ∀ (L : List (BitVec n)) (k : ℕ) (st : σ), (∀ i (hi : i < L.length), (L[i]).toNat = k + i) →
      ((L.map s).zipIdx k).foldlM body (enc st) = some (enc (L.foldl f st)) := by
    intro L
    induction L with
    | nil => intro k st _; rfl
    | cons x L ih =>
      intro k st hL
      have hx : x.toNat = k := hL 0 (by simp)
      rw [List.map_cons, List.zipIdx_cons, List.foldlM_cons, List.foldl_cons]
      have := h x st
      rw [hx] at this
      rw [this]
      refine ih (k + 1) (f st x) ?_
      intro i hi
      have := hL (i + 1) (by rw [List.length_cons]; omega)
      rw [List.getElem_cons_succ] at this
      omega
  refine key (indices n) 0 st ?_
  intro i hi
  have hi' : i < 2 ^ n := by simpa [indices] using hi
  simp [indices, Nat.mod_eq_of_lt hi']

/-! ## Numbers and bit vectors -/

theorem shift_eq (c : Fin n) : 1 <<< c.val = (bit c).toNat := by
  rw [bit, BitVec.toNat_twoPow_of_lt c.isLt, Nat.one_shiftLeft]

theorem toNat_lt (x : BitVec n) : x.toNat < 2 ^ n := x.isLt

theorem xor_lt {i j : ℕ} (hi : i < 2 ^ n) (hj : j < 2 ^ n) : i ^^^ j < 2 ^ n := Nat.xor_lt_two_pow hi hj

theorem ofNat_xor (i : ℕ) (m : BitVec n) : BitVec.ofNat n (i ^^^ m.toNat) = BitVec.ofNat n i ^^^ m := by
  apply BitVec.eq_of_toNat_eq
  rw [BitVec.toNat_xor, BitVec.toNat_ofNat, BitVec.toNat_ofNat, Nat.xor_mod_two_pow, Nat.mod_eq_of_lt m.isLt]

theorem countOnes64_eq (hn : n ≤ 64) (x : BitVec n) : countOnes64 x.toNat = countOnes x := by
  unfold countOnes64 countOnes
  have h : (List.range 64).filter (fun i => x.toNat.testBit i) = (List.range n).filter fun i => x.toNat.testBit i := by
    obtain ⟨k, hk⟩ : ∃ k, 64 = n + k := ⟨64 - n, by omega⟩
    rw [hk, List.range_add, List.filter_append]
    conv_rhs => rw [← List.append_nil ((List.range n).filter fun i => x.toNat.testBit i)]
    congr 1
    rw [List.filter_eq_nil_iff]
    intro a ha
    rw [List.mem_map] at ha
    obtain ⟨b, _, rfl⟩ := ha
    rw [Nat.testBit_lt_two_pow]
    · simp
    · exact lt_of_lt_of_le x.isLt (Nat.pow_le_pow_right (by norm_num) (by omega))
  rw [h, ← List.map_coe_finRange_eq_range, List.filter_map, List.length_map]
  rfl

theorem and_not64 (hn : n ≤ 64) (x m : BitVec n) : x.toNat &&& not64 m.toNat = (x &&& ~~~ m).toNat := by
  apply Nat.eq_of_testBit_eq
  intro i
  rw [BitVec.toNat_and, Nat.testBit_and, Nat.testBit_and, not64, Nat.testBit_xor, Nat.testBit_two_pow_sub_one,
    BitVec.testBit_toNat, BitVec.testBit_toNat, BitVec.testBit_toNat, BitVec.getLsbD_not]
  by_cases h : i < n
  · have : i < 64 := by omega
    simp [h, this]
  · simp [BitVec.getLsbD_of_ge x i (by omega)]

theorem countOnes_le (x : BitVec n) : countOnes x ≤ n := by
  unfold countOnes
  exact (List.length_filter_le _ _).trans (by simp)

end Sortnet.Slice
