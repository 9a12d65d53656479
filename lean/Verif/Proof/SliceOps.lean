import Verif.Proof.SliceBase
import Verif.Proof.Abstraction

/-! # The operations on slices compute those on bitmaps -/

namespace Sortnet.Slice

variable {n : ℕ} {σ τ : Type}

/-- The output set that stores a bitmap. -/
def ofBitmap (s : Bitmap n) : OutputSet := { channels := n, bitmap := s.toList }

theorem collect_replicate {cap k : ℕ} (h : k ≤ cap) (z : σ) : collect cap (List.replicate k z) = List.replicate k z := by
  unfold collect
  exact List.take_of_length_le (by simpa using h)

theorem and_self_mask (m : ℕ) : m &&& m = m := Nat.and_self m

theorem bit_lt (c : Fin n) : (bit c).toNat < 2 ^ n := (bit c).isLt

theorem or_toNat (a b : BitVec n) : a.toNat ||| b.toNat = (a ||| b).toNat := (BitVec.toNat_or ..).symm

theorem ofNat_toNat_self (x : BitVec n) : BitVec.ofNat n x.toNat = x := by simp

theorem toNat_ofNat_lt {i : ℕ} (h : i < 2 ^ n) : (BitVec.ofNat n i).toNat = i := by
  rw [BitVec.toNat_ofNat, Nat.mod_eq_of_lt h]

theorem get_xor (s : Bitmap n) {i : ℕ} (h : i < 2 ^ n) (m : BitVec n) :
    s.toList[i ^^^ m.toNat]? = some (s (BitVec.ofNat n i ^^^ m)) := by
  rw [getElem?_toList s (xor_lt h m.isLt), ofNat_xor]

theorem put_xor (s : Bitmap n) {i : ℕ} (h : i < 2 ^ n) (m : BitVec n) (v : Bool) :
    put s.toList (i ^^^ m.toNat) v = some (Bitmap.toList (Function.update s (BitVec.ofNat n i ^^^ m) v)) := by
  rw [put_toList s (xor_lt h m.isLt), ofNat_xor]

/-! ## Reading -/

theorem allValues_eq (n : ℕ) : OutputSet.allValues n = ofBitmap (Sortnet.allValues n) := by
  unfold OutputSet.allValues ofBitmap
  congr 1
  rw [Nat.one_shiftLeft]
  symm
  rw [List.eq_replicate_iff]
  refine ⟨toList_length _, ?_⟩
  intro b hb
  simp only [Bitmap.toList, List.mem_map] at hb
  obtain ⟨x, _, rfl⟩ := hb
  rfl

theorem pow_le_capB (hn : n ≤ 11) : 2 ^ n ≤ capB := Nat.pow_le_pow_right (n := 2) (by norm_num) hn

theorem allValuesBvec_eq (hn : n ≤ 11) : OutputSet.allValuesBvec n = ofBitmap (Sortnet.allValues n) := by
  rw [← allValues_eq]
  unfold OutputSet.allValuesBvec OutputSet.allValues
  rw [collect_replicate]
  rw [Nat.one_shiftLeft]; exact pow_le_capB hn

theorem toOwnedBvec_eq (hn : n ≤ 11) (s : Bitmap n) : (ofBitmap s).toOwnedBvec = some (ofBitmap s) := by
  unfold OutputSet.toOwnedBvec tryExtend ofBitmap
  rw [if_pos (by rw [toList_length]; exact pow_le_capB hn)]
  rfl

theorem len_eq (s : Bitmap n) : (ofBitmap s).len = s.len := by
  simp [OutputSet.len, ofBitmap, Bitmap.len, Bitmap.toList, Function.comp_def]

theorem weightHistogram_eq (hn : n ≤ 11) (s : Bitmap n) :
    (ofBitmap s).weightHistogram = some (buf (n + 1) s.weightHistogram) := by
  unfold OutputSet.weightHistogram ofBitmap
  dsimp only
  rw [collect_replicate (by unfold capW; omega), buf_zero]
  refine foldlM_zipIdx_eq s _ (fun h x => Function.update h (countOnes x) (h (countOnes x) + (s x).toNat))
    (buf (n + 1)) ?_ _
  intro x st
  dsimp only
  rw [countOnes64_eq (by omega)]
  exact add_buf st (by have := countOnes_le x; omega) _

theorem isSortedLoop_eq (hn : n ≤ 11) (s : Bitmap n) (L : List (BitVec n)) (k : ℕ)
    (hL : ∀ i (hi : i < L.length), (L[i]).toNat = k + i) (ap : ℕ → Bool) :
    OutputSet.isSortedLoop ((L.map s).zipIdx k) (buf (n + 1) ap) = some (Sortnet.isSortedLoop s L ap) := by
  induction L generalizing k ap with
  | nil => rfl
  | cons x L ih =>
    have hx : x.toNat = k := hL 0 (by simp)
    rw [List.map_cons, List.zipIdx_cons, OutputSet.isSortedLoop, Sortnet.isSortedLoop]
    rw [← hx, countOnes64_eq (by omega), getElem?_buf _ (by have := countOnes_le x; omega)]
    dsimp only [Option.bind_eq_bind, Option.bind_some]
    by_cases h : (ap (countOnes x) && s x) = true
    · rw [if_pos h, if_pos h]
    · rw [if_neg h, if_neg h, put_buf _ (by have := countOnes_le x; omega)]
      dsimp only [Option.bind_some]
      rw [hx]
      refine ih (k + 1) ?_ _
      intro i hi
      have := hL (i + 1) (by rw [List.length_cons]; omega)
      rw [List.getElem_cons_succ] at this
      omega

theorem indices_getElem (i : ℕ) (hi : i < (indices n).length) : ((indices n)[i]).toNat = 0 + i := by
  have hi' : i < 2 ^ n := by simpa [indices] using hi
  simp [indices, Nat.mod_eq_of_lt hi']

theorem isSorted_eq (hn : n ≤ 11) (s : Bitmap n) : (ofBitmap s).isSorted = some s.isSorted := by
  unfold OutputSet.isSorted Bitmap.isSorted ofBitmap
  dsimp only
  by_cases h : n < 2
  · rw [if_pos h, if_pos h]
  · rw [if_neg h, if_neg h, collect_replicate (by unfold capW; omega), buf_zero]
    exact isSortedLoop_eq hn s (indices n) 0 indices_getElem _

theorem unconstrained_false (s : Bitmap n) (m : BitVec n) (index : ℕ) (st : Bool) (hst : st = false) :
    maskLoop n m.toNat (fun x ok => ok && (s x == s (x ^^^ m))) index st = false := by
  induction index, st using maskLoop.induct n m.toNat (fun x ok => ok && (s x == s (x ^^^ m))) with
  | case1 index st hlt ih =>
    rw [maskLoop, if_pos hlt]
    exact ih (by simp [hst])
  | case2 index st hge => rw [maskLoop, if_neg hge, hst]

theorem unconstrainedLoop_eq (s : Bitmap n) (m : BitVec n) (index : ℕ) (st : Bool) (hst : st = true) :
    OutputSet.unconstrainedLoop s.toList m.toNat index =
      some (maskLoop n m.toNat (fun x ok => ok && (s x == s (x ^^^ m))) index st) := by
  induction index, st using maskLoop.induct n m.toNat (fun x ok => ok && (s x == s (x ^^^ m))) with
  | case1 index st hlt ih =>
    rw [OutputSet.unconstrainedLoop, maskLoop, if_pos (by rw [toList_length]; exact hlt), if_pos hlt,
      getElem?_toList s hlt, get_xor s hlt]
    dsimp only [Option.bind_eq_bind, Option.bind_some]
    by_cases h : s (BitVec.ofNat n index) = s (BitVec.ofNat n index ^^^ m)
    · rw [if_neg (by simpa using h)]
      exact ih (by simp [hst, h])
    · rw [if_pos h, unconstrained_false _ _ _ _ (by simp [h])]
  | case2 index st hge =>
    rw [OutputSet.unconstrainedLoop, maskLoop, if_neg (by rw [toList_length]; exact hge), if_neg hge, hst]

theorem isChannelUnconstrained_eq (s : Bitmap n) (c : Fin n) :
    (ofBitmap s).isChannelUnconstrained c = some (s.isChannelUnconstrained c) := by
  unfold OutputSet.isChannelUnconstrained Bitmap.isChannelUnconstrained ofBitmap
  dsimp only
  rw [shift_eq]
  exact unconstrainedLoop_eq s (bit c) _ true rfl

theorem sub_allMask (s : Bitmap n) : sub s.toList.length 1 = some (BitVec.allOnes n).toNat := by
  unfold sub
  rw [toList_length, if_pos Nat.one_le_two_pow, BitVec.toNat_allOnes]

theorem channelFingerprint_eq (s : Bitmap n) (c : Fin n) :
    (ofBitmap s).channelFingerprint c = some (s.channelFingerprint c) := by
  unfold OutputSet.channelFingerprint Bitmap.channelFingerprint ofBitmap
  dsimp only
  rw [sub_allMask, shift_eq]
  dsimp only [Option.bind_eq_bind, Option.bind_some]
  rw [getElem?_toList s (bit_lt c), get_xor s (bit_lt c), ofNat_toNat_self, toList_length]
  dsimp only [Option.bind_some]
  refine whileLoop_eq (bit c).toNat _ (fun x fp => fp + (s x).toNat * 4) id ?_ _ (and_self_mask _) _
  intro i hi _ st
  rw [getElem?_toList s hi]
  rfl

/-- `(1 << k) - 1` as a bit vector. -/
theorem lowMask_toNat {k : ℕ} (hk : k ≤ n) : (BitVec.ofNat n (2 ^ k - 1)).toNat = 2 ^ k - 1 := by
  rw [BitVec.toNat_ofNat, Nat.mod_eq_of_lt]
  have : 2 ^ k ≤ 2 ^ n := Nat.pow_le_pow_right (by norm_num) hk
  have : 0 < 2 ^ k := Nat.two_pow_pos k
  omega

theorem sub_lowMask {k : ℕ} (hk : k ≤ n) : sub (1 <<< k) 1 = some (BitVec.ofNat n (2 ^ k - 1)).toNat := by
  unfold sub
  rw [Nat.one_shiftLeft, if_pos Nat.one_le_two_pow, lowMask_toNat hk]

theorem and_toNat (a b : BitVec n) : a.toNat &&& b.toNat = (a &&& b).toNat := (BitVec.toNat_and ..).symm

theorem lowChannelsFingerprint_eq (hn : n ≤ 11) (hash : List ℕ → ℕ) (s : Bitmap n) {k : ℕ} (hk : k ≤ n) :
    (ofBitmap s).lowChannelsFingerprint hash k = some (s.lowChannelsFingerprint hash k) := by
  unfold OutputSet.lowChannelsFingerprint Bitmap.lowChannelsFingerprint ofBitmap
  dsimp only
  have h0 : sub (n + 1) k = some (n + 1 - k) := by unfold sub; rw [if_pos (by omega)]
  rw [h0, sub_lowMask hk]
  dsimp only [Option.bind_eq_bind, Option.bind_some]
  rw [buf_zero, Nat.one_shiftLeft]
  rw [foldlM_zipIdx_eq s _ (fun buffer x =>
      Function.update buffer
        (countOnes (x &&& ~~~ BitVec.ofNat n (2 ^ k - 1)) + (n + 1 - k) * (x &&& BitVec.ofNat n (2 ^ k - 1)).toNat)
        (buffer
          (countOnes (x &&& ~~~ BitVec.ofNat n (2 ^ k - 1)) + (n + 1 - k) * (x &&& BitVec.ofNat n (2 ^ k - 1)).toNat)
          + (s x).toNat)) (buf ((n + 1 - k) * 2 ^ k))]
  · rfl
  · intro x st
    dsimp only
    rw [and_toNat, and_not64 (by omega), countOnes64_eq (by omega)]
    exact add_buf st (lowFp_index_lt k hk x) _

theorem lowChannelsChannelFingerprint_eq (hn : n ≤ 11) (hash : List ℕ → ℕ) (s : Bitmap n) {k : ℕ} (c : Fin n)
    (hk : k ≤ c) : (ofBitmap s).lowChannelsChannelFingerprint hash k c = some (s.lowChannelsChannelFingerprint hash k c) := by
  have hkn : k ≤ n := hk.trans c.isLt.le
  unfold OutputSet.lowChannelsChannelFingerprint Bitmap.lowChannelsChannelFingerprint ofBitmap
  dsimp only
  have h0 : sub n k = some (n - k) := by unfold sub; rw [if_pos hkn]
  rw [h0, sub_lowMask hkn, shift_eq]
  dsimp only [Option.bind_eq_bind, Option.bind_some]
  rw [buf_zero, Nat.one_shiftLeft, toList_length]
  rw [whileLoop_eq (bit c).toNat _ (fun x (buffer : ℕ → ℕ) =>
      Function.update buffer
        (countOnes (x &&& ~~~ (BitVec.ofNat n (2 ^ k - 1) ||| bit c)) + (n - k) * (x &&& BitVec.ofNat n (2 ^ k - 1)).toNat)
        (buffer
          (countOnes (x &&& ~~~ (BitVec.ofNat n (2 ^ k - 1) ||| bit c)) + (n - k) * (x &&& BitVec.ofNat n (2 ^ k - 1)).toNat)
          + (s x).toNat)) (buf ((n - k) * 2 ^ k)) _ _ (and_self_mask _)]
  · rfl
  · intro i hi _ st
    obtain ⟨x, rfl⟩ : ∃ x : BitVec n, i = x.toNat := ⟨BitVec.ofNat n i, (toNat_ofNat_lt hi).symm⟩
    rw [getElem?_toList s hi, and_toNat, or_toNat, and_not64 (by omega), countOnes64_eq (by omega), ofNat_toNat_self]
    dsimp only [Option.bind_some]
    exact add_buf st (lowChFp_index_lt k c hk x) _

theorem lowChannelsChannelAbstractionLen_eq (s : Bitmap n) {k : ℕ} (hk : k ≤ n) :
    (ofBitmap s).lowChannelsChannelAbstractionLen k = some (Sortnet.lowChannelsChannelAbstractionLen n k) := by
  unfold OutputSet.lowChannelsChannelAbstractionLen Sortnet.lowChannelsChannelAbstractionLen ofBitmap sub
  dsimp only
  rw [if_pos hk, Nat.one_shiftLeft]
  rfl

theorem lowChannelsChannelAbstraction_eq (hn : n ≤ 11) (s : Bitmap n) {k : ℕ} (c : Fin n) (hk : k ≤ c)
    (buffer : List ℕ) (hb : buffer.length = Sortnet.lowChannelsChannelAbstractionLen n k) :
    (ofBitmap s).lowChannelsChannelAbstraction k c buffer =
      some (buf (Sortnet.lowChannelsChannelAbstractionLen n k) (s.lowChannelsChannelAbstraction k c)) := by
  have hkn : k ≤ n := hk.trans c.isLt.le
  unfold OutputSet.lowChannelsChannelAbstraction Bitmap.lowChannelsChannelAbstraction ofBitmap
  dsimp only
  have h0 : sub n k = some (n - k) := by unfold sub; rw [if_pos hkn]
  rw [h0, sub_lowMask hkn, shift_eq]
  dsimp only [Option.bind_eq_bind, Option.bind_some]
  rw [List.map_const', hb, buf_zero, toList_length]
  refine whileLoop_eq (bit c).toNat _ _ (buf (Sortnet.lowChannelsChannelAbstractionLen n k)) ?_ _ (and_self_mask _) _
  intro i hi _ st
  obtain ⟨x, rfl⟩ : ∃ x : BitVec n, i = x.toNat := ⟨BitVec.ofNat n i, (toNat_ofNat_lt hi).symm⟩
  rw [getElem?_toList s hi, get_xor s hi, and_toNat, or_toNat, and_not64 (by omega), countOnes64_eq (by omega),
    ofNat_toNat_self]
  dsimp only [Option.bind_some]
  have hlt := lowAbs_index_lt k c hk x
  unfold lowKey at hlt
  rw [add_buf _ (by omega), Option.bind_some, add_buf _ (by omega), Option.bind_some, add_buf _ (by omega)]

theorem channelWeight_lt (c : Fin n) (x : BitVec n) : countOnes (x &&& ~~~ bit c) < n := by
  have h := lowAbs_index_lt 0 c (Nat.zero_le _) x
  unfold lowKey Sortnet.lowChannelsChannelAbstractionLen at h
  have e : BitVec.ofNat n (2 ^ 0 - 1) = 0#n := by simp
  rw [e, BitVec.zero_or] at h
  simp only [Nat.sub_zero, Nat.pow_zero, Nat.mul_one] at h
  omega

theorem channelAbstraction_eq (hn : n ≤ 11) (s : Bitmap n) (c : Fin n) :
    (ofBitmap s).channelAbstraction c =
      some (buf n (s.channelAbstraction c 0), buf n (s.channelAbstraction c 1), buf n (s.channelAbstraction c 2)) := by
  unfold OutputSet.channelAbstraction Bitmap.channelAbstraction ofBitmap
  dsimp only
  rw [collect_replicate (by unfold capC; omega), buf_zero, toList_length, shift_eq]
  refine whileLoop_eq (bit c).toNat _ _ (fun a : Fin 3 → ℕ → ℕ => (buf n (a 0), buf n (a 1), buf n (a 2))) ?_ _
    (and_self_mask _) (fun _ _ => 0)
  intro i hi _ st
  obtain ⟨x, rfl⟩ : ∃ x : BitVec n, i = x.toNat := ⟨BitVec.ofNat n i, (toNat_ofNat_lt hi).symm⟩
  dsimp only
  rw [getElem?_toList s hi, get_xor s hi, and_not64 (by omega), countOnes64_eq (by omega), ofNat_toNat_self]
  dsimp only [Option.bind_eq_bind, Option.bind_some]
  have hlt := channelWeight_lt c x
  rw [add_buf _ hlt, Option.bind_some, add_buf _ hlt, Option.bind_some, add_buf _ hlt, Option.bind_some]
  congr 2
  · refine buf_congr fun i _ => ?_
    by_cases h : i = countOnes (x &&& ~~~ bit c)
    · subst h; simp
    · simp [h]
  · congr 1
    · refine buf_congr fun i _ => ?_
      by_cases h : i = countOnes (x &&& ~~~ bit c)
      · subst h; simp
      · simp [h]
    · refine buf_congr fun i _ => ?_
      by_cases h : i = countOnes (x &&& ~~~ bit c)
      · subst h; simp
      · simp [h]

/-- An array of four numbers. -/
def arr4 (a : Fin 4 → ℕ) : List ℕ := [a 0, a 1, a 2, a 3]

theorem channelPairAbstraction_eq (s : Bitmap n) (c0 c1 : Fin n) :
    (ofBitmap s).channelPairAbstraction c0 c1 = some (arr4 (s.channelPairAbstraction c0 c1)) := by
  unfold OutputSet.channelPairAbstraction Bitmap.channelPairAbstraction ofBitmap
  dsimp only
  rw [toList_length, shift_eq, shift_eq, or_toNat]
  refine whileLoop_eq (bit c0 ||| bit c1).toNat _ _ arr4 ?_ _ (and_self_mask _) (fun _ => 0)
  intro i hi _ st
  rw [getElem?_toList s hi, get_xor s hi, get_xor s hi, get_xor s hi]
  simp [arr4, add, put]

theorem subsumesUnpermuted_eq (s t : Bitmap n) :
    (ofBitmap s).subsumesUnpermuted (ofBitmap t) = s.subsumesUnpermuted t := rfl

/-! ## Changing -/

theorem applyComparator_eq (s : Bitmap n) (c0 c1 : Fin n) :
    (ofBitmap s).applyComparator c0 c1 =
      some (ofBitmap (s.applyComparator c0 c1).1, (s.applyComparator c0 c1).2) := by
  unfold OutputSet.applyComparator Bitmap.applyComparator ofBitmap
  dsimp only
  rw [toList_length, shift_eq, shift_eq, or_toNat]
  rw [whileLoop_eq (bit c0 ||| bit c1).toNat _ (fun x (st : Bitmap n × Bool × Bool) =>
      (Function.update (Function.update st.1 (x ^^^ bit c0) false) (x ^^^ bit c1)
        (Function.update st.1 (x ^^^ bit c0) false (x ^^^ bit c1) || st.1 (x ^^^ bit c0)),
        st.2.1 || st.1 (x ^^^ bit c0), st.2.2 || Function.update st.1 (x ^^^ bit c0) false (x ^^^ bit c1)))
    (fun st : Bitmap n × Bool × Bool => (st.1.toList, st.2)) ?_ _ (and_self_mask _) (s, false, false)]
  · rfl
  · intro i hi _ st
    dsimp only
    rw [get_xor st.1 hi, put_xor st.1 hi]
    dsimp only [Option.bind_eq_bind, Option.bind_some]
    rw [get_xor _ hi, Option.bind_some, put_xor _ hi]
    rfl

theorem swapChannels_eq (s : Bitmap n) (c0 c1 : Fin n) :
    (ofBitmap s).swapChannels c0 c1 = some (ofBitmap (s.swapChannels c0 c1)) := by
  unfold OutputSet.swapChannels Bitmap.swapChannels ofBitmap
  dsimp only
  by_cases h : c0 = c1
  · rw [if_pos h, if_pos (congrArg Fin.val h)]
  · rw [if_neg h, if_neg (fun e => h (Fin.ext e)), toList_length, shift_eq, shift_eq, or_toNat]
    rw [whileLoop_eq (bit c0 ||| bit c1).toNat _ (fun x (bm : Bitmap n) =>
        Function.update (Function.update bm (x ^^^ bit c0) (bm (x ^^^ bit c1)))
          (x ^^^ bit c1) (bm (x ^^^ bit c0))) Bitmap.toList ?_ _ (and_self_mask _) s]
    · rfl
    · intro i hi _ st
      unfold swap
      rw [get_xor st hi, get_xor st hi]
      dsimp only [Option.bind_eq_bind, Option.bind_some]
      rw [put_xor st hi, Option.bind_some, put_xor _ hi]

theorem invert_eq (s : Bitmap n) : (ofBitmap s).invert = ofBitmap s.invert := by
  unfold OutputSet.invert ofBitmap
  rw [invert_toList]

theorem copyFrom_eq (s t : Bitmap n) : (ofBitmap s).copyFrom (ofBitmap t) = some (ofBitmap t) := by
  unfold OutputSet.copyFrom ofBitmap
  rw [if_pos (by rw [toList_length, toList_length])]

theorem flip_eq (m : ℕ) (p : Bool) : OutputSet.flip (BitVec.allOnes m).toNat p = (flipMask m p).toNat := by
  cases p <;> simp [OutputSet.flip, flipMask]

theorem channelIsExtremal_eq (s : Bitmap n) (p : Bool) (c : Fin n) :
    (ofBitmap s).channelIsExtremal p c = some (s.channelIsExtremal p c) := by
  unfold OutputSet.channelIsExtremal Bitmap.channelIsExtremal ofBitmap
  dsimp only
  rw [sub_allMask, shift_eq]
  dsimp only [Option.bind_eq_bind, Option.bind_some]
  rw [flip_eq, get_xor s (bit_lt c), ofNat_toNat_self]

end Sortnet.Slice
