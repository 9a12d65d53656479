import Verif.Model.Canon
import Verif.Proof.Abstraction
import Verif.Proof.Subsume

/-!
# Fingerprints are invariant under relabelling channels
-/

namespace Sortnet

variable {n : ℕ}

/-- `b` is `a` relabelled: channel `k` of `b` is channel `τ k` of `a`. -/
def BIso (τ : Equiv.Perm (Fin n)) (a b : Bitmap n) : Prop := ∀ x, b (permIdx τ x) = a x

theorem permIdx_permIdx (σ τ : Equiv.Perm (Fin n)) (x : BitVec n) :
    permIdx σ (permIdx τ x) = permIdx (τ * σ) x := by
  apply vec_ext; intro i; simp [vecOf_permIdx]

theorem permIdx_one (x : BitVec n) : permIdx 1 x = x := by
  apply vec_ext; intro i; simp [vecOf_permIdx]

theorem BIso.refl (a : Bitmap n) : BIso 1 a a := fun x => by rw [permIdx_one]

theorem BIso.symm {τ : Equiv.Perm (Fin n)} {a b : Bitmap n} (h : BIso τ a b) : BIso τ⁻¹ b a := by
  intro x
  obtain ⟨y, rfl⟩ := permIdx_surjective τ x
  rw [permIdx_permIdx, mul_inv_cancel, permIdx_one, h]

theorem BIso.trans {τ σ : Equiv.Perm (Fin n)} {a b c : Bitmap n} (h : BIso τ a b) (h' : BIso σ b c) :
    BIso (τ * σ) a c := by
  intro x
  rw [← permIdx_permIdx, h', h]

theorem BIso.eq {a b : Bitmap n} (h : BIso 1 a b) : a = b := by
  funext x
  rw [← h x, permIdx_one]

theorem BIso_swap (s : Bitmap n) (c0 c1 : Fin n) : BIso (Equiv.swap c0 c1) s (s.swapChannels c0 c1) := by
  intro x
  rw [swapChannels_apply]
  congr 1
  apply vec_ext
  intro i
  simp [vecOf_idxOf, vecOf_permIdx]

theorem BIso.invert {τ : Equiv.Perm (Fin n)} {a b : Bitmap n} (h : BIso τ a b) :
    BIso τ a.invert b.invert := by
  intro x
  rw [invert_apply, invert_apply, ← permIdx_not, h]

theorem BIso_iff (τ : Equiv.Perm (Fin n)) (a b : Bitmap n) :
    BIso τ a b ↔ b.toSet = permSet τ a.toSet := by
  constructor
  · intro h
    ext v
    obtain ⟨x, rfl⟩ := vecOf_surjective v
    obtain ⟨y, rfl⟩ := permIdx_surjective τ x
    rw [Bitmap.vecOf_mem, h, vecOf_permIdx]
    constructor
    · intro hy; exact ⟨vecOf y, (a.vecOf_mem y).2 hy, rfl⟩
    · rintro ⟨v, hv, hh⟩
      have : v = vecOf y := by
        funext i; simpa using congrFun hh (τ.symm i)
      rwa [this, Bitmap.vecOf_mem] at hv
  · intro h x
    rw [Bool.eq_iff_iff, ← Bitmap.vecOf_mem, h, ← Bitmap.vecOf_mem, vecOf_permIdx]
    constructor
    · rintro ⟨v, hv, hh⟩
      have : v = vecOf x := by
        funext i; simpa using congrFun hh (τ.symm i)
      rwa [this] at hv
    · intro hx; exact ⟨vecOf x, hx, rfl⟩

/-- Sums over the indices of masked loops with corresponding summands. -/
theorem sum_maskIndices_eq (τ : Equiv.Perm (Fin n)) (m m' : BitVec n) (hm : permIdx τ m = m')
    (f g : BitVec n → ℕ) (h : ∀ x, f x = g (permIdx τ x)) :
    ((maskIndices n m.toNat).map f).sum = ((maskIndices n m'.toNat).map g).sum := by
  rw [← ((map_permIdx_maskIndices τ m m' hm).map g).sum_eq, List.map_map]
  congr 1
  exact List.map_congr_left fun x _ => h x

theorem indices_eq_maskIndices : indices n = maskIndices n (0#n).toNat := by
  simp [indices, maskIndices]

theorem permIdx_zero (τ : Equiv.Perm (Fin n)) : permIdx τ 0#n = 0#n := by
  apply vec_ext; intro i; simp [vecOf_permIdx]

theorem permIdx_allOnes (τ : Equiv.Perm (Fin n)) : permIdx τ (BitVec.allOnes n) = BitVec.allOnes n := by
  apply vec_ext; intro i; simp [vecOf_permIdx]

theorem channelFingerprint_eq (s : Bitmap n) (c : Fin n) :
    s.channelFingerprint c = (s (bit c)).toNat + (s (bit c ^^^ BitVec.allOnes n)).toNat * 2 +
      ((maskIndices n (bit c).toNat).map fun x => (s x).toNat * 4).sum := by
  unfold Bitmap.channelFingerprint
  rw [maskLoop_eq, Nat.zero_add]
  generalize (s (bit c)).toNat + _ = a
  generalize maskIndices n (bit c).toNat = L
  induction L generalizing a with
  | nil => simp
  | cons x L ih => rw [List.foldl_cons, ih, List.map_cons, List.sum_cons]; omega

theorem BIso.channelFingerprint {τ : Equiv.Perm (Fin n)} {a b : Bitmap n} (h : BIso τ a b) (c : Fin n) :
    b.channelFingerprint c = a.channelFingerprint (τ c) := by
  rw [channelFingerprint_eq, channelFingerprint_eq]
  have hb : permIdx τ (bit (τ c)) = bit c := permIdx_bit τ c
  rw [sum_maskIndices_eq τ (bit (τ c)) (bit c) hb (fun x => (a x).toNat * 4) (fun x => (b x).toNat * 4)
    (fun x => by rw [h])]
  congr 2
  · rw [← hb, h]
  · congr 2
    have h1 := h (bit (τ c) ^^^ BitVec.allOnes n)
    rwa [permIdx_xor, permIdx_allOnes, hb] at h1

theorem BIso.isChannelUnconstrained {τ : Equiv.Perm (Fin n)} {a b : Bitmap n} (h : BIso τ a b) (c : Fin n) :
    b.isChannelUnconstrained c = a.isChannelUnconstrained (τ c) := by
  rw [Bool.eq_iff_iff, isChannelUnconstrained_iff, isChannelUnconstrained_iff]
  constructor
  · intro hb x
    have := hb (permIdx τ x)
    rwa [← permIdx_bit τ c, ← permIdx_xor, h, h] at this
  · intro ha x
    obtain ⟨y, rfl⟩ := permIdx_surjective τ x
    rw [← permIdx_bit τ c, ← permIdx_xor, h, h]
    exact ha y

theorem invert_isChannelUnconstrained (s : Bitmap n) (c : Fin n) :
    s.invert.isChannelUnconstrained c = s.isChannelUnconstrained c := by
  rw [Bool.eq_iff_iff, isChannelUnconstrained_iff, isChannelUnconstrained_iff]
  have e : ∀ x : BitVec n, ~~~ (x ^^^ bit c) = ~~~ x ^^^ bit c := by
    intro x; apply vec_ext; intro i; simp
  constructor
  · intro h x
    have := h (~~~ x)
    rw [invert_apply, invert_apply, e] at this
    simpa using this
  · intro h x
    rw [invert_apply, invert_apply, e]
    exact h _

/-! ## Fingerprints relative to the low channels -/

theorem permIdx_lowMask (τ : Equiv.Perm (Fin n)) (k : ℕ) (hτ : ∀ i : Fin n, i.val < k → τ i = i) :
    permIdx τ (BitVec.ofNat n (2 ^ k - 1)) = BitVec.ofNat n (2 ^ k - 1) := by
  apply vec_ext
  intro i
  rw [vecOf_permIdx, Function.comp_apply, vecOf_lowMask, vecOf_lowMask]
  by_cases hi : i.val < k
  · rw [hτ i hi]
  · have : ¬ (τ i).val < k := by
      intro hlt
      have := hτ (τ i) hlt
      exact hi (by rw [← τ.injective this]; exact hlt)
    simp [hi, this]

theorem permIdx_and_lowMask (τ : Equiv.Perm (Fin n)) (k : ℕ) (hτ : ∀ i : Fin n, i.val < k → τ i = i)
    (x : BitVec n) :
    permIdx τ x &&& BitVec.ofNat n (2 ^ k - 1) = x &&& BitVec.ofNat n (2 ^ k - 1) := by
  apply vec_ext
  intro i
  rw [vecOf_and, vecOf_and, vecOf_lowMask, vecOf_permIdx, Function.comp_apply]
  by_cases hi : i.val < k
  · rw [hτ i hi]
  · simp [hi]

/-- The buffer index used for an array index by `low_channels_fingerprint`. -/
def lowFpKey (k : ℕ) (x : BitVec n) : ℕ :=
  countOnes (x &&& ~~~ BitVec.ofNat n (2 ^ k - 1)) + (n + 1 - k) * (x &&& BitVec.ofNat n (2 ^ k - 1)).toNat

theorem lowBuffer_eq (s : Bitmap n) (k j : ℕ) :
    s.lowChannelsBuffer k j = ((indices n).map fun x => if j = lowFpKey k x then (s x).toNat else 0).sum := by
  change (indices n).foldl (fun buffer x => Function.update buffer (lowFpKey k x)
    (buffer (lowFpKey k x) + (s x).toNat)) (fun _ => 0) j = _
  rw [foldl_add_buffer _ (fun x buffer => Function.update buffer (lowFpKey k x)
    (buffer (lowFpKey k x) + (s x).toNat)) (fun x j => if j = lowFpKey k x then (s x).toNat else 0),
    Nat.zero_add]
  intro x b j
  rw [Function.update_apply]
  split_ifs with h
  · rw [h]
  · rfl

theorem BIso.lowChannelsFingerprint {τ : Equiv.Perm (Fin n)} {a b : Bitmap n} (h : BIso τ a b) (k : ℕ)
    (hτ : ∀ i : Fin n, i.val < k → τ i = i) (hash : List ℕ → ℕ) :
    b.lowChannelsFingerprint hash k = a.lowChannelsFingerprint hash k := by
  unfold Bitmap.lowChannelsFingerprint
  congr 2
  funext j
  rw [lowBuffer_eq, lowBuffer_eq, indices_eq_maskIndices]
  symm
  apply sum_maskIndices_eq τ _ _ (permIdx_zero τ)
  intro x
  have : lowFpKey k (permIdx τ x) = lowFpKey k x := by
    unfold lowFpKey
    rw [permIdx_and_lowMask τ k hτ]
    congr 1
    conv_lhs => rw [← permIdx_lowMask τ k hτ, ← permIdx_not, ← permIdx_and, countOnes_permIdx]
  rw [this, h]

theorem countOnes_high_le (k : ℕ) (x : BitVec n) :
    countOnes (x &&& ~~~ BitVec.ofNat n (2 ^ k - 1)) ≤ n - k := by
  rw [countOnes_eq, weight]
  rcases Nat.lt_or_ge k n with hkn | hkn
  · have hsub : (Finset.univ.filter fun i => vecOf (x &&& ~~~ BitVec.ofNat n (2 ^ k - 1)) i = true) ⊆
        Finset.Ici ⟨k, hkn⟩ := by
      intro i
      simp only [Finset.mem_filter, Finset.mem_univ, true_and, vecOf_and, vecOf_not, vecOf_lowMask,
        Finset.mem_Ici, Fin.le_def]
      simp only [Bool.and_eq_true, Bool.not_eq_true', decide_eq_false_iff_not, not_lt]
      exact fun h => h.2
    refine (Finset.card_le_card hsub).trans ?_
    rw [Fin.card_Ici]
  · have : (Finset.univ.filter fun i => vecOf (x &&& ~~~ BitVec.ofNat n (2 ^ k - 1)) i = true) = ∅ := by
      ext i
      have := i.isLt
      simp [vecOf_lowMask]
      omega
    rw [this]; simp

theorem and_lowMask_lt (k : ℕ) (x : BitVec n) : (x &&& BitVec.ofNat n (2 ^ k - 1)).toNat < 2 ^ k := by
  rw [BitVec.toNat_and]
  refine lt_of_le_of_lt Nat.and_le_right ?_
  rw [BitVec.toNat_ofNat]
  refine lt_of_le_of_lt (Nat.mod_le _ _) ?_
  have := Nat.two_pow_pos k
  omega

theorem index_lt_of {w v c k : ℕ} (hv : v < 2 ^ k) (hc : c < w) : c + w * v < w * 2 ^ k := by
  calc c + w * v < w + w * v := by omega
    _ = w * (v + 1) := by rw [Nat.mul_succ]; omega
    _ ≤ w * 2 ^ k := Nat.mul_le_mul_left _ hv

/-- `low_channels_fingerprint` only writes inside its buffer. -/
theorem lowFp_index_lt (k : ℕ) (hk : k ≤ n) (x : BitVec n) : lowFpKey k x < (n + 1 - k) * 2 ^ k :=
  index_lt_of (and_lowMask_lt k x) (by have := countOnes_high_le k x; omega)

theorem lowChBuffer_eq (s : Bitmap n) (k : ℕ) (c : Fin n) (j : ℕ) :
    s.lowChannelsChannelBuffer k c j =
      ((maskIndices n (bit c).toNat).map fun x => if j = lowKey k c x then (s x).toNat else 0).sum := by
  unfold Bitmap.lowChannelsChannelBuffer
  dsimp only
  rw [maskLoop_eq]
  change (maskIndices n (bit c).toNat).foldl (fun buffer x => Function.update buffer (lowKey k c x)
    (buffer (lowKey k c x) + (s x).toNat)) (fun _ => 0) j = _
  rw [foldl_add_buffer _ (fun x buffer => Function.update buffer (lowKey k c x)
    (buffer (lowKey k c x) + (s x).toNat)) (fun x j => if j = lowKey k c x then (s x).toNat else 0),
    Nat.zero_add]
  intro x b j
  rw [Function.update_apply]
  split_ifs with h
  · rw [h]
  · rfl

/-- `low_channels_channel_fingerprint` only writes inside its buffer. -/
theorem lowChFp_index_lt (k : ℕ) (c : Fin n) (hc : k ≤ c) (x : BitVec n) :
    lowKey k c x < (n - k) * 2 ^ k := by
  have := lowAbs_index_lt k c hc x
  unfold lowChannelsChannelAbstractionLen at this
  dsimp only at this
  omega

theorem BIso.lowChannelsChannelFingerprint {τ : Equiv.Perm (Fin n)} {a b : Bitmap n} (h : BIso τ a b) (k : ℕ)
    (hτ : ∀ i : Fin n, i.val < k → τ i = i) (hash : List ℕ → ℕ) (c : Fin n) :
    b.lowChannelsChannelFingerprint hash k c = a.lowChannelsChannelFingerprint hash k (τ c) := by
  unfold Bitmap.lowChannelsChannelFingerprint
  congr 2
  funext j
  rw [lowChBuffer_eq, lowChBuffer_eq]
  symm
  apply sum_maskIndices_eq τ _ _ (permIdx_bit τ c)
  intro x
  rw [lowKey_permIdx τ k (τ c) c hτ rfl, h]

end Sortnet
