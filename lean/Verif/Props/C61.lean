import Verif.Proof.SliceHolds
import Verif.Props.C10
import Verif.Props.C11
import Verif.Props.C14
import Verif.Props.C20
import Verif.Props.C50

/-!
# C61: output sets in slices

The operations of `OutputSet` on slices, with numbers as indices, bounds checks, unchecked accesses and vectors of fixed
capacity (`Model/SliceSet.lean`).  The result `some _` means: no index is out of bounds, no unchecked access is out of
bounds, no vector overflows, no subtraction overflows, and the loops end.  `Holds s n A` (`Spec/SliceSet.lean`) says that
`s` has `n` channels and stores the set `A`.
-/

namespace Sortnet

open Slice

variable {n : ℕ} {A : Set (Fin n → Bool)} {s : OutputSet}

/-- Every slice with `2^n` entries stores a set of vectors. -/
theorem C61_holds (s : OutputSet) (h : s.bitmap.length = 2 ^ s.channels) : ∃ A, Holds s s.channels A :=
  exists_holds s h

/-- `all_values` and, for up to 11 channels, `all_values_bvec` and `to_owned_bvec`. -/
theorem C61_all_values (n : ℕ) : Holds (OutputSet.allValues n) n Set.univ ∧
    (n ≤ 11 → OutputSet.allValuesBvec n = OutputSet.allValues n ∧
      ∀ A s, Holds s n A → s.toOwnedBvec = some s) := by
  refine ⟨?_, fun hn => ⟨?_, ?_⟩⟩
  · rw [allValues_eq]
    have := holds_ofBitmap (allValues n)
    have e : (allValues n).toSet = Set.univ := by
      ext v
      obtain ⟨x, rfl⟩ := vecOf_surjective v
      simp [Bitmap.vecOf_mem, allValues]
    rwa [e] at this
  · rw [allValuesBvec_eq hn, allValues_eq]
  · intro A s h
    obtain ⟨b, rfl, rfl⟩ := holds_iff.1 h
    exact toOwnedBvec_eq hn b

/-- `apply_comparator`. -/
theorem C61_apply_comparator (h : Holds s n A) (a b : Fin n) (hab : a ≠ b) :
    ∃ s' flag, s.applyComparator a b = some (s', flag) ∧ Holds s' n (applyCmp (b, a) '' A) ∧
      (flag = true ↔ (∃ v ∈ A, v a = false ∧ v b = true) ∧ (∃ v ∈ A, v a = true ∧ v b = false)) := by
  obtain ⟨m, rfl, rfl⟩ := holds_iff.1 h
  obtain ⟨h1, h2⟩ := C10_apply_comparator m a b hab
  refine ⟨_, _, applyComparator_eq m a b, ?_, h2⟩
  rw [← h1]
  exact holds_ofBitmap _

/-- `swap_channels` and `invert`. -/
theorem C61_swap_invert (h : Holds s n A) (a b : Fin n) :
    (∃ s', s.swapChannels a b = some s' ∧ Holds s' n ((fun v => v ∘ Equiv.swap a b) '' A)) ∧
    Holds s.invert n ((fun v i => !(v i)) '' A) := by
  obtain ⟨m, rfl, rfl⟩ := holds_iff.1 h
  refine ⟨⟨_, swapChannels_eq m a b, ?_⟩, ?_⟩
  · rw [← (C11_swap_channels m a b).1]
    exact holds_ofBitmap _
  · rw [invert_eq, ← (C11_invert m).1]
    exact holds_ofBitmap _

/-- `copy_from` between sets with the same number of channels. -/
theorem C61_copy_from {B : Set (Fin n → Bool)} {t : OutputSet} (h : Holds s n A) (ht : Holds t n B) :
    ∃ s', s.copyFrom t = some s' ∧ Holds s' n B := by
  obtain ⟨m, rfl, rfl⟩ := holds_iff.1 h
  obtain ⟨m', rfl, rfl⟩ := holds_iff.1 ht
  exact ⟨_, copyFrom_eq m m', holds_ofBitmap _⟩

/-- `len` and `weight_histogram` count vectors. -/
theorem C61_counts (h : Holds s n A) :
    s.len = A.ncard ∧
    (n ≤ 11 → ∃ l, s.weightHistogram = some l ∧ l.length = n + 1 ∧
      ∀ w ≤ n, l[w]? = some {v ∈ A | ones v = w}.ncard) := by
  obtain ⟨m, rfl, rfl⟩ := holds_iff.1 h
  refine ⟨by rw [len_eq, len_ncard], fun hn => ⟨_, weightHistogram_eq hn m, buf_length _ _, ?_⟩⟩
  intro w hw
  rw [getElem?_buf _ (by omega), weightHistogram_ncard]

/-- `is_sorted`: no two vectors have the same number of ones. -/
theorem C61_is_sorted (hn : n ≤ 11) (h : Holds s n A) :
    ∃ r, s.isSorted = some r ∧ (r = true ↔ n < 2 ∨ ∀ v ∈ A, ∀ w ∈ A, ones v = ones w → v = w) := by
  obtain ⟨m, rfl, rfl⟩ := holds_iff.1 h
  refine ⟨_, isSorted_eq hn m, ?_⟩
  rw [isSorted_iff]
  have e : ∀ v : Fin n → Bool, weight v = ones v := by
    intro v
    obtain ⟨x, rfl⟩ := vecOf_surjective v
    rw [ones_vecOf, countOnes_eq]
  simp only [e]

/-- `is_channel_unconstrained`, `channel_is_extremal` and `subsumes_unpermuted`. -/
theorem C61_tests {B : Set (Fin n → Bool)} {t : OutputSet} (h : Holds s n A) (ht : Holds t n B) (c : Fin n) (p : Bool) :
    (∃ r, s.isChannelUnconstrained c = some r ∧
      (r = true ↔ (fun v => Function.update v c (!(v c))) '' A = A)) ∧
    (∃ r, s.channelIsExtremal p c = some r ∧ (r = true ↔ (fun i => if i = c then !p else p) ∈ A)) ∧
    (s.subsumesUnpermuted t = true ↔ A ⊆ B) := by
  obtain ⟨m, rfl, rfl⟩ := holds_iff.1 h
  obtain ⟨m', rfl, rfl⟩ := holds_iff.1 ht
  refine ⟨⟨_, isChannelUnconstrained_eq m c, C50_is_channel_unconstrained m c⟩,
    ⟨_, channelIsExtremal_eq m p c, ?_⟩, ?_⟩
  · cases n with
    | zero => exact c.elim0
    | succ n => exact C20_channel_is_extremal m p c
  · rw [subsumesUnpermuted_eq]
    exact C14_subsumes_unpermuted m m'

/-- `prune_extremal_channel_into` with an arbitrary target for one channel less: it panics exactly for channels that are
not extremal. -/
theorem C61_prune {A : Set (Fin (n + 1) → Bool)} {t : OutputSet} {B : Set (Fin n → Bool)} (hn : n + 1 ≤ 11)
    (h : Holds s (n + 1) A) (ht : Holds t n B) (p : Bool) (c : Fin (n + 1)) :
    ((fun i => if i = c then !p else p) ∉ A → s.pruneExtremalChannelInto p c t = none) ∧
    ((fun i => if i = c then !p else p) ∈ A → ∃ t', s.pruneExtremalChannelInto p c t = some t' ∧
      Holds t' n (removeChannel c '' {v | ReachIn A (!p) (fun i => if i = c then !p else p) v})) := by
  obtain ⟨m, rfl, rfl⟩ := holds_iff.1 h
  obtain ⟨m', rfl, rfl⟩ := holds_iff.1 ht
  rw [pruneExtremalChannelInto_eq hn m p c m', ← C20_channel_is_extremal]
  obtain ⟨h1, h2⟩ := C20_prune m p c
  refine ⟨fun hf => by rw [h1 (by simpa using hf)]; rfl, fun hf => ?_⟩
  obtain ⟨t, ht, e⟩ := h2 hf
  refine ⟨_, by rw [ht]; rfl, ?_⟩
  rw [← e]
  exact holds_ofBitmap _

/-- `packed`, `packed_pvec` and `unpack_from_slice`: the packed form has `2^n / 8` bytes, rounded up, and unpacking it
into any slice for `n` channels restores the set. -/
theorem C61_pack {B : Set (Fin n → Bool)} {t : OutputSet} (h : Holds s n A) (ht : Holds t n B) :
    ∃ bytes, s.packed = some bytes ∧ bytes.length = (2 ^ n + 7) / 8 ∧
      (n ≤ 11 → s.packedPvec = some bytes) ∧
      OutputSet.unpackFromSlice t.bitmap bytes = some s.bitmap ∧ OutputSet.fromPacked n bytes = some s := by
  obtain ⟨m, rfl, rfl⟩ := holds_iff.1 h
  obtain ⟨m', rfl, rfl⟩ := holds_iff.1 ht
  refine ⟨_, packed_eq m, packed_length m, fun hn => packedPvec_eq hn m, ?_, ?_⟩
  · rw [unpackFromSlice_eq]
    exact unpackBits_packBits _ _ (by simp [ofBitmap, toList_length])
  · unfold OutputSet.fromPacked
    rw [unpackFromSlice_eq]
    change (unpackBits _ (packBits _) >>= _) = _
    rw [unpackBits_packBits]
    · rfl
    · rw [allValues_eq]
      simp [ofBitmap, toList_length]

private theorem unpackBits_none (old : List Bool) (src : List UInt8) (h : unpackBits old src = none) :
    old.length % 8 ≠ 0 ∧ src.length ≤ old.length / 8 := by
  fun_induction unpackBits old src with
  | case1 old src h0 => simp at h
  | case2 old h0 h8 ih =>
    have := ih (by simpa using h)
    simp only [List.length_drop, List.length_nil] at *
    omega
  | case3 old h0 h8 b src ih =>
    have := ih (by simpa using h)
    simp only [List.length_drop, List.length_cons] at *
    omega
  | case4 old h0 h8 =>
    have : old.length ≠ 0 := by simpa using h0
    simp only [List.length_nil] at *
    omega
  | case5 old h0 h8 b src => simp at h

/-- The unchecked accesses alone, for arbitrary slices: packing a bitmap of any length into a target with a byte for each
eight entries, and unpacking any bytes into a bitmap of any length; the latter panics exactly if the number of entries is
not a multiple of eight and there is no byte for the last ones. -/
theorem C61_unchecked (bitmap : List Bool) (target source : List UInt8) :
    (target.length = (bitmap.length + 7) / 8 → ∃ r, OutputSet.packIntoSlice bitmap target = some r ∧
      r.length = target.length) ∧
    ((∃ r, OutputSet.unpackFromSlice bitmap source = some r ∧ r.length = bitmap.length) ∨
      OutputSet.unpackFromSlice bitmap source = none ∧ bitmap.length % 8 ≠ 0 ∧ source.length ≤ bitmap.length / 8) := by
  refine ⟨fun h => ⟨_, packIntoSlice_eq _ _ h, by rw [packBits_length, h]⟩, ?_⟩
  rw [unpackFromSlice_eq]
  cases hu : unpackBits bitmap source with
  | some r => exact .inl ⟨r, rfl, unpackBits_length _ _ hu⟩
  | none =>
    exact .inr ⟨rfl, unpackBits_none _ _ hu⟩

/-- The counters used by canonicalization, subsumption and the index are those of `Model/OutputSet.lean`,
`Model/Canon.lean`, `Model/Subsume.lean` and `Model/Abstraction.lean` for the bitmap of the set, which are total
functions; `buf` lists the values of a buffer. -/
theorem C61_counters (hn : n ≤ 11) (h : Holds s n A) :
    ∃ b : Bitmap n, b.toSet = A ∧
      (∀ c : Fin n, s.channelFingerprint c = some (b.channelFingerprint c)) ∧
      (∀ (hash : List ℕ → ℕ) (k : ℕ), k ≤ n →
        s.lowChannelsFingerprint hash k = some (b.lowChannelsFingerprint hash k)) ∧
      (∀ (hash : List ℕ → ℕ) (k : ℕ) (c : Fin n), k ≤ c →
        s.lowChannelsChannelFingerprint hash k c = some (b.lowChannelsChannelFingerprint hash k c)) ∧
      (∀ (k : ℕ) (c : Fin n) (buffer : List ℕ), k ≤ c → s.lowChannelsChannelAbstractionLen k = some buffer.length →
        s.lowChannelsChannelAbstraction k c buffer =
          some ((List.range buffer.length).map (b.lowChannelsChannelAbstraction k c))) ∧
      (∀ c : Fin n, s.channelAbstraction c = some ((List.range n).map (b.channelAbstraction c 0),
        (List.range n).map (b.channelAbstraction c 1), (List.range n).map (b.channelAbstraction c 2))) ∧
      (∀ c d : Fin n, s.channelPairAbstraction c d = some ((List.finRange 4).map (b.channelPairAbstraction c d))) := by
  obtain ⟨m, rfl, rfl⟩ := holds_iff.1 h
  refine ⟨m, rfl, fun c => Slice.channelFingerprint_eq m c, fun hash k hk => lowChannelsFingerprint_eq hn hash m hk,
    fun hash k c hk => lowChannelsChannelFingerprint_eq hn hash m c hk, ?_,
    fun c => channelAbstraction_eq hn m c, fun c d => channelPairAbstraction_eq m c d⟩
  intro k c buffer hk hb
  rw [lowChannelsChannelAbstractionLen_eq m (hk.trans c.isLt.le), Option.some.injEq] at hb
  rw [lowChannelsChannelAbstraction_eq hn m c hk buffer hb.symm, hb]
  rfl

/-- `abstraction`: it is the one of `Model/Abstraction.lean`, and panics exactly for no channels and for more than 11. -/
theorem C61_abstraction (h : Holds s n A) :
    ∃ b : Bitmap n, b.toSet = A ∧ s.abstraction = b.abstraction ∧
      (s.abstraction.isSome = true ↔ 0 < n ∧ n ≤ 11) ∧
      ∀ l, s.abstraction = some l → l.length = n * (n - 1) * 4 := by
  obtain ⟨m, rfl, rfl⟩ := holds_iff.1 h
  have e := abstraction_eq m
  refine ⟨m, rfl, e, ?_, ?_⟩
  · rw [e]
    unfold Bitmap.abstraction Sortnet.abstractionLen maxChannels
    by_cases h0 : n = 0
    · simp [h0]
    · by_cases h1 : n ≤ 11
      · simp [h0, h1]; omega
      · simp [h0, h1]
  · intro l hl
    rw [e] at hl
    unfold Bitmap.abstraction Sortnet.abstractionLen maxChannels at hl
    by_cases h0 : n = 0
    · simp [h0] at hl
    · by_cases h1 : n ≤ 11
      · simp only [h0, h1, if_false, if_true, Option.bind_eq_bind, Option.bind_some, Option.some.injEq] at hl
        rw [← hl]
        simp [pairAbstractionGroups]
      · simp [h0, h1] at hl

/-- The bound of 11 channels is needed: for more channels `to_owned_bvec` and `abstraction` panic. -/
theorem C61_above (hn : 11 < n) (h : Holds s n A) : s.toOwnedBvec = none ∧ s.abstraction = none := by
  obtain ⟨m, rfl, rfl⟩ := holds_iff.1 h
  constructor
  · have hl : ¬ (ofBitmap m).bitmap.length ≤ capB := by
      have e : (ofBitmap m).bitmap.length = 2 ^ n := toList_length m
      rw [e, capB, Nat.not_le]
      exact Nat.pow_lt_pow_right (a := 2) (m := 11) (by omega) hn
    unfold OutputSet.toOwnedBvec tryExtend
    rw [if_neg hl]
    rfl
  · rw [abstraction_eq]
    unfold Bitmap.abstraction Sortnet.abstractionLen maxChannels
    rw [if_neg (by omega : ¬ n = 0)]
    simp [show ¬ n ≤ 11 by omega]

/-- Non-vacuity: three channels. -/
example : Holds (OutputSet.allValues 3) 3 Set.univ ∧
    ((OutputSet.allValues 3).applyComparator 1 0).map (fun r => (r.1.bitmap, r.2)) =
      some ([true, false, true, true, true, false, true, true], true) ∧
    (OutputSet.allValues 3).packed = some [255] ∧
    (OutputSet.allValues 3).channelFingerprint 3 = none := by
  refine ⟨(C61_all_values 3).1, ?_⟩
  decide +kernel

end Sortnet
