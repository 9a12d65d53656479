import Verif.Proof.Pack

/-!
# C12: pack/unpack round trip

Bitmaps as stored in memory are lists of `2^n` Booleans (`Bitmap.toList`).
-/

namespace Sortnet

/-- `from_packed(n, s.packed()) = s`, and the packed form has `packed_len_for_channels(n)` bytes. -/
theorem C12_round_trip {n : ℕ} (s : Bitmap n) :
    fromPackedList n s.packed = some s.toList ∧ s.packed.length = (2 ^ n + 7) / 8 :=
  ⟨fromPacked_packed s, packed_length s⟩

/-- Unpacking into an arbitrary old output set of the same size, and ignoring bytes behind the packed
set. -/
theorem C12_unpack_into {n : ℕ} (s old : Bitmap n) : unpackBits old.toList s.packed = some s.toList :=
  unpackBits_packBits _ _ (by rw [toList_length, toList_length])

/-- Packing is injective for a fixed number of channels, and the in-memory form determines the set. -/
theorem C12_injective {n : ℕ} :
    Function.Injective (Bitmap.packed (n := n)) ∧
    (∀ s t : Bitmap n, s.packed = t.packed → s.toSet = t.toSet) :=
  ⟨packed_injective, fun _ _ h => congrArg _ (packed_injective h)⟩

/-- A slice of the right length never makes `from_packed` panic, and the result is a bitmap for `n`
channels; fewer bytes panic for fewer than three channels. -/
theorem C12_from_packed (n : ℕ) (bytes : List UInt8) (h : (2 ^ n + 7) / 8 ≤ bytes.length) :
    ∃ l, fromPackedList n bytes = some l ∧ l.length = 2 ^ n := by
  have h1 := unpackBits_isSome (allValues n).toList bytes (by rw [toList_length]; exact h)
  obtain ⟨l, hl⟩ := Option.isSome_iff_exists.1 h1
  exact ⟨l, hl, by rw [unpackBits_length _ _ hl, toList_length]⟩

/-- Non-vacuity, for two channels (one partial byte) and four channels (two bytes). -/
example : Bitmap.packed (n := 2) (fun x => x == 2#2) = [4] ∧
    Bitmap.packed (n := 4) (fun x => x == 9#4 || x == 0#4) = [1, 2] ∧
    fromPackedList 2 [4] = some [false, false, true, false] ∧ fromPackedList 2 [] = none := by
  decide +kernel

end Sortnet
