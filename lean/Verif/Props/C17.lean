import Verif.Proof.Canon
import Verif.Proof.Subsume
import Verif.Theory.Basic

/-!
# C17: `canonicalize` returns an equivalent set and its witness
-/

namespace Sortnet

variable {n : ℕ}

theorem toSet_if_invert (s : Bitmap n) (b : Bool) :
    (if b then s.invert else s).toSet = if b then complSet s.toSet else s.toSet := by
  cases b
  · rfl
  · exact invert_toSet s

/-- C17.  For every hash function, `canonicalize` terminates without panicking.  The returned numbers are
a permutation of the channels, the new set is the old set, complemented if the returned flag says so,
with this permutation applied, and the flag is only set if inversion is allowed.  The bounds on the
number of comparators are unchanged. -/
theorem C17_witness (hn : n ≤ 11) (hash : List ℕ → ℕ) (s : Bitmap n) (inversion : Bool) :
    ∃ t p, s.canonicalize hash inversion = some (t, p) ∧
      (∃ π : Equiv.Perm (Fin n), ⇑π = p.perm ∧
        t.toSet = permSet π (if p.invert then complSet s.toSet else s.toSet)) ∧
      (p.invert = true → inversion = true) ∧
      (∀ k, LB t.toSet k ↔ LB s.toSet k) ∧ (∀ k, UB t.toSet k ↔ UB s.toSet k) := by
  obtain ⟨t, p, _, e, _, ⟨π, hπ, hiso⟩, hinv⟩ := canonicalize_pair hash hn inversion s s ⟨1, Or.inl (BIso.refl s)⟩
  have ht : t.toSet = permSet π (if p.invert then complSet s.toSet else s.toSet) := by
    rw [(BIso_iff _ _ _).1 hiso, toSet_if_invert]
  refine ⟨t, p, e, ⟨π, hπ.symm, ht⟩, hinv, ?_, ?_⟩
  · intro k
    rw [ht, LB_permSet]
    split
    · exact LB_complSet
    · rfl
  · intro k
    rw [ht, UB_permSet]
    split
    · exact UB_complSet
    · rfl

/-- With more than `MAX_CHANNELS` channels the fixed-capacity vectors overflow and the call panics. -/
theorem C17_too_many_channels (hn : 11 < n) (hash : List ℕ → ℕ) (s : Bitmap n) (inversion : Bool) :
    s.canonicalize hash inversion = none := by
  unfold Bitmap.canonicalize
  rw [if_neg (by omega), if_pos (by simpa [maxChannels] using hn)]

/-- The two buffers that are hashed are only accessed within their bounds (`low_channels_fingerprint` and
`low_channels_channel_fingerprint`). -/
theorem C17_buffer_bounds (k : ℕ) (x : BitVec n) :
    (k ≤ n → countOnes (x &&& ~~~ BitVec.ofNat n (2 ^ k - 1)) +
        (n + 1 - k) * (x &&& BitVec.ofNat n (2 ^ k - 1)).toNat < (n + 1 - k) * 2 ^ k) := by
  intro h
  exact lowFp_index_lt k h x

/-- Non-vacuity: without inversion the result of canonicalizing a set with six elements has six elements. -/
example : ∃ t p, ((allValues 3).applyComparator 1 0).1.canonicalize (fun l => l.sum) false = some (t, p) ∧
    p.invert = false ∧ t.toSet.Nonempty := by
  obtain ⟨t, p, e, ⟨π, _, h⟩, hinv, _⟩ := C17_witness (by decide) (fun l => l.sum)
    ((allValues 3).applyComparator 1 0).1 false
  have hp : p.invert = false := by
    cases hp : p.invert with
    | false => rfl
    | true => exact absurd (hinv hp) (by simp)
  refine ⟨t, p, e, hp, ?_⟩
  rw [h, hp]
  refine Set.Nonempty.image _ ⟨fun _ => true, 7#3, by decide +kernel, by decide⟩

end Sortnet
