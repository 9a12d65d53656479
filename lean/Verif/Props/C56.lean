import Verif.Props.C18
import Verif.Proof.CanonArena

/-!
# C56: canonicalization with recycled memory

`canonicalize` keeps all its candidates in two vectors, hands out slots by index and reuses the slots of removed candidates.
This does not change the result: no slot is reused while its candidate is still needed, no index is out of bounds and
nothing is pushed to a full fixed-capacity vector.
-/

namespace Sortnet

variable {n : ℕ}

/-- C56.  For every hash function, the computation with the recycled memory has the same outcome as the computation in
which every candidate is a value of its own.  An outcome `none` (a panic or non-termination) is part of the comparison. -/
theorem C56_same (hash : List ℕ → ℕ) (s : Bitmap n) (inversion : Bool) :
    s.canonicalizeArena hash inversion = s.canonicalize hash inversion := by
  by_cases hn : n ≤ 11
  · obtain ⟨t, p, e, _⟩ := C17_witness hn hash s inversion
    rw [e]
    exact Canon.Arena.canonicalizeArena_eq e
  · rw [C17_too_many_channels (by omega)]
    unfold Bitmap.canonicalizeArena
    rw [if_neg (by omega), if_pos (show n > maxChannels by unfold maxChannels; omega)]

/-- With recycled memory: `canonicalize` terminates without panicking and returns a set equivalent to the given one together
with the permutation and the flag that lead to it. -/
theorem C56_witness (hn : n ≤ 11) (hash : List ℕ → ℕ) (s : Bitmap n) (inversion : Bool) :
    ∃ t p, s.canonicalizeArena hash inversion = some (t, p) ∧
      (∃ π : Equiv.Perm (Fin n), ⇑π = p.perm ∧
        t.toSet = permSet π (if p.invert then complSet s.toSet else s.toSet)) ∧
      (p.invert = true → inversion = true) := by
  obtain ⟨t, p, e, h1, h2, _⟩ := C17_witness hn hash s inversion
  exact ⟨t, p, (C56_same hash s inversion).trans e, h1, h2⟩

/-- With recycled memory: two sets have the same canonical form exactly if they are equivalent. -/
theorem C56_canonical (hn : n ≤ 11) (hash : List ℕ → ℕ) (inversion : Bool) (a b : Bitmap n) :
    SameOrbit inversion a.toSet b.toSet ↔
      ∃ t p q, a.canonicalizeArena hash inversion = some (t, p) ∧ b.canonicalizeArena hash inversion = some (t, q) := by
  rw [C56_same, C56_same]
  exact C18_iff hn hash inversion a b

/-- The first steps on a concrete set: the set and its complement take two slots. -/
example : ((Canon.Arena.new ((allValues 3).applyComparator 1 0).1 true).map fun a => (a.layer, a.freeList, a.data.length)) =
    some ([0, 1], [], 2) := by decide +kernel

/-- A set that is closed under complement. -/
def C56_set : Bitmap 2 := fun x => x == 1#2 || x == 2#2

/-- The slot of the complement becomes free. -/
example : ((Canon.Arena.new C56_set true).map fun a => (a.layer, a.freeList, a.data.length)) =
    some ([0], [1], 2) := by decide +kernel

/-- The free slot is reused for the first of the next candidates. -/
example : ((Canon.Arena.new C56_set true).bind fun a =>
      (a.alloc (allValues 2) { invert := false, perm := id, fingerprint := [], partition := [], partitionScore := (0, 0) }).map
        fun r => (r.2, r.1.freeList, r.1.bitmaps)) =
    some (1, [], [false, true, true, false, true, true, true, true]) := by decide +kernel

/-- The theorem on a concrete set. -/
example : ∃ t p, ((allValues 3).applyComparator 1 0).1.canonicalizeArena (fun l => l.sum) true = some (t, p) ∧
    t.toSet.Nonempty := by
  obtain ⟨t, p, e, ⟨π, _, h⟩, _⟩ := C56_witness (by decide) (fun l => l.sum) ((allValues 3).applyComparator 1 0).1 true
  refine ⟨t, p, e, ?_⟩
  rw [h]
  refine Set.Nonempty.image _ ?_
  split
  · exact Set.Nonempty.image _ ⟨fun _ => true, 7#3, by decide +kernel, by decide⟩
  · exact ⟨fun _ => true, 7#3, by decide +kernel, by decide⟩

end Sortnet
