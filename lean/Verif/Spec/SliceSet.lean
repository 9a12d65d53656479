import Verif.Model.SliceSet
import Verif.Spec.Bitmap

/-!
# Specification: the set of vectors stored in a slice
-/

namespace Sortnet.Slice

/-- The output set has `n` channels and one entry for each of the `2^n` vectors, and the vector with the bits of `i` is in
`A` iff entry `i` is true. -/
def Holds (s : OutputSet) (n : ℕ) (A : Set (Fin n → Bool)) : Prop :=
  s.channels = n ∧ s.bitmap.length = 2 ^ n ∧
    ∀ i < 2 ^ n, s.bitmap[i]? = some true ↔ (fun k : Fin n => i.testBit k) ∈ A

end Sortnet.Slice
