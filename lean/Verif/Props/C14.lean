import Verif.Proof.OutputSet

/-!
# C14: `subsumes_unpermuted` is inclusion
-/

namespace Sortnet

theorem C14_subsumes_unpermuted {n : ℕ} (s t : Bitmap n) :
    s.subsumesUnpermuted t = true ↔ s.toSet ⊆ t.toSet := subsumesUnpermuted_iff s t

example : Bitmap.subsumesUnpermuted (n := 2) (fun x => x == 2#2) (allValues 2) = true ∧
    (allValues 2).subsumesUnpermuted (fun x => x == 2#2) = false := by decide +kernel

end Sortnet
