import Verif.Model.LazyChecker

/-! # Specification: well-formed steps of a file -/

namespace Sortnet.Lazy

/-- The numbers in every evaluated witness are a permutation of the numbers below `n`. -/
def GenuineList (n : ℕ) (ws : L (List (L (Option Ref.Witness)))) : Prop :=
  ∀ l, ws = some l → ∀ w : Ref.Witness, some (some w) ∈ l → w.perm.Perm (List.range n)

/-- The witnesses of the step carry permutations: of the channels for successors, and of the other channels for Huffman
steps. -/
def GenuinePerms (s : RefStep) : Prop :=
  match s.witnesses with
  | .huffman _ ws => GenuineList (s.vectSet.channels - 1) ws
  | .successors ws => GenuineList s.vectSet.channels ws

/-- No vector of the step has a bit on a channel that does not exist. -/
def CleanBits (s : RefStep) : Prop := ∀ v ∈ s.vectSet.vects, v.toNat < 2 ^ s.vectSet.channels

end Sortnet.Lazy
