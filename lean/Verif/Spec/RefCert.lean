import Verif.Model.RefChecker

/-!
# Well-formed certificates of the reference checker
-/

namespace Sortnet.Ref

/-- A vector without bits outside the first `n` channels. -/
def Fits (n : ℕ) (v : BitVec 64) : Prop := ∀ i, n ≤ i → v.getLsbD i = false

/-- The set of a step that a certificate may contain. -/
structure SetOk (vs : VectSet) : Prop where
  channels : vs.channels < 64
  fits : ∀ v ∈ vs.vects, Fits vs.channels v
  nodup : vs.vects.Nodup

/-- Witnesses with genuine permutations of `n` channels. -/
def PermsOk (n : ℕ) (ws : List (Option Witness)) : Prop :=
  ∀ w, some w ∈ ws → w.perm.Perm (List.range n)

/-- A step whose set fits in the bit patterns used and whose witnesses carry genuine permutations of
the right width. -/
structure StepOk (s : ProofStep) : Prop where
  set : SetOk s.vectSet
  perms : match s.witnesses with
    | .huffman _ ws => PermsOk (s.vectSet.channels - 1) ws
    | .successors ws => PermsOk s.vectSet.channels ws ∧ s.bound ≠ 0

end Sortnet.Ref
