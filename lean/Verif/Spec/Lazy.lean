import Verif.Model.LazyChecker

/-! # Specification: steps that are decoded without exceptions -/

namespace Sortnet.Lazy

/-- The list of witnesses and all its elements can be evaluated. -/
def FullList (ws : L (List (L (Option Ref.Witness)))) : Prop := ∃ l, ws = some l ∧ ∀ w ∈ l, ∃ x, w = some x

/-- The step can be evaluated with all its parts. -/
def FullStep (s : L RefStep) : Prop := ∃ t, s = some t ∧
  match t.witnesses with
  | .huffman _ ws => FullList ws
  | .successors ws => FullList ws

end Sortnet.Lazy
