import Verif.Model.Decode

/-!
# Specification: a checker accepts a file

A run of the checker that does not throw returns what the model returns for every choice of the values that stand for
throwing expressions (Model/Decode.lean, Model/Checker.lean).  A run that accepts does not throw; so it accepts for every
choice.
-/

namespace Sortnet.Decode

/-- `snocheck -r` accepts the file. -/
def AcceptsReference (file : List UInt8) (r : ℕ × ℕ) : Prop := ∀ u, mainReference u file = .ok r

/-- `snocheck -v` accepts the file. -/
def AcceptsVerified (file : List UInt8) (r : ℤ × ℤ) : Prop := ∀ u v, mainVerified u v file = some r

end Sortnet.Decode
