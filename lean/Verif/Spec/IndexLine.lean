import Mathlib.Data.Nat.Digits.Defs
import Verif.Model.Files

/-!
# Specification: the lines of `index.txt`
-/

namespace Sortnet

namespace Files

/-- A text of Unicode characters in UTF-8. -/
def IsUtf8 (s : Str) : Prop := ∃ cs : List Char, s = cs.flatMap String.utf8EncodeChar

/-- The byte is a decimal digit. -/
def IsDigit (b : UInt8) : Prop := 48 ≤ b.toNat ∧ b.toNat ≤ 57

/-- At least one decimal digit, and perhaps a plus sign before them; leading zeros are allowed. -/
def Numeral (s : Str) (n : ℕ) : Prop :=
  ∃ digits : Str, digits ≠ [] ∧ (s = digits ∨ s = 43 :: digits) ∧ (∀ b ∈ digits, IsDigit b) ∧
    n = Nat.ofDigits 10 (digits.reverse.map fun b => b.toNat - 48)

/-- `s` begins with `a`, which does not contain `c` and ends at the end of `s` or before a `c`. -/
def Upto (c : UInt8) (s a : Str) : Prop := c ∉ a ∧ (s = a ∨ ∃ t, s = a ++ c :: t)

/-- The line begins with `a_`, where there is no underscore in `a`, and goes on with `b` up to the end or to an underscore. -/
def Second (line b : Str) : Prop := ∃ a rest, (95 : UInt8) ∉ a ∧ line = a ++ 95 :: rest ∧ Upto 95 rest b

/-- The part of the line after the second underscore and up to the third. -/
def Third (line c : Str) : Prop := ∃ a rest, (95 : UInt8) ∉ a ∧ line = a ++ 95 :: rest ∧ Second rest c

end Files

end Sortnet
