import Verif.Model.Search
import Verif.Spec.Bitmap
import Mathlib.Data.Fintype.Pi
import Mathlib.Data.Prod.Lex
import Mathlib.Algebra.Order.BigOperators.Group.Finset

/-!
# An order on output sets

Fewer channels, then fewer vectors, then a smaller sum over the channels of (number of ones) * (number of zeros).
-/

namespace Sortnet

open scoped Classical

noncomputable section

variable {n : ℕ}

/-- The vectors of a set as a finite set. -/
def vecs (A : Set (Fin n → Bool)) : Finset (Fin n → Bool) := Finset.univ.filter (· ∈ A)

/-- Number of vectors with value `b` on channel `i`. -/
def countOn (A : Set (Fin n → Bool)) (b : Bool) (i : Fin n) : ℕ := ((vecs A).filter fun v => v i = b).card

/-- Sum over the channels of ones times zeros. -/
def spread (A : Set (Fin n → Bool)) : ℕ := ∑ i, countOn A true i * countOn A false i

namespace Search

/-- The measure of an output set: channels, number of vectors, `spread`. -/
def rank (A : OSet) : ℕ ×ₗ ℕ ×ₗ ℕ :=
  toLex (A.n, toLex ((vecs A.s.toSet).card, spread A.s.toSet))

/-- The set the caller of `improve_next` works on. -/
def Ret.cur : Ret → OSet
  | .edges _ A _ => A
  | .huffman _ A _ _ _ => A

/-- The set the call at a program point works on. -/
def PC.cur : PC → OSet
  | .start _ A => A
  | .main _ A _ => A
  | .improve _ _ A => A
  | .locked _ _ A => A
  | .pruned _ A _ _ _ => A
  | .afterHuffman _ A _ _ => A
  | .edgesLoop _ A _ _ => A
  | .huffman _ A => A
  | .huffLoop _ A _ _ _ _ => A
  | .nextLoop _ _ _ _ r => r.cur

end Search

end

end Sortnet
