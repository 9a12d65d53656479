import Verif.Model.OutputSet
import Verif.Spec.Network

/-!
# Specification: the set of vectors represented by a bitmap
-/

namespace Sortnet

/-- The vectors in an output set: channel `i` of the vector at array index `x` is bit `i` of `x`. -/
def Bitmap.toSet {n : ℕ} (s : Bitmap n) : Set (Fin n → Bool) :=
  {v | ∃ x : BitVec n, s x = true ∧ ∀ i : Fin n, v i = x.getLsbD i}

/-- The Boolean vector `v` without channel `c`. -/
def removeChannel {n : ℕ} (c : Fin (n + 1)) (v : Fin (n + 1) → Bool) : Fin n → Bool :=
  fun i => v (c.succAbove i)

/-- Number of ones of a Boolean vector. -/
def ones {n : ℕ} (v : Fin n → Bool) : ℕ := ((List.finRange n).filter fun i => v i).length

/-- `v` can be reached from `u` inside `A` by changing one channel at a time from `!b` to `b`. -/
inductive ReachIn {n : ℕ} (A : Set (Fin n → Bool)) (b : Bool) (u : Fin n → Bool) : (Fin n → Bool) → Prop
  | refl : u ∈ A → ReachIn A b u u
  | step {v : Fin n → Bool} (i : Fin n) : ReachIn A b u v → v i = !b → Function.update v i b ∈ A →
      ReachIn A b u (Function.update v i b)

/-- The extremal vector: channel `c` has the value `!p`, all others `p`. -/
def extremalVec {n : ℕ} (p : Bool) (c : Fin (n + 1)) : Fin (n + 1) → Bool := fun i => if i = c then !p else p

/-- The vectors that can be reached in `A` from the extremal vector of channel `c` by changing channels
from `p` to `!p`, without channel `c`. -/
def prunedSet {n : ℕ} (p : Bool) (c : Fin (n + 1)) (A : Set (Fin (n + 1) → Bool)) : Set (Fin n → Bool) :=
  removeChannel c '' {v | ReachIn A (!p) (extremalVec p c) v}

/-- Every vector of `A` lies on a saturated chain from the all-zero to the all-one vector in `A`. -/
def Chained {n : ℕ} (A : Set (Fin n → Bool)) : Prop :=
  ∀ v ∈ A, ReachIn A true (fun _ => false) v ∧ ReachIn A true v (fun _ => true)

end Sortnet
