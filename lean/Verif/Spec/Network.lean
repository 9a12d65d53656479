import Mathlib.Order.Preorder.Chain
import Mathlib.Order.Lattice
import Mathlib.Order.BooleanAlgebra.Basic
import Mathlib.Data.Set.Image
import Mathlib.Logic.Equiv.Basic
import Mathlib.Order.Fin.Basic
import Mathlib.Data.Bool.Basic

/-!
# Specification: comparator networks, sorting, and size bounds

Nothing in this file refers to the code of sortnetopt.  It is the vocabulary in which the property
theorems are stated (compare `checker/verified/Sorting_Network_Bound.thy`).
-/

namespace Sortnet

variable {ι : Type*} {α : Type*}

/-- Applying comparator `(i, j)`: channel `i` receives the minimum, channel `j` the maximum of the
two values.  No orientation (`i < j`) is required. -/
def applyCmp [DecidableEq ι] [LinearOrder α] (c : ι × ι) (x : ι → α) : ι → α :=
  fun k => if k = c.2 then max (x c.1) (x c.2) else if k = c.1 then min (x c.1) (x c.2) else x k

/-- Running a network: the comparators are applied from left to right. -/
def run [DecidableEq ι] [LinearOrder α] (cn : List (ι × ι)) (x : ι → α) : ι → α :=
  cn.foldl (fun x c => applyCmp c x) x

/-- A network *sorts* a set `A` of 0/1 vectors (up to a fixed relabelling of the outputs) if the
image of `A` is totally ordered by the pointwise order. -/
def Sorts [DecidableEq ι] (cn : List (ι × ι)) (A : Set (ι → Bool)) : Prop :=
  IsChain (· ≤ ·) (run cn '' A)

/-- `k` is a lower bound for the number of comparators needed to sort `A`. -/
def LB [DecidableEq ι] (A : Set (ι → Bool)) (k : ℕ) : Prop :=
  ∀ cn : List (ι × ι), Sorts cn A → k ≤ cn.length

/-- `k` comparators suffice to sort `A`. -/
def UB [DecidableEq ι] (A : Set (ι → Bool)) (k : ℕ) : Prop :=
  ∃ cn : List (ι × ι), cn.length ≤ k ∧ Sorts cn A

/-- `k` is the minimum number of comparators needed to sort `A`. -/
def IsOpt [DecidableEq ι] (A : Set (ι → Bool)) (k : ℕ) : Prop :=
  LB A k ∧ UB A k

/-- The vectors of `A` relabelled by a permutation: channel `k` of the new vector is channel `π k`
of the old one. -/
def permSet (π : Equiv.Perm ι) (A : Set (ι → Bool)) : Set (ι → Bool) :=
  (fun x => x ∘ π) '' A

/-- The complemented vectors of `A`. -/
def complSet (A : Set (ι → Bool)) : Set (ι → Bool) :=
  (fun x i => !(x i)) '' A

/-- `A` and `B` differ by relabelling channels. -/
def PermEquiv (A B : Set (ι → Bool)) : Prop := ∃ π : Equiv.Perm ι, permSet π A = B

/-- `A` and `B` differ by relabelling channels and possibly complementing all vectors. -/
def PermInvEquiv (A B : Set (ι → Bool)) : Prop := PermEquiv A B ∨ PermEquiv (complSet A) B

/-- `A` subsumes `B`: some relabelling of `A` is included in `B`. -/
def Subsumes (A B : Set (ι → Bool)) : Prop := ∃ π : Equiv.Perm ι, permSet π A ⊆ B

/-- `A` subsumes `B` up to complementing. -/
def SubsumesInv (A B : Set (ι → Bool)) : Prop := Subsumes A B ∨ Subsumes (complSet A) B

/-! ## Sorting networks on `n` channels -/

/-- `cn` is a (generalised) sorting network on `n` channels: every 0/1 input is sorted into
ascending order. -/
def SortingNetwork (n : ℕ) (cn : List (Fin n × Fin n)) : Prop :=
  ∀ x : Fin n → Bool, Monotone (run cn x)

/-- `cn` only uses standard comparators: the minimum goes to the lower channel. -/
def Standard {n : ℕ} (cn : List (Fin n × Fin n)) : Prop :=
  ∀ c ∈ cn, c.1 < c.2

/-- Every sorting network on `n` channels has at least `k` comparators. -/
def LowerSizeBound (n k : ℕ) : Prop :=
  ∀ cn : List (Fin n × Fin n), SortingNetwork n cn → k ≤ cn.length

/-- `k` is the minimum size of a standard sorting network on `n` channels. -/
def MinSize (n k : ℕ) : Prop :=
  (∃ cn : List (Fin n × Fin n), Standard cn ∧ SortingNetwork n cn ∧ cn.length = k) ∧
    LowerSizeBound n k

/-- Boolean sequences indexed by all naturals that are constantly true from index `n` on; this is
how the Isabelle development of the project represents vectors of width `n`
(`checker/verified/Sorting_Network_Bound.thy`, `fixed_len_bseq`). -/
def FixedLen (n : ℕ) (x : ℕ → Bool) : Prop := ∀ i, n ≤ i → x i = true

/-- `lower_size_bound` of `checker/verified/Sorting_Network_Bound.thy`: comparators may use any
natural numbers as channels. -/
def LowerSizeBoundNat (n k : ℕ) : Prop :=
  ∀ cn : List (ℕ × ℕ), (∀ x, FixedLen n x → Monotone (run cn x)) → k ≤ cn.length

end Sortnet
