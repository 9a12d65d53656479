import Mathlib.Data.List.Basic

/-!
# Specification: optimal "max plus one" merging

Merging a list of numbers into one, where merging `a` and `b` produces `max a b + 1`.  A way of
merging is a binary tree whose leaves are the numbers; the result is the value of the tree.
-/

namespace Sortnet

/-- A way of merging numbers. -/
inductive MergeTree where
  | leaf (b : ℕ)
  | node (l r : MergeTree)

namespace MergeTree

/-- The numbers merged by a tree. -/
def leaves : MergeTree → List ℕ
  | leaf b => [b]
  | node l r => l.leaves ++ r.leaves

/-- The result of merging. -/
def value : MergeTree → ℕ
  | leaf b => b
  | node l r => max l.value r.value + 1

end MergeTree

/-- `v` is the minimum result over all ways of merging the numbers of `bs`, in any order. -/
def IsOptMerge (bs : List ℕ) (v : ℕ) : Prop :=
  (∃ t : MergeTree, t.leaves.Perm bs ∧ t.value = v) ∧
    ∀ t : MergeTree, t.leaves.Perm bs → v ≤ t.value

end Sortnet
