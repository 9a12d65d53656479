import Verif.Spec.Bitmap
import Verif.Spec.Huffman

/-!
# Specification: logs of lower bounds and the rules that justify them

A log records lower bounds on the number of comparators for sets of vectors.  The rules say when a lower
bound follows from other bounds in the log.  Nothing here refers to the code.
-/

namespace Sortnet

/-- A log: `L n X b` says that the lower bound `b` is recorded for the set `X` of vectors on `n`
channels. -/
abbrev Log := ∀ n : ℕ, Set (Fin n → Bool) → ℕ → Prop

namespace Log

/-- The bound `b` for `X` can be looked up: it is 0, or it is 1 and `X` is not sorted, or the log has at
least this bound for `X` up to relabelling channels and complementing. -/
def Known (L : Log) {n : ℕ} (X : Set (Fin n → Bool)) (b : ℕ) : Prop :=
  b = 0 ∨ (b = 1 ∧ ¬ IsChain (· ≤ ·) X) ∨ ∃ Y b', L n Y b' ∧ b ≤ b' ∧ PermInvEquiv Y X

/-- The successor rule: `X` is not sorted and after each comparator that is not redundant at least `b - 1`
comparators are needed. -/
def Successor (L : Log) {n : ℕ} (X : Set (Fin n → Bool)) (b : ℕ) : Prop :=
  ¬ IsChain (· ≤ ·) X ∧ ∀ i j : Fin n, i < j → (∃ x ∈ X, x i = true ∧ x j = false) →
    (∃ x ∈ X, x i = false ∧ x j = true) → L.Known (applyCmp (i, j) '' X) (b - 1)

/-- The Huffman rule: `cs` lists the extremal channels of one polarity, `bs` bounds for the sets without
each of them, and merging these bounds gives at least `b`. -/
def Huffman (L : Log) : ∀ {n : ℕ}, Set (Fin n → Bool) → ℕ → Prop
  | 0, _, _ => False
  | n + 1, X, b => ∃ (p : Bool) (cs : List (Fin (n + 1))) (bs : List ℕ) (v : ℕ),
      cs.Nodup ∧ (∀ c, c ∈ cs ↔ extremalVec p c ∈ X) ∧
      List.Forall₂ (fun c x => L.Known (prunedSet p c X) x) cs bs ∧ IsOptMerge bs v ∧ b ≤ v

/-- A bound is justified by the rest of the log. -/
def Justified (L : Log) {n : ℕ} (X : Set (Fin n → Bool)) (b : ℕ) : Prop :=
  b = 0 ∨ (b = 1 ∧ ¬ IsChain (· ≤ ·) X) ∨ L.Huffman X b ∨ L.Successor X b

/-- Every recorded bound is justified by the log. -/
def SelfJustified (L : Log) : Prop := ∀ n X b, L n X b → L.Justified X b

end Log

end Sortnet
