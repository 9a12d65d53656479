import Verif.Model.Index
import Verif.Spec.Bitmap

/-!
# Specification: what an index answers

An index stores pairs of an output set and a bound.  The three directions differ in which stored sets
are relevant for a query and in which bounds are better.
-/

namespace Sortnet.Index

variable {n : ℕ}

/-- The stored set `A` is relevant for the query `Q`. -/
def Dir.Matches (d : Dir) (A Q : Set (Fin n → Bool)) : Prop :=
  match d with
  | .lower => Subsumes A Q
  | .lowerInvert => SubsumesInv A Q
  | .upper => Subsumes Q A

/-- The bound `v` is at least as good as the bound `w`. -/
def Dir.AtLeast (d : Dir) (v w : ℕ) : Prop :=
  match d with
  | .lower => w ≤ v
  | .lowerInvert => w ≤ v
  | .upper => v ≤ w

/-- `r` is the best bound in the collection `H` that is relevant for the query `Q`. -/
def IsBest (d : Dir) (H : List (Bitmap n × ℕ)) (Q : Set (Fin n → Bool)) : Option ℕ → Prop
  | none => ∀ p ∈ H, ¬ d.Matches p.1.toSet Q
  | some v => (∃ p ∈ H, p.2 = v ∧ d.Matches p.1.toSet Q) ∧ ∀ p ∈ H, d.Matches p.1.toSet Q → d.AtLeast v p.2

/-- The call that adds a set with a bound.  Like all callers in the project it passes the abstraction
of the set. -/
inductive Op (n : ℕ) where
  /-- `insert_with_abstraction` -/
  | insert (s : Bitmap n) (v : ℕ)
  /-- `insert_new_unchecked_with_abstraction` -/
  | insertNew (s : Bitmap n) (v : ℕ)

def Op.pair : Op n → Bitmap n × ℕ
  | .insert s v => (s, v)
  | .insertNew s v => (s, v)

/-- One call; returns the new index. -/
def Op.apply (d : Dir) (idx : OutputSetIndex n) : Op n → Option (OutputSetIndex n)
  | .insert s v => do
    let a ← s.abstraction
    (idx.insert d s a v).map Prod.fst
  | .insertNew s v => do
    let a ← s.abstraction
    idx.insertNew d s a v

/-- A new index after a history of calls; `none` if some call panics or does not return. -/
def history (d : Dir) (n : ℕ) (ops : List (Op n)) : Option (OutputSetIndex n) := do
  let idx ← OutputSetIndex.new n
  ops.foldlM (Op.apply d) idx

end Sortnet.Index
