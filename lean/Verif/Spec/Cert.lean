import Verif.Spec.Prune
import Verif.Model.Search
import Verif.Model.RefChecker
import Verif.Spec.Bitmap

/-!
# Specification: pruned logs and certificates
-/

namespace Sortnet

namespace Files

/-- A directory with a pruned log: an index of groups, and for each group `g` a non-empty file with the packed sets
`sets g`.  The sets and bounds are arbitrary. -/
structure LogDir (fs : FS) (groups : List (ℕ × ℕ)) (sets : (g : ℕ × ℕ) → List (Bitmap g.1)) : Prop where
  index : ∃ data, fs indexName = some data ∧ lines data = groups.map groupName
  nonempty : groups ≠ []
  channels : ∀ g ∈ groups, 2 ≤ g.1 ∧ g.1 ≤ 11
  bound : ∀ g ∈ groups, g.2 < 256
  sets_ne : ∀ g ∈ groups, sets g ≠ []
  file : ∀ g ∈ groups, fs (pbinName g) = some ((sets g).flatMap Bitmap.packed)

/-- The sets of a log with their bounds. -/
def logged (groups : List (ℕ × ℕ)) (sets : (g : ℕ × ℕ) → List (Bitmap g.1)) : List (OSet × ℕ) :=
  groups.flatMap fun g => (sets g).map fun s => (⟨g.1, s⟩, g.2)

end Files

/-- A reference to an earlier step of a certificate. -/
structure CertRef where
  invert : Bool
  perm : List ℕ
  id : ℕ
deriving DecidableEq

/-- The kind of a step. -/
inductive CertKind where
  | huffman (pol : Bool)
  | successors
deriving DecidableEq

/-- A step of a certificate. -/
structure CertStep where
  set : OSet
  bound : ℕ
  kind : CertKind
  refs : List (Option CertRef)

/-- The bytes of a number, least significant first. -/
def leBytes : ℕ → ℕ → List UInt8
  | 0, _ => []
  | k + 1, x => UInt8.ofNat x :: leBytes k (x / 256)

/-- The format of a reference. -/
def CertRef.bytes (r : CertRef) : List UInt8 :=
  UInt8.ofNat r.invert.toNat :: (r.perm.map UInt8.ofNat ++ leBytes 4 r.id)

/-- The format of a witness: 2 if there is none. -/
def refBytes : Option CertRef → List UInt8
  | none => [2]
  | some r => r.bytes

/-- The format of a step. -/
def CertStep.bytes (c : CertStep) : List UInt8 :=
  UInt8.ofNat c.set.n :: UInt8.ofNat c.bound :: (c.set.s.packed ++
    (match c.kind with
      | .huffman pol => UInt8.ofNat pol.toNat
      | .successors => 2) ::
    c.refs.flatMap refBytes)

/-- A set of vectors with its number of channels. -/
abbrev VSet := (n : ℕ) × Set (Fin n → Bool)

/-- The vectors of an output set. -/
def OSet.vset (A : OSet) : VSet := ⟨A.n, A.s.toSet⟩

open scoped Classical in
/-- The sets after each comparator `(j, i)`, `j < i`, that is not redundant. -/
noncomputable def successorSets {n : ℕ} (X : Set (Fin n → Bool)) : List VSet :=
  (((List.finRange n).flatMap fun i => ((List.finRange n).filter fun j => j < i).map fun j => (j, i)).filter fun c =>
    (∃ x ∈ X, x c.1 = true ∧ x c.2 = false) ∧ ∃ x ∈ X, x c.1 = false ∧ x c.2 = true).map fun c => ⟨n, applyCmp c '' X⟩

open scoped Classical in
/-- The sets without each of the extremal channels of a polarity. -/
noncomputable def prunedSets (pol : Bool) : {n : ℕ} → Set (Fin n → Bool) → List VSet
  | 0, _ => []
  | n + 1, X => ((List.finRange (n + 1)).filter fun c => extremalVec pol c ∈ X).map fun c => ⟨n, prunedSet pol c X⟩

/-- The sets the references of a step are about, in order. -/
noncomputable def CertStep.targets (c : CertStep) : List VSet :=
  match c.kind with
  | .huffman pol => prunedSets pol c.set.s.toSet
  | .successors => successorSets c.set.s.toSet

/-- The reference shows that the set `Y` subsumes the set `T`: relabelling the channels of `Y`, or of its complement,
gives a subset of `T`. -/
def CertRef.Shows (r : CertRef) (Y T : VSet) : Prop :=
  ∃ (X : Set (Fin T.1 → Bool)) (π : Equiv.Perm (Fin T.1)), Y = ⟨T.1, X⟩ ∧
    r.perm = (List.finRange T.1).map (fun i => (π i : ℕ)) ∧
    permSet π (if r.invert then complSet X else X) ⊆ T.2

/-- The numbers in a step fit into the fields of the file format; the permutations have the length that belongs to the
kind of the step. -/
structure CertStep.Representable (c : CertStep) : Prop where
  channels : c.set.n < 64
  bound : c.bound < 256
  refs : ∀ r, some r ∈ c.refs → r.perm.length = (match c.kind with
      | .huffman _ => c.set.n - 1
      | .successors => c.set.n) ∧ (∀ p ∈ r.perm, p < 256) ∧ r.id < 2 ^ 32
  length : c.bytes.length < 2 ^ 32

/-- The witnesses of a step in the representation of the checker. -/
def CertStep.witnesses (c : CertStep) : Ref.Witnesses :=
  match c.kind with
  | .huffman pol => .huffman pol (c.refs.map fun r => r.map fun r => { stepId := r.id, invert := r.invert, perm := r.perm })
  | .successors => .successors (c.refs.map fun r => r.map fun r => { stepId := r.id, invert := r.invert, perm := r.perm })

/-- The decoded step `p` is the step `c`. -/
structure CertStep.Decoded (c : CertStep) (p : Ref.ProofStep) : Prop where
  channels : p.vectSet.channels = c.set.n
  mem : ∀ l, l ∈ Ref.asBoolVectList p.vectSet ↔ ∃ x ∈ c.set.s.toSet, l = List.ofFn x
  nodup : (Ref.asBoolVectList p.vectSet).Nodup
  bound : p.bound = c.bound
  witnesses : p.witnesses = c.witnesses

end Sortnet
