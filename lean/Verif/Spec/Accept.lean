import Verif.Model.Checker
import Verif.Spec.Cert
import Verif.Spec.Huffman
import Mathlib.Data.Set.Card

/-!
# Specification: which certificates the verified checker should accept

Vectors are lists of `n` bits, and sets of vectors are sets of lists.  Only the data types of certificates are taken from
Model/Checker.lean.
-/

namespace Sortnet.Accept

open Checker (ProofWitness ProofStep ProofCert)

/-- The comparator `c` puts the minimum on channel `c.1` and the maximum on channel `c.2`. -/
def afterCmp (c : ℕ × ℕ) (v : List Bool) : List Bool :=
  (v.set c.1 (v.getD c.1 false && v.getD c.2 false)).set c.2 (v.getD c.1 false || v.getD c.2 false)

/-- A comparator that is not redundant: in some vector the two channels are out of order, and in another one they are in
order and different. -/
def Useful (V : Set (List Bool)) (c : ℕ × ℕ) : Prop :=
  (∃ v ∈ V, v.getD c.1 false = true ∧ v.getD c.2 false = false) ∧
    ∃ v ∈ V, v.getD c.1 false = false ∧ v.getD c.2 false = true

open scoped Classical in
/-- The useful comparators on `n` channels, ordered by their second channel and then by their first channel. -/
noncomputable def usefulCmps (n : ℕ) (V : Set (List Bool)) : List (ℕ × ℕ) :=
  ((List.range n).flatMap fun i => (List.range i).map fun j => (j, i)).filter fun c => Useful V c

/-- The vector that differs from all others on channel `c` only: one 1 among zeros, or for `pol` one 0 among ones. -/
def extremal (n : ℕ) (pol : Bool) (c : ℕ) : List Bool := (List.range n).map fun k => decide (k = c) ^^ pol

open scoped Classical in
/-- The extremal channels of a set, in order. -/
noncomputable def extremalChannels (n : ℕ) (pol : Bool) (V : Set (List Bool)) : List ℕ :=
  (List.range n).filter fun c => extremal n pol c ∈ V

/-- The vectors with a 1 on channel `c`, or for `pol` a 0, without this channel. -/
def pruned (pol : Bool) (c : ℕ) (V : Set (List Bool)) : Set (List Bool) :=
  (fun v => v.eraseIdx c) '' {v ∈ V | v.getD c false = !pol}

/-- The vector seen through a permutation of the channels, perhaps inverted. -/
def view (w : ProofWitness) (v : List Bool) : List Bool := w.perm.map fun p => v.getD p.toNat false ^^ w.invert

/-- The witness shows the bound `b` for the set `A` of vectors on `n` channels.  Without a reference, it is 1 if there are more
than `n + 1` vectors, and 0 otherwise.  With a reference to an earlier step, the vectors of this step are mapped into `A`. -/
inductive Shows (steps : ℤ → ProofStep) (limit : ℤ) (n : ℕ) (A : Set (List Bool)) : Option ProofWitness → ℕ → Prop
  | few (h : A.ncard ≤ n + 1) : Shows steps limit n A none 0
  | many (h : n + 1 < A.ncard) : Shows steps limit n A none 1
  | step (w : ProofWitness) (h0 : 0 ≤ w.stepId) (h1 : w.stepId < limit)
      (perm : (w.perm.map Int.toNat).Perm (List.range n))
      (sub : ∀ v ∈ (steps w.stepId).vectList, v.length = n ∧ view w v ∈ A) :
      Shows steps limit n A (some w) (steps w.stepId).bound.toNat

/-- The step follows from the steps before `limit`.  Successors: after each useful comparator at most one is saved.
Huffman: the bounds for the sets without an extremal channel are merged. -/
def StepFollows (steps : ℤ → ProofStep) (limit : ℤ) (s : ProofStep) : Prop :=
  (∀ v ∈ s.vectList, v.length = s.width.toNat) ∧
  match s.witnesses with
  | .successor ws =>
    0 < s.bound ∧ s.width.toNat + 1 < {v | v ∈ s.vectList}.ncard ∧
    List.Forall₂ (fun c w => ∃ b : ℕ, Shows steps limit s.width.toNat (afterCmp c '' {v | v ∈ s.vectList}) w b ∧ s.bound ≤ b + 1)
      (usefulCmps s.width.toNat {v | v ∈ s.vectList}) ws
  | .huffman pol ws =>
    0 < s.width ∧ ws ≠ [] ∧ ∃ bs : List ℕ, ∃ m : ℕ, IsOptMerge bs m ∧ s.bound ≤ m ∧
    bs.length = (extremalChannels s.width.toNat pol {v | v ∈ s.vectList}).length ∧
    List.Forall₂ (fun p w => Shows steps limit (s.width.toNat - 1) (pruned pol p.1 {v | v ∈ s.vectList}) w p.2)
      ((extremalChannels s.width.toNat pol {v | v ∈ s.vectList}).zip bs) ws

/-- A certificate shows the bound of its last step if every step follows from those before it. -/
def Certifies (cert : ProofCert) (width bound : ℤ) : Prop :=
  0 < cert.length ∧ (∀ i, 0 ≤ i → i < cert.length → StepFollows cert.step i (cert.step i)) ∧
    (cert.step (cert.length - 1)).width = width ∧ (cert.step (cert.length - 1)).bound = bound

/-- A step of a file in the data types of the checker. -/
noncomputable def stepOf (c : CertStep) : ProofStep where
  width := c.set.n
  vectList := (Set.toFinite c.set.s.toSet).toFinset.toList.map List.ofFn
  bound := c.bound
  witnesses :=
    let ws := c.refs.map fun r => r.map fun r =>
      ({ stepId := r.id, invert := r.invert, perm := r.perm.map fun (p : ℕ) => (p : ℤ) } : ProofWitness)
    match c.kind with
    | .huffman pol => .huffman pol ws
    | .successors => .successor ws

/-- The steps of a file as a certificate.  There are no steps outside the list. -/
noncomputable def certOf (cs : List CertStep) : ProofCert where
  length := cs.length
  step i := (cs[i.toNat]?.map stepOf).getD ⟨0, [], 0, .successor []⟩

end Sortnet.Accept
