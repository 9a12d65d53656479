import Verif.Spec.Cert

/-!
# Specification: the old format of certificates

The old format is the new one without the byte for the bound.
-/

namespace Sortnet

/-- A step of an old certificate: a set, and whatever follows it in the file. -/
structure OldStep where
  set : OSet
  rest : List UInt8

/-- The bytes of a step in the old format. -/
def OldStep.bytes (s : OldStep) : List UInt8 := UInt8.ofNat s.set.n :: (s.set.s.packed ++ s.rest)

/-- The bytes of a step in the new format, with a bound. -/
def OldStep.withBound (s : OldStep) (bound : ℕ) : List UInt8 :=
  UInt8.ofNat s.set.n :: UInt8.ofNat bound :: (s.set.s.packed ++ s.rest)

/-- The bytes of a step of a certificate in the old format. -/
def CertStep.oldBytes (c : CertStep) : List UInt8 :=
  UInt8.ofNat c.set.n :: (c.set.s.packed ++
    (match c.kind with
      | .huffman pol => UInt8.ofNat pol.toNat
      | .successors => 2) ::
    c.refs.flatMap refBytes)

end Sortnet
