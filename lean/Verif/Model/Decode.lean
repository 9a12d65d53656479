import Verif.Model.Checker
import Verif.Model.RefChecker

/-!
# Model of decoding certificates

Transcription of `/repo/checker/snocheck/src/Decode.hs`, `Translate.hs` and `Main.hs`.

Conventions.
* Bytes are `UInt8`, byte strings are lists of bytes.
* Haskell's 64 bit `Int` is `ℤ` with explicit wrapping (`wrap64`) where a value may overflow
  (`readLE`, `bit`).
* Expressions that throw (`B.index` out of range, incomplete pattern matches) get an arbitrary value
  from a parameter `u : Undef`; a run that does not throw returns what the model returns for every
  `u`.  As Haskell is lazy, a value that is not demanded does not throw; the model is faithful to
  this because the theorems hold for every `u`.
-/

namespace Sortnet.Decode

open Ref (Witness Witnesses ProofStep VectSet)

/-- Values standing for the result of an expression that throws.  Models code at `Decode.hs:17,48-57,62-66`. -/
structure Undef where
  byte : UInt8
  kind : Bool
  witnesses : List (Option Witness)

/-- Wrapping of 64 bit signed arithmetic.  Models code at `Decode.hs:15-17,37`. -/
def wrap64 (x : ℤ) : ℤ := x.bmod (2 ^ 64)

/-- `B.index`.  Models code at `Decode.hs:17,48,49,54`. -/
def index (u : Undef) (bs : List UInt8) (i : ℕ) : UInt8 := bs.getD i u.byte

/-- `B.drop`, which ignores negative arguments.  Models code at `Decode.hs:37,39,40,51,53,59,78`. -/
def drop (k : ℤ) (bs : List UInt8) : List UInt8 := bs.drop k.toNat

/-- `B.take`, which is empty for negative arguments.  Models code at `Decode.hs:40,51`. -/
def take (k : ℤ) (bs : List UInt8) : List UInt8 := bs.take k.toNat

/-- `readLE`, `Decode.hs:15-17`. -/
def readLE (u : Undef) (len : ℕ) (bs : List UInt8) : ℤ :=
  ((List.range len).map fun i => wrap64 ((index u bs i).toNat * 2 ^ (8 * i))).foldl
    (fun a b => wrap64 (a + b)) 0

/-- `read32LE`, `Decode.hs:19-20`. -/
def read32LE (u : Undef) (bs : List UInt8) : ℤ := readLE u 4 bs

/-- `read64LE`, `Decode.hs:22-23`. -/
def read64LE (u : Undef) (bs : List UInt8) : ℤ := readLE u 8 bs

/-- `bit`, zero for arguments `≥ 64` and negative for `63`. -/
def bit (i : ℕ) : ℤ := wrap64 (if i < 64 then 2 ^ i else 0)

/-- `countTrailingZeros` of a non-zero byte.  Models code at `VectSet.hs:39`. -/
def ctz (n : UInt8) : ℕ := ((List.range 8).find? fun i => n.toNat.testBit i).getD 8

/-- `addByte`, `VectSet.hs:37-39`. -/
def addByte (s : List (BitVec 64) × ℕ) (n : UInt8) : List (BitVec 64) × ℕ :=
  if n = 0 then (s.1, s.2 + 8)
  else addByte (Ref.isInsert (BitVec.ofNat 64 (s.2 + ctz n)) s.1, s.2) (n &&& (n - 1))
termination_by n.toNat
decreasing_by
  rename_i h
  have h1 : n.toNat ≠ 0 := fun h' => h (UInt8.toNat_inj.1 h')
  rw [UInt8.toNat_and]
  have h2 : (n - 1).toNat = n.toNat - 1 := by
    rw [UInt8.toNat_sub_of_le]
    · rfl
    · rw [UInt8.le_iff_toNat_le]
      show 1 ≤ n.toNat
      omega
  have := Nat.and_le_right (n := n.toNat) (m := (n - 1).toNat)
  omega

/-- `fromBytes`, `VectSet.hs:33-39`. -/
def fromBytes (channels : ℕ) (bytes : List UInt8) : VectSet :=
  { channels := channels, vects := (bytes.foldl addByte ([], 0)).1 }

/-- `decodeWitnesses`, `Decode.hs:61-78`. -/
def decodeWitnesses (u : Undef) (channels : ℕ) (bs : List UInt8) : List (Option Witness) :=
  match bs with
  | [] => []
  | b :: tail =>
    if b = 0 ∨ b = 1 then
      some { invert := decide (b = 1)
             perm := (tail.take channels).map UInt8.toNat
             stepId := (read32LE u (tail.drop channels)).toNat } ::
        decodeWitnesses u channels ((tail.drop channels).drop 4)
    else if b = 2 then none :: decodeWitnesses u channels tail
    else u.witnesses
termination_by bs.length
decreasing_by
  all_goals simp only [List.length_cons, List.length_drop]; omega

/-- `decodeProofStep`, `Decode.hs:42-59`. -/
def decodeProofStep (u : Undef) (stepData : List UInt8) : ProofStep :=
  let channels := (index u stepData 0).toNat
  let bound := (index u stepData 1).toNat
  let encodedSetLength := bit (channels - 3)
  let encodedSetBytes := take encodedSetLength (drop 2 stepData)
  let vectSet := fromBytes channels encodedSetBytes
  let witnessData := drop (encodedSetLength + 2) stepData
  let kind := index u witnessData 0
  let rest := drop 1 witnessData
  { vectSet := vectSet
    bound := bound
    witnesses :=
      if kind = 0 then .huffman false (decodeWitnesses u (channels - 1) rest)
      else if kind = 1 then .huffman true (decodeWitnesses u (channels - 1) rest)
      else if kind = 2 then .successors (decodeWitnesses u channels rest)
      else if u.kind then .successors u.witnesses else .huffman false u.witnesses }

/-- `stepData`, `Decode.hs:36-40`. -/
def stepData (u : Undef) (proofData : List UInt8) (step : ℤ) : List UInt8 :=
  let stepHeader := drop (wrap64 (4 + 12 * step)) proofData
  let offset := read64LE u stepHeader
  let length := read32LE u (drop 8 stepHeader)
  take length (drop offset proofData)

/-- The number of steps, `Decode.hs:35`. -/
def stepCount (u : Undef) (proofData : List UInt8) : ℤ := read32LE u proofData

/-- The step function, `Decode.hs:28-30`. -/
def stepFn (u : Undef) (proofData : List UInt8) (step : ℤ) : ProofStep :=
  decodeProofStep u (stepData u proofData step)

/-! ## `Translate.hs` -/

/-- `translateWitness`, `Translate.hs:37-41`. -/
def translateWitness (w : Witness) : Checker.ProofWitness :=
  { stepId := w.stepId, invert := w.invert, perm := w.perm.map fun (p : ℕ) => (p : ℤ) }

/-- `translateWitnessList`, `Translate.hs:34-35`. -/
def translateWitnessList (ws : List (Option Witness)) : List (Option Checker.ProofWitness) :=
  ws.map fun w => w.map translateWitness

/-- `translateWitnesses`, `Translate.hs:28-32`. -/
def translateWitnesses : Witnesses → Checker.StepWitnesses
  | .huffman pol ws => .huffman pol (translateWitnessList ws)
  | .successors ws => .successor (translateWitnessList ws)

/-- `translateStep`, `Translate.hs:20-26`. -/
def translateStep (s : ProofStep) : Checker.ProofStep :=
  { width := s.vectSet.channels
    vectList := Ref.asBoolVectList s.vectSet
    bound := s.bound
    witnesses := translateWitnesses s.witnesses }

/-- `translateProofSteps`, `Translate.hs:12-18`; `fromInteger` wraps. -/
def translateProofSteps (stepCount : ℤ) (steps : ℤ → ProofStep) : Checker.ProofCert :=
  { length := stepCount, step := fun i => translateStep (steps (wrap64 i)) }

/-! ## `Main.hs` -/

/-- `snocheck -r`, `Main.hs:16-17`. -/
def mainReference (u : Undef) (proofData : List UInt8) : Ref.Result (ℕ × ℕ) :=
  Ref.checkProof (stepCount u proofData).toNat (stepFn u proofData)

/-- `snocheck -v`, `Main.hs:18-25`. -/
def mainVerified (u : Undef) (v : Checker.Undef) (proofData : List UInt8) : Option (ℤ × ℤ) :=
  Checker.checkProofGetBound v
    (translateProofSteps (stepCount u proofData) (stepFn u proofData))

end Sortnet.Decode
