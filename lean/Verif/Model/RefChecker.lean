import Mathlib.Data.Int.Notation
import Verif.Model.Huffman

/-!
# Model of the reference checker

Transcription of `/repo/checker/snocheck/src/VectSet.hs`, `ProofStep.hs` and `Check.hs`.

Conventions and simplifications.
* Vectors are Haskell `Int`s used as 64 bit patterns: `BitVec 64`.
* `Data.IntSet` is modelled as a list without duplicates.  The order of `IS.toList` is not modelled:
  it is used only by `any` (`VectSet.hs:48`) and to produce the list of vectors handed to the
  verified checker, which builds a trie from it.
* The other `Int`s of a proof step (channels, bound, entries of a permutation, step ids) are produced
  by `Decode.hs` from bytes and 32 bit words and are modelled as natural numbers; sums and maxima of
  them stay far below `2 ^ 63`, so that no overflow is modelled.
* A failing check is `Fail.left`, an incomplete pattern match is `Fail.crash`.  Both crashes
  (`huffmanBound []`, `subsumes` with different numbers of channels) are modelled where the value is
  demanded.
* `par` is modelled as in `Verif.Model.Checker`.
-/

namespace Sortnet.Ref

/-! ## `VectSet.hs` -/

/-- `bit i :: Int`: zero for `i ≥ 64`.  Models code at `VectSet.hs:31,45,46,67,75,76,83,85`. -/
def bit (i : ℕ) : BitVec 64 := 1#64 <<< i

/-- `testBit v i`, `False` for `i ≥ 64`.  Models code at `VectSet.hs:62,94`. -/
def testBit (v : BitVec 64) (i : ℕ) : Bool := v.getLsbD i

/-- `IS.insert`.  Models code at `VectSet.hs:39`. -/
def isInsert (v : BitVec 64) (s : List (BitVec 64)) : List (BitVec 64) := if v ∈ s then s else v :: s

/-- `IS.fromList`.  Models code at `VectSet.hs:31`. -/
def isFromList (l : List (BitVec 64)) : List (BitVec 64) := l.foldr isInsert []

/-- `IS.map`.  Models code at `VectSet.hs:50,58,68,88`. -/
def isMap (f : BitVec 64 → BitVec 64) (s : List (BitVec 64)) : List (BitVec 64) := isFromList (s.map f)

/-- `VectSet`, `VectSet.hs:24-27`. -/
structure VectSet where
  channels : ℕ
  vects : List (BitVec 64)
deriving DecidableEq, Repr

/-- `applyComp`, `VectSet.hs:41-51`. -/
def applyComp (a b : ℕ) (vs : VectSet) : Option VectSet :=
  let aMask := bit a
  let bMask := bit b
  let abMask := aMask ||| bMask
  let have' := fun xMask => vs.vects.any fun v => v &&& abMask == xMask
  if have' aMask && have' bMask then
    some { channels := vs.channels
           vects := isMap (fun v => if v &&& abMask = bMask then v ^^^ abMask else v) vs.vects }
  else none

/-- `size`, `VectSet.hs:53-54`. -/
def size (vs : VectSet) : ℕ := vs.vects.length

/-- `permVect`, `VectSet.hs:61-62`. -/
def permVect (perm : List ℕ) (v : BitVec 64) : BitVec 64 :=
  perm.foldr (fun p a => (a <<< 1) ||| BitVec.ofNat 64 (testBit v p).toNat) 0

/-- `permute`, `VectSet.hs:56-62`. -/
def permute (perm : List ℕ) (vs : VectSet) : VectSet :=
  { channels := vs.channels, vects := isMap (permVect perm) vs.vects }

/-- `invert`, `VectSet.hs:64-68`. -/
def invert (vs : VectSet) : VectSet :=
  let mask := bit vs.channels - 1
  { channels := vs.channels, vects := isMap (fun v => mask ^^^ v) vs.vects }

/-- `IS.isSubsetOf`.  Models code at `VectSet.hs:71`. -/
def isSubsetOf (a b : List (BitVec 64)) : Bool := a.all fun v => b.contains v

/-- `extremalChannels`, `VectSet.hs:73-76`. -/
def extremalChannels (pol : Bool) (vs : VectSet) : List ℕ :=
  let flip := if pol then bit vs.channels - 1 else 0
  (List.range vs.channels).filter fun i => vs.vects.contains (bit i ^^^ flip)

/-- `pruneExtremal`, `VectSet.hs:78-90`.  Haskell's precedences: `.&.` and `` `shiftR` `` bind tighter
than `.|.`; `shiftR` is the arithmetic shift.  The guard `channels vs > 0` is met at the only call
site, which passes one of the `channels vs` channels. -/
def pruneExtremal (pol : Bool) (a : ℕ) (vs : VectSet) : VectSet :=
  let mask := bit a
  let target := if pol then 0 else mask
  let maskLow := bit a - 1
  let maskHigh := ~~~ maskLow
  { channels := vs.channels - 1
    vects := isMap (fun v => (v &&& maskLow) ||| ((v.sshiftRight 1) &&& maskHigh))
      (vs.vects.filter fun v => v &&& mask == target) }

/-- `asBoolVectList`, `VectSet.hs:92-94`. -/
def asBoolVectList (vs : VectSet) : List (List Bool) :=
  vs.vects.map fun v => (List.range vs.channels).map (testBit v)

/-! ## `ProofStep.hs` -/

/-- `Witness`, `ProofStep.hs:26-30`. -/
structure Witness where
  stepId : ℕ
  invert : Bool
  perm : List ℕ
deriving DecidableEq, Repr

/-- `Witnesses`, `ProofStep.hs:18-20`. -/
inductive Witnesses where
  | huffman (pol : Bool) (ws : List (Option Witness))
  | successors (ws : List (Option Witness))
deriving DecidableEq, Repr

/-- `ProofStep`, `ProofStep.hs:12-16`. -/
structure ProofStep where
  vectSet : VectSet
  bound : ℕ
  witnesses : Witnesses
deriving DecidableEq, Repr

/-! ## `Check.hs` -/

/-- Ways not to accept.  Models code at `Check.hs:18-23`. -/
inductive Fail where
  | left
  | crash
deriving DecidableEq, Repr

/-- `Result`, `Check.hs:18`; the messages are not modelled. -/
abbrev Result (α : Type) := Except Fail α

/-- `ProofSteps`, `Check.hs:20`. -/
abbrev ProofSteps := ℤ → Result ProofStep

/-- `check`, `Check.hs:22-23`. -/
def check (cond : Bool) : Result Unit := if cond then .ok () else .error .left

/-- `for`/`traverse` at the type `Result`.  Models code at `Check.hs:65,102`. -/
def traverse {α β : Type} (f : α → Result β) : List α → Result (List β)
  | [] => .ok []
  | x :: xs =>
    match f x with
    | .error e => .error e
    | .ok y =>
      match traverse f xs with
      | .error e => .error e
      | .ok ys => .ok (y :: ys)

/-- `subsumes`, `VectSet.hs:70-71`; crashes if the numbers of channels differ. -/
def subsumes (a b : VectSet) : Result Bool :=
  if a.channels = b.channels then .ok (isSubsetOf a.vects b.vects) else .error .crash

/-- `getBound`, `Check.hs:109-119`. -/
def getBound (steps : ProofSteps) : Option Witness → VectSet → Result ℕ
  | none, vs => if size vs ≤ 1 + vs.channels then .ok 0 else .ok 1
  | some witness, vs => do
    let witnessStep ← steps witness.stepId
    let witnessSet := witnessStep.vectSet
    let witnessSet' := if witness.invert then invert witnessSet else witnessSet
    let permutedWitnessSet := permute witness.perm witnessSet'
    let s ← subsumes permutedWitnessSet vs
    check s
    return witnessStep.bound

/-- `checkHuffman`, `Check.hs:58-69`, with `huffmanBound` of `Verif.Model.Huffman`. -/
def checkHuffman (steps : ProofSteps) (step : ProofStep) (pol : Bool) (witnesses : List (Option Witness)) :
    Result Unit := do
  let vs := step.vectSet
  let channels := extremalChannels pol vs
  check (channels.length == witnesses.length)
  let bounds ← traverse (fun cw => getBound steps cw.2 (pruneExtremal pol cw.1 vs)) (channels.zip witnesses)
  match huffmanBound bounds with
  | none => .error .crash
  | some h => check (decide (step.bound ≤ h))

/-- The successors of `Check.hs:94-96`. -/
def successors (vs : VectSet) : List VectSet :=
  ((List.range vs.channels).flatMap fun i => (List.range i).map fun j => applyComp i j vs).filterMap id

/-- The check of one successor, `Check.hs:102-105`. -/
def checkSuccessor (steps : ProofSteps) (bound : ℕ) (sw : VectSet × Option Witness) : Result Unit := do
  let b ← getBound steps sw.2 sw.1
  check (decide (bound ≤ b + 1))

/-- `checkSuccessors`, `Check.hs:90-107`. -/
def checkSuccessors (steps : ProofSteps) (step : ProofStep) (witnesses : List (Option Witness)) :
    Result Unit := do
  let vs := step.vectSet
  check (decide (1 + vs.channels < size vs))
  check ((successors vs).length == witnesses.length)
  let _ ← traverse (checkSuccessor steps step.bound) ((successors vs).zip witnesses)
  return ()

/-- `checkStep`, `Check.hs:47-56`. -/
def checkStep (steps : ProofSteps) (stepId : ℤ) : Result Unit := do
  let step ← steps stepId
  let steps' : ProofSteps := fun i => do
    check (decide (i < stepId))
    steps i
  match step.witnesses with
  | .huffman pol witnesses => checkHuffman steps' step pol witnesses
  | .successors witnesses => checkSuccessors steps' step witnesses

/-- `traverse_ checkFn [low .. high - 1]`.  Models code at `Check.hs:40`. -/
def checkList (checkFn : ℤ → Result Unit) (low : ℤ) : ℕ → Result Unit
  | 0 => .ok ()
  | n + 1 =>
    match checkFn low with
    | .error e => .error e
    | .ok _ => checkList checkFn (low + 1) n

/-- `parCheckRange`, `Check.hs:38-45`; the range `low .. high - 1` is given by `low` and its length. -/
def parCheckRange (checkFn : ℤ → Result Unit) (low : ℤ) (len : ℕ) : Result Unit :=
  if len < 1000 then checkList checkFn low len
  else
    let mid := (low + (low + len)) / 2
    let a := parCheckRange checkFn low (mid - low).toNat
    let b := parCheckRange checkFn mid (low + len - mid).toNat
    match a with
    | .error e => .error e
    | .ok _ => b
termination_by len
decreasing_by all_goals omega

/-- `checkProof`, `Check.hs:25-36`. -/
def checkProof (stepCount : ℕ) (stepFn : ℤ → ProofStep) : Result (ℕ × ℕ) :=
  let steps : ProofSteps := fun n => if 0 ≤ n ∧ n < stepCount then .ok (stepFn n) else .error .left
  match parCheckRange (checkStep steps) 0 stepCount with
  | .error e => .error e
  | .ok _ =>
    let lastStep := stepFn (stepCount - 1)
    .ok (lastStep.vectSet.channels, lastStep.bound)

end Sortnet.Ref
