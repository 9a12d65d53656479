import Verif.Model.LazyChecker

/-!
# Model of `snocheck -r` with errors and lazy evaluation

As Model/LazyChecker.lean, for `checker/snocheck/src/Check.hs`.  `Ref.Fail.left` is `Left`, and `Ref.Fail.crash` is an
exception, now including those of `Decode.hs`.

* `stepFn n` is evaluated as soon as `steps n` (`Check.hs:31-32`) is used: `checkStep` continues with its witnesses and
  `getBound` with its set, after the checks of the number.  An evaluated step has an evaluated set and bound (`ProofStep.hs:12-16`
  and `VectSet.hs:24-27` have strict fields).
* The list of witnesses and its elements are unevaluated until `length` or `getBound` demand them.
* The functions of `VectSet.hs` that cannot throw are those of Model/RefChecker.lean.
-/

namespace Sortnet.Lazy

open Ref (VectSet Witness Result Fail)

/-- The value of an expression that is demanded.  Models code at `Check.hs:26-29,47-56`. -/
def demand {α : Type} : L α → Result α
  | none => .error .crash
  | some a => .ok a

/-- `ProofSteps`, `Check.hs:20`. -/
abbrev RefSteps := ℤ → Result RefStep

/-- `getBound`, `Check.hs:109-119`. -/
def refGetBound (steps : RefSteps) (w : L (Option Witness)) (vs : VectSet) : Result ℕ := do
  match ← demand w with
  | none => if Ref.size vs ≤ 1 + vs.channels then .ok 0 else .ok 1
  | some witness =>
    let witnessStep ← steps witness.stepId
    let witnessSet := witnessStep.vectSet
    let witnessSet' := if witness.invert then Ref.invert witnessSet else witnessSet
    let permutedWitnessSet := Ref.permute witness.perm witnessSet'
    let s ← Ref.subsumes permutedWitnessSet vs
    Ref.check s
    return witnessStep.bound

/-- `checkHuffman`, `Check.hs:58-69`. -/
def refCheckHuffman (steps : RefSteps) (step : RefStep) (pol : Bool) (witnesses : L (List (L (Option Witness)))) :
    Result Unit := do
  let vs := step.vectSet
  let channels := Ref.extremalChannels pol vs
  let witnesses ← demand witnesses
  Ref.check (channels.length == witnesses.length)
  let bounds ← Ref.traverse (fun cw => refGetBound steps cw.2 (Ref.pruneExtremal pol cw.1 vs)) (channels.zip witnesses)
  match huffmanBound bounds with
  | none => .error .crash
  | some h => Ref.check (decide (step.bound ≤ h))

/-- The check of one successor, `Check.hs:102-105`. -/
def refCheckSuccessor (steps : RefSteps) (bound : ℕ) (sw : VectSet × L (Option Witness)) : Result Unit := do
  let b ← refGetBound steps sw.2 sw.1
  Ref.check (decide (bound ≤ b + 1))

/-- `checkSuccessors`, `Check.hs:90-107`. -/
def refCheckSuccessors (steps : RefSteps) (step : RefStep) (witnesses : L (List (L (Option Witness)))) :
    Result Unit := do
  let vs := step.vectSet
  Ref.check (decide (1 + vs.channels < Ref.size vs))
  let witnesses ← demand witnesses
  Ref.check ((Ref.successors vs).length == witnesses.length)
  let _ ← Ref.traverse (refCheckSuccessor steps step.bound) ((Ref.successors vs).zip witnesses)
  return ()

/-- `checkStep`, `Check.hs:47-56`. -/
def refCheckStep (steps : RefSteps) (stepId : ℤ) : Result Unit := do
  let step ← steps stepId
  let steps' : RefSteps := fun i => do
    Ref.check (decide (i < stepId))
    steps i
  match step.witnesses with
  | .huffman pol witnesses => refCheckHuffman steps' step pol witnesses
  | .successors witnesses => refCheckSuccessors steps' step witnesses

/-- `checkProof`, `Check.hs:25-36`. -/
def refCheckProof (stepCount : ℕ) (stepFn : ℤ → L RefStep) : Result (ℕ × ℕ) :=
  let steps : RefSteps := fun n => if 0 ≤ n ∧ n < stepCount then demand (stepFn n) else .error .left
  match Ref.parCheckRange (refCheckStep steps) 0 stepCount with
  | .error e => .error e
  | .ok _ => do
    let lastStep ← demand (stepFn (stepCount - 1))
    return (lastStep.vectSet.channels, lastStep.bound)

/-- `snocheck -r`, `Main.hs:16-17`: what is printed, or `Fail.crash` for an exception.  The number of steps is a 32 bit number,
so that it is not negative. -/
def mainReference (proofData : List UInt8) : Result (ℕ × ℕ) := do
  let stepCount ← demand (readLE 4 proofData)
  refCheckProof stepCount.toNat (stepFn proofData)

end Sortnet.Lazy
