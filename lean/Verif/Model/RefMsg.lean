import Verif.Model.Snocheck

/-!
# Model of `snocheck -r` with its messages

As Model/LazyRef.lean, for `checker/snocheck/src/Check.hs`, with the texts after `Left`, which Model/LazyRef.lean leaves out.
-/

namespace Sortnet.RefMsg

open Ref (VectSet Witness)
open Lazy (L RefStep)
open Files (Str str)

/-- `Result`, `Check.hs:18`: `.error (some msg)` is `Left msg`, and `.error none` is an exception. -/
abbrev MResult (α : Type) := Except (Option Str) α

/-- `check`, `Check.hs:22-23`. -/
def check (msg : String) (cond : Bool) : MResult Unit := if cond then .ok () else .error (some (str msg.toList))

/-- The value of an expression that is demanded.  Models code at `Check.hs:26-29,47-56`. -/
def demand {α : Type} : L α → MResult α
  | none => .error none
  | some a => .ok a

/-- `for`/`traverse` at the type `Result`.  Models code at `Check.hs:65,102`. -/
def traverse {α β : Type} (f : α → MResult β) : List α → MResult (List β)
  | [] => .ok []
  | x :: xs => do
    let y ← f x
    let ys ← traverse f xs
    return y :: ys

/-- `ProofSteps`, `Check.hs:20`. -/
abbrev Steps := ℤ → MResult RefStep

/-- `subsumes`, `VectSet.hs:70-71`; crashes if the numbers of channels differ. -/
def subsumes (a b : VectSet) : MResult Bool :=
  if a.channels = b.channels then .ok (Ref.isSubsetOf a.vects b.vects) else .error none

/-- `getBound`, `Check.hs:109-119`. -/
def getBound (steps : Steps) (w : L (Option Witness)) (vs : VectSet) : MResult ℕ := do
  match ← demand w with
  | none => if Ref.size vs ≤ 1 + vs.channels then .ok 0 else .ok 1
  | some witness =>
    let witnessStep ← steps witness.stepId
    let witnessSet := witnessStep.vectSet
    let witnessSet' := if witness.invert then Ref.invert witnessSet else witnessSet
    let permutedWitnessSet := Ref.permute witness.perm witnessSet'
    let s ← subsumes permutedWitnessSet vs
    check "witness does not subsume target" s
    return witnessStep.bound

/-- `checkHuffman`, `Check.hs:58-69`. -/
def checkHuffman (steps : Steps) (step : RefStep) (pol : Bool) (witnesses : L (List (L (Option Witness)))) :
    MResult Unit := do
  let vs := step.vectSet
  let channels := Ref.extremalChannels pol vs
  let witnesses ← demand witnesses
  check "wrong number of huffman witnesses" (channels.length == witnesses.length)
  let bounds ← traverse (fun cw => getBound steps cw.2 (Ref.pruneExtremal pol cw.1 vs)) (channels.zip witnesses)
  match huffmanBound bounds with
  | none => .error none
  | some h => check "huffman bound too low" (decide (step.bound ≤ h))

/-- The check of one successor, `Check.hs:102-105`. -/
def checkSuccessor (steps : Steps) (bound : ℕ) (sw : VectSet × L (Option Witness)) : MResult Unit := do
  let b ← getBound steps sw.2 sw.1
  check "successor bound too low" (decide (bound ≤ b + 1))

/-- `checkSuccessors`, `Check.hs:90-107`. -/
def checkSuccessors (steps : Steps) (step : RefStep) (witnesses : L (List (L (Option Witness)))) : MResult Unit := do
  let vs := step.vectSet
  check "set might already be sorted" (decide (1 + vs.channels < Ref.size vs))
  let witnesses ← demand witnesses
  check "wrong number of successor witnesses" ((Ref.successors vs).length == witnesses.length)
  let _ ← traverse (checkSuccessor steps step.bound) ((Ref.successors vs).zip witnesses)
  return ()

/-- `checkStep`, `Check.hs:47-56`. -/
def checkStep (steps : Steps) (stepId : ℤ) : MResult Unit := do
  let step ← steps stepId
  let steps' : Steps := fun i => do
    check "witness step id out of bounds" (decide (i < stepId))
    steps i
  match step.witnesses with
  | .huffman pol witnesses => checkHuffman steps' step pol witnesses
  | .successors witnesses => checkSuccessors steps' step witnesses

/-- `traverse_ checkFn [low .. high - 1]`.  Models code at `Check.hs:40`. -/
def checkList (checkFn : ℤ → MResult Unit) (low : ℤ) : ℕ → MResult Unit
  | 0 => .ok ()
  | n + 1 => do
    checkFn low
    checkList checkFn (low + 1) n

/-- `parCheckRange`, `Check.hs:38-45`; the range `low .. high - 1` is given by `low` and its length. -/
def parCheckRange (checkFn : ℤ → MResult Unit) (low : ℤ) (len : ℕ) : MResult Unit :=
  if len < 1000 then checkList checkFn low len
  else
    let mid := (low + (low + len)) / 2
    let a := parCheckRange checkFn low (mid - low).toNat
    let b := parCheckRange checkFn mid (low + len - mid).toNat
    do
      a
      b
termination_by len
decreasing_by all_goals omega

/-- `checkStep'`, `Check.hs:34-36`. -/
def checkStep' (steps : Steps) (stepId : ℤ) : MResult Unit :=
  match checkStep steps stepId with
  | .error (some err) =>
    .error (some (str ['s', 't', 'e', 'p', ' '] ++ Snocheck.showInt stepId ++ str [':', ' '] ++ err))
  | x => x

/-- `checkProof`, `Check.hs:25-36`. -/
def checkProof (stepCount : ℕ) (stepFn : ℤ → L RefStep) : MResult (ℕ × ℕ) :=
  let steps : Steps := fun n =>
    if 0 ≤ n ∧ n < stepCount then demand (stepFn n) else .error (some (str "step id out of bounds".toList))
  do
    parCheckRange (checkStep' steps) 0 stepCount
    let lastStep ← demand (stepFn (stepCount - 1))
    return (lastStep.vectSet.channels, lastStep.bound)

/-- `checkProof . proofSteps`, `Main.hs:17`. -/
def mainReference (proofData : List UInt8) : MResult (ℕ × ℕ) := do
  let stepCount ← demand (Lazy.readLE 4 proofData)
  checkProof stepCount.toNat (Lazy.stepFn proofData)

/-- `show` for a character of a string; the characters other than `"`, `\` and the printable ones are written as a backslash and
their number.  (Haskell has names for some of them, such as `\n`.  The texts of `Check.hs` have none of these.) -/
def showChar (c : UInt8) : Str :=
  if c = 34 then [92, 34] else if c = 92 then [92, 92] else if 32 ≤ c ∧ c < 127 then [c] else 92 :: Files.dec c.toNat

/-- `show` for a string.  Models code at `Main.hs:17`. -/
def showString (s : Str) : Str := [34] ++ s.flatMap showChar ++ [34]

/-- `snocheck -r FILE` for a file with these bytes, `Main.hs:16-17`. -/
def run (bytes : List UInt8) : Snocheck.Exit :=
  match mainReference bytes with
  | .ok (w, b) => ⟨str ['R', 'i', 'g', 'h', 't', ' '] ++ Snocheck.showPair w b ++ [10], 0⟩
  | .error (some msg) => ⟨str ['L', 'e', 'f', 't', ' '] ++ showString msg ++ [10], 0⟩
  | .error none => Snocheck.uncaught

end Sortnet.RefMsg
