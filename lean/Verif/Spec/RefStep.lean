import Verif.Model.LazyRef

/-!
# What the steps of a certificate must satisfy for the reference checker, and what its messages say

`stepOf i` is the decoded step `i`, `none` if it cannot be decoded; likewise for its witnesses.
-/

namespace Sortnet.RefSpec

open Ref (VectSet Witness)
open Lazy (L RefStep)

/-- The set of a step, complemented and permuted as the witness says. -/
def moved (w : Witness) (t : RefStep) : VectSet :=
  Ref.permute w.perm (if w.invert then Ref.invert t.vectSet else t.vectSet)

/-- The witness of step `k` shows the bound `b` for the set `target`: it is trivial, or it names an earlier step with this bound, whose set
is contained in `target` when it has been moved. -/
def Gives (stepOf : ℤ → L RefStep) (k : ℤ) (target : VectSet) (w : L (Option Witness)) (b : ℕ) : Prop :=
  (w = some none ∧ b = if target.vects.length ≤ 1 + target.channels then 0 else 1) ∨
  ∃ v t, w = some (some v) ∧ (v.stepId : ℤ) < k ∧ stepOf v.stepId = some t ∧ t.vectSet.channels = target.channels ∧
    (∀ x ∈ (moved v t).vects, x ∈ target.vects) ∧ b = t.bound

/-- The sets for which step `s` needs witnesses. -/
def targets (s : RefStep) : List VectSet :=
  match s.witnesses with
  | .huffman pol _ => (Ref.extremalChannels pol s.vectSet).map fun c => Ref.pruneExtremal pol c s.vectSet
  | .successors _ => Ref.successors s.vectSet

/-- The witnesses of a step. -/
def witnesses (s : RefStep) : L (List (L (Option Witness))) :=
  match s.witnesses with
  | .huffman _ l => l
  | .successors l => l

/-- Step `k` is right: there is one witness for each of its sets, and the bounds of the witnesses give its bound. -/
def RightStep (stepOf : ℤ → L RefStep) (k : ℤ) : Prop :=
  ∃ s l bs, stepOf k = some s ∧ witnesses s = some l ∧ (targets s).length = l.length ∧
    List.Forall₂ (fun tw b => Gives stepOf k tw.1 tw.2 b) ((targets s).zip l) bs ∧
    match s.witnesses with
    | .huffman _ _ => ∃ h, huffmanBound bs = some h ∧ s.bound ≤ h
    | .successors _ => 1 + s.vectSet.channels < s.vectSet.vects.length ∧ ∀ b ∈ bs, s.bound ≤ b + 1

/-- What the messages about step `k`, which is `s`, say. -/
inductive Says (stepOf : ℤ → L RefStep) (k : ℤ) (s : RefStep) : String → Prop where
  | huffmanCount {pol l} (hs : s.witnesses = .huffman pol (some l)) (h : (targets s).length ≠ l.length) :
    Says stepOf k s "wrong number of huffman witnesses"
  | sorted {l} (hs : s.witnesses = .successors l) (h : s.vectSet.vects.length ≤ 1 + s.vectSet.channels) :
    Says stepOf k s "set might already be sorted"
  | successorCount {l} (hs : s.witnesses = .successors (some l)) (h : (targets s).length ≠ l.length) :
    Says stepOf k s "wrong number of successor witnesses"
  | later {l v} (hs : witnesses s = some l) (hm : some (some v) ∈ l) (h : k ≤ v.stepId) :
    Says stepOf k s "witness step id out of bounds"
  | notSubset {l target v t} (hs : witnesses s = some l) (hm : (target, some (some v)) ∈ (targets s).zip l)
    (ht : stepOf v.stepId = some t) (x : BitVec 64) (hx : x ∈ (moved v t).vects) (h : x ∉ target.vects) :
    Says stepOf k s "witness does not subsume target"
  | huffmanBound {pol l bs h} (hs : s.witnesses = .huffman pol (some l))
    (hb : List.Forall₂ (fun tw b => Gives stepOf k tw.1 tw.2 b) ((targets s).zip l) bs) (hh : Sortnet.huffmanBound bs = some h)
    (hlt : h < s.bound) : Says stepOf k s "huffman bound too low"
  | successorBound {l target w b} (hs : s.witnesses = .successors (some l)) (hm : (target, w) ∈ (targets s).zip l)
    (hg : Gives stepOf k target w b) (h : b + 1 < s.bound) : Says stepOf k s "successor bound too low"

end Sortnet.RefSpec
