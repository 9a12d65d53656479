import Verif.Model.Checker
import Mathlib.Data.Multiset.Sort

/-!
# Model of the Isabelle definition of the checker

Transcription of the definitions in `checker/verified/Checker.thy`, `Huffman.thy`, `Sorting_Network.thy` and
`Sorting_Network_Bound.thy` from which the Haskell code in `Verified/Checker.hs` is extracted, with the operations of the
library of Isabelle/HOL (cited as HOL) written as those of Lean and Mathlib.

Conventions.
* The data types are the same on both sides (`Checker.thy:5-20,24-25`, `Checker.hs:75-86`), and those of Model/Checker.lean are
  used.
* A `bool` that is a formula is a `Prop`.  Nothing here is meant to be run.
* In HOL all functions are total, and some of their values are not specified: an element of a list past its end, `the None`,
  `Min {}`, and `the_elem` of a set that is not a singleton.  They come from a parameter `u : Undef`.
-/

namespace Sortnet.Thy

open Checker (VectTrie ProofWitness StepWitnesses ProofStep ProofCert)

/-- The values that HOL does not specify.
Models code at `Checker.thy:239,326,517,912` and `Huffman.thy:1139` and `Sorting_Network.thy:776`. -/
structure Undef where
  nth : List Bool → ℕ → Bool
  the : ℕ
  min : ℕ
  elem : Set ℕ → ℕ

/-- `xs ! i` of HOL.  Models code at `Checker.thy:239,326,517`. -/
def nth (u : Undef) (xs : List Bool) (i : ℕ) : Bool := if h : i < xs.length then xs[i] else u.nth xs i

/-- `the` of HOL.  Models code at `Sorting_Network.thy:776,840`. -/
def the (u : Undef) (x : Option ℕ) : ℕ := x.getD u.the

open Classical in
/-- `the_elem` of HOL.  Models code at `Huffman.thy:1139`. -/
noncomputable def theElem {α : Type*} (elem : Set α → α) (s : Set α) : α := if h : ∃ x, s = {x} then h.choose else elem s

/-- `nat.pred` of HOL, which is 0 for 0.  Models code at `Checker.thy:912` and `Checker_Codegen.thy:11-13`. -/
def pred (n : ℕ) : ℕ := n - 1

/-! ## Tries -/

/-- `vt_singleton`, `Checker.thy:27-30`. -/
def vtSingleton : List Bool → VectTrie
  | [] => .node true .empty .empty
  | false :: xs => .node false (vtSingleton xs) .empty
  | true :: xs => .node false .empty (vtSingleton xs)

/-- `vt_union`, `Checker.thy:32-37`. -/
def vtUnion : VectTrie → VectTrie → VectTrie
  | .empty, .empty => .empty
  | a, .empty => a
  | .empty, b => b
  | .node a alo ahi, .node b blo bhi => .node (a || b) (vtUnion alo blo) (vtUnion ahi bhi)

/-- `vt_list`, `Checker.thy:43-44`; `fold` of HOL goes from left to right. -/
def vtList (ls : List (List Bool)) : VectTrie := ls.foldl (fun s l => vtUnion (vtSingleton l) s) .empty

/-- `list_vt`, `Checker.thy:90-95`. -/
def listVt : VectTrie → List (List Bool)
  | .empty => []
  | .node true lo hi => [] :: ((listVt lo).map (false :: ·) ++ (listVt hi).map (true :: ·))
  | .node false lo hi => (listVt lo).map (false :: ·) ++ (listVt hi).map (true :: ·)

/-- `is_subset_vt`, `Checker.thy:152-161`. -/
def IsSubsetVt : VectTrie → VectTrie → Prop
  | .empty, _ => True
  | .node true _ _, .empty => False
  | .node false alo ahi, .empty => IsSubsetVt alo .empty ∧ IsSubsetVt ahi .empty
  | .node true _ _, .node false _ _ => False
  | .node false alo ahi, .node _ blo bhi => IsSubsetVt alo blo ∧ IsSubsetVt ahi bhi
  | .node _ alo ahi, .node true blo bhi => IsSubsetVt alo blo ∧ IsSubsetVt ahi bhi

/-- `is_member_vt`, `Checker.thy:190-194`. -/
def IsMemberVt : List Bool → VectTrie → Prop
  | _, .empty => False
  | [], .node a _ _ => a = true
  | false :: xs, .node _ lo _ => IsMemberVt xs lo
  | true :: xs, .node _ _ hi => IsMemberVt xs hi

/-- `apply_cmp_list`, `Checker.thy:238-239`. -/
def applyCmpList (u : Undef) (c : ℕ × ℕ) (xs : List Bool) : List Bool :=
  let xa := nth u xs c.1
  let xb := nth u xs c.2
  (xs.set c.1 (xa && xb)).set c.2 (xa || xb)

/-- `length_vt`, `Checker.thy:250-253`. -/
def lengthVt : VectTrie → ℕ
  | .empty => 0
  | .node true lo hi => (lengthVt lo + lengthVt hi).succ
  | .node false lo hi => lengthVt lo + lengthVt hi

/-- `is_unsorted_vt`, `Checker.thy:269-270`. -/
def IsUnsortedVt (n : ℕ) (a : VectTrie) : Prop := lengthVt a > n.succ

/-- `permute_list_vect`, `Checker.thy:325-326`. -/
def permuteListVect (u : Undef) (ps : List ℕ) (xs : List Bool) : List Bool := ps.map fun i => nth u xs i

/-- `permute_vt`, `Checker.thy:369-370`. -/
def permuteVt (u : Undef) (ps : List ℕ) (a : VectTrie) : VectTrie := vtList ((listVt a).map (permuteListVect u ps))

/-- `invert_vt`, `Checker.thy:402-403`. -/
def invertVt (z : Bool) (a : VectTrie) : VectTrie := if z then vtList ((listVt a).map (List.map not)) else a

open Classical in
/-- `get_bound`, `Checker.thy:425-445`. -/
noncomputable def getBound (u : Undef) (steps : ℤ → ProofStep) (limit : ℤ) : Option ProofWitness → ℕ → VectTrie → Option ℕ
  | none, width, a => some (if IsUnsortedVt width a then 1 else 0)
  | some w, width, a =>
    let perm := w.perm.map Int.toNat
    let step := steps w.stepId
    let b := vtList step.vectList
    let b' := permuteVt u perm (invertVt w.invert b)
    if ¬ (0 ≤ w.stepId ∧ w.stepId < limit) ∨ ¬ (∀ i ∈ perm, 0 ≤ i ∧ i < width) ∨ perm.length ≠ width ∨ ¬ perm.Nodup ∨
        ¬ (∀ xs ∈ step.vectList, xs.length = width) ∨ ¬ IsSubsetVt b' a
    then none else some step.bound.toNat

/-- `is_redundant_cmp_vt`, `Checker.thy:515-517`, with `list_any`, `Checker.thy:512-513`. -/
def IsRedundantCmpVt (u : Undef) (c : ℕ × ℕ) (a : VectTrie) : Prop :=
  ¬ ((∃ xs ∈ listVt a, nth u xs c.1 = true ∧ ¬ nth u xs c.2 = true) ∧
    ∃ xs ∈ listVt a, ¬ nth u xs c.1 = true ∧ nth u xs c.2 = true)

/-- `ocmp_list`, `Checker.thy:534-535`. -/
def ocmpList (n : ℕ) : List (ℕ × ℕ) := ((List.range n).map fun i => (List.range i).map fun j => (j, i)).flatten

open Classical in
/-- `check_successors`, `Checker.thy:553-574`. -/
def CheckSuccessors (u : Undef) (steps : ℤ → ProofStep) (limit : ℤ) (step : ProofStep) : Prop :=
  match step.witnesses with
  | .huffman _ _ => False
  | .successor witnesses =>
    let width := step.width.toNat
    let bound := step.bound.toNat
    let a := vtList step.vectList
    let nrcmps := (ocmpList width).filter fun c => ¬ IsRedundantCmpVt u c a
    let bs := nrcmps.map fun c => vtList (step.vectList.map (applyCmpList u c))
    bound ≠ 0 ∧ IsUnsortedVt width a ∧ nrcmps.length = witnesses.length ∧ (∀ xs ∈ step.vectList, xs.length = width) ∧
      List.Forall₂ (fun b w => match getBound u steps limit w width b with
        | none => False
        | some b => b.succ ≥ bound) bs witnesses

open Classical in
/-- `extremal_channels_vt`, `Checker.thy:750-752`. -/
noncomputable def extremalChannelsVt (a : VectTrie) (n : ℕ) (pol : Bool) : List ℕ :=
  (List.range n).filter fun i => IsMemberVt ((List.range n).map fun j => decide (decide (j = i) ≠ pol)) a

/-- `prune_extremal_vt`, `Checker.thy:774-779`. -/
def pruneExtremalVt : Bool → ℕ → VectTrie → VectTrie
  | _, _, .empty => .empty
  | true, 0, .node _ lo _ => lo
  | false, 0, .node _ _ hi => hi
  | pol, i + 1, .node a lo hi => .node a (pruneExtremalVt pol i lo) (pruneExtremalVt pol i hi)

/-! ## The Huffman bound -/

/-- The class `huffman_algebra`, `Huffman.thy:12-18`. -/
structure HuffmanAlgebra {α : Type*} [LinearOrder α] (comb : α → α → α) : Prop where
  increasing : ∀ a b, a ≤ comb a b
  commutative : ∀ a b, comb a b = comb b a
  medial : ∀ a b c d, comb (comb a b) (comb c d) = comb (comb a c) (comb b d)
  mono : ∀ a b c, a ≤ b → comb a c ≤ comb b c
  assocIneq : ∀ a b c, a ≤ c → comb (comb a b) c ≤ comb a (comb b c)

/-- `expr`, `Huffman.thy:82-84`. -/
inductive Expr (α : Type*) where
  | val (a : α)
  | op (l r : Expr α)

/-- `value_expr`, `Huffman.thy:99-101`. -/
def valueExpr {α : Type*} (comb : α → α → α) : Expr α → α
  | .val a => a
  | .op l r => comb (valueExpr comb l) (valueExpr comb r)

/-- `list_expr`, `Huffman.thy:105-106`. -/
def listExpr {α : Type*} : Expr α → List α
  | .val a => [a]
  | .op l r => listExpr l ++ listExpr r

/-- `mset_expr`, `Huffman.thy:139-140`. -/
def msetExpr {α : Type*} (e : Expr α) : Multiset α := ↑(listExpr e)

/-- `huffman_step_sorted_list`, `Huffman.thy:1004-1006`. -/
def huffmanStepSortedList {α : Type*} (comb : α → α → α) : List α → Multiset α
  | a1 :: a2 :: as => ↑(comb a1 a2 :: as)
  | as => ↑as

theorem card_huffmanStep {α : Type*} [LinearOrder α] (comb : α → α → α) (A : Multiset α) (h : 2 ≤ Multiset.card A) :
    Multiset.card (huffmanStepSortedList comb (A.sort (· ≤ ·))) < Multiset.card A := by
  have hl : (A.sort (· ≤ ·)).length = Multiset.card A := Multiset.length_sort _
  match hs : A.sort (· ≤ ·) with
  | [] => rw [hs] at hl; simp at hl; omega
  | [x] => rw [hs] at hl; simp at hl; omega
  | x :: y :: r => rw [hs] at hl; simp [huffmanStepSortedList] at hl ⊢; omega

/-- `value_bound_huffman`, `Huffman.thy:1136-1141`, with `huffman_step`, `Huffman.thy:1008-1009`; `min` is `Min {}`. -/
noncomputable def valueBoundHuffman {α : Type*} [LinearOrder α] (min : α) (elem : Set α → α) (comb : α → α → α)
    (A : Multiset α) : α :=
  if Multiset.card A = 0 then min
  else if Multiset.card A = 1 then theElem elem {x | x ∈ A}
  else valueBoundHuffman min elem comb (huffmanStepSortedList comb (A.sort (· ≤ ·)))
termination_by Multiset.card A
decreasing_by exact card_huffmanStep comb A (by omega)

/-- `sucmax`, `Sorting_Network.thy:978-979`. -/
def sucmax (a b : ℕ) : ℕ := (max a b).succ

/-- `sucmax_value_bound_huffman`, `Sorting_Network.thy:981-984`. -/
noncomputable def sucmaxValueBoundHuffman (u : Undef) (A : Multiset ℕ) : ℕ := valueBoundHuffman u.min u.elem sucmax A

/-- `check_huffman`, `Checker.thy:906-927`. -/
noncomputable def CheckHuffman (u : Undef) (steps : ℤ → ProofStep) (limit : ℤ) (step : ProofStep) : Prop :=
  match step.witnesses with
  | .successor _ => False
  | .huffman pol witnesses =>
    let width := step.width.toNat
    let width' := pred width
    let bound := step.bound.toNat
    let a := vtList step.vectList
    let extremalChannels := extremalChannelsVt a width pol
    let bs := extremalChannels.map fun c => pruneExtremalVt pol c a
    let bounds := List.zipWith (fun b w => getBound u steps limit w width' b) bs witnesses
    let huffmanBound := sucmaxValueBoundHuffman u ↑(bounds.map (the u))
    width ≠ 0 ∧ (∀ xs ∈ step.vectList, xs.length = width) ∧ witnesses ≠ [] ∧ extremalChannels.length = witnesses.length ∧
      (∀ b ∈ bounds, b ≠ none) ∧ huffmanBound ≥ bound

/-! ## Certificates -/

/-- `check_step`, `Checker.thy:1327-1330`. -/
noncomputable def CheckStep (u : Undef) (steps : ℤ → ProofStep) (limit : ℤ) (step : ProofStep) : Prop :=
  match step.witnesses with
  | .successor _ => CheckSuccessors u steps limit step
  | .huffman _ _ => CheckHuffman u steps limit step

/-- `par`, `Checker.thy:1376-1377`: before the patch. -/
def par {α β : Sort*} (_ : α) (b : β) : β := b

/-- `par_range_all`, `Checker.thy:1379-1385`. -/
def ParRangeAll (f : ℕ → Prop) (lo n : ℕ) : Prop :=
  if n < 1000 then ∀ i ∈ List.range' lo n, f i
  else
    let n' := n / 2
    let a := ParRangeAll f lo n'
    let b := ParRangeAll f (lo + n') (n - n')
    par b a ∧ b
termination_by n
decreasing_by all_goals omega

/-- `check_proof`, `Checker.thy:1428-1433`. -/
noncomputable def CheckProof (u : Undef) (cert : ProofCert) : Prop :=
  cert.length ≥ 0 ∧ ParRangeAll (fun i => CheckStep u cert.step (i : ℤ) (cert.step (i : ℤ))) 0 cert.length.toNat

open Classical in
/-- `check_proof_get_bound`, `Checker.thy:1441-1448`. -/
noncomputable def checkProofGetBound (u : Undef) (cert : ProofCert) : Option (ℤ × ℤ) :=
  if CheckProof u cert ∧ cert.length > 0 then
    let last := cert.step (cert.length - 1)
    some (last.width, last.bound)
  else none

/-! ## The claim -/

/-- `fixed_len_bseq`, `Sorting_Network_Bound.thy:14-15`. -/
def FixedLenBseq (n : ℕ) (x : ℕ → Bool) : Prop := ∀ i, i ≥ n → x i = true

/-- `apply_cmp`, `Sorting_Network_Bound.thy:23-30`. -/
def applyCmp (c : ℕ × ℕ) (x : ℕ → Bool) : ℕ → Bool :=
  Function.update (Function.update x c.1 (min (x c.1) (x c.2))) c.2 (max (x c.1) (x c.2))

/-- `partial_lower_size_bound`, `Sorting_Network_Bound.thy:36-37`. -/
def PartialLowerSizeBound (X : Set (ℕ → Bool)) (k : ℕ) : Prop :=
  ∀ cn : List (ℕ × ℕ), (∀ x ∈ X, Monotone (cn.foldl (fun x c => applyCmp c x) x)) → cn.length ≥ k

/-- `lower_size_bound`, `Sorting_Network_Bound.thy:42-43`. -/
def LowerSizeBound (n k : ℕ) : Prop := PartialLowerSizeBound {x | FixedLenBseq n x} k

end Sortnet.Thy
