import Verif.Model.LazyChecker

/-!
# Model of the extracted checker before `strict_and_parallel.patch`

As Model/LazyChecker.lean, for the code that Isabelle extracts, before the patch `checker/verified/strict_and_parallel.patch` is
applied.  The patch changes two things: the fields of `Vect_trie` become strict (patch lines 6-9), and `par a b = b` becomes
`Parallel.par` (patch lines 11-14).  Everything else is the code in `Checker.hs`, whose lines are cited.

So a trie may have parts here that are not evaluated, and that throw if they are demanded.
-/

namespace Sortnet.Lazy.Raw

set_option linter.unusedVariables false

open Checker (ProofWitness)

/-! ## Lists and tries -/

/-- An unevaluated list, whose elements are unevaluated: `bot` throws when it is demanded.
Models code at `Checker.hs:233-263,299-323`. -/
inductive LList (α : Type) where
  | bot
  | nil
  | cons (x : α) (xs : LList α)

/-- `map`.  Models code at `Checker.hs:236,239,311`. -/
def LList.map {α β : Type} (f : α → β) : LList α → LList β
  | .bot => .bot
  | .nil => .nil
  | .cons x xs => .cons (f x) (xs.map f)

/-- `all` stops at the first element for which the predicate is false.  Models code at `Checker.hs:315`. -/
def LList.all {α : Type} (p : α → L Bool) : LList α → L Bool
  | .bot => none
  | .nil => some true
  | .cons x xs => and (p x) (xs.all p)

/-- An unevaluated `Vect_trie`, patch line 8: `bot` throws when it is demanded.
Models code at `strict_and_parallel.patch:7-8`. -/
inductive LTrie where
  | bot
  | empty
  | node (a : L Bool) (lo hi : LTrie)

/-- `vt_singleton`, `Checker.hs:161-164`: evaluates the first element of the list. -/
def vtSingleton : List (L Bool) → LTrie
  | [] => .node (some true) .empty .empty
  | none :: _ => .bot
  | some false :: xs => .node (some false) (vtSingleton xs) .empty
  | some true :: xs => .node (some false) .empty (vtSingleton xs)

/-- `vt_union`, `Checker.hs:166-171`: every equation has a constructor for both arguments; the fields are not evaluated. -/
def vtUnion : LTrie → LTrie → LTrie
  | .bot, _ => .bot
  | .empty, b => b
  | .node _ _ _, .bot => .bot
  | .node v va vb, .empty => .node v va vb
  | .node a alo ahi, .node b blo bhi => .node (or a b) (vtUnion alo blo) (vtUnion ahi bhi)

/-- `vt_list`, `Checker.hs:173-174`, with `fold`, `Checker.hs:119-121`. -/
def vtListFrom (s : LTrie) : LList (List (L Bool)) → LTrie
  | .bot => .bot
  | .nil => s
  | .cons x xs => vtListFrom (vtUnion (vtSingleton x) s) xs

/-- `vt_list`, `Checker.hs:173-174`. -/
def vtList (ls : LList (List (L Bool))) : LTrie := vtListFrom .empty ls

/-- A list that is evaluated.  Models code at `Checker.hs:233-263,299-323`. -/
def LList.ofList {α : Type} : List α → LList α
  | [] => .nil
  | x :: xs => .cons x (ofList xs)

/-- An unevaluated list whose cells are evaluated together.  Models code at `Checker.hs:233-263,299-323`. -/
def LList.ofL {α : Type} : L (List α) → LList α
  | none => .bot
  | some l => .ofList l

/-- `list_vt_extend`, `Checker.hs:147-155`. -/
def listVtExtend : LTrie → (List Bool → List Bool) → LList (List Bool) → LList (List Bool)
  | .bot, _, _ => .bot
  | .empty, _, suffix => suffix
  | .node none _ _, _, _ => .bot
  | .node (some true) lo hi, pre, suffix =>
    .cons (pre []) (listVtExtend lo (pre ∘ (false :: ·)) (listVtExtend hi (pre ∘ (true :: ·)) suffix))
  | .node (some false) lo hi, pre, suffix =>
    listVtExtend lo (pre ∘ (false :: ·)) (listVtExtend hi (pre ∘ (true :: ·)) suffix)

/-- `list_vt`, `Checker.hs:157-158`. -/
def listVt (a : LTrie) : LList (List Bool) := listVtExtend a id .nil

/-- `length_vt`, `Checker.hs:213-216`. -/
def lengthVt : LTrie → L ℕ
  | .bot => none
  | .empty => some 0
  | .node a lo hi => do
    if (← a) then do
      let l ← lengthVt lo
      let h ← lengthVt hi
      some (l + h + 1)
    else do
      let l ← lengthVt lo
      let h ← lengthVt hi
      some (l + h)

/-- `is_unsorted_vt`, `Checker.hs:218-219`. -/
def isUnsortedVt (n : L ℕ) (a : LTrie) : L Bool := do
  let n ← n
  let l ← lengthVt a
  some (decide (n + 1 < l))

/-- `is_subset_vt`, `Checker.hs:221-230`.  The flag of the first trie is evaluated before the second trie, whose flag is evaluated
only if the first one is `True`. -/
def isSubsetVt : LTrie → LTrie → L Bool
  | .bot, _ => none
  | .empty, _ => some true
  | .node none _ _, _ => none
  | .node (some _) _ _, .bot => none
  | .node (some true) _ _, .empty => some false
  | .node (some false) alo ahi, .empty => and (isSubsetVt alo .empty) (isSubsetVt ahi .empty)
  | .node (some true) alo ahi, .node b blo bhi => do
    if (← b) then and (isSubsetVt alo blo) (isSubsetVt ahi bhi) else some false
  | .node (some false) alo ahi, .node _ blo bhi => and (isSubsetVt alo blo) (isSubsetVt ahi bhi)

/-- `permute_vt`, `Checker.hs:235-236`. -/
def permuteVt (ps : List ℕ) (a : LTrie) : LTrie := vtList ((listVt a).map (permuteListVect ps))

/-- `invert_vt`, `Checker.hs:238-239`. -/
def invertVt (z : Bool) (a : LTrie) : LTrie :=
  if z then vtList ((listVt a).map fun l => l.map fun b => some (!b)) else a

/-! ## Bounds from earlier steps -/

/-- `get_bound`, `Checker.hs:241-262`. -/
def getBound (steps : ℤ → ProofStep) (limit : ℤ) (w : L (Option ProofWitness)) (width : L ℕ) (a : LTrie) :
    L (Option (L ℕ)) := do
  match ← w with
  | none => some (some (do
      if (← isUnsortedVt width a) then some 1 else some 0))
  | some w =>
    let perm := w.perm.map Checker.nat
    let step := steps w.stepId
    let b := vtList ((LList.ofL step.vectList).map fun xs => xs.map some)
    let ba := permuteVt perm (invertVt w.invert b)
    let bad :=
      or (some (!(decide (0 ≤ w.stepId) && decide (w.stepId < limit))))
        (or (not (all (fun i => and (some (decide (0 ≤ i))) (do
              let width ← width
              some (decide (i < width)))) perm))
          (or (not (do
                let width ← width
                some (decide (Checker.sizeList perm = width))))
            (or (some (!(Checker.distinct perm)))
              (or (not (do
                    let bList ← step.vectList
                    all (fun xs => do
                      let width ← width
                      some (decide (Checker.sizeList xs = width))) bList))
                (not (isSubsetVt ba a))))))
    if (← bad) then some none
    else some (some (do
      let bound ← step.bound
      some (Checker.nat bound)))

/-! ## Successor steps -/

/-- `is_redundant_cmp_vt`, `Checker.hs:280-285`. -/
def isRedundantCmpVt (c : ℕ × ℕ) (a : LTrie) : L Bool :=
  let vs := listVt a
  not (and (not (vs.all (fun x => not (and (nth x c.1) (not (nth x c.2))))))
    (not (vs.all (fun x => not (and (not (nth x c.1)) (nth x c.2))))))

/-- `check_successors`, `Checker.hs:299-323`. -/
def checkSuccessors (steps : ℤ → ProofStep) (limit : ℤ) (step : ProofStep) : L Bool := do
  match ← step.witnesses with
  | .huffman _ _ => some false
  | .successor witnesses =>
    let width : L ℕ := do
      let width ← step.width
      some (Checker.nat width)
    let bound : L ℕ := do
      let bound ← step.bound
      some (Checker.nat bound)
    let a := vtList ((LList.ofL step.vectList).map fun xs => xs.map some)
    let nrcmps : L (List (ℕ × ℕ)) := do
      let width ← width
      filter (fun c => not (isRedundantCmpVt c a)) (Checker.ocmpList width)
    let bs : L (List LTrie) := do
      let nrcmps ← nrcmps
      some (nrcmps.map fun c => vtList ((LList.ofL step.vectList).map (applyCmpList c)))
    and (do
        let bound ← bound
        some (!(decide (bound = 0))))
      (and (isUnsortedVt width a)
        (and (do
            let nrcmps ← nrcmps
            let witnesses ← witnesses
            some (decide (Checker.sizeList nrcmps = Checker.sizeList witnesses)))
          (and (do
              let aList ← step.vectList
              all (fun xs => do
                let width ← width
                some (decide (Checker.sizeList xs = width))) aList)
            (do
              let bs ← bs
              let witnesses ← witnesses
              listAll2 (fun b w => do
                match ← getBound steps limit w width b with
                | none => some false
                | some ba => do
                  let bound ← bound
                  let ba ← ba
                  some (decide (bound ≤ ba + 1))) bs witnesses))))

/-! ## Huffman steps -/

/-- `is_member_vt`, `Checker.hs:419-423`: the trie is evaluated first. -/
def isMemberVt : List Bool → LTrie → L Bool
  | _, .bot => none
  | _, .empty => some false
  | [], .node a _ _ => a
  | false :: xs, .node _ lo _ => isMemberVt xs lo
  | true :: xs, .node _ _ hi => isMemberVt xs hi

/-- `extremal_channels_vt`, `Checker.hs:425-430`. -/
def extremalChannelsVt (a : LTrie) (n : ℕ) (pol : Bool) : L (List ℕ) :=
  filter (fun i => isMemberVt ((Checker.upt 0 n).map fun j => !(decide (j = i) == pol)) a) (Checker.upt 0 n)

/-- `prune_extremal_vt`, `Checker.hs:432-441`. -/
def pruneExtremalVt : Bool → ℕ → LTrie → LTrie
  | _, _, .bot => .bot
  | _, _, .empty => .empty
  | true, i, .node a lo hi =>
    if i = 0 then lo else .node a (pruneExtremalVt true (i - 1) lo) (pruneExtremalVt true (i - 1) hi)
  | false, i, .node a lo hi =>
    if i = 0 then hi else .node a (pruneExtremalVt false (i - 1) lo) (pruneExtremalVt false (i - 1) hi)

/-- `check_huffman`, `Checker.hs:443-467`. -/
def checkHuffman (steps : ℤ → ProofStep) (limit : ℤ) (step : ProofStep) : L Bool := do
  match ← step.witnesses with
  | .huffman pol witnesses =>
    let width : L ℕ := do
      let width ← step.width
      some (Checker.nat width)
    let width' := pred width
    let bound : L ℕ := do
      let bound ← step.bound
      some (Checker.nat bound)
    let a := vtList ((LList.ofL step.vectList).map fun xs => xs.map some)
    let extremalChannels : L (List ℕ) := do
      let width ← width
      extremalChannelsVt a width pol
    let bs : L (List LTrie) := do
      let extremalChannels ← extremalChannels
      some (extremalChannels.map fun c => pruneExtremalVt pol c a)
    let bounds : L (List (L (Option (L ℕ)))) := do
      let bs ← bs
      let witnesses ← witnesses
      some ((bs.zip witnesses).map fun p => getBound steps limit p.2 width' p.1)
    let huffmanBound : L ℕ := do
      let bounds ← bounds
      sucmaxValueBoundHuffman (bounds.map the)
    and (do
        let width ← width
        some (!(decide (width = 0))))
      (and (do
          let aList ← step.vectList
          all (fun xs => do
            let width ← width
            some (decide (Checker.sizeList xs = width))) aList)
        (and (do
            let witnesses ← witnesses
            some (!(witnesses.isEmpty)))
          (and (do
              let extremalChannels ← extremalChannels
              let witnesses ← witnesses
              some (decide (Checker.sizeList extremalChannels = Checker.sizeList witnesses)))
            (and (do
                let bounds ← bounds
                all (fun b => do
                  let b ← b
                  some (!(Checker.isNone b))) bounds)
              (do
                let bound ← bound
                let huffmanBound ← huffmanBound
                some (decide (bound ≤ huffmanBound)))))))
  | .successor _ => some false

/-! ## Whole certificates -/

/-- `check_step`, `Checker.hs:469-474`. -/
def checkStep (steps : ℤ → ProofStep) (limit : ℤ) (step : ProofStep) : L Bool := do
  match ← step.witnesses with
  | .huffman _ _ => checkHuffman steps limit step
  | .successor _ => checkSuccessors steps limit step

/-- `par`, patch line 13.  Models code at `strict_and_parallel.patch:11-13` and `Checker.hs:496`. -/
def par {α β : Type} (a : L α) (b : L β) : L β := b

/-- `par_range_all`, `Checker.hs:488-496`. -/
def parRangeAll (f : ℕ → L Bool) (lo n : ℕ) : L Bool :=
  if n < 1000 then allIntervalNat f lo (lo + n)
  else
    let a := parRangeAll f lo (n / 2)
    let b := parRangeAll f (lo + n / 2) (n - n / 2)
    and (par b a) b
termination_by n
decreasing_by all_goals omega

/-- `check_proof`, `Checker.hs:498-506`. -/
def checkProof (cert : ProofCert) : L Bool := do
  let n ← cert.length
  and (some (decide (0 ≤ n))) (parRangeAll (fun i => checkStep cert.step i (cert.step i)) 0 (Checker.nat n))

/-- `check_proof_get_bound`, `Checker.hs:514-520`. -/
def checkProofGetBound (cert : ProofCert) : L (Option (L ℤ × L ℤ)) := do
  let ok ← and (checkProof cert) (do
    let n ← cert.length
    some (decide (0 < n)))
  if ok then do
    let n ← cert.length
    let last := cert.step (n - 1)
    some (some (last.width, last.bound))
  else some none

/-- `snocheck -v`, `Main.hs:18-25`, with the code before the patch. -/
def mainVerified (proofData : List UInt8) : L (Option (ℤ × ℤ)) := do
  match ← checkProofGetBound (translateProofSteps (readLE 4 proofData) (stepFn proofData)) with
  | none => some none
  | some (width, bound) => do
    let width ← width
    let bound ← bound
    some (some (width, bound))

end Sortnet.Lazy.Raw
