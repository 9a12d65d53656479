import Verif.Model.Decode

/-!
# Model of `snocheck -v` with errors and lazy evaluation

`Model/Checker.lean` and `Model/Decode.lean` use an arbitrary value where the Haskell program would throw or not end.  Here
such an expression is `none`, and what is not demanded is not evaluated.  Files: `checker/snocheck/src/Verified/Checker.hs`
(cited as `Checker.hs`), `Decode.hs`, `Translate.hs`, `Main.hs`, `ProofStep.hs` and `VectSet.hs`.

Conventions.
* `L α` is an unevaluated expression of type `α`: `none` throws or does not end when it is demanded.  A function whose argument
  or field may not be demanded gets an `L`.
* Lists: `L (List (L α))` is a list all of whose cells are evaluated together (this is how `decodeWitnesses` builds its list,
  with `$!`, and how the other lists are consumed) and whose elements are unevaluated.
* Functions of `Model/Checker.lean` that cannot throw, given evaluated arguments, are used as they are.  `Vect_trie` has strict
  fields (`Checker.hs:75`), so that an evaluated trie is evaluated completely.
* A spark of `Parallel.par` that throws does not have an effect unless its value is demanded.
-/

namespace Sortnet.Lazy

set_option linter.unusedVariables false

open Checker (VectTrie ProofWitness)

/-- An unevaluated expression.  Models code at `Checker.hs:241-496`. -/
abbrev L (α : Type) := Option α

/-! ## `Prelude` -/

/-- `&&` evaluates its second argument only if the first one is true.  Models code at `Checker.hs:241-262,299-323`. -/
def and (a b : L Bool) : L Bool := do
  if (← a) then b else some false

/-- `||` evaluates its second argument only if the first one is false.
Models code at `Checker.hs:241-262,299-323`. -/
def or (a b : L Bool) : L Bool := do
  if (← a) then some true else b

/-- `not`.  Models code at `Checker.hs:310`. -/
def not (a : L Bool) : L Bool := do
  let a ← a
  some (!a)

/-- `all` stops at the first element for which the predicate is false.  Models code at `Checker.hs:315,460,464`. -/
def all {α : Type} (p : α → L Bool) : List α → L Bool
  | [] => some true
  | x :: xs => and (p x) (all p xs)

/-- All cells of `filter p xs`.  Models code at `Checker.hs:310,427`. -/
def filter {α : Type} (p : α → L Bool) : List α → L (List α)
  | [] => some []
  | x :: xs => do
    let b ← p x
    let l ← filter p xs
    some (if b then x :: l else l)

/-! ## Data -/

/-- `Proof_step_witnesses`, `Checker.hs:81-82`. -/
inductive StepWitnesses where
  | huffman (pol : Bool) (ws : L (List (L (Option ProofWitness))))
  | successor (ws : L (List (L (Option ProofWitness))))

/-- `Proof_step`, `Checker.hs:84`. -/
structure ProofStep where
  width : L ℤ
  vectList : L (List (List Bool))
  bound : L ℤ
  witnesses : L StepWitnesses

/-- `Proof_cert`, `Checker.hs:86`. -/
structure ProofCert where
  length : L ℤ
  step : ℤ → ProofStep

/-! ## Lists and tries -/

/-- `nth`, `Checker.hs:112-114`; there is no equation for the empty list. -/
def nth {α : Type} : List α → ℕ → L α
  | [], _ => none
  | x :: xs, n => if n = 0 then some x else nth xs (n - 1)

/-- `pred`/`nat_pred_code`, `Checker.hs:130-135`; `pred 0` does not end. -/
def pred (n : L ℕ) : L ℕ := do
  let n ← n
  if n = 0 then none else some (n - 1)

/-- `the`, `Checker.hs:271-272`; there is no equation for `Nothing`. -/
def the (x : L (Option (L ℕ))) : L ℕ := do
  match ← x with
  | some y => y
  | none => none

/-- `vt_singleton`, `Checker.hs:161-164`. -/
def vtSingleton : List (L Bool) → L VectTrie
  | [] => some (.node true .empty .empty)
  | x :: xs => do
    match ← x with
    | false => do
      let t ← vtSingleton xs
      some (.node false t .empty)
    | true => do
      let t ← vtSingleton xs
      some (.node false .empty t)

/-- `vt_union`, `Checker.hs:166-171`: every equation has a constructor for both arguments. -/
def vtUnion (a b : L VectTrie) : L VectTrie := do
  let a ← a
  let b ← b
  some (Checker.vtUnion a b)

/-- `vt_list`, `Checker.hs:173-174`. -/
def vtList (ls : List (List (L Bool))) : L VectTrie :=
  Checker.fold (fun x s => vtUnion (vtSingleton x) s) ls (some .empty)

/-- `is_unsorted_vt`, `Checker.hs:218-219`. -/
def isUnsortedVt (n : L ℕ) (a : L VectTrie) : L Bool := do
  let n ← n
  let a ← a
  some (Checker.isUnsortedVt n a)

/-- `is_subset_vt`, `Checker.hs:221-230`: the second argument is not evaluated if the first one is `VtEmpty`. -/
def isSubsetVt (a b : L VectTrie) : L Bool := do
  match ← a with
  | .empty => some true
  | a => do
    let b ← b
    some (Checker.isSubsetVt a b)

/-- `permute_list_vect`, `Checker.hs:232-233`. -/
def permuteListVect (ps : List ℕ) (xs : List Bool) : List (L Bool) := ps.map (nth xs)

/-- `permute_vt`, `Checker.hs:235-236`. -/
def permuteVt (ps : List ℕ) (a : L VectTrie) : L VectTrie := do
  let a ← a
  vtList ((Checker.listVt a).map (permuteListVect ps))

/-- `invert_vt`, `Checker.hs:238-239`. -/
def invertVt (z : Bool) (a : L VectTrie) : L VectTrie := do
  let a ← a
  some (Checker.invertVt z a)

/-! ## Bounds from earlier steps -/

/-- `get_bound`, `Checker.hs:241-262`. -/
def getBound (steps : ℤ → ProofStep) (limit : ℤ) (w : L (Option ProofWitness)) (width : L ℕ) (a : L VectTrie) :
    L (Option (L ℕ)) := do
  match ← w with
  | none => some (some (do
      if (← isUnsortedVt width a) then some 1 else some 0))
  | some w =>
    let perm := w.perm.map Checker.nat
    let step := steps w.stepId
    let b : L VectTrie := do
      let bList ← step.vectList
      vtList (bList.map fun xs => xs.map some)
    let ba := permuteVt perm (invertVt w.invert b)
    let bad :=
      or (some (!(decide (0 ≤ w.stepId) && decide (w.stepId < limit))))
        (or (not (all (fun i => and (some (decide (0 ≤ i))) (do
              let width ← width
              some (decide (i < width)))) perm))
          (or (not (do
                let width ← width
                some (decide (Checker.sizeList perm = width))))
            (or (some (!(Checker.distinct perm)))
              (or (not (do
                    let bList ← step.vectList
                    all (fun xs => do
                      let width ← width
                      some (decide (Checker.sizeList xs = width))) bList))
                (not (isSubsetVt ba a))))))
    if (← bad) then some none
    else some (some (do
      let bound ← step.bound
      some (Checker.nat bound)))

/-! ## Successor steps -/

/-- `is_redundant_cmp_vt`, `Checker.hs:280-285`. -/
def isRedundantCmpVt (c : ℕ × ℕ) (a : L VectTrie) : L Bool := do
  let a ← a
  let vs := Checker.listVt a
  not (and (not (all (fun x => not (and (nth x c.1) (not (nth x c.2)))) vs))
    (not (all (fun x => not (and (not (nth x c.1)) (nth x c.2))) vs)))

/-- `apply_cmp_list`, `Checker.hs:287-292`. -/
def applyCmpList (c : ℕ × ℕ) (xs : List Bool) : List (L Bool) :=
  let xa := nth xs c.1
  let xb := nth xs c.2
  Checker.listUpdate (Checker.listUpdate (xs.map some) c.1 (and xa xb)) c.2 (or xa xb)

/-- `list_all2`, `Checker.hs:294-297`. -/
def listAll2 {α β : Type} (p : α → β → L Bool) : List α → List β → L Bool
  | x :: xs, y :: ys => and (p x y) (listAll2 p xs ys)
  | xs, [] => some xs.isEmpty
  | [], ys => some ys.isEmpty

/-- `check_successors`, `Checker.hs:299-323`. -/
def checkSuccessors (steps : ℤ → ProofStep) (limit : ℤ) (step : ProofStep) : L Bool := do
  match ← step.witnesses with
  | .huffman _ _ => some false
  | .successor witnesses =>
    let width : L ℕ := do
      let width ← step.width
      some (Checker.nat width)
    let bound : L ℕ := do
      let bound ← step.bound
      some (Checker.nat bound)
    let a : L VectTrie := do
      let aList ← step.vectList
      vtList (aList.map fun xs => xs.map some)
    let nrcmps : L (List (ℕ × ℕ)) := do
      let width ← width
      filter (fun c => not (isRedundantCmpVt c a)) (Checker.ocmpList width)
    let bs : L (List (L VectTrie)) := do
      let nrcmps ← nrcmps
      some (nrcmps.map fun c => do
        let aList ← step.vectList
        vtList (aList.map (applyCmpList c)))
    and (do
        let bound ← bound
        some (!(decide (bound = 0))))
      (and (isUnsortedVt width a)
        (and (do
            let nrcmps ← nrcmps
            let witnesses ← witnesses
            some (decide (Checker.sizeList nrcmps = Checker.sizeList witnesses)))
          (and (do
              let aList ← step.vectList
              all (fun xs => do
                let width ← width
                some (decide (Checker.sizeList xs = width))) aList)
            (do
              let bs ← bs
              let witnesses ← witnesses
              listAll2 (fun b w => do
                match ← getBound steps limit w width b with
                | none => some false
                | some ba => do
                  let bound ← bound
                  let ba ← ba
                  some (decide (bound ≤ ba + 1))) bs witnesses))))

/-! ## Huffman steps -/

theorem nth_mem {α : Type} {xs : List α} {n : ℕ} {x : α} (h : nth xs n = some x) : x ∈ xs := by
  induction xs generalizing n with
  | nil => simp [nth] at h
  | cons y ys ih =>
    rw [nth] at h
    split_ifs at h
    · simp_all
    · exact List.mem_cons_of_mem _ (ih h)

/-- `sort_key`, `Checker.hs:379-393`, at the only key type used (`Nat`). -/
def sortKey {α : Type} (f : α → ℕ) (xs : List α) : L (List α) :=
  match xs with
  | [] => some []
  | [x] => some [x]
  | [x, y] => some (if f x ≤ f y then [x, y] else [y, x])
  | x :: y :: z :: rest =>
    match h : nth (x :: y :: z :: rest) (Checker.sizeList (x :: y :: z :: rest) / 2) with
    | none => none
    | some pivot => do
      let lts ← sortKey f (Checker.part f (f pivot) (x :: y :: z :: rest)).1
      let gts ← sortKey f (Checker.part f (f pivot) (x :: y :: z :: rest)).2.2
      some (lts ++ (Checker.part f (f pivot) (x :: y :: z :: rest)).2.1 ++ gts)
termination_by xs.length
decreasing_by
  all_goals
    have h1 := Checker.part_length f (f pivot) (x :: y :: z :: rest)
    have h2 := Checker.part_eqs_pos f _ _ _ (nth_mem h) rfl
    omega

theorem sortKey_length {α : Type} (f : α → ℕ) (xs : List α) (s : List α) (h : sortKey f xs = some s) :
    s.length = xs.length := by
  fun_induction sortKey f xs generalizing s with
  | case1 => simp_all
  | case2 => simp_all
  | case3 x y => simp only [Option.some.injEq] at h; subst h; split_ifs <;> rfl
  | case4 => simp at h
  | case5 x y z rest pivot hp ih1 ih2 =>
    simp only [Option.bind_eq_bind, Option.bind_eq_some_iff, Option.some.injEq] at h
    obtain ⟨l, hl, g, hg, rfl⟩ := h
    have h1 := Checker.part_length f (f pivot) (x :: y :: z :: rest)
    have := ih1 l hl
    have := ih2 g hg
    simp only [List.length_append]
    omega

/-- `sucmax_value_bound_huffman`, `Checker.hs:410-417`, when the values have been evaluated; `mina bot_set`
(`Checker.hs:404-408`) and `the_elem` (`Checker.hs:137-138`) have no equation for the empty set or a set with more elements. -/
def huffmanForced (a : List ℕ) : L ℕ :=
  if Checker.sizeList a = 0 then none
  else if Checker.sizeList a - 1 = 0 then
    (match a with
     | [x] => some x
     | _ => none)
  else
    match h : sortKey (fun x => x) a with
    | none => none
    | some s => huffmanForced (Checker.sucmaxHuffmanStep s)
termination_by a.length
decreasing_by
  have hl := sortKey_length _ _ _ h
  simp only [Checker.sizeList_eq] at *
  match s, hl with
  | [], hl => simp at hl; omega
  | [x], hl => simp at hl; omega
  | x :: y :: r, hl => simp [Checker.sucmaxHuffmanStep] at hl ⊢; omega

/-- `sucmax_value_bound_huffman`, `Checker.hs:410-417`.  All values are evaluated: the only one is returned, and two or more
are compared in `sort_key`. -/
def sucmaxValueBoundHuffman (a : List (L ℕ)) : L ℕ := do
  let a ← a.mapM id
  huffmanForced a

/-- `extremal_channels_vt`, `Checker.hs:425-430`. -/
def extremalChannelsVt (a : L VectTrie) (n : ℕ) (pol : Bool) : L (List ℕ) :=
  filter (fun i => do
    let a ← a
    some (Checker.isMemberVt ((Checker.upt 0 n).map fun j => !(decide (j = i) == pol)) a)) (Checker.upt 0 n)

/-- `prune_extremal_vt`, `Checker.hs:432-441`. -/
def pruneExtremalVt (pol : Bool) (i : ℕ) (a : L VectTrie) : L VectTrie := do
  let a ← a
  some (Checker.pruneExtremalVt pol i a)

/-- `check_huffman`, `Checker.hs:443-467`. -/
def checkHuffman (steps : ℤ → ProofStep) (limit : ℤ) (step : ProofStep) : L Bool := do
  match ← step.witnesses with
  | .huffman pol witnesses =>
    let width : L ℕ := do
      let width ← step.width
      some (Checker.nat width)
    let width' := pred width
    let bound : L ℕ := do
      let bound ← step.bound
      some (Checker.nat bound)
    let a : L VectTrie := do
      let aList ← step.vectList
      vtList (aList.map fun xs => xs.map some)
    let extremalChannels : L (List ℕ) := do
      let width ← width
      extremalChannelsVt a width pol
    let bs : L (List (L VectTrie)) := do
      let extremalChannels ← extremalChannels
      some (extremalChannels.map fun c => pruneExtremalVt pol c a)
    let bounds : L (List (L (Option (L ℕ)))) := do
      let bs ← bs
      let witnesses ← witnesses
      some ((bs.zip witnesses).map fun p => getBound steps limit p.2 width' p.1)
    let huffmanBound : L ℕ := do
      let bounds ← bounds
      sucmaxValueBoundHuffman (bounds.map the)
    and (do
        let width ← width
        some (!(decide (width = 0))))
      (and (do
          let aList ← step.vectList
          all (fun xs => do
            let width ← width
            some (decide (Checker.sizeList xs = width))) aList)
        (and (do
            let witnesses ← witnesses
            some (!(witnesses.isEmpty)))
          (and (do
              let extremalChannels ← extremalChannels
              let witnesses ← witnesses
              some (decide (Checker.sizeList extremalChannels = Checker.sizeList witnesses)))
            (and (do
                let bounds ← bounds
                all (fun b => do
                  let b ← b
                  some (!(Checker.isNone b))) bounds)
              (do
                let bound ← bound
                let huffmanBound ← huffmanBound
                some (decide (bound ≤ huffmanBound)))))))
  | .successor _ => some false

/-! ## Whole certificates -/

/-- `check_step`, `Checker.hs:469-474`. -/
def checkStep (steps : ℤ → ProofStep) (limit : ℤ) (step : ProofStep) : L Bool := do
  match ← step.witnesses with
  | .huffman _ _ => checkHuffman steps limit step
  | .successor _ => checkSuccessors steps limit step

/-- `all_interval_nat`, `Checker.hs:485-486`. -/
def allIntervalNat (p : ℕ → L Bool) (i j : ℕ) : L Bool :=
  if j ≤ i then some true else and (p i) (allIntervalNat p (i + 1) j)
termination_by j - i

/-- `par_range_all`, `Checker.hs:488-496`; `par b a` is `a`. -/
def parRangeAll (f : ℕ → L Bool) (lo n : ℕ) : L Bool :=
  if n < 1000 then allIntervalNat f lo (lo + n)
  else and (parRangeAll f lo (n / 2)) (parRangeAll f (lo + n / 2) (n - n / 2))
termination_by n
decreasing_by all_goals omega

/-- `check_proof`, `Checker.hs:498-506`. -/
def checkProof (cert : ProofCert) : L Bool := do
  let n ← cert.length
  and (some (decide (0 ≤ n))) (parRangeAll (fun i => checkStep cert.step i (cert.step i)) 0 (Checker.nat n))

/-- `check_proof_get_bound`, `Checker.hs:514-520`. -/
def checkProofGetBound (cert : ProofCert) : L (Option (L ℤ × L ℤ)) := do
  let ok ← and (checkProof cert) (do
    let n ← cert.length
    some (decide (0 < n)))
  if ok then do
    let n ← cert.length
    let last := cert.step (n - 1)
    some (some (last.width, last.bound))
  else some none

/-! ## `Decode.hs` -/

/-- `readLE`, `Decode.hs:15-17`; `B.index` throws if the index is too large. -/
def readLE (len : ℕ) (bs : List UInt8) : L ℤ := do
  let xs ← (List.range len).mapM fun i => do
    let b ← bs[i]?
    some (Decode.wrap64 (b.toNat * 2 ^ (8 * i)))
  some (xs.foldl (fun a b => Decode.wrap64 (a + b)) 0)

/-- `decodeWitnesses`, `Decode.hs:61-78`.  The rest of the list is evaluated with each cell (`$!`).  An element
`Just $! (Witness …)` is evaluated when it is demanded; its fields are strict (`ProofStep.hs:26-30`). -/
def decodeWitnesses (channels : ℕ) (bs : List UInt8) : L (List (L (Option Ref.Witness))) :=
  match bs with
  | [] => some []
  | b :: tail =>
    if b = 0 ∨ b = 1 then do
      let rest ← decodeWitnesses channels ((tail.drop channels).drop 4)
      some ((do
        let stepId ← readLE 4 (tail.drop channels)
        some (some
          { invert := decide (b = 1)
            perm := (tail.take channels).map UInt8.toNat
            stepId := stepId.toNat })) :: rest)
    else if b = 2 then do
      let rest ← decodeWitnesses channels tail
      some (some none :: rest)
    else none
termination_by bs.length
decreasing_by
  all_goals simp only [List.length_cons, List.length_drop]; omega

/-- `Witnesses`, `ProofStep.hs:18-20`. -/
inductive RefWitnesses where
  | huffman (pol : Bool) (ws : L (List (L (Option Ref.Witness))))
  | successors (ws : L (List (L (Option Ref.Witness))))

/-- `ProofStep`, `ProofStep.hs:12-16`: its fields are strict. -/
structure RefStep where
  vectSet : Ref.VectSet
  bound : ℕ
  witnesses : RefWitnesses

/-- `decodeProofStep`, `Decode.hs:42-59`. -/
def decodeProofStep (stepData : List UInt8) : L RefStep := do
  let channels ← stepData[0]?
  let channels := channels.toNat
  let bound ← stepData[1]?
  let encodedSetLength := Decode.bit (channels - 3)
  let encodedSetBytes := Decode.take encodedSetLength (Decode.drop 2 stepData)
  let vectSet := Decode.fromBytes channels encodedSetBytes
  let witnessData := Decode.drop (encodedSetLength + 2) stepData
  let kind ← witnessData[0]?
  let rest := Decode.drop 1 witnessData
  let witnesses : L RefWitnesses :=
    if kind = 0 then some (.huffman false (decodeWitnesses (channels - 1) rest))
    else if kind = 1 then some (.huffman true (decodeWitnesses (channels - 1) rest))
    else if kind = 2 then some (.successors (decodeWitnesses channels rest))
    else none
  let witnesses ← witnesses
  some { vectSet := vectSet, bound := bound.toNat, witnesses := witnesses }

/-- `stepData`, `Decode.hs:36-40`. -/
def stepData (proofData : List UInt8) (step : ℤ) : L (List UInt8) := do
  let stepHeader := Decode.drop (Decode.wrap64 (4 + 12 * step)) proofData
  let length ← readLE 4 (Decode.drop 8 stepHeader)
  let offset ← readLE 8 stepHeader
  some (Decode.take length (Decode.drop offset proofData))

/-- The step function, `Decode.hs:28-30`. -/
def stepFn (proofData : List UInt8) (step : ℤ) : L RefStep := do
  let d ← stepData proofData step
  decodeProofStep d

/-! ## `Translate.hs` -/

/-- `translateWitnessList`, `Translate.hs:34-35`. -/
def translateWitnessList (ws : L (List (L (Option Ref.Witness)))) : L (List (L (Option ProofWitness))) := do
  let ws ← ws
  some (ws.map fun w => do
    let w ← w
    some (w.map Decode.translateWitness))

/-- `translateWitnesses`, `Translate.hs:28-32`. -/
def translateWitnesses : RefWitnesses → StepWitnesses
  | .huffman pol ws => .huffman pol (translateWitnessList ws)
  | .successors ws => .successor (translateWitnessList ws)

/-- `translateStep`, `Translate.hs:20-26`. -/
def translateStep (s : L RefStep) : ProofStep :=
  { width := do
      let s ← s
      some (s.vectSet.channels : ℤ)
    vectList := do
      let s ← s
      some (Ref.asBoolVectList s.vectSet)
    bound := do
      let s ← s
      some (s.bound : ℤ)
    witnesses := do
      let s ← s
      some (translateWitnesses s.witnesses) }

/-- `translateProofSteps`, `Translate.hs:12-18`. -/
def translateProofSteps (stepCount : L ℤ) (steps : ℤ → L RefStep) : ProofCert :=
  { length := stepCount, step := fun i => translateStep (steps (Decode.wrap64 i)) }

/-! ## `Main.hs` -/

/-- `snocheck -v`, `Main.hs:18-25`: what is printed; `print` evaluates the two numbers. -/
def mainVerified (proofData : List UInt8) : L (Option (ℤ × ℤ)) := do
  match ← checkProofGetBound (translateProofSteps (readLE 4 proofData) (stepFn proofData)) with
  | none => some none
  | some (width, bound) => do
    let width ← width
    let bound ← bound
    some (some (width, bound))

end Sortnet.Lazy
