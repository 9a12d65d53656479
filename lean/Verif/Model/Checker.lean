import Mathlib.Data.Nat.Init
import Mathlib.Data.List.Basic
import Mathlib.Tactic.Common

/-!
# Model of the verified checker

Transcription of `checker/snocheck/src/Verified/Checker.hs` (cited as `Checker.hs`), the Haskell
code extracted from the Isabelle development, function by function.

Conventions.
* Haskell `Integer`/`Int` (the newtype of `Checker.hs:69`) is `ℤ`, `Nat` (`Checker.hs:18`) is `ℕ`;
  both are unbounded in the code as well.
* Incomplete pattern matches and non-termination in the Haskell code (`nth []`, `the Nothing`,
  `mina (Set [])`, `pred 0`) are modelled by an arbitrary value taken from a parameter `u : Undef`.
  All theorems hold for every `u`; a run of the program that does not crash returns what the model
  returns for every `u`.
* Laziness, strictness annotations and `Parallel.par` sparks do not change the value of an expression
  whose evaluation succeeds, and are modelled by ordinary evaluation (`par a b = b`,
  `Checker.hs:123-124`, `Parallel.hs:1-7`).
-/

namespace Sortnet.Checker

/-- Values standing for the result of an undefined Haskell expression.
Models code at `Checker.hs:112-114,130-135,271-272,404-408`. -/
structure Undef where
  bool : Bool
  nat : ℕ

/-! ## Data types -/

/-- `Vect_trie`, `Checker.hs:75`. -/
inductive VectTrie where
  | empty
  | node (b : Bool) (lo hi : VectTrie)
deriving DecidableEq, Repr

/-- `Proof_witness`, `Checker.hs:79`, with the selectors of `Checker.hs:186-193`. -/
structure ProofWitness where
  stepId : ℤ
  invert : Bool
  perm : List ℤ
deriving DecidableEq, Repr

/-- `Proof_step_witnesses`, `Checker.hs:81-82`. -/
inductive StepWitnesses where
  | huffman (pol : Bool) (ws : List (Option ProofWitness))
  | successor (ws : List (Option ProofWitness))
deriving DecidableEq, Repr

/-- `Proof_step`, `Checker.hs:84`, with the selectors of `Checker.hs:195-202,274-278`. -/
structure ProofStep where
  width : ℤ
  vectList : List (List Bool)
  bound : ℤ
  witnesses : StepWitnesses
deriving DecidableEq, Repr

/-- `Proof_cert`, `Checker.hs:86`, with the selectors of `Checker.hs:476-480`. -/
structure ProofCert where
  length : ℤ
  step : ℤ → ProofStep

/-! ## Numbers and lists -/

/-- `nat`, `Checker.hs:94-95`. -/
def nat (k : ℤ) : ℕ := (max 0 k).toNat

/-- `nth`, `Checker.hs:112-114`; undefined (`u`) past the end. -/
def nth {α : Type} (u : α) : List α → ℕ → α
  | [], _ => u
  | x :: xs, n => if n = 0 then x else nth u xs (n - 1)

/-- `upt`, `Checker.hs:116-117`. -/
def upt (i j : ℕ) : List ℕ := if i < j then i :: upt (i + 1) j else []
termination_by j - i

/-- `fold`, `Checker.hs:119-121`. -/
def fold {α β : Type} (f : α → β → β) : List α → β → β
  | x :: xs, s => fold f xs (f x s)
  | [], s => s

/-- `member`, `Checker.hs:126-128`. -/
def member (xs : List ℕ) (y : ℕ) : Bool :=
  match xs with
  | [] => false
  | x :: xs => x == y || member xs y

/-- `pred`/`nat_pred_code`, `Checker.hs:130-135`; `pred 0` does not terminate. -/
def pred (u : Undef) (n : ℕ) : ℕ := if n = 0 then u.nat else n - 1

/-- `distinct`, `Checker.hs:140-142`. -/
def distinct : List ℕ → Bool
  | [] => true
  | x :: xs => !(member xs x) && distinct xs

/-- `is_none`, `Checker.hs:144-146`. -/
def isNone {α : Type} : Option α → Bool
  | some _ => false
  | none => true

/-- `the`, `Checker.hs:271-272`. -/
def the {α : Type} (u : α) : Option α → α
  | some x => x
  | none => u

/-- `gen_length`, `Checker.hs:176-178`. -/
def genLength {α : Type} (n : ℕ) : List α → ℕ
  | _ :: xs => genLength (n + 1) xs
  | [] => n

/-- `size_list`, `Checker.hs:198-199` (and `size_multiset`, `Checker.hs:398-399`). -/
def sizeList {α : Type} (xs : List α) : ℕ := genLength 0 xs

/-- `list_update`, `Checker.hs:180-184`. -/
def listUpdate {α : Type} : List α → ℕ → α → List α
  | [], _, _ => []
  | x :: xs, i, y => if i = 0 then y :: xs else x :: listUpdate xs (i - 1) y

/-- `list_all2`, `Checker.hs:294-297`. -/
def listAll2 {α β : Type} (p : α → β → Bool) : List α → List β → Bool
  | x :: xs, y :: ys => p x y && listAll2 p xs ys
  | xs, [] => xs.isEmpty
  | [], ys => ys.isEmpty

/-! ## Tries -/

/-- `list_vt_extend`, `Checker.hs:148-156`. -/
def listVtExtend : VectTrie → (List Bool → List Bool) → List (List Bool) → List (List Bool)
  | .empty, _, suffix => suffix
  | .node true lo hi, pre, suffix =>
    pre [] :: listVtExtend lo (pre ∘ fun a => false :: a)
      (listVtExtend hi (pre ∘ fun a => true :: a) suffix)
  | .node false lo hi, pre, suffix =>
    listVtExtend lo (pre ∘ fun a => false :: a)
      (listVtExtend hi (pre ∘ fun a => true :: a) suffix)

/-- `list_vt`, `Checker.hs:158-159`. -/
def listVt (a : VectTrie) : List (List Bool) := listVtExtend a id []

/-- `vt_singleton`, `Checker.hs:161-164`. -/
def vtSingleton : List Bool → VectTrie
  | [] => .node true .empty .empty
  | false :: xs => .node false (vtSingleton xs) .empty
  | true :: xs => .node false .empty (vtSingleton xs)

/-- `vt_union`, `Checker.hs:166-171`. -/
def vtUnion : VectTrie → VectTrie → VectTrie
  | .empty, .empty => .empty
  | .node v va vb, .empty => .node v va vb
  | .empty, .node v va vb => .node v va vb
  | .node a alo ahi, .node b blo bhi => .node (a || b) (vtUnion alo blo) (vtUnion ahi bhi)

/-- `vt_list`, `Checker.hs:173-174`. -/
def vtList (ls : List (List Bool)) : VectTrie := fold (vtUnion ∘ vtSingleton) ls .empty

/-- `length_vt`, `Checker.hs:213-216`. -/
def lengthVt : VectTrie → ℕ
  | .empty => 0
  | .node true lo hi => (lengthVt lo + lengthVt hi) + 1
  | .node false lo hi => lengthVt lo + lengthVt hi

/-- `is_unsorted_vt`, `Checker.hs:218-219`. -/
def isUnsortedVt (n : ℕ) (a : VectTrie) : Bool := decide (n + 1 < lengthVt a)

/-- `is_subset_vt`, `Checker.hs:221-230`. -/
def isSubsetVt : VectTrie → VectTrie → Bool
  | .empty, _ => true
  | .node true _ _, .empty => false
  | .node false alo ahi, .empty => isSubsetVt alo .empty && isSubsetVt ahi .empty
  | .node true _ _, .node false _ _ => false
  | .node false alo ahi, .node _ blo bhi => isSubsetVt alo blo && isSubsetVt ahi bhi
  | .node true alo ahi, .node true blo bhi => isSubsetVt alo blo && isSubsetVt ahi bhi

/-- `is_member_vt`, `Checker.hs:419-423`. -/
def isMemberVt : List Bool → VectTrie → Bool
  | _, .empty => false
  | [], .node a _ _ => a
  | false :: xs, .node _ lo _ => isMemberVt xs lo
  | true :: xs, .node _ _ hi => isMemberVt xs hi

/-- `permute_list_vect`, `Checker.hs:232-233`. -/
def permuteListVect (u : Undef) (ps : List ℕ) (xs : List Bool) : List Bool := ps.map (nth u.bool xs)

/-- `permute_vt`, `Checker.hs:235-236`. -/
def permuteVt (u : Undef) (ps : List ℕ) (a : VectTrie) : VectTrie :=
  vtList ((listVt a).map (permuteListVect u ps))

/-- `invert_vt`, `Checker.hs:238-239`. -/
def invertVt (z : Bool) (a : VectTrie) : VectTrie :=
  if z then vtList ((listVt a).map (·.map not)) else a

/-- `prune_extremal_vt`, `Checker.hs:432-441`. -/
def pruneExtremalVt : Bool → ℕ → VectTrie → VectTrie
  | _, _, .empty => .empty
  | true, i, .node b lo hi =>
    if i = 0 then lo else .node b (pruneExtremalVt true (i - 1) lo) (pruneExtremalVt true (i - 1) hi)
  | false, i, .node b lo hi =>
    if i = 0 then hi else .node b (pruneExtremalVt false (i - 1) lo) (pruneExtremalVt false (i - 1) hi)

/-- `extremal_channels_vt`, `Checker.hs:425-430`. -/
def extremalChannelsVt (a : VectTrie) (n : ℕ) (pol : Bool) : List ℕ :=
  (upt 0 n).filter fun i => isMemberVt ((upt 0 n).map fun j => !(decide (j = i) == pol)) a

/-! ## Bounds from earlier steps -/

/-- `get_bound`, `Checker.hs:241-262`. -/
def getBound (u : Undef) (steps : ℤ → ProofStep) (limit : ℤ) :
    Option ProofWitness → ℕ → VectTrie → Option ℕ
  | none, width, a => some (if isUnsortedVt width a then 1 else 0)
  | some w, width, a =>
    let perm := w.perm.map nat
    let step := steps w.stepId
    let bList := step.vectList
    let b := vtList bList
    let ba := permuteVt u perm (invertVt w.invert b)
    if !(decide (0 ≤ w.stepId) && decide (w.stepId < limit)) ||
        (!(perm.all fun i => decide (0 ≤ i) && decide (i < width)) ||
          (!(decide (sizeList perm = width)) ||
            (!(distinct perm) ||
              (!(bList.all fun xs => decide (sizeList xs = width)) || !(isSubsetVt ba a)))))
    then none else some (nat step.bound)

/-! ## Successor steps -/

/-- `ocmp_list`, `Checker.hs:264-266`. -/
def ocmpList (n : ℕ) : List (ℕ × ℕ) :=
  (upt 0 n).flatMap fun i => (upt 0 i).map fun j => (j, i)

/-- `is_redundant_cmp_vt`, `Checker.hs:280-285`. -/
def isRedundantCmpVt (u : Undef) (c : ℕ × ℕ) (a : VectTrie) : Bool :=
  let vs := listVt a
  !(!(vs.all fun x => !(nth u.bool x c.1 && !(nth u.bool x c.2))) &&
    !(vs.all fun x => !(!(nth u.bool x c.1) && nth u.bool x c.2)))

/-- `apply_cmp_list`, `Checker.hs:287-292`. -/
def applyCmpList (u : Undef) (c : ℕ × ℕ) (xs : List Bool) : List Bool :=
  let xa := nth u.bool xs c.1
  let xb := nth u.bool xs c.2
  listUpdate (listUpdate xs c.1 (xa && xb)) c.2 (xa || xb)

/-- `check_successors`, `Checker.hs:299-323`. -/
def checkSuccessors (u : Undef) (steps : ℤ → ProofStep) (limit : ℤ) (step : ProofStep) : Bool :=
  match step.witnesses with
  | .huffman _ _ => false
  | .successor witnesses =>
    let width := nat step.width
    let bound := nat step.bound
    let ocmps := ocmpList width
    let aList := step.vectList
    let a := vtList aList
    let nrcmps := ocmps.filter fun c => !(isRedundantCmpVt u c a)
    let bs := nrcmps.map fun c => vtList (aList.map (applyCmpList u c))
    !(decide (bound = 0)) && (isUnsortedVt width a &&
      (decide (sizeList nrcmps = sizeList witnesses) &&
        ((aList.all fun xs => decide (sizeList xs = width)) &&
          listAll2 (fun b w =>
            match getBound u steps limit w width b with
            | none => false
            | some ba => decide (bound ≤ ba + 1)) bs witnesses)))

/-! ## Huffman steps -/

/-- `sucmax`, `Checker.hs:325-326`. -/
def sucmax (a b : ℕ) : ℕ := max a b + 1

/-- `sucmax_huffman_step_sorted_list`, `Checker.hs:328-331`.  `Multiset` (`Checker.hs:77`) is a
newtype of lists and is modelled by lists. -/
def sucmaxHuffmanStep : List ℕ → List ℕ
  | a1 :: a2 :: as => sucmax a1 a2 :: as
  | [] => []
  | [v] => [v]

/-- `part`, `Checker.hs:364-374`, at the only key type used (`Nat`). -/
def part {α : Type} (f : α → ℕ) (pivot : ℕ) : List α → List α × List α × List α
  | x :: xs =>
    let (lts, eqs, gts) := part f pivot xs
    let xa := f x
    if xa < pivot then (x :: lts, eqs, gts)
    else if pivot < xa then (lts, eqs, x :: gts)
    else (lts, x :: eqs, gts)
  | [] => ([], [], [])

theorem part_length {α : Type} (f : α → ℕ) (p : ℕ) (xs : List α) :
    (part f p xs).1.length + (part f p xs).2.1.length + (part f p xs).2.2.length = xs.length := by
  induction xs with
  | nil => rfl
  | cons x xs ih =>
    simp only [part]
    rcases h : part f p xs with ⟨l, e, g⟩
    rw [h] at ih
    split_ifs <;> simp only [List.length_cons] at * <;> omega

theorem part_eqs_pos {α : Type} (f : α → ℕ) (p : ℕ) (xs : List α) (x : α) (hx : x ∈ xs)
    (hp : f x = p) : 0 < (part f p xs).2.1.length := by
  induction xs with
  | nil => simp at hx
  | cons y ys ih =>
    simp only [part]
    rcases List.mem_cons.1 hx with rfl | h
    · simp [hp]
    · have := ih h
      rcases h : part f p ys with ⟨l, e, g⟩
      rw [h] at this
      split_ifs <;> simp only [List.length_cons] at * <;> omega

theorem nth_mem {α : Type} (u : α) (xs : List α) (n : ℕ) (h : n < xs.length) : nth u xs n ∈ xs := by
  induction xs generalizing n with
  | nil => simp at h
  | cons x xs ih =>
    simp only [nth]
    split_ifs with hn
    · simp
    · simp only [List.length_cons] at h
      exact List.mem_cons_of_mem _ (ih _ (by omega))

theorem genLength_eq {α : Type} (n : ℕ) (xs : List α) : genLength n xs = n + xs.length := by
  induction xs generalizing n with
  | nil => rfl
  | cons x xs ih => simp only [genLength, ih, List.length_cons]; omega

@[simp] theorem sizeList_eq {α : Type} (xs : List α) : sizeList xs = xs.length := by
  simp [sizeList, genLength_eq]

/-- `sort_key`, `Checker.hs:379-393`, at the only key type used (`Nat`). -/
def sortKey {α : Type} (u : α) (f : α → ℕ) (xs : List α) : List α :=
  match xs with
  | [] => []
  | [x] => [x]
  | [x, y] => if f x ≤ f y then [x, y] else [y, x]
  | x :: y :: z :: rest =>
    let p := part f (f (nth u (x :: y :: z :: rest) (sizeList (x :: y :: z :: rest) / 2)))
      (x :: y :: z :: rest)
    sortKey u f p.1 ++ p.2.1 ++ sortKey u f p.2.2
termination_by xs.length
decreasing_by
  all_goals
    have h1 := part_length f (f (nth u (x :: y :: z :: rest) (sizeList (x :: y :: z :: rest) / 2)))
      (x :: y :: z :: rest)
    have h2 := part_eqs_pos f _ _ _ (nth_mem u (x :: y :: z :: rest)
      (sizeList (x :: y :: z :: rest) / 2) (by rw [sizeList_eq]; simp; omega)) rfl
    omega

theorem sortKey_length {α : Type} (u : α) (f : α → ℕ) (xs : List α) :
    (sortKey u f xs).length = xs.length := by
  fun_induction sortKey u f xs with
  | case1 => rfl
  | case2 => rfl
  | case3 => rfl
  | case4 => rfl
  | case5 x y z rest p ih1 ih2 =>
    have h1 := part_length f (f (nth u (x :: y :: z :: rest) (sizeList (x :: y :: z :: rest) / 2)))
      (x :: y :: z :: rest)
    simp only [List.length_append, ih1, ih2]
    exact h1

/-- `sucmax_value_bound_huffman`, `Checker.hs:410-417`; `sorted_list_of_multiset` is
`Checker.hs:395-396`, `the_elem` is `Checker.hs:137-138`, and `mina bot_set`
(`Checker.hs:404-408`) is undefined. -/
def sucmaxValueBoundHuffman (u : Undef) (a : List ℕ) : ℕ :=
  if sizeList a = 0 then u.nat
  else if sizeList a - 1 = 0 then
    (match a with
     | [x] => x
     | _ => u.nat)
  else sucmaxValueBoundHuffman u (sucmaxHuffmanStep (sortKey u.nat (fun x => x) a))
termination_by a.length
decreasing_by
  have hl := sortKey_length u.nat (fun x => x) a
  simp only [sizeList_eq] at *
  match h : sortKey u.nat (fun x => x) a with
  | [] => rw [h] at hl; simp at hl; omega
  | [x] => rw [h] at hl; simp at hl; omega
  | x :: y :: r => rw [h] at hl; simp [sucmaxHuffmanStep] at hl ⊢; omega

/-- `check_huffman`, `Checker.hs:443-467`. -/
def checkHuffman (u : Undef) (steps : ℤ → ProofStep) (limit : ℤ) (step : ProofStep) : Bool :=
  match step.witnesses with
  | .huffman pol witnesses =>
    let width := nat step.width
    let width' := pred u width
    let bound := nat step.bound
    let aList := step.vectList
    let a := vtList aList
    let extremalChannels := extremalChannelsVt a width pol
    let bs := extremalChannels.map fun c => pruneExtremalVt pol c a
    let bounds := (bs.zip witnesses).map fun p => getBound u steps limit p.2 width' p.1
    let huffmanBound := sucmaxValueBoundHuffman u (bounds.map (the u.nat))
    !(decide (width = 0)) && ((aList.all fun xs => decide (sizeList xs = width)) &&
      (!(witnesses.isEmpty) &&
        (decide (sizeList extremalChannels = sizeList witnesses) &&
          ((bounds.all fun b => !(isNone b)) && decide (bound ≤ huffmanBound)))))
  | .successor _ => false

/-! ## Whole certificates -/

/-- `check_step`, `Checker.hs:469-474`. -/
def checkStep (u : Undef) (steps : ℤ → ProofStep) (limit : ℤ) (step : ProofStep) : Bool :=
  match step.witnesses with
  | .huffman _ _ => checkHuffman u steps limit step
  | .successor _ => checkSuccessors u steps limit step

/-- `all_interval_nat`, `Checker.hs:485-486`. -/
def allIntervalNat (p : ℕ → Bool) (i j : ℕ) : Bool :=
  if j ≤ i then true else p i && allIntervalNat p (i + 1) j
termination_by j - i

/-- `par`, `Checker.hs:123-124`: evaluates its first argument in parallel, returns the second. -/
def par {α β : Type} (_ : α) (b : β) : β := b

/-- `par_range_all`, `Checker.hs:488-496`. -/
def parRangeAll (f : ℕ → Bool) (lo n : ℕ) : Bool :=
  if n < 1000 then allIntervalNat f lo (lo + n)
  else
    let na := n / 2
    let a := parRangeAll f lo na
    let b := parRangeAll f (lo + na) (n - na)
    par b a && b
termination_by n
decreasing_by all_goals omega

/-- `check_proof`, `Checker.hs:498-506`. -/
def checkProof (u : Undef) (cert : ProofCert) : Bool :=
  decide (0 ≤ cert.length) &&
    parRangeAll (fun i => checkStep u cert.step (i : ℤ) (cert.step (i : ℤ))) 0 (nat cert.length)

/-- `check_proof_get_bound`, `Checker.hs:514-520`. -/
def checkProofGetBound (u : Undef) (cert : ProofCert) : Option (ℤ × ℤ) :=
  if checkProof u cert && decide (0 < cert.length) then
    let last := cert.step (cert.length - 1)
    some (last.width, last.bound)
  else none

end Sortnet.Checker
