import Verif.Model.Tree
import Verif.Model.Abstraction

/-!
# Model of the subsumption index

Transcription of `/repo/src/output_set/index.rs` (cited as `index.rs`).  The outer `Option` of every
function is `none` if the code panics or does not terminate.

The three implementations of the trait `IndexDirection` are three constructors of `Dir`.  The parallel
arrays `points`, `packed` and `values` are one list of entries, as in the model of the tree.
-/

namespace Sortnet.Index

variable {n : ℕ}

/-- The implementations of `IndexDirection`, `index.rs:9-12`. -/
inductive Dir where
  | lower
  | lowerInvert
  | upper
  deriving DecidableEq

/-- `TREE_THRESHOLD`, `index.rs:14`. -/
def treeThreshold : ℕ := 32

namespace Dir

/-- `lookup_dir`, `index.rs:59-61,125-127,210-212`. -/
def lookupDir : Dir → Bool
  | lower => false
  | lowerInvert => false
  | upper => true

/-- `can_improve`, `index.rs:63-69,129-135,214-220`. -/
def canImprove (d : Dir) (best : Option ℕ) (lo hi : ℕ) : Bool :=
  match best with
  | none => true
  | some best => match d with
    | lower => decide (hi > best)
    | lowerInvert => decide (hi > best)
    | upper => decide (lo < best)

/-- `does_improve`, `index.rs:71-77,137-143,222-228`. -/
def doesImprove (d : Dir) (best : Option ℕ) (value : ℕ) : Bool :=
  match best with
  | none => true
  | some best => match d with
    | lower => decide (value > best)
    | lowerInvert => decide (value > best)
    | upper => decide (value < best)

/-- `can_be_updated`, `index.rs:79-81,145-147,230-232`. -/
def canBeUpdated (d : Dir) (lo hi value : ℕ) : Bool :=
  match d with
  | lower => decide (lo ≤ value)
  | lowerInvert => decide (lo ≤ value)
  | upper => decide (hi ≥ value)

/-- `would_be_updated`, `index.rs:83-85,149-151,234-236`. -/
def wouldBeUpdated (d : Dir) (candidate lookup : ℕ) : Bool :=
  match d with
  | lower => decide (candidate ≤ lookup)
  | lowerInvert => decide (candidate ≤ lookup)
  | upper => decide (candidate ≥ lookup)

end Dir

/-- `a.iter().zip(b.iter()).all(|(x, y)| p(x, y))`.  Models code at `index.rs:239-242,246-249,253-256`. -/
def allZip {α : Type} (p : α → ℕ → Bool) (a : List α) (b : List ℕ) : Bool := (a.zip b).all fun q => p q.1 q.2

/-- `a.iter().enumerate().all(|(i, x)| p(x, b[i ^ mask]))` starting with index `i`; indexing out of
bounds panics.  Models code at `index.rs:156-159`. -/
def allXor {α : Type} (p : α → ℕ → Bool) (b : List ℕ) (mask : ℕ) : List α → ℕ → Option Bool
  | [], _ => some true
  | x :: xs, i => do
    let y ← b[i ^^^ mask]?
    if p x y then allXor p b mask xs (i + 1) else some false

/-- `(0..2).any(|invert| { let mask = invert * 3; .. })`.  Models code at `index.rs:154-155`. -/
def anyXor {α : Type} (p : α → ℕ → Bool) (a : List α) (b : List ℕ) : Option Bool := do
  let r ← allXor p b 0 a 0
  if r then some true else allXor p b 3 a 0

namespace Dir

/-- `test_abstraction_range`, `index.rs:87-92,153-161,238-243`. -/
def testRange (d : Dir) (rng : Ranges) (lookup : List ℕ) : Option Bool :=
  match d with
  | lower => some (allZip (fun r l => decide (r.1 ≤ l)) rng lookup)
  | lowerInvert => anyXor (fun r l => decide (r.1 ≤ l)) rng lookup
  | upper => some (allZip (fun r l => decide (r.2 ≥ l)) rng lookup)

/-- `test_abstraction_range_update`, `index.rs:94-99,163-171,245-250`. -/
def testRangeUpdate (d : Dir) (rng : Ranges) (lookup : List ℕ) : Option Bool :=
  match d with
  | lower => some (allZip (fun r l => decide (r.2 ≥ l)) rng lookup)
  | lowerInvert => anyXor (fun r l => decide (r.2 ≥ l)) rng lookup
  | upper => some (allZip (fun r l => decide (r.1 ≤ l)) rng lookup)

/-- `test_abstraction`, `index.rs:101-106,173-181,252-257`. -/
def testAbstraction (d : Dir) (candidate lookup : List ℕ) : Option Bool :=
  match d with
  | lower => some (allZip (fun c l => decide (c ≤ l)) candidate lookup)
  | lowerInvert => anyXor (fun c l => decide (c ≤ l)) candidate lookup
  | upper => some (allZip (fun c l => decide (c ≥ l)) candidate lookup)

/-- `test_abstraction_update`, `index.rs:33-35`. -/
def testAbstractionUpdate (d : Dir) (candidate lookup : List ℕ) : Option Bool := d.testAbstraction lookup candidate

/-- `test_precise`, `index.rs:108-115,183-200,259-266`.  The flag of the result is always `false` for
`Lower` and `Upper`, whose `Perm` has no flag. -/
def testPrecise (d : Dir) (candidate : Bitmap n) (candidateAbs : List ℕ) (lookup : Bitmap n)
    (lookupAbs : List ℕ) : Option (Option (Bool × (Fin n → Fin n))) :=
  match d with
  | lower => (candidate.subsumesPermuted lookup).map fun r => r.map fun p => (false, p)
  | lowerInvert => do
    let plain ← if allZip (fun c l => decide (c ≤ l)) candidateAbs lookupAbs then
      candidate.subsumesPermuted lookup else some none
    match plain with
    | some p => some (some (false, p))
    | none => (candidate.invert.subsumesPermuted lookup).map fun r => r.map fun p => (true, p)
  | upper => (lookup.subsumesPermuted candidate).map fun r => r.map fun p => (false, p)

/-- `test_precise_update`, `index.rs:44-51`. -/
def testPreciseUpdate (d : Dir) (candidate : Bitmap n) (candidateAbs : List ℕ) (lookup : Bitmap n)
    (lookupAbs : List ℕ) : Option Bool :=
  (d.testPrecise lookup lookupAbs candidate candidateAbs).map Option.isSome

end Dir

end Index

open Index

/-- `struct OutputSetIndex`, `index.rs:273-282`; `channels` is the parameter `n`, `packed_dim` is
`packedLen n`. -/
structure OutputSetIndex (n : ℕ) where
  trees : List (Tree (List UInt8))
  pointDim : ℕ
  loose : List (Entry (List UInt8))

/-- `candidate_output_set.unpack_from_slice(packed)`.  The buffer is filled with `false` here and with
the previous candidate in the code; a complete packed set overwrites all of it (`C12_unpack_into`).
Models code at `index.rs:327,399,519,586`. -/
def unpackSet (n : ℕ) (packed : List UInt8) : Option (Bitmap n) := do
  let l ← unpackBits (List.replicate (2 ^ n) false) packed
  if h : l.length = 2 ^ n then some (Bitmap.ofList n l h) else none

namespace OutputSetIndex

variable {n : ℕ}

/-- `new`, `index.rs:285-296`. -/
def new (n : ℕ) : Option (OutputSetIndex n) := do
  let dim ← abstractionLen n
  some { trees := [], pointDim := dim, loose := [] }

/-- A witness of a lookup: the value, `Dir::Perm` and the stored set.  Models code at `index.rs:302`. -/
abbrev Hit (n : ℕ) := ℕ × (Bool × (Fin n → Fin n)) × Bitmap n

/-- `node_filter`, `index.rs:308-314,380-386`, with the best value so far. -/
def nodeFilter (d : Dir) (abs : List ℕ) (best : Option ℕ) (aug : Aug) (rng : Ranges) : Option Bool :=
  if d.canImprove best aug.lo aug.hi then d.testRange rng abs else some false

/-- `action` of `lookup_subsuming_with_abstraction`, `index.rs:316-347`.  It always continues. -/
def hitAction (d : Dir) (q : Bitmap n) (abs : List ℕ) (best : Option (Hit n)) (e : Entry (List UInt8)) :
    Option (Option (Hit n)) :=
  if !d.doesImprove (best.map Prod.fst) e.value then some best
  else do
    let ok ← d.testAbstraction e.point abs
    if !ok then some best
    else do
      let cand ← unpackSet n e.packed
      if cand.toList = q.toList then some (some (e.value, (false, id), cand))
      else do
        let perm ← d.testPrecise cand e.point q abs
        match perm with
        | some perm => some (some (e.value, perm, cand))
        | none => some best

/-- `lookup_subsuming_with_abstraction`, `index.rs:298-368`. -/
def lookupSubsuming (idx : OutputSetIndex n) (d : Dir) (q : Bitmap n) (abs : List ℕ) : Option (Option (Hit n)) := do
  let best ← idx.trees.foldlM (fun best tree => traverse tree best d.lookupDir
    (fun best aug rng => nodeFilter d abs (best.map Prod.fst) aug rng)
    (fun best e => (hitAction d q abs best e).map fun s => (s, true))) none
  idx.loose.foldlM (hitAction d q abs) best

/-- `action` of `lookup_with_abstraction`, `index.rs:388-416`. -/
def valueAction (d : Dir) (q : Bitmap n) (abs : List ℕ) (best : Option ℕ) (e : Entry (List UInt8)) :
    Option (Option ℕ) :=
  if !d.doesImprove best e.value then some best
  else do
    let ok ← d.testAbstraction e.point abs
    if !ok then some best
    else do
      let cand ← unpackSet n e.packed
      if cand.toList ≠ q.toList then do
        let perm ← d.testPrecise cand e.point q abs
        if perm.isNone then some best else some (some e.value)
      else some (some e.value)

/-- `lookup_with_abstraction`, `index.rs:370-437`. -/
def lookup (idx : OutputSetIndex n) (d : Dir) (q : Bitmap n) (abs : List ℕ) : Option (Option ℕ) := do
  let best ← idx.trees.foldlM (fun best tree => traverse tree best d.lookupDir (nodeFilter d abs)
    (fun best e => (valueAction d q abs best e).map fun s => (s, true))) none
  idx.loose.foldlM (valueAction d q abs) best

/-- The loop `index.rs:455-472`; the list of trees is reversed, so that the head is popped first. -/
def mergeTrees (d : Dir) : List (Tree (List UInt8)) → List (Entry (List UInt8)) →
    Option (List (Tree (List UInt8)) × List (Entry (List UInt8)))
  | [], loose => some ([], loose)
  | tree :: rest, loose =>
    if Index.len tree > loose.length then some (tree :: rest, loose)
    else do
      let loose ← traverse tree loose d.lookupDir (fun _ _ _ => some true) (fun l e => some (l ++ [e], true))
      mergeTrees d rest loose

/-- `insert_new_unchecked_with_abstraction`, `index.rs:439-483`.  `sort_by_key(|tree| Reverse(tree.len()))`
is stable, as is insertion sort. -/
def insertNew (idx : OutputSetIndex n) (d : Dir) (q : Bitmap n) (abs : List ℕ) (value : ℕ) :
    Option (OutputSetIndex n) :=
  let loose := idx.loose ++ [{ point := abs, packed := q.packed, value := value }]
  if loose.length ≥ treeThreshold then do
    let sorted := idx.trees.insertionSort fun a b => Index.len b ≤ Index.len a
    let (trees, loose) ← mergeTrees d sorted.reverse loose
    let tree ← Index.new idx.pointDim loose
    some { idx with trees := trees.reverse ++ [tree], loose := [] }
  else some { idx with loose := loose }

/-- `node_filter` of `insert_with_abstraction`, `index.rs:502-506`. -/
def updateFilter (d : Dir) (abs : List ℕ) (value : ℕ) (aug : Aug) (rng : Ranges) : Option Bool :=
  if d.canBeUpdated aug.lo aug.hi value then d.testRangeUpdate rng abs else some false

/-- `action` of `insert_with_abstraction`, `index.rs:508-536`.  The captured variable
`updated_in_place` is the user state here. -/
def updateAction (d : Dir) (q : Bitmap n) (abs : List ℕ) (value : ℕ) (updated : Bool) (e : Entry (List UInt8)) :
    Option (Bool × ℕ × Verdict) :=
  if !d.wouldBeUpdated e.value value then some (updated, e.value, .retain)
  else do
    let ok ← d.testAbstractionUpdate e.point abs
    if !ok then some (updated, e.value, .retain)
    else do
      let cand ← unpackSet n e.packed
      if cand.toList = q.toList then
        if updated then none else some (true, value, .retain)
      else do
        let ok ← d.testPreciseUpdate cand e.point q abs
        if !ok then some (updated, e.value, .retain) else some (updated, e.value, .remove)

/-- The loop over the trees, `index.rs:538-540`. -/
def updateTrees (d : Dir) (q : Bitmap n) (abs : List ℕ) (value : ℕ) :
    Bool → List (Tree (List UInt8)) → Option (Bool × List (Tree (List UInt8)))
  | updated, [] => some (updated, [])
  | updated, tree :: rest => do
    let (tree, updated) ← traverseMut tree updated d.lookupDir (fun _ aug rng => updateFilter d abs value aug rng)
      (updateAction d q abs value)
    let (updated, rest) ← updateTrees d q abs value updated rest
    some (updated, tree :: rest)

/-- The loop `index.rs:546-571`. -/
def updateLoose (d : Dir) (q : Bitmap n) (abs : List ℕ) (value : ℕ) (updated : Bool)
    (loose : List (Entry (List UInt8))) (index : ℕ) : Option (Bool × List (Entry (List UInt8))) :=
  if h : index < loose.length then do
    let (updated, v, verdict) ← updateAction d q abs value updated loose[index]
    if verdict = .remove then
      -- `swap_remove`
      match hl : loose.getLast? with
      | none => none
      | some last => updateLoose d q abs value updated ((loose.set index last).dropLast) index
    else updateLoose d q abs value updated (loose.set index { loose[index] with value := v }) (index + 1)
  else some (updated, loose)
termination_by loose.length - index
decreasing_by
  · simp only [List.length_dropLast, List.length_set]; omega
  · simp only [List.length_set]; omega

/-- `insert_with_abstraction`, `index.rs:485-579`; returns the new index and the value. -/
def insert (idx : OutputSetIndex n) (d : Dir) (q : Bitmap n) (abs : List ℕ) (value : ℕ) :
    Option (OutputSetIndex n × ℕ) := do
  let best ← idx.lookup d q abs
  if !d.doesImprove best value then do
    let best ← best
    some (idx, best)
  else do
    let (updated, trees) ← updateTrees d q abs value false idx.trees
    let trees := trees.filter fun tree => !Index.isEmpty tree
    let (updated, loose) ← updateLoose d q abs value updated idx.loose 0
    let idx := { idx with trees := trees, loose := loose }
    if updated then some (idx, value)
    else do
      let idx ← idx.insertNew d q abs value
      some (idx, value)

/-- The action of `for_each`, `index.rs:585-590`; the calls of the user's action are collected. -/
def eachAction (n : ℕ) (l : List (Bitmap n × List ℕ × ℕ)) (e : Entry (List UInt8)) :
    Option (List (Bitmap n × List ℕ × ℕ)) := do
  let s ← unpackSet n e.packed
  some (l ++ [(s, e.point, e.value)])

/-- `for_each`, `index.rs:581-604`: the arguments of the calls of the action, in order. -/
def forEach (idx : OutputSetIndex n) (d : Dir) : Option (List (Bitmap n × List ℕ × ℕ)) := do
  let l ← idx.trees.foldlM (fun l tree => traverse tree l d.lookupDir (fun _ _ _ => some true)
    (fun l e => (eachAction n l e).map fun l => (l, true))) []
  idx.loose.foldlM (eachAction n) l

/-- `is_empty`, `index.rs:606-608`. -/
def isEmpty (idx : OutputSetIndex n) : Bool := idx.loose.isEmpty && idx.trees.isEmpty

/-- `len`, `index.rs:610-612`. -/
def len (idx : OutputSetIndex n) : ℕ := idx.loose.length + (idx.trees.map Index.len).sum

end OutputSetIndex

end Sortnet
