import Verif.Model.Canon

/-!
# Model of the memory management of `Canonicalize`

`Model/Canon.lean` treats candidates as values.  The code (`/repo/src/output_set/canon.rs`, cited as `canon.rs`) stores all
bitmaps in one vector and recycles the memory of removed candidates with a free list; the layers contain indices.  This is
the model with the memory.  The computations on a single candidate are those of `Model/Canon.lean`.

Conventions.
* The result `none` is a panic (an index or slice out of bounds, a full `CVec`) or non-termination.
* `freeList` has the end of the vector, where `push` and `pop` work, at the front.
-/

namespace Sortnet

namespace Canon

open Subsume (setBits trailingZeros isUnique swapPerm)

variable {n : ℕ}

/-- `struct CandidateData`, `canon.rs:8-14`. -/
structure Data (n : ℕ) where
  invert : Bool
  perm : Fin n → Fin n
  fingerprint : List ℕ
  partition : List (BitVec n × ℕ)
  partitionScore : ℕ × ℕ

/-- The data together with a bitmap.  Models code at `canon.rs:8-14,44-56`. -/
def Data.cand (d : Data n) (s : Bitmap n) : Cand n :=
  { bitmap := s, invert := d.invert, perm := d.perm, fingerprint := d.fingerprint, partition := d.partition
    partitionScore := d.partitionScore }

/-- A candidate without its bitmap.  Models code at `canon.rs:8-14,44-56`. -/
def Cand.data (c : Cand n) : Data n :=
  { invert := c.invert, perm := c.perm, fingerprint := c.fingerprint, partition := c.partition
    partitionScore := c.partitionScore }

/-- `CandidateData::score`, `canon.rs:17-23`. -/
def Data.score (d : Data n) : List ℕ := d.partitionScore.1 :: d.partitionScore.2 :: d.fingerprint

/-- `struct Canonicalize`, `canon.rs:44-56`, without the scratch buffer, which is cleared before each use
(`output_set.rs:219-220,242-243`).  `bitmap_len` is `2 ^ n`. -/
structure Arena (n : ℕ) where
  used : ℕ
  bitmaps : List Bool
  data : List (Data n)
  freeList : List ℕ
  layer : List ℕ
  nextLayer : List ℕ
  fixed : ℕ
  temp : Bitmap n

namespace Arena

/-- The slice `bitmaps[index * bitmap_len..(index + 1) * bitmap_len]`, `canon.rs:63,74`. -/
def slice (a : Arena n) (i : ℕ) : List Bool := (a.bitmaps.drop (i * 2 ^ n)).take (2 ^ n)

/-- `get!` and reading through `get_mut!`, `canon.rs:58-78`. -/
def get (a : Arena n) (i : ℕ) : Option (Bitmap n) :=
  if h : (i + 1) * 2 ^ n ≤ a.bitmaps.length then
    some (Bitmap.ofList n (a.slice i) (by
      unfold slice
      rw [List.length_take, List.length_drop]
      rw [Nat.add_mul] at h
      omega))
  else none

/-- Writing through `get_mut!`, `canon.rs:58-67`, and the copy in `canon.rs:101-102`. -/
def put (a : Arena n) (i : ℕ) (s : Bitmap n) : Option (Arena n) :=
  if (i + 1) * 2 ^ n ≤ a.bitmaps.length then
    some { a with bitmaps := a.bitmaps.take (i * 2 ^ n) ++ s.toList ++ a.bitmaps.drop ((i + 1) * 2 ^ n) }
  else none

/-- `self.data[index] = data`.  Models code at `canon.rs:100`. -/
def setData (a : Arena n) (i : ℕ) (d : Data n) : Option (Arena n) :=
  if i < a.data.length then some { a with data := a.data.set i d } else none

/-- `self.free_list.push(index)`.  Models code at `canon.rs:154,240,295,305,331,356,382`. -/
def free (a : Arena n) (i : ℕ) : Arena n := { a with freeList := i :: a.freeList }

/-- `alloc!`, `canon.rs:95-113`. -/
def alloc (a : Arena n) (s : Bitmap n) (d : Data n) : Option (Arena n × ℕ) :=
  match a.freeList with
  | i :: rest => do
    let a ← ({ a with freeList := rest } : Arena n).setData i d
    let a ← a.put i s
    some (a, i)
  | [] => some ({ a with data := a.data ++ [d], bitmaps := a.bitmaps ++ s.toList }, a.data.length)

/-- `self.layer.retain(..)` with a closure that puts the removed indices on the free list, `canon.rs:236-243,291-298,327-334`. -/
def retain (a : Arena n) (keep : ℕ → Bool) : Arena n :=
  { a with layer := a.layer.filter keep, freeList := (a.layer.filter fun i => !keep i).reverse ++ a.freeList }

/-- The capacity of a `CVec` (`output_set.rs:18`) suffices for the partition and the fingerprint. -/
def fits (d : Data n) : Bool := decide (d.partition.length ≤ maxChannels) && decide (d.fingerprint.length ≤ maxChannels)

/-- `Canonicalize::new`, `canon.rs:116-161`. -/
def new (s : Bitmap n) (inversion : Bool) : Option (Arena n) := do
  let init : Cand n :=
    { bitmap := s, invert := false, perm := fun i => i, fingerprint := [], partition := [],
      partitionScore := (0, 0) }
  let r ← newLoop (List.finRange n).reverse init n
  let a : Arena n :=
    { used := r.2, bitmaps := [], data := [], freeList := [], layer := [], nextLayer := [], fixed := 0, temp := s }
  let r1 ← a.alloc r.1.bitmap r.1.data
  let a : Arena n := { r1.1 with layer := r1.1.layer ++ [r1.2] }
  if inversion then
    let r2 ← a.alloc r.1.bitmap { r.1.data with invert := true }
    let b ← r2.1.get r2.2
    let a ← r2.1.put r2.2 b.invert
    let inverted ← a.get r2.2
    let identity ← a.get r1.2
    if inverted.toList = identity.toList then some (a.free r2.2)
    else some { a with layer := a.layer ++ [r2.2] }
  else some a

/-- Modifies the data of one candidate.  Models code at `canon.rs:205,248,392`. -/
def updateData (f : Cand n → Option (Cand n)) (a : Arena n) (i : ℕ) : Option (Arena n) := do
  let s ← a.get i
  let d ← a.data[i]?
  let c ← f (d.cand s)
  if fits c.data then a.setData i c.data else none

/-- `Canonicalize::initialize_partitions`, `canon.rs:192-222`. -/
def initializePartitions (a : Arena n) : Option (Arena n) := a.layer.foldlM (updateData (initCand a.used)) a

/-- The score of the element returned by `min_by` in `canon.rs:226-232`: the first maximum. -/
def bestScore (a : Arena n) : Option (List ℕ) := do
  let scores ← a.layer.mapM fun i => (a.data[i]?).map Data.score
  match scores with
  | [] => none
  | s :: ss => some (ss.foldl (fun best t => if best < t then t else best) s)

/-- `Canonicalize::prune_using_fingerprints`, `canon.rs:224-244`. -/
def pruneUsingFingerprints (a : Arena n) : Option (Arena n) := do
  let best ← a.bestScore
  some (a.retain fun i => (a.data[i]?).map Data.score == some best)

/-- `canon.rs:256-270`. -/
def moveTo (a : Arena n) (source : Fin n) (i : ℕ) : Option (Arena n) := do
  let d ← a.data[i]?
  let a ← a.setData i { d with partition := d.partition.dropLast }
  if source.val ≠ a.fixed then
    let f ← channel? n a.fixed
    let s ← a.get i
    let a ← a.put i (s.swapChannels source f)
    let d ← a.data[i]?
    a.setData i { d with
      perm := swapPerm d.perm source f
      partition := d.partition.map fun p => (movePart source f p.1, p.2) }
  else some a

/-- The loop of `Canonicalize::move_singleton`, `canon.rs:247-271`. -/
def moveLoop : List ℕ → Arena n → Option (Arena n × Bool)
  | [], a => some (a, true)
  | i :: is, a => do
    let d ← a.data[i]?
    match d.partition.getLast? with
    | none => some (a, false)
    | some p => do
      let unique ← isUnique p.1
      if unique then
        let source ← trailingZeros p.1
        let a ← a.moveTo source i
        moveLoop is a
      else some (a, false)

/-- `Canonicalize::move_singleton`, `canon.rs:246-274`. -/
def moveSingleton (a : Arena n) : Option (Arena n × Bool) := do
  let r ← moveLoop a.layer a
  if r.2 then some ({ r.1 with fixed := r.1.fixed + 1 }, true) else some (r.1, false)

/-- `while self.move_singleton() { prune = true; }`, `canon.rs:169-172`. -/
def moveSingletons (a : Arena n) (prune : Bool) : Option (Arena n × Bool) := do
  let r ← moveSingleton a
  if r.2 then moveSingletons r.1 true else some (r.1, prune)
partial_fixpoint

/-- All slices of the layer are in bounds.  Models code at `canon.rs:58-93`. -/
def layerInBounds (a : Arena n) : Bool := a.layer.all fun i => decide ((i + 1) * 2 ^ n ≤ a.bitmaps.length)

/-- `min_by_key(|&index| get!(reborrow, index))`, `canon.rs:285-289`, with the best index so far. -/
def minFrom (a : Arena n) : List ℕ → ℕ → ℕ
  | [], best => best
  | j :: js, best => minFrom a js (if a.slice j < a.slice best then j else best)

/-- `min_by_key(|&index| get!(reborrow, index))`, `canon.rs:285-289`: the first index with a minimal bitmap. -/
def minIndex (a : Arena n) : Option ℕ :=
  match a.layer with
  | [] => none
  | i :: is => some (minFrom a is i)

/-- The order of `sort_by_key(|&index| get!(reborrow, index))`, `canon.rs:302`. -/
def sliceLe (a : Arena n) (i j : ℕ) : Prop := a.slice i ≤ a.slice j

instance (a : Arena n) : DecidableRel a.sliceLe := fun i j => by unfold sliceLe; infer_instance

/-- The loop of `dedup_by` in `canon.rs:303-310`: the retained indices and the removed ones. -/
def dedupLoop (a : Arena n) (repr : ℕ) : List ℕ → List ℕ × List ℕ
  | [] => ([repr], [])
  | test :: is =>
    if a.slice test = a.slice repr then
      let r := dedupLoop a repr is
      (r.1, test :: r.2)
    else
      let r := dedupLoop a test is
      (repr :: r.1, r.2)

/-- `sort_by_key` and `dedup_by`, `canon.rs:302-310`. -/
def sortDedup (a : Arena n) : Arena n :=
  match a.layer.insertionSort a.sliceLe with
  | [] => { a with layer := [] }
  | i :: is =>
    let r := dedupLoop a i is
    { a with layer := r.1, freeList := r.2.reverse ++ a.freeList }

/-- The loop of `canon.rs:318-323` with the variable `max_fingerprint`. -/
def recomputeLoop (hash : List ℕ → ℕ) : List ℕ → Arena n → ℕ → Option (Arena n × ℕ)
  | [], a, maxFingerprint => some (a, maxFingerprint)
  | i :: is, a, maxFingerprint => do
    let s ← a.get i
    let fingerprint := s.lowChannelsFingerprint hash a.fixed
    let d ← a.data[i]?
    let a ← match d.fingerprint with
      | [] => none
      | _ :: fs => a.setData i { d with fingerprint := fingerprint :: fs }
    recomputeLoop hash is a (max maxFingerprint fingerprint)

/-- `Canonicalize::prune`, `canon.rs:276-335`. -/
def prune (hash : List ℕ → ℕ) (recomputeFingerprints : Bool) (a : Arena n) : Option (Arena n) :=
  if a.layer.length = 1 then some a
  else if !a.layerInBounds then none
  else if a.fixed = a.used then do
    let m ← a.minIndex
    some (a.retain fun i => i == m)
  else
    let a := a.sortDedup
    if a.layer.length = 1 || !recomputeFingerprints then some a
    else do
      let r ← recomputeLoop hash a.layer a 0
      some (r.1.retain fun i => ((r.1.data[i]?).bind fun d => d.fingerprint.head?) == some r.2)

/-- The body of the inner loop of `individualize`, `canon.rs:343-382`; `max_fingerprint` is the number. -/
def individualizeStep (hash : List ℕ → ℕ) (fixed : Fin n) (index : ℕ) (st : Arena n × ℕ) (source : Fin n) :
    Option (Arena n × ℕ) := do
  let a := st.1
  let maxFingerprint := st.2
  let s ← a.get index
  let a := { a with temp := s }
  let a := { a with temp := a.temp.swapChannels source fixed }
  let fingerprint := a.temp.lowChannelsFingerprint hash (fixed.val + 1)
  if fingerprint < maxFingerprint then some (a, maxFingerprint)
  else
    let a := if fingerprint > maxFingerprint then
        { a with nextLayer := [], freeList := a.nextLayer.reverse ++ a.freeList }
      else a
    let d ← a.data[index]?
    let last ← d.partition.getLast?
    let d := { d with perm := swapPerm d.perm source fixed }
    let d := { d with partition := d.partition.dropLast ++ [(last.1 &&& ~~~ bit source, last.2)] }
    let d := { d with partition := d.partition.map fun p => (movePart source fixed p.1, p.2) }
    let r ← a.alloc a.temp d
    some ({ r.1 with nextLayer := r.1.nextLayer ++ [r.2] }, max maxFingerprint fingerprint)

/-- The loop over `self.layer.drain(..)` in `individualize`, `canon.rs:339-383`.  The indices that remain are the first
argument. -/
def individualizeLoop (hash : List ℕ → ℕ) (fixed : Fin n) : List ℕ → Arena n × ℕ → Option (Arena n × ℕ)
  | [], st => some st
  | i :: is, st => do
    let d ← st.1.data[i]?
    let last ← d.partition.getLast?
    let st ← (setBits last.1).foldlM (individualizeStep hash fixed i) st
    individualizeLoop hash fixed is (st.1.free i, st.2)

/-- `Canonicalize::individualize`, `canon.rs:337-388`. -/
def individualize (hash : List ℕ → ℕ) (a : Arena n) : Option (Arena n) := do
  let fixed ← channel? n a.fixed
  let r ← individualizeLoop hash fixed a.layer ({ a with layer := [] }, 0)
  some { r.1 with layer := r.1.nextLayer, nextLayer := r.1.layer, fixed := r.1.fixed + 1 }

/-- `Canonicalize::refine`, `canon.rs:390-440`. -/
def refine (hash : List ℕ → ℕ) (a : Arena n) : Option (Arena n) :=
  a.layer.foldlM (updateData (refineCand hash a.fixed)) a

/-- `loop { .. }` of `Canonicalize::canonicalize`, `canon.rs:167-185`. -/
def loop (hash : List ℕ → ℕ) (a : Arena n) : Option (Arena n) := do
  let a ← a.pruneUsingFingerprints
  let r ← a.moveSingletons false
  let a ← if r.2 then r.1.prune hash true else some r.1
  if a.fixed = a.used then some a
  else
    let a ← a.individualize hash
    let a ← a.prune hash false
    if a.fixed = a.used then some a
    else
      let a ← a.refine hash
      loop hash a
partial_fixpoint

/-- `Canonicalize::canonicalize`, `canon.rs:163-190`. -/
def run (hash : List ℕ → ℕ) (a : Arena n) : Option (Bitmap n × Perm n) := do
  let a ← if a.used > 0 then do
      let a ← a.initializePartitions
      loop hash a
    else some a
  let index ← a.layer.head?
  let s ← a.get index
  let d ← a.data[index]?
  some (s, { invert := d.invert, perm := d.perm })

end Arena

end Canon

/-- `OutputSet::canonicalize`, `output_set.rs:627-639`, with the memory management of `Canonicalize`. -/
def Bitmap.canonicalizeArena {n : ℕ} (hash : List ℕ → ℕ) (s : Bitmap n) (inversion : Bool) :
    Option (Bitmap n × Perm n) :=
  if n = 0 then some (s, { invert := false, perm := fun i => i })
  else if n > maxChannels then none
  else do
    let a ← Canon.Arena.new s inversion
    a.run hash

end Sortnet
