import Verif.Model.Subsume
import Mathlib.Data.List.Sort
import Mathlib.Order.Lex

/-!
# Model of `Canonicalize`

Transcription of `/repo/src/output_set/canon.rs` (cited as `canon.rs`), of the fingerprints of
`/repo/src/output_set.rs` used by it and of `OutputSet::canonicalize`.

Conventions.
* The hash function (`FxHasher`, `output_set.rs:228-230,263-265`) is a parameter: an arbitrary function
  from the contents of the buffer to natural numbers.  Everything that is proved holds for every hash
  function, including ones with collisions.
* Candidates are values.  The code stores them in an arena (`bitmaps`, `data`) with a free list; the
  layers contain indices into it (`canon.rs:44-56,95-113`).  The arena is not modelled: an index in a
  layer stands for its candidate, and a candidate that is put on the free list disappears.
* Masks of type `u16` are bit vectors with `n` bits, as in `Verif.Model.Subsume`.
* The outer `Option` of a result is `none` if the code panics or does not terminate.  The main loop and
  the `while` loops are defined by `partial_fixpoint`, without fuel.
* Sorting (`sort_unstable`, `sort_by_key`) is insertion sort.  Where the code uses an unstable sort,
  equal keys belong to equal elements, so that the result is determined.
-/

namespace Sortnet

/-- The buffer of `OutputSet::low_channels_fingerprint`, `output_set.rs:213-226`; `lowFp_index_lt` shows
that only indices below its length are written. -/
def Bitmap.lowChannelsBuffer {n : ℕ} (s : Bitmap n) (lowChannels : ℕ) : ℕ → ℕ :=
  let weights := n + 1 - lowChannels
  let lowMask := BitVec.ofNat n (2 ^ lowChannels - 1)
  (indices n).foldl (fun buffer x =>
      let lowIndex := (x &&& lowMask).toNat
      let highWeight := countOnes (x &&& ~~~ lowMask)
      let i := highWeight + weights * lowIndex
      Function.update buffer i (buffer i + (s x).toNat))
    (fun _ => 0)

/-- `OutputSet::low_channels_fingerprint`, `output_set.rs:213-231`. -/
def Bitmap.lowChannelsFingerprint {n : ℕ} (hash : List ℕ → ℕ) (s : Bitmap n) (lowChannels : ℕ) : ℕ :=
  hash ((List.range ((n + 1 - lowChannels) * 2 ^ lowChannels)).map (s.lowChannelsBuffer lowChannels))

/-- The buffer of `OutputSet::low_channels_channel_fingerprint`, `output_set.rs:233-261`;
`lowChFp_index_lt` shows that only indices below its length are written. -/
def Bitmap.lowChannelsChannelBuffer {n : ℕ} (s : Bitmap n) (lowChannels : ℕ) (c : Fin n) : ℕ → ℕ :=
  let weights := n - lowChannels
  let lowMask := BitVec.ofNat n (2 ^ lowChannels - 1)
  let mask := bit c
  let highMask := ~~~ (lowMask ||| mask)
  maskLoop n mask.toNat (fun x (buffer : ℕ → ℕ) =>
      let lowIndex := (x &&& lowMask).toNat
      let highWeight := countOnes (x &&& highMask)
      let i := highWeight + weights * lowIndex
      Function.update buffer i (buffer i + (s x).toNat))
    mask.toNat (fun _ => 0)

/-- `OutputSet::low_channels_channel_fingerprint`, `output_set.rs:233-266`. -/
def Bitmap.lowChannelsChannelFingerprint {n : ℕ} (hash : List ℕ → ℕ) (s : Bitmap n) (lowChannels : ℕ)
    (c : Fin n) : ℕ :=
  hash ((List.range ((n - lowChannels) * 2 ^ lowChannels)).map (s.lowChannelsChannelBuffer lowChannels c))

namespace Canon

open Subsume (setBits trailingZeros isUnique swapPerm)

variable {n : ℕ}

/-- A candidate: its bitmap and its `CandidateData`, `canon.rs:8-14`.  `Perm` is `output_set.rs:674-678`.
A part of the partition is a mask and an identifier. -/
structure Cand (n : ℕ) where
  bitmap : Bitmap n
  invert : Bool
  perm : Fin n → Fin n
  fingerprint : List ℕ
  partition : List (BitVec n × ℕ)
  partitionScore : ℕ × ℕ

/-- `!x` for `x : usize`, `canon.rs:40`. -/
def notUsize (x : ℕ) : ℕ := 18446744073709551615 - x

/-- `CandidateData::score`, `canon.rs:17-23`.  The lexicographic order on the tuple of two numbers and a
slice is the lexicographic order on this list. -/
def Cand.score (c : Cand n) : List ℕ := c.partitionScore.1 :: c.partitionScore.2 :: c.fingerprint

/-- The key order of `canon.rs:27-29`: `(Reverse(part_mask.count_ones()), part_id, part_mask)`. -/
def partLe (a b : BitVec n × ℕ) : Prop :=
  countOnes b.1 < countOnes a.1 ∨ countOnes a.1 = countOnes b.1 ∧
    (a.2 < b.2 ∨ a.2 = b.2 ∧ a.1.toNat ≤ b.1.toNat)

instance : DecidableRel (partLe (n := n)) := fun a b => by unfold partLe; infer_instance

/-- `take_while(..).count()` of `canon.rs:31-36` on the reversed partition. -/
def singletonCount : List (BitVec n × ℕ) → Option ℕ
  | [] => some 0
  | p :: ps => do
    let unique ← isUnique p.1
    if unique then
      let k ← singletonCount ps
      some (k + 1)
    else some 0

/-- `CandidateData::sort_partition`, `canon.rs:25-41`. -/
def sortPartition (c : Cand n) : Option (Cand n) := do
  let partition := c.partition.insertionSort partLe
  let count ← singletonCount partition.reverse
  let first ← partition.head?
  some { c with partition := partition, partitionScore := (count, notUsize (countOnes first.1)) }

/-- `struct Canonicalize`, `canon.rs:44-56`, without the arena and the scratch buffers. -/
structure St (n : ℕ) where
  used : ℕ
  layer : List (Cand n)
  fixed : ℕ

/-- A channel number as an index into the bitmap; `none` if out of bounds.  Models code at `canon.rs:142`. -/
def channel? (n i : ℕ) : Option (Fin n) := if h : i < n then some ⟨i, h⟩ else none

/-- The loop of `canon.rs:138-144` over the given channels. -/
def newLoop : List (Fin n) → Cand n → ℕ → Option (Cand n × ℕ)
  | [], c, used => some (c, used)
  | ch :: chs, c, used =>
    if c.bitmap.isChannelUnconstrained ch then do
      let last ← if used = 0 then none else channel? n (used - 1)
      newLoop chs { c with bitmap := c.bitmap.swapChannels ch last, perm := swapPerm c.perm ch last }
        (used - 1)
    else newLoop chs c used

/-- `Canonicalize::new`, `canon.rs:116-161`. -/
def new (s : Bitmap n) (inversion : Bool) : Option (St n) := do
  let init : Cand n :=
    { bitmap := s, invert := false, perm := fun i => i, fingerprint := [], partition := [],
      partitionScore := (0, 0) }
  let (c, used) ← newLoop (List.finRange n).reverse init n
  let inverted : Cand n := { c with bitmap := c.bitmap.invert, invert := true }
  let layer := if inversion then
      if inverted.bitmap.toList = c.bitmap.toList then [c] else [c, inverted]
    else [c]
  some { used := used, layer := layer, fixed := 0 }

/-- Order of `(u64, usize)` pairs, `canon.rs:199,417`. -/
def fpLe (a b : ℕ × Fin n) : Prop := a.1 < b.1 ∨ a.1 = b.1 ∧ a.2 ≤ b.2

instance : DecidableRel (fpLe (n := n)) := fun a b => by unfold fpLe; infer_instance

/-- The loop `canon.rs:207-218` and `canon.rs:422-433`: the pushed parts and the final `part_id`. -/
def groupLoop : List (ℕ × Fin n) → ℕ → BitVec n → ℕ → List (BitVec n × ℕ) × ℕ
  | [], _, partMask, partId => ([(partMask, partId)], partId)
  | (fingerprint, ch) :: rest, partFingerprint, partMask, partId =>
    if partFingerprint ≠ fingerprint then
      let r := groupLoop rest fingerprint (0#n ||| bit ch) (partId + 1)
      ((partMask, partId) :: r.1, r.2)
    else groupLoop rest partFingerprint (partMask ||| bit ch) partId

/-- `canon.rs:195-218` and `canon.rs:402-433` for the given channels: the pushed parts, the pushed
fingerprints and the final `part_id`.  `none` if `fingerprints[0]` is out of bounds. -/
def split (fp : Fin n → ℕ) (channels : List (Fin n)) (partId : ℕ) :
    Option (List (BitVec n × ℕ) × List ℕ × ℕ) :=
  let fingerprints := (channels.map fun ch => (fp ch, ch)).insertionSort fpLe
  match fingerprints with
  | [] => none
  | f :: _ =>
    let r := groupLoop fingerprints f.1 0#n partId
    some (r.1, fingerprints.map (·.1), r.2)

/-- `Canonicalize::initialize_partitions`, `canon.rs:192-222`, for one candidate.  The partition and the
fingerprint are empty before. -/
def initCand (used : ℕ) (c : Cand n) : Option (Cand n) := do
  let r ← split c.bitmap.channelFingerprint ((List.finRange n).filter fun ch => ch.val < used) 0
  sortPartition { c with partition := c.partition ++ r.1, fingerprint := c.fingerprint ++ r.2.1 }

/-- `Canonicalize::initialize_partitions`, `canon.rs:192-222`. -/
def initializePartitions (st : St n) : Option (St n) := do
  let layer ← st.layer.mapM (initCand st.used)
  some { st with layer := layer }

/-- The element returned by `min_by(|a, b| b.cmp(a))`, that is, the first maximum.
Models code at `canon.rs:228-231`. -/
def bestScore : List (Cand n) → Option (List ℕ)
  | [] => none
  | c :: cs => some (cs.foldl (fun best d => if best < d.score then d.score else best) c.score)

/-- `Canonicalize::prune_using_fingerprints`, `canon.rs:224-244`. -/
def pruneUsingFingerprints (st : St n) : Option (St n) := do
  let best ← bestScore st.layer
  some { st with layer := st.layer.filter fun c => c.score = best }

/-- `canon.rs:265-269` and `canon.rs:372-376`: a part after exchanging two channels, when the source
channel is not in any part. -/
def movePart (source fixed : Fin n) (part : BitVec n) : BitVec n :=
  let fixedPresent := (part &&& bit fixed) != 0#n
  (part &&& ~~~ bit fixed) ||| (if fixedPresent then bit source else 0#n)

/-- `canon.rs:256-270`: the last part is popped and its channel becomes fixed. -/
def moveTo (fixed : ℕ) (source : Fin n) (c : Cand n) : Option (Cand n) :=
  let c := { c with partition := c.partition.dropLast }
  if source.val ≠ fixed then do
    let f ← channel? n fixed
    some { c with
      bitmap := c.bitmap.swapChannels source f
      perm := swapPerm c.perm source f
      partition := c.partition.map fun p => (movePart source f p.1, p.2) }
  else some c

/-- The loop of `Canonicalize::move_singleton`, `canon.rs:247-271`.  Candidates that precede the one
where the loop returns `false` stay modified. -/
def moveLoop (fixed : ℕ) : List (Cand n) → Option (List (Cand n) × Bool)
  | [] => some ([], true)
  | c :: cs =>
    match c.partition.getLast? with
    | none => some (c :: cs, false)
    | some p => do
      let unique ← isUnique p.1
      if unique then
        let source ← trailingZeros p.1
        let c' ← moveTo fixed source c
        let r ← moveLoop fixed cs
        some (c' :: r.1, r.2)
      else some (c :: cs, false)

/-- `Canonicalize::move_singleton`, `canon.rs:246-274`. -/
def moveSingleton (st : St n) : Option (St n × Bool) := do
  let r ← moveLoop st.fixed st.layer
  if r.2 then some ({ st with layer := r.1, fixed := st.fixed + 1 }, true)
  else some ({ st with layer := r.1 }, false)

/-- `while self.move_singleton() { prune = true; }`, `canon.rs:169-172`. -/
def moveSingletons (st : St n) (prune : Bool) : Option (St n × Bool) := do
  let r ← moveSingleton st
  if r.2 then moveSingletons r.1 true else some (r.1, prune)
partial_fixpoint

/-- The order on output sets, `output_set.rs:46-65`. -/
def bitmapLe (a b : Cand n) : Prop := a.bitmap.toList ≤ b.bitmap.toList

instance : DecidableRel (bitmapLe (n := n)) := fun a b => by unfold bitmapLe; infer_instance

/-- `min_by_key(|index| get!(..))`, `canon.rs:285-289`: the first candidate with a minimal bitmap. -/
def minBitmap : List (Cand n) → Option (Cand n)
  | [] => none
  | c :: cs => some (cs.foldl (fun best d => if d.bitmap.toList < best.bitmap.toList then d else best) c)

/-- `dedup_by` of `canon.rs:303-310`; `repr` is the last retained candidate. -/
def dedupLoop (repr : Cand n) : List (Cand n) → List (Cand n)
  | [] => [repr]
  | c :: cs =>
    if c.bitmap.toList = repr.bitmap.toList then dedupLoop repr cs else repr :: dedupLoop c cs

/-- `dedup_by`, `canon.rs:303-310`. -/
def dedup : List (Cand n) → List (Cand n)
  | [] => []
  | c :: cs => dedupLoop c cs

/-- `canon.rs:319-321` for one candidate; `none` if `fingerprint[0]` is out of bounds. -/
def recompute (hash : List ℕ → ℕ) (fixed : ℕ) (c : Cand n) : Option (Cand n × ℕ) :=
  let fingerprint := c.bitmap.lowChannelsFingerprint hash fixed
  match c.fingerprint with
  | [] => none
  | _ :: fs => some ({ c with fingerprint := fingerprint :: fs }, fingerprint)

/-- `Canonicalize::prune`, `canon.rs:276-335`. -/
def prune (hash : List ℕ → ℕ) (recomputeFingerprints : Bool) (st : St n) : Option (St n) :=
  if st.layer.length = 1 then some st
  else if st.fixed = st.used then do
    let c ← minBitmap st.layer
    some { st with layer := [c] }
  else
    let layer := dedup (st.layer.insertionSort bitmapLe)
    if layer.length = 1 || !recomputeFingerprints then some { st with layer := layer }
    else do
      let cs ← layer.mapM (recompute hash st.fixed)
      let maxFingerprint := cs.foldl (fun m p => max m p.2) 0
      some { st with layer := (cs.filter fun p => p.2 = maxFingerprint).map (·.1) }

/-- The state of the loops of `individualize`: `max_fingerprint` and `next_layer`.
Models code at `canon.rs:337-385`. -/
structure IndState (n : ℕ) where
  maxFingerprint : ℕ
  nextLayer : List (Cand n)

/-- `canon.rs:363-379`. -/
def individual (c : Cand n) (temp : Bitmap n) (source fixed : Fin n) (last : BitVec n × ℕ) : Cand n :=
  { c with
    bitmap := temp
    perm := swapPerm c.perm source fixed
    partition := (c.partition.dropLast ++ [(last.1 &&& ~~~ bit source, last.2)]).map fun p =>
      (movePart source fixed p.1, p.2) }

/-- The body of the inner loop of `individualize`, `canon.rs:343-379`. -/
def individualizeStep (hash : List ℕ → ℕ) (fixed : Fin n) (c : Cand n) (last : BitVec n × ℕ)
    (ist : IndState n) (source : Fin n) : IndState n :=
  let temp := c.bitmap.swapChannels source fixed
  let fingerprint := temp.lowChannelsFingerprint hash (fixed.val + 1)
  if fingerprint > ist.maxFingerprint then
    { maxFingerprint := fingerprint, nextLayer := [individual c temp source fixed last] }
  else if fingerprint < ist.maxFingerprint then ist
  else { ist with nextLayer := ist.nextLayer ++ [individual c temp source fixed last] }

/-- The outer loop of `individualize`, `canon.rs:339-383`. -/
def individualizeLoop (hash : List ℕ → ℕ) (fixed : Fin n) : List (Cand n) → IndState n → Option (IndState n)
  | [], ist => some ist
  | c :: cs, ist => do
    let last ← c.partition.getLast?
    individualizeLoop hash fixed cs ((setBits last.1).foldl (individualizeStep hash fixed c last) ist)

/-- `Canonicalize::individualize`, `canon.rs:337-388`. -/
def individualize (hash : List ℕ → ℕ) (st : St n) : Option (St n) := do
  let fixed ← channel? n st.fixed
  let ist ← individualizeLoop hash fixed st.layer { maxFingerprint := 0, nextLayer := [] }
  some { st with layer := ist.nextLayer, fixed := st.fixed + 1 }

/-- The loop over the parts in `refine`, `canon.rs:399-436`. -/
def refineParts (fp : Fin n → ℕ) : List (BitVec n × ℕ) → ℕ → Option (List (BitVec n × ℕ) × List ℕ)
  | [], _ => some ([], [])
  | p :: ps, partId => do
    let r ← split fp (setBits p.1) partId
    let rest ← refineParts fp ps (r.2.2 + 1)
    some (r.1 ++ rest.1, r.2.1 ++ rest.2)

/-- `Canonicalize::refine`, `canon.rs:390-440`, for one candidate. -/
def refineCand (hash : List ℕ → ℕ) (fixed : ℕ) (c : Cand n) : Option (Cand n) := do
  let r ← refineParts (c.bitmap.lowChannelsChannelFingerprint hash fixed) c.partition 0
  sortPartition { c with partition := r.1, fingerprint := r.2 }

/-- `Canonicalize::refine`, `canon.rs:390-440`. -/
def refine (hash : List ℕ → ℕ) (st : St n) : Option (St n) := do
  let layer ← st.layer.mapM (refineCand hash st.fixed)
  some { st with layer := layer }

/-- `loop { .. }` of `Canonicalize::canonicalize`, `canon.rs:167-185`. -/
def loop (hash : List ℕ → ℕ) (st : St n) : Option (St n) := do
  let st ← pruneUsingFingerprints st
  let r ← moveSingletons st false
  let st ← if r.2 then prune hash true r.1 else some r.1
  if st.fixed = st.used then some st
  else
    let st ← individualize hash st
    let st ← prune hash false st
    if st.fixed = st.used then some st
    else
      let st ← refine hash st
      loop hash st
partial_fixpoint

/-- `Canonicalize::canonicalize`, `canon.rs:163-190`. -/
def run (hash : List ℕ → ℕ) (st : St n) : Option (Cand n) := do
  let st ← if st.used > 0 then do
      let st ← initializePartitions st
      loop hash st
    else some st
  st.layer.head?

end Canon

/-- `struct Perm`, `output_set.rs:674-678`. -/
structure Perm (n : ℕ) where
  invert : Bool
  perm : Fin n → Fin n

/-- `OutputSet::canonicalize`, `output_set.rs:627-639`: the new bitmap and the returned `Perm`.
`Perm::identity` (`output_set.rs:681-686`, called in `canon.rs:132`) panics if the channels do not fit
into a `CVec`. -/
def Bitmap.canonicalize {n : ℕ} (hash : List ℕ → ℕ) (s : Bitmap n) (inversion : Bool) :
    Option (Bitmap n × Perm n) :=
  if n = 0 then some (s, { invert := false, perm := fun i => i })
  else if n > maxChannels then none
  else do
    let st ← Canon.new s inversion
    let c ← Canon.run hash st
    some (c.bitmap, { invert := c.invert, perm := c.perm })

end Sortnet
