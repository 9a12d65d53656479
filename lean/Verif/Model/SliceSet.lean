import Verif.Model.Abstraction
import Verif.Model.Canon

/-!
# Model of `OutputSet` on slices

`Model/OutputSet.lean` has a bitmap as a function on bit vectors of the right width, so that an index is never out of
bounds, and buffers as functions on the natural numbers.  This file is the transcription of
`/repo/src/output_set.rs` (cited as `output_set.rs`) on slices: a bitmap is a list of booleans, an index is a number, the
buffers are lists, and the vectors with fixed capacity (`ArrayVec`) keep their capacity.

`none` is a panic, nontermination, a violated precondition of an `unsafe` function (undefined behaviour), or an
arithmetic overflow.

`usize` is a natural number, except for `!` and `count_ones`, which are those for 64 bits; the values are far below
`2^64` (lengths of slices and numbers below them).
-/

namespace Sortnet.Slice

variable {α σ : Type}

/-! ## Slices and vectors -/

/-- `slice[i] = v`; panics if the index is out of bounds.  Reading `slice[i]` is `l[i]?`.
Models code at `output_set.rs:151`. -/
def put (l : List α) (i : ℕ) (v : α) : Option (List α) := if i < l.length then some (l.set i v) else none

/-- `slice[i] += k`.  Models code at `output_set.rs:151`. -/
def add (l : List ℕ) (i k : ℕ) : Option (List ℕ) := do
  let v ← l[i]?
  put l i (v + k)

/-- `slice.swap(i, j)`.  Models code at `output_set.rs:618`. -/
def swap (l : List α) (i j : ℕ) : Option (List α) := do
  let a ← l[i]?
  let b ← l[j]?
  let l ← put l i b
  put l j a

/-- `slice.get_unchecked(i)`: undefined behaviour if the index is out of bounds.
Models code at `output_set.rs:393-400`. -/
def getUnchecked (l : List α) (i : ℕ) : Option α := l[i]?

/-- `*slice.get_unchecked_mut(i) = v`: undefined behaviour if the index is out of bounds.
Models code at `output_set.rs:649-656`. -/
def putUnchecked (l : List α) (i : ℕ) (v : α) : Option (List α) := put l i v

/-- `iter.collect::<ArrayVec<[_; cap]>>()`: elements beyond the capacity are not taken.
Models code at `output_set.rs:79,148,163,314-316`. -/
def collect (cap : ℕ) (l : List α) : List α := l.take cap

/-- `ArrayVec::push`; panics if the vector is full.  Models code at `output_set.rs:531,544`. -/
def push (cap : ℕ) (l : List α) (x : α) : Option (List α) := if l.length < cap then some (l ++ [x]) else none

/-- `ArrayVec::try_extend_from_slice(..).unwrap()` on an empty vector.  Models code at `output_set.rs:136,473`. -/
def tryExtend (cap : ℕ) (l : List α) : Option (List α) := if l.length ≤ cap then some l else none

/-- `usize::count_ones`.  Models code at `output_set.rs:151,166,224`. -/
def countOnes64 (x : ℕ) : ℕ := ((List.range 64).filter fun i => x.testBit i).length

/-- `!x` on `usize`.  Models code at `output_set.rs:224,325`. -/
def not64 (x : ℕ) : ℕ := (2 ^ 64 - 1) ^^^ x

/-- `a - b` on `usize`.  Models code at `output_set.rs:88,196,217,247,291,493,517,526`. -/
def sub (a b : ℕ) : Option ℕ := if b ≤ a then some (a - b) else none

/-- `while index < size { body; index = (index + 1) | mask; }`.
Models code at `output_set.rs:184,205,256,297,324,353,587,617`. -/
def whileLoop (size mask : ℕ) (body : ℕ → σ → Option σ) (index : ℕ) (st : σ) : Option σ :=
  if index < size then (body index st).bind fun st => whileLoop size mask body ((index + 1) ||| mask) st
  else some st
termination_by size - index
decreasing_by
  have : index + 1 ≤ (index + 1) ||| mask := Nat.left_le_or
  omega

/-- `chunks_mut(k)` with a loop body that changes the chunk; `k = 0` panics.
Models code at `output_set.rs:467,471`. -/
def chunksMut (k : ℕ) (body : List α → Option (List α)) (l : List α) : Option (List α) :=
  if k = 0 then none
  else if l.length = 0 then some []
  else do
    let c ← body (l.take k)
    let rest ← chunksMut k body (l.drop k)
    some (c ++ rest)
termination_by l.length
decreasing_by rw [List.length_drop]; omega

/-- Capacity of a `CVec`, `output_set.rs:18`. -/
def capC : ℕ := 11

/-- Capacity of a `WVec`, `output_set.rs:19`. -/
def capW : ℕ := 12

/-- Capacity of a `BVec`, `output_set.rs:20`. -/
def capB : ℕ := 2048

/-- Capacity of a `PVec`, `output_set.rs:21`. -/
def capP : ℕ := 256

/-- Capacity of an `AVec`, `output_set.rs:22`. -/
def capA : ℕ := 512

/-- `struct OutputSet`, `output_set.rs:29-33`. -/
structure OutputSet where
  channels : ℕ
  bitmap : List Bool
deriving DecidableEq

namespace OutputSet

/-! ## Reading -/

/-- `all_values`, `output_set.rs:67-73`. -/
def allValues (channels : ℕ) : OutputSet := { channels := channels, bitmap := List.replicate (1 <<< channels) true }

/-- `all_values_bvec`, `output_set.rs:75-81`. -/
def allValuesBvec (channels : ℕ) : OutputSet :=
  { channels := channels, bitmap := collect capB (List.replicate (1 <<< channels) true) }

/-- `to_owned_bvec`, `output_set.rs:134-141`. -/
def toOwnedBvec (s : OutputSet) : Option OutputSet := do
  let bitmap ← tryExtend capB s.bitmap
  some { channels := s.channels, bitmap := bitmap }

/-- `len`, `output_set.rs:143-145`. -/
def len (s : OutputSet) : ℕ := (s.bitmap.map Bool.toNat).sum

/-- `weight_histogram`, `output_set.rs:147-155`. -/
def weightHistogram (s : OutputSet) : Option (List ℕ) :=
  s.bitmap.zipIdx.foldlM (fun histogram (e : Bool × ℕ) => add histogram (countOnes64 e.2) e.1.toNat)
    (collect capW (List.replicate (s.channels + 1) 0))

/-- The loop of `is_sorted`, `output_set.rs:165-174`. -/
def isSortedLoop : List (Bool × ℕ) → List Bool → Option Bool
  | [], _ => some true
  | (present, index) :: es, alreadyPresent => do
    let weight := countOnes64 index
    let a ← alreadyPresent[weight]?
    if a && present then some false
    else
      let alreadyPresent ← put alreadyPresent weight (a || present)
      isSortedLoop es alreadyPresent

/-- `is_sorted`, `output_set.rs:157-175`. -/
def isSorted (s : OutputSet) : Option Bool :=
  if s.channels < 2 then some true
  else isSortedLoop s.bitmap.zipIdx (collect capW (List.replicate (s.channels + 1) false))

/-- The loop of `is_channel_unconstrained`, `output_set.rs:184-189`. -/
def unconstrainedLoop (bitmap : List Bool) (mask index : ℕ) : Option Bool :=
  if index < bitmap.length then do
    let a ← bitmap[index]?
    let b ← bitmap[index ^^^ mask]?
    if a ≠ b then some false else unconstrainedLoop bitmap mask ((index + 1) ||| mask)
  else some true
termination_by bitmap.length - index
decreasing_by
  have : index + 1 ≤ (index + 1) ||| mask := Nat.left_le_or
  omega

/-- `is_channel_unconstrained`, `output_set.rs:177-192`. -/
def isChannelUnconstrained (s : OutputSet) (channel : ℕ) : Option Bool :=
  unconstrainedLoop s.bitmap (1 <<< channel) (1 <<< channel)

/-- `channel_fingerprint`, `output_set.rs:194-211`. -/
def channelFingerprint (s : OutputSet) (channel : ℕ) : Option ℕ := do
  let allMask ← sub s.bitmap.length 1
  let mask := 1 <<< channel
  let a ← s.bitmap[mask]?
  let fingerprint := 0 + a.toNat
  let b ← s.bitmap[mask ^^^ allMask]?
  let fingerprint := fingerprint + b.toNat * 2
  whileLoop s.bitmap.length mask (fun index fingerprint => do
      let v ← s.bitmap[index]?
      some (fingerprint + v.toNat * 4))
    mask fingerprint

/-- `low_channels_fingerprint`, `output_set.rs:213-231`; the buffer starts empty after `clear`. -/
def lowChannelsFingerprint (hash : List ℕ → ℕ) (s : OutputSet) (lowChannels : ℕ) : Option ℕ := do
  let weights ← sub (s.channels + 1) lowChannels
  let lowIndices := 1 <<< lowChannels
  let lowMask ← sub lowIndices 1
  let buffer ← s.bitmap.zipIdx.foldlM (fun buffer (e : Bool × ℕ) =>
      let lowIndex := e.2 &&& lowMask
      let highWeight := countOnes64 (e.2 &&& not64 lowMask)
      add buffer (highWeight + weights * lowIndex) e.1.toNat)
    (List.replicate (weights * lowIndices) 0)
  some (hash buffer)

/-- `low_channels_channel_fingerprint`, `output_set.rs:233-266`. -/
def lowChannelsChannelFingerprint (hash : List ℕ → ℕ) (s : OutputSet) (lowChannels channel : ℕ) : Option ℕ := do
  let weights ← sub s.channels lowChannels
  let lowIndices := 1 <<< lowChannels
  let mask := 1 <<< channel
  let lowMask ← sub lowIndices 1
  let highMask := not64 (lowMask ||| mask)
  let buffer ← whileLoop s.bitmap.length mask (fun index buffer => do
      let lowIndex := index &&& lowMask
      let highWeight := countOnes64 (index &&& highMask)
      let v ← s.bitmap[index]?
      add buffer (highWeight + weights * lowIndex) v.toNat)
    mask (List.replicate (weights * lowIndices) 0)
  some (hash buffer)

/-- `low_channels_channel_abstraction_len`, `output_set.rs:268-272`. -/
def lowChannelsChannelAbstractionLen (s : OutputSet) (lowChannels : ℕ) : Option ℕ := do
  let weights ← sub s.channels lowChannels
  let lowIndices := 1 <<< lowChannels
  some (weights * lowIndices * 3)

/-- `low_channels_channel_abstraction`, `output_set.rs:274-307`: the contents of the buffer afterwards. -/
def lowChannelsChannelAbstraction (s : OutputSet) (lowChannels channel : ℕ) (buffer : List ℕ) : Option (List ℕ) := do
  let weights ← sub s.channels lowChannels
  let lowIndices := 1 <<< lowChannels
  let mask := 1 <<< channel
  let buffer := buffer.map fun _ => 0
  let lowMask ← sub lowIndices 1
  let highMask := not64 (lowMask ||| mask)
  whileLoop s.bitmap.length mask (fun index buffer => do
      let lowIndex := index &&& lowMask
      let highWeight := countOnes64 (index &&& highMask)
      let valueHi ← s.bitmap[index]?
      let valueLo ← s.bitmap[index ^^^ mask]?
      let buffer ← add buffer (0 + 3 * (highWeight + weights * lowIndex)) valueLo.toNat
      let buffer ← add buffer (1 + 3 * (highWeight + weights * lowIndex)) valueHi.toNat
      add buffer (2 + 3 * (highWeight + weights * lowIndex)) (valueLo && valueHi).toNat)
    mask buffer

/-- `channel_abstraction`, `output_set.rs:309-335`; the three vectors. -/
def channelAbstraction (s : OutputSet) (channel : ℕ) : Option (List ℕ × List ℕ × List ℕ) :=
  let weights := s.channels
  let zeros := collect capC (List.replicate weights 0)
  let mask := 1 <<< channel
  whileLoop s.bitmap.length mask (fun index (a : List ℕ × List ℕ × List ℕ) => do
      let weight := countOnes64 (index &&& not64 mask)
      let valueHi ← s.bitmap[index]?
      let valueLo ← s.bitmap[index ^^^ mask]?
      let a0 ← add a.1 weight valueLo.toNat
      let a1 ← add a.2.1 weight valueHi.toNat
      let a2 ← add a.2.2 weight (valueLo && valueHi).toNat
      some (a0, a1, a2))
    mask (zeros, zeros, zeros)

/-- `channel_pair_abstraction`, `output_set.rs:337-368`; the array of four counters. -/
def channelPairAbstraction (s : OutputSet) (channel0 channel1 : ℕ) : Option (List ℕ) :=
  let mask0 := 1 <<< channel0
  let mask1 := 1 <<< channel1
  let mask := mask0 ||| mask1
  whileLoop s.bitmap.length mask (fun index abstraction => do
      let value0 ← s.bitmap[index]?
      let value1 ← s.bitmap[index ^^^ mask0]?
      let value2 ← s.bitmap[index ^^^ mask1]?
      let value3 ← s.bitmap[index ^^^ mask]?
      let abstraction ← add abstraction 0 value0.toNat
      let abstraction ← add abstraction 1 value1.toNat
      let abstraction ← add abstraction 2 value2.toNat
      add abstraction 3 value3.toNat)
    mask (List.replicate 4 0)

/-- `subsumes_unpermuted`, `output_set.rs:370-375`. -/
def subsumesUnpermuted (s t : OutputSet) : Bool := (s.bitmap.zip t.bitmap).all fun p => !p.1 || p.2

/-! ## Packing -/

/-- `packed_len`, `output_set.rs:381-383`. -/
def packedLen (s : OutputSet) : ℕ := (s.bitmap.length + 7) / 8

/-- `value as u8` for a boolean.  Models code at `output_set.rs:393-414`. -/
def asU8 (b : Bool) : UInt8 := if b then 1 else 0

/-- The byte of a full chunk with unchecked accesses, `output_set.rs:392-401`. -/
def packChunk (chunk : List Bool) : Option UInt8 := do
  let b0 ← getUnchecked chunk 0
  let b1 ← getUnchecked chunk 1
  let b2 ← getUnchecked chunk 2
  let b3 ← getUnchecked chunk 3
  let b4 ← getUnchecked chunk 4
  let b5 ← getUnchecked chunk 5
  let b6 ← getUnchecked chunk 6
  let b7 ← getUnchecked chunk 7
  some (asU8 b0 ||| (asU8 b1 <<< 1) ||| (asU8 b2 <<< 2) ||| (asU8 b3 <<< 3) ||| (asU8 b4 <<< 4) |||
    (asU8 b5 <<< 5) ||| (asU8 b6 <<< 6) ||| (asU8 b7 <<< 7))

/-- The byte of the remainder, `output_set.rs:407-414`. -/
def packRemainder (r : List Bool) : UInt8 :=
  asU8 (r[0]?.getD false) ||| (asU8 (r[1]?.getD false) <<< 1) ||| (asU8 (r[2]?.getD false) <<< 2) |||
    (asU8 (r[3]?.getD false) <<< 3) ||| (asU8 (r[4]?.getD false) <<< 4) ||| (asU8 (r[5]?.getD false) <<< 5) |||
    (asU8 (r[6]?.getD false) <<< 6) ||| (asU8 (r[7]?.getD false) <<< 7)

/-- `pack_into_slice`, `output_set.rs:385-416`: the contents of the slice afterwards.  `chunks_exact(8)` yields chunks
as long as eight entries remain; `zip` ends with the shorter of chunks and target bytes.  If the chunks are longer, `zip`
has taken one more chunk before it notices that there is no target byte; the remainder does not depend on it
(`chunks_exact` cuts it off when it is created). -/
def packIntoSlice (bitmap : List Bool) (target : List UInt8) : Option (List UInt8) :=
  if 8 ≤ bitmap.length then
    match target with
    | [] => if bitmap.length % 8 = 0 then some [] else none
    | _ :: ts => do
      let b ← packChunk (bitmap.take 8)
      let rest ← packIntoSlice (bitmap.drop 8) ts
      some (b :: rest)
  else if bitmap.length = 0 then some target
  else
    match target with
    | [] => none
    | _ :: ts => some (packRemainder bitmap :: ts)
termination_by bitmap.length
decreasing_by rw [List.length_drop]; omega

/-- `packed_pvec`, `output_set.rs:418-424`. -/
def packedPvec (s : OutputSet) : Option (List UInt8) :=
  packIntoSlice s.bitmap (collect capP (List.replicate s.packedLen 0))

/-- `packed`, `output_set.rs:426-432`. -/
def packed (s : OutputSet) : Option (List UInt8) := packIntoSlice s.bitmap (List.replicate s.packedLen 0)

/-- `source_byte & (1 << i) != 0`.  Models code at `output_set.rs:649-664`. -/
def bitOf (b : UInt8) (i : ℕ) : Bool := (b &&& (1 <<< UInt8.ofNat i)) != 0

/-- A full chunk with unchecked accesses, `output_set.rs:648-657`. -/
def unpackChunk (chunk : List Bool) (b : UInt8) : Option (List Bool) := do
  let chunk ← putUnchecked chunk 0 (bitOf b 0)
  let chunk ← putUnchecked chunk 1 (bitOf b 1)
  let chunk ← putUnchecked chunk 2 (bitOf b 2)
  let chunk ← putUnchecked chunk 3 (bitOf b 3)
  let chunk ← putUnchecked chunk 4 (bitOf b 4)
  let chunk ← putUnchecked chunk 5 (bitOf b 5)
  let chunk ← putUnchecked chunk 6 (bitOf b 6)
  putUnchecked chunk 7 (bitOf b 7)

/-- `unpack_from_slice`, `output_set.rs:641-667`, on the bitmap. -/
def unpackFromSlice (bitmap : List Bool) (source : List UInt8) : Option (List Bool) :=
  if 8 ≤ bitmap.length then
    match source with
    | [] => if bitmap.length % 8 = 0 then some bitmap else none
    | b :: bs => do
      let c ← unpackChunk (bitmap.take 8) b
      let rest ← unpackFromSlice (bitmap.drop 8) bs
      some (c ++ rest)
  else if bitmap.length = 0 then some []
  else
    match source with
    | [] => none
    | b :: _ => some (bitmap.zipIdx.map fun e => bitOf b e.2)
termination_by bitmap.length
decreasing_by rw [List.length_drop]; omega

/-- `from_packed`, `output_set.rs:91-95`. -/
def fromPacked (channels : ℕ) (packed : List UInt8) : Option OutputSet := do
  let bitmap ← unpackFromSlice (allValues channels).bitmap packed
  some { channels := channels, bitmap := bitmap }

/-! ## Abstraction -/

/-- `abstraction_len`, `output_set.rs:87-89,434-436`. -/
def abstractionLen (s : OutputSet) : Option ℕ := do
  let c ← sub s.channels 1
  some (s.channels * c * 4)

/-- The loop over the other channels, `output_set.rs:443-454`. -/
def groupLoop (s : OutputSet) (channel : ℕ) : List ℕ → List (List ℕ) → Option (List (List ℕ))
  | [], groups => some groups
  | other :: others, groups =>
    if other = channel then groupLoop s channel others groups
    else do
      let a ← s.channelPairAbstraction channel other
      let groups ← (a.zip groups).mapM fun e => push capC e.2 e.1
      groupLoop s channel others groups

/-- The writes of one channel, `output_set.rs:458-464`. -/
def writeGroups (s : OutputSet) (channel : ℕ) (groups : List (List ℕ)) (abstraction : List ℕ) : Option (List ℕ) :=
  groups.zipIdx.foldlM (fun abstraction (g : List ℕ × ℕ) =>
    g.1.zipIdx.foldlM (fun abstraction (v : ℕ × ℕ) =>
      put abstraction (channel + s.channels * (g.2 + 4 * v.2)) (v.1 % 2 ^ 16)) abstraction) abstraction

/-- The body of the loop `output_set.rs:441-465`. -/
def abstractChannel (s : OutputSet) (abstraction : List ℕ) (channel : ℕ) : Option (List ℕ) := do
  let groups ← groupLoop s channel (List.range s.channels) (List.replicate 4 [])
  writeGroups s channel (groups.map sortDesc) abstraction

/-- The body of the loop `output_set.rs:471-480`: `tmp` has room for 64 entries. -/
def transposeChunk (s : OutputSet) (chunk : List ℕ) : Option (List ℕ) := do
  let tmp ← tryExtend 64 chunk
  (List.range 4).foldlM (fun chunk i =>
    (List.range s.channels).foldlM (fun chunk j => do
      let v ← tmp[j + i * s.channels]?
      put chunk (i + j * 4) v) chunk) chunk

/-- `write_abstraction_into`, `output_set.rs:438-481`: the contents of the slice afterwards. -/
def writeAbstractionInto (s : OutputSet) (abstraction : List ℕ) : Option (List ℕ) := do
  let len ← s.abstractionLen
  if abstraction.length ≠ len then none
  else do
    let abstraction ← (List.range s.channels).foldlM (abstractChannel s) abstraction
    let abstraction ← chunksMut s.channels (fun chunk => some (sortAsc chunk)) abstraction
    chunksMut (s.channels * 4) (transposeChunk s) abstraction

/-- `abstraction`, `output_set.rs:483-489`. -/
def abstraction (s : OutputSet) : Option (List ℕ) := do
  let len ← s.abstractionLen
  s.writeAbstractionInto (collect capA (List.replicate len 0))

/-! ## Extremal channels -/

/-- `mask * polarity as usize`.  Models code at `output_set.rs:495,519,529`. -/
def flip (mask : ℕ) (polarity : Bool) : ℕ := mask * polarity.toNat

/-- `channel_is_extremal`, `output_set.rs:491-498`. -/
def channelIsExtremal (s : OutputSet) (polarity : Bool) (channel : ℕ) : Option Bool := do
  let allMask ← sub s.bitmap.length 1
  let mask := 1 <<< channel
  s.bitmap[mask ^^^ flip allMask polarity]?

/-- The body of the inner loop, `output_set.rs:538-547`; the end of the queue is the head of the list. -/
def pruneInner (bitmap : List Bool) (flip newFlip maskLow maskHigh index : ℕ) (st : List Bool × List ℕ) (bit : ℕ) :
    Option (List Bool × List ℕ) := do
  let next := index ||| bit
  let nextTarget := ((next &&& maskLow) ||| ((next >>> 1) &&& maskHigh)) ^^^ newFlip
  let a ← bitmap[next ^^^ flip]?
  let t ← st.1[nextTarget]?
  if a && !t then do
    let target ← put st.1 nextTarget true
    if st.2.length < capB then some (target, next % 2 ^ 16 :: st.2) else none
  else some st

/-- The loop `output_set.rs:534-549`. -/
def pruneLoop (bitmap : List Bool) (channels flip newFlip maskLow maskHigh : ℕ) (target : List Bool) (queue : List ℕ) :
    Option (List Bool) :=
  match queue with
  | [] => some target
  | index :: queue => do
    let st ← (List.range channels).foldlM
      (fun st i => pruneInner bitmap flip newFlip maskLow maskHigh index st (1 <<< i)) (target, queue)
    pruneLoop bitmap channels flip newFlip maskLow maskHigh st.1 st.2
partial_fixpoint

/-- `prune_extremal_channel_into`, `output_set.rs:500-550`: the contents of the target afterwards. -/
def pruneExtremalChannelInto (s : OutputSet) (polarity : Bool) (channel : ℕ) (target : OutputSet) :
    Option OutputSet := do
  if target.channels + 1 ≠ s.channels then none
  else do
    let targetBitmap := target.bitmap.map fun _ => false
    let allMask ← sub s.bitmap.length 1
    let mask := 1 <<< channel
    let flip0 := flip allMask polarity
    let a ← s.bitmap[mask ^^^ flip0]?
    if a = false then none
    else do
      let newAllMask := allMask >>> 1
      let maskLow ← sub mask 1
      let maskHigh := newAllMask ^^^ maskLow
      let newFlip := flip newAllMask polarity
      let targetBitmap ← put targetBitmap newFlip true
      let r ← pruneLoop s.bitmap s.channels flip0 newFlip maskLow maskHigh targetBitmap [mask % 2 ^ 16]
      some { channels := target.channels, bitmap := r }

/-! ## Changing -/

/-- `apply_comparator`, `output_set.rs:568-597`. -/
def applyComparator (s : OutputSet) (channel0 channel1 : ℕ) : Option (OutputSet × Bool) := do
  let mask0 := 1 <<< channel0
  let mask1 := 1 <<< channel1
  let comparatorMask := mask0 ||| mask1
  let r ← whileLoop s.bitmap.length comparatorMask (fun index (st : List Bool × Bool × Bool) => do
      let outOfOrder ← st.1[index ^^^ mask0]?
      let bitmap ← put st.1 (index ^^^ mask0) false
      let inOrder ← bitmap[index ^^^ mask1]?
      let bitmap ← put bitmap (index ^^^ mask1) (inOrder || outOfOrder)
      some (bitmap, st.2.1 || outOfOrder, st.2.2 || inOrder))
    comparatorMask (s.bitmap, false, false)
  some ({ s with bitmap := r.1 }, r.2.1 && r.2.2)

/-- `swap_channels`, `output_set.rs:599-621`. -/
def swapChannels (s : OutputSet) (channel0 channel1 : ℕ) : Option OutputSet :=
  if channel0 = channel1 then some s
  else do
    let mask0 := 1 <<< channel0
    let mask1 := 1 <<< channel1
    let comparatorMask := mask0 ||| mask1
    let bitmap ← whileLoop s.bitmap.length comparatorMask (fun index bitmap =>
      swap bitmap (index ^^^ mask0) (index ^^^ mask1)) comparatorMask s.bitmap
    some { s with bitmap := bitmap }

/-- `invert`, `output_set.rs:623-625`. -/
def invert (s : OutputSet) : OutputSet := { s with bitmap := s.bitmap.reverse }

/-- `copy_from`, `output_set.rs:669-671`: `copy_from_slice` panics if the lengths differ. -/
def copyFrom (s t : OutputSet) : Option OutputSet :=
  if s.bitmap.length = t.bitmap.length then some { s with bitmap := t.bitmap } else none

end OutputSet

end Sortnet.Slice
