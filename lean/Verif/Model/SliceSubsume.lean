import Verif.Model.SliceSet

/-!
# Model of `Subsume` with its vectors and its buffer

`/repo/src/output_set/subsume.rs` (cited as `subsume.rs`) on the output sets of `Model/SliceSet.lean`.

Conventions.
* As in `Model/SliceSet.lean`: slices and vectors are lists, indices are numbers, and `none` is a panic, a full vector, an
  overflow or a loop that does not end.
* The two sides `0` and `1` are `false` and `true`; an array with two elements is a function from the sides.
* Masks are numbers below `2^16` (`u16`).
* The undo stack is a list whose head is the top of the stack.
-/

namespace Sortnet.SliceSubsume

open Slice

/-- `1 << i` on `u16`; a shift by 16 or more overflows. -/
def shl16 (i : ℕ) : Option ℕ := if i < 16 then some (1 <<< i) else none

/-- `!x` on `u16`.  Models code at `subsume.rs:138,148,171`. -/
def not16 (x : ℕ) : ℕ := (2 ^ 16 - 1) ^^^ x

/-- `mask.trailing_zeros()` on `u16`: 16 for zero.  Models code at `subsume.rs:144,156,175,203`. -/
def trailingZeros16 (m : ℕ) : ℕ := ((List.range 16).find? fun i => m.testBit i).getD 16

/-- `mask.count_ones()` on `u16`.  Models code at `subsume.rs:190,205`. -/
def countOnes16 (m : ℕ) : ℕ := ((List.range 16).filter fun i => m.testBit i).length

/-- The values of `mask.trailing_zeros()` in a loop with `mask &= mask - 1`, `subsume.rs:202-204`: the numbers of the bits
that are set, in ascending order. -/
def setBits16 (m : ℕ) : List ℕ := (List.range 16).filter fun i => m.testBit i

/-- The numbers of a range `lo..hi`.  Models code at `subsume.rs:188,234,251,256,283`. -/
def range (lo hi : ℕ) : List ℕ := List.range' lo (hi - lo)

/-- `Vec::resize(len, 0)`: entries that are kept keep their values.  Models code at `subsume.rs:223-226`. -/
def resize (l : List ℕ) (len : ℕ) : List ℕ := l.take len ++ List.replicate (len - l.length) 0

/-- `split_at_mut(k)`.  Models code at `subsume.rs:235`. -/
def splitAt (l : List ℕ) (k : ℕ) : Option (List ℕ × List ℕ) := if k ≤ l.length then some (l.take k, l.drop k) else none

/-- `enum UndoAction`, `subsume.rs:5-14`. -/
inductive Undo where
  | matching (channels : Bool → ℕ)
  | swap (target : ℕ) (source : Bool → ℕ)

/-- `struct Subsume`, `subsume.rs:16-24`. -/
structure St where
  channels : ℕ
  sets : Bool → OutputSet
  perms : Bool → List ℕ
  matching : Bool → List ℕ
  undo : List Undo
  fixed : ℕ
  buffer : List ℕ

/-- `Subsume::new`, `subsume.rs:27-42`. -/
def new (s t : OutputSet) : Option St :=
  if s.channels ≠ t.channels then none
  else do
    let channels := s.channels
    let identityPerm := collect capC (List.range channels)
    let b ← shl16 channels
    let allMask ← sub b 1
    let fullMatching := collect capC (List.replicate channels allMask)
    some
      { channels := channels
        sets := fun side => if side then t else s
        perms := fun _ => identityPerm
        matching := fun _ => fullMatching
        undo := []
        fixed := 0
        buffer := [] }

/-- A pair of channels with channel `a` on side `side` and channel `b` on the other side.
Models code at `subsume.rs:153-157,212-214`. -/
def pair (side : Bool) (a b : ℕ) : Bool → ℕ := fun s => if s = side then a else b

/-- `self.matching[side][c] = v`.  Models code at `subsume.rs:138`. -/
def setMask (st : St) (side : Bool) (c v : ℕ) : Option St := do
  let l ← put (st.matching side) c v
  some { st with matching := Function.update st.matching side l }

/-- `self.matching[side][c] |= 1 << d`, `subsume.rs:101-102`. -/
def orBit (st : St) (side : Bool) (c d : ℕ) : Option St := do
  let b ← shl16 d
  let m ← (st.matching side)[c]?
  setMask st side c (m ||| b)

/-- `self.matching[side][c] &= !(1 << d)`, `subsume.rs:138`. -/
def clearBit (st : St) (side : Bool) (c d : ℕ) : Option St := do
  let b ← shl16 d
  let m ← (st.matching side)[c]?
  setMask st side c (m &&& not16 b)

/-- `swap_channels` and `perm.swap` for one side, `subsume.rs:113-114` and `subsume.rs:299-300`. -/
def swapSide (st : St) (side : Bool) (target source : ℕ) : Option St := do
  let s ← (st.sets side).swapChannels target source
  let p ← swap (st.perms side) target source
  some { st with sets := Function.update st.sets side s, perms := Function.update st.perms side p }

/-- One iteration of the loop of `rollback`, `subsume.rs:93-117`. -/
def undoAction (st : St) : Undo → Option St
  | .matching ch => do
    let st ← orBit st false (ch false) (ch true)
    let st ← orBit st true (ch true) (ch false)
    let st ← orBit st true (ch true) (ch false)
    orBit st false (ch false) (ch true)
  | .swap target source => do
    let st ← swapSide st false target (source false)
    swapSide st true target (source true)

/-- `Subsume::rollback`, `subsume.rs:91-119`; `drain(depth..)` panics if `depth` exceeds the length. -/
def rollback (st : St) (depth fixed : ℕ) : Option St := do
  let k ← sub st.undo.length depth
  let st' ← (st.undo.take k).foldlM undoAction { st with fixed := fixed }
  some { st' with undo := st.undo.drop k }

/-- `Subsume::get_matching`, `subsume.rs:121-123`. -/
def getMatching (st : St) (ch : Bool → ℕ) : Option Bool := do
  let m ← (st.matching false)[ch false]?
  let b ← shl16 (ch true)
  some (m &&& b != 0)

/-- `mask & (mask - 1) == 0`.  Models code at `subsume.rs:130,143,286`. -/
def isUnique (m : ℕ) : Option Bool := do
  let k ← sub m 1
  some (m &&& k == 0)

mutual

/-- `Subsume::remove_matching`, `subsume.rs:125-167`. -/
def removeMatching (st : St) (ch : Bool → ℕ) : Option (Bool × St) := do
  let g ← getMatching st ch
  if g = false then none
  else do
    let m0 ← (st.matching false)[ch false]?
    let u0 ← isUnique m0
    if u0 then some (false, st)
    else do
      let m1 ← (st.matching true)[ch true]?
      let u1 ← isUnique m1
      if u1 then some (false, st)
      else do
        let st := { st with undo := .matching ch :: st.undo }
        let st ← clearBit st false (ch false) (ch true)
        let st ← clearBit st true (ch true) (ch false)
        let r ← propagate st ch false
        if r.1 then propagate r.2 ch true else some (false, r.2)
partial_fixpoint

/-- The body of the loop `subsume.rs:141-164` for one side. -/
def propagate (st : St) (ch : Bool → ℕ) (side : Bool) : Option (Bool × St) := do
  let mask ← (st.matching side)[ch side]?
  let u ← isUnique mask
  if u then removeOthers st side (ch side) (trailingZeros16 mask) else some (true, st)
partial_fixpoint

/-- The loop `subsume.rs:146-162`; `keep` is `channels[side]` and `other` is `other_channel`. -/
def removeOthers (st : St) (side : Bool) (keep other : ℕ) : Option (Bool × St) := do
  let m ← (st.matching (!side))[other]?
  let b ← shl16 keep
  let otherMask := m &&& not16 b
  if otherMask = 0 then some (true, st)
  else do
    let r ← removeMatching st (pair side (trailingZeros16 otherMask) other)
    if r.1 then removeOthers r.2 side keep other else some (false, r.2)
partial_fixpoint

end

/-- `Subsume::isolate_matching`, `subsume.rs:169-182`. -/
def isolateMatching (st : St) (ch : Bool → ℕ) : Option (Bool × St) := do
  let m ← (st.matching true)[ch true]?
  let b ← shl16 (ch false)
  let otherMask := m &&& not16 b
  if otherMask = 0 then some (true, st)
  else do
    let r ← removeMatching st (pair false (trailingZeros16 otherMask) (ch true))
    if r.1 then isolateMatching r.2 ch else some (false, r.2)
partial_fixpoint

/-- `a < b` for triples of numbers (`Ord` for tuples).  Models code at `subsume.rs:192`. -/
def tripleLt (a b : ℕ × ℕ × ℕ) : Bool :=
  a.1 < b.1 || (a.1 == b.1 && (a.2.1 < b.2.1 || (a.2.1 == b.2.1 && a.2.2 < b.2.2)))

/-- The loop `subsume.rs:188-193` for one side: the smallest of `acc` and the choices of the given channels. -/
def chooseSide (st : St) (side : Bool) : List ℕ → ℕ × ℕ × ℕ → Option (ℕ × ℕ × ℕ)
  | [], acc => some acc
  | channel :: l, acc => do
    let matchingChannel ← (st.perms side)[channel]?
    let mask ← (st.matching side)[matchingChannel]?
    let choice := (countOnes16 mask, side.toNat, matchingChannel)
    chooseSide st side l (if tripleLt choice acc then choice else acc)

/-- The loop `subsume.rs:202-208`: the smallest of `acc` and the other choices (with a constant second component, so that
the order is that of pairs). -/
def chooseOther (st : St) (side : Bool) : List ℕ → ℕ × ℕ × ℕ → Option (ℕ × ℕ × ℕ)
  | [], acc => some acc
  | matchingChannel :: l, acc => do
    let mask ← (st.matching (!side))[matchingChannel]?
    let choice := (countOnes16 mask, 0, matchingChannel)
    chooseOther st side l (if tripleLt choice acc then choice else acc)

/-- `Subsume::select_guess`, `subsume.rs:184-217`. -/
def selectGuess (st : St) : Option (Bool → ℕ) := do
  let c ← chooseSide st false (range st.fixed st.channels) (maxChannels + 1, 0, 0)
  let c ← chooseSide st true (range st.fixed st.channels) c
  let side := c.2.1 != 0
  let mask ← (st.matching side)[c.2.2]?
  let o ← chooseOther st side (setBits16 mask) (maxChannels + 1, 0, 0)
  some (pair side c.2.2 o.2.2)

/-- The loop `subsume.rs:234-245` for one side: the vector of buffers and the rest of the memory. -/
def fillSide (s : OutputSet) (fixed len : ℕ) : List ℕ → List (List ℕ) → List ℕ → Option (List (List ℕ) × List ℕ)
  | [], buffers, buffer => some (buffers, buffer)
  | channel :: l, buffers, buffer => do
    let p ← splitAt buffer len
    let current ← s.lowChannelsChannelAbstraction fixed channel p.1
    let buffers ← push capC buffers current
    fillSide s fixed len l buffers p.2

/-- The inner loop of `filter_matching`, `subsume.rs:255-271`. -/
def filterInner (lo : ℕ) (bufferLo : List ℕ) : List (ℕ × List ℕ) → St → Option (Bool × St)
  | [], st => some (true, st)
  | (channelHi, bufferHi) :: l, st => do
    let hi ← (st.perms true)[channelHi]?
    let g ← getMatching st (pair false lo hi)
    if g then
      if (bufferLo.zip bufferHi).any fun p => p.1 > p.2 then do
        let r ← removeMatching st (pair false lo hi)
        if r.1 then filterInner lo bufferLo l r.2 else some (false, r.2)
      else filterInner lo bufferLo l st
    else filterInner lo bufferLo l st

/-- The outer loop of `filter_matching`, `subsume.rs:250-272`. -/
def filterOuter (his : List (ℕ × List ℕ)) : List (ℕ × List ℕ) → St → Option (Bool × St)
  | [], st => some (true, st)
  | (channelLo, bufferLo) :: l, st => do
    let lo ← (st.perms false)[channelLo]?
    let r ← filterInner lo bufferLo his st
    if r.1 then filterOuter his l r.2 else some (false, r.2)

/-- `Subsume::filter_matching`, `subsume.rs:219-278`.  During the loops the field `buffer` is empty
(`subsume.rs:228`, `replace`); afterwards it holds the memory with what was written to it. -/
def filterMatching (st : St) : Option (Bool × St) := do
  let len ← (st.sets false).lowChannelsChannelAbstractionLen st.fixed
  let k ← sub st.channels st.fixed
  let buffer := resize st.buffer (len * k * 2)
  let st := { st with buffer := [] }
  let f0 ← fillSide (st.sets false) st.fixed len (range st.fixed st.channels) [] buffer
  let f1 ← fillSide (st.sets true) st.fixed len (range st.fixed st.channels) [] f0.2
  let r ← filterOuter ((range st.fixed st.channels).zip f1.1) ((range st.fixed st.channels).zip f0.1) st
  some (r.1, { r.2 with buffer := f0.1.flatten ++ f1.1.flatten ++ f1.2 })

/-- `perms[1].iter().position(|&m| m == channel)`, `subsume.rs:288-290`; `none` is the failing `unwrap`. -/
def position (p : List ℕ) (c : ℕ) : Option ℕ := p.findIdx? fun m => m == c

/-- The loop of `move_unique`, `subsume.rs:283-306`. -/
def moveLoop : List ℕ → Bool → St → Option (Bool × St)
  | [], moved, st => some (moved, st)
  | lo :: los, moved, st => do
    let matchingLo ← (st.perms false)[lo]?
    let mask ← (st.matching false)[matchingLo]?
    let u ← isUnique mask
    if u then do
      let hi ← position (st.perms true) (trailingZeros16 mask)
      let st := { st with undo := .swap st.fixed (pair false lo hi) :: st.undo }
      let st ← swapSide st false st.fixed lo
      let st ← swapSide st true st.fixed hi
      moveLoop los true { st with fixed := st.fixed + 1 }
    else moveLoop los moved st

/-- `Subsume::move_unique`, `subsume.rs:280-308`. -/
def moveUnique (st : St) : Option (Bool × St) := moveLoop (range st.fixed st.channels) false st

/-- The permutation built in `subsume.rs:49-53`. -/
def resultPerm (st : St) : Option (List ℕ) :=
  (List.range st.channels).foldlM (fun perm i => do
    let j ← (st.perms true)[i]?
    let v ← (st.perms false)[i]?
    put perm j v) (collect capC (List.range st.channels))

mutual

/-- `Subsume::search`, `subsume.rs:44-89`.  Both loops continue at the top of the function body, and are modelled by tail
calls. -/
def search (st : St) : Option (Option (List ℕ) × St) :=
  if st.fixed = st.channels then
    if (st.sets false).subsumesUnpermuted (st.sets true) then do
      let p ← resultPerm st
      some (some p, st)
    else some (none, st)
  else do
    let f ← filterMatching st
    if f.1 then do
      let m ← moveUnique f.2
      if m.1 then search m.2 else branch m.2
    else some (none, f.2)
partial_fixpoint

/-- `subsume.rs:68-82`. -/
def branch (st : St) : Option (Option (List ℕ) × St) := do
  let guess ← selectGuess st
  let i ← isolateMatching st guess
  if i.1 then do
    let m ← moveUnique i.2
    let r ← search m.2
    let st' ← rollback r.2 st.undo.length st.fixed
    match r.1 with
    | some p => some (some p, st')
    | none => exclude st' guess
  else do
    let st' ← rollback i.2 st.undo.length st.fixed
    exclude st' guess
partial_fixpoint

/-- `subsume.rs:84-88`. -/
def exclude (st : St) (guess : Bool → ℕ) : Option (Option (List ℕ) × St) := do
  let r ← removeMatching st guess
  if r.1 then do
    let m ← moveUnique r.2
    search m.2
  else some (none, r.2)
partial_fixpoint

end

/-- `OutputSet::subsumes_permuted`, `output_set.rs:377-379`. -/
def subsumesPermuted (s t : OutputSet) : Option (Option (List ℕ)) := do
  let st ← new s t
  let r ← search st
  some r.1

end Sortnet.SliceSubsume
