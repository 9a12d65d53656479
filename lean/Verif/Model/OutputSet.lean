import Mathlib.Data.Nat.Init
import Mathlib.Data.List.Nodup
import Mathlib.Logic.Function.Basic
import Mathlib.Tactic.Common

/-!
# Model of `OutputSet`

Transcription of `/repo/src/output_set.rs` (cited as `output_set.rs`).

Conventions.
* An `OutputSet` with `n` channels stores a bitmap with `1 << n` entries (`output_set.rs:29-33`).  The
  bitmap is modelled as a function from `BitVec n`, the type of the valid array indices, to `Bool`.
  Index arithmetic of the code (`^`, `|`, `&` with masks below `1 << n`) stays below `1 << n`, so that
  the bit vector operations agree with those on `usize`, and no index is out of bounds.
* Channel arguments are `Fin n`.  The code requires `channel < channels` by `debug_assert!`
  (`output_set.rs:569-571,600-601`) or panics by indexing out of bounds.
* `usize` is unbounded.  The code supports at most `MAX_CHANNELS = 11` channels
  (`output_set.rs:13`, checked by the capacity of the `ArrayVec`s and by `debug_assert!`); all counters
  are then at most `2^11`.
-/

namespace Sortnet

/-- The bitmap of an output set with `n` channels, `output_set.rs:29-33`. -/
abbrev Bitmap (n : ℕ) := BitVec n → Bool

/-- `1 << channel`. -/
def bit {n : ℕ} (c : Fin n) : BitVec n := BitVec.twoPow n c

/-- All array indices `0 .. 1 << n` in order. -/
def indices (n : ℕ) : List (BitVec n) := (List.range (2 ^ n)).map (BitVec.ofNat n)

/-- The entries of a bitmap as stored in memory.  Models code at `output_set.rs:79`. -/
def Bitmap.toList {n : ℕ} (s : Bitmap n) : List Bool := (indices n).map s

/-- `index.count_ones()`.  Models code at `output_set.rs:151,166`. -/
def countOnes {n : ℕ} (x : BitVec n) : ℕ := ((List.finRange n).filter fun i : Fin n => x.getLsbD i).length

/-- The loop `let mut index = mask; while index < size { f(index); index = (index + 1) | mask; }`
used by most operations, e.g. `output_set.rs:181-189`. -/
def maskLoop {σ : Type} (n mask : ℕ) (f : BitVec n → σ → σ) (index : ℕ) (s : σ) : σ :=
  if index < 2 ^ n then maskLoop n mask f ((index + 1) ||| mask) (f (BitVec.ofNat n index) s) else s
termination_by 2 ^ n - index
decreasing_by
  have : index + 1 ≤ (index + 1) ||| mask := Nat.left_le_or
  omega

/-- `OutputSet::all_values`, `all_values_bvec`, `output_set.rs:67-81`. -/
def allValues (n : ℕ) : Bitmap n := fun _ => true

/-- `OutputSet::len`, `output_set.rs:143-145`. -/
def Bitmap.len {n : ℕ} (s : Bitmap n) : ℕ := ((indices n).map fun x => (s x).toNat).sum

/-- `OutputSet::weight_histogram`, `output_set.rs:147-155`; entry `w` of the result. -/
def Bitmap.weightHistogram {n : ℕ} (s : Bitmap n) : ℕ → ℕ :=
  (indices n).foldl (fun h x => Function.update h (countOnes x) (h (countOnes x) + (s x).toNat))
    (fun _ => 0)

/-- The loop of `OutputSet::is_sorted`, `output_set.rs:165-174`; `ap` is `already_present`. -/
def isSortedLoop {n : ℕ} (s : Bitmap n) : List (BitVec n) → (ℕ → Bool) → Bool
  | [], _ => true
  | x :: xs, ap =>
    let weight := countOnes x
    if ap weight && s x then false
    else isSortedLoop s xs (Function.update ap weight (ap weight || s x))

/-- `OutputSet::is_sorted`, `output_set.rs:157-175`. -/
def Bitmap.isSorted {n : ℕ} (s : Bitmap n) : Bool :=
  if n < 2 then true else isSortedLoop s (indices n) fun _ => false

/-- `OutputSet::is_channel_unconstrained`, `output_set.rs:177-192`.  The early `return false` is
modelled by an accumulated conjunction. -/
def Bitmap.isChannelUnconstrained {n : ℕ} (s : Bitmap n) (c : Fin n) : Bool :=
  maskLoop n (bit c).toNat (fun x ok => ok && (s x == s (x ^^^ bit c))) (bit c).toNat true

/-- `OutputSet::channel_fingerprint`, `output_set.rs:194-211`. -/
def Bitmap.channelFingerprint {n : ℕ} (s : Bitmap n) (c : Fin n) : ℕ :=
  maskLoop n (bit c).toNat (fun x fp => fp + (s x).toNat * 4) (bit c).toNat
    (0 + (s (bit c)).toNat + (s (bit c ^^^ BitVec.allOnes n)).toNat * 2)

/-- `OutputSet::channel_abstraction`, `output_set.rs:309-335`; `k`-th array at a weight. -/
def Bitmap.channelAbstraction {n : ℕ} (s : Bitmap n) (c : Fin n) : Fin 3 → ℕ → ℕ :=
  maskLoop n (bit c).toNat (fun x a =>
      let weight := countOnes (x &&& ~~~ bit c)
      let hi := s x
      let lo := s (x ^^^ bit c)
      fun k w => if w = weight then
        a k w + (if k = 0 then lo.toNat else if k = 1 then hi.toNat else (lo && hi).toNat) else a k w)
    (bit c).toNat (fun _ _ => 0)

/-- `OutputSet::channel_pair_abstraction`, `output_set.rs:337-368`. -/
def Bitmap.channelPairAbstraction {n : ℕ} (s : Bitmap n) (c0 c1 : Fin n) : Fin 4 → ℕ :=
  let mask := bit c0 ||| bit c1
  maskLoop n mask.toNat (fun x a k =>
      a k + (if k = 0 then s x else if k = 1 then s (x ^^^ bit c0)
        else if k = 2 then s (x ^^^ bit c1) else s (x ^^^ mask)).toNat)
    mask.toNat (fun _ => 0)

/-- `OutputSet::subsumes_unpermuted`, `output_set.rs:370-375`. -/
def Bitmap.subsumesUnpermuted {n : ℕ} (s t : Bitmap n) : Bool :=
  ((s.toList).zip (t.toList)).all fun p => !p.1 || p.2

/-- `all_mask * polarity as usize`, `output_set.rs:495,520,530`. -/
def flipMask (n : ℕ) (polarity : Bool) : BitVec n := if polarity then BitVec.allOnes n else 0#n

/-- `OutputSet::channel_is_extremal`, `output_set.rs:491-498`. -/
def Bitmap.channelIsExtremal {n : ℕ} (s : Bitmap n) (polarity : Bool) (c : Fin n) : Bool :=
  s (bit c ^^^ flipMask n polarity)

/-- `OutputSet::apply_comparator`, `output_set.rs:568-597`; returns the new bitmap and the flag. -/
def Bitmap.applyComparator {n : ℕ} (s : Bitmap n) (c0 c1 : Fin n) : Bitmap n × Bool :=
  let mask0 := bit c0
  let mask1 := bit c1
  let comparatorMask := mask0 ||| mask1
  let r := maskLoop n comparatorMask.toNat
    (fun x (st : Bitmap n × Bool × Bool) =>
      let outOfOrder := st.1 (x ^^^ mask0)
      let bitmap1 := Function.update st.1 (x ^^^ mask0) false
      let inOrder := bitmap1 (x ^^^ mask1)
      (Function.update bitmap1 (x ^^^ mask1) (inOrder || outOfOrder),
        st.2.1 || outOfOrder, st.2.2 || inOrder))
    comparatorMask.toNat (s, false, false)
  (r.1, r.2.1 && r.2.2)

/-- `OutputSet::swap_channels`, `output_set.rs:599-621`. -/
def Bitmap.swapChannels {n : ℕ} (s : Bitmap n) (c0 c1 : Fin n) : Bitmap n :=
  if c0 = c1 then s
  else
    let mask0 := bit c0
    let mask1 := bit c1
    let comparatorMask := mask0 ||| mask1
    maskLoop n comparatorMask.toNat
      (fun x (bm : Bitmap n) =>
        Function.update (Function.update bm (x ^^^ mask0) (bm (x ^^^ mask1)))
          (x ^^^ mask1) (bm (x ^^^ mask0)))
      comparatorMask.toNat s

/-- `OutputSet::invert`, `output_set.rs:623-625`: reverses the bitmap. -/
def Bitmap.invert {n : ℕ} (s : Bitmap n) : Bitmap n :=
  fun x => s (BitVec.ofNat n (2 ^ n - 1 - x.toNat))

/-! ## Removing an extremal channel -/

/-- The index computation of `output_set.rs:526-527,540`, without the final `^ new_flip`.  All
intermediate values are computed with `n + 1` bits; the result is below `1 << n`
(`pruneTarget_lt`). -/
def pruneTarget {n : ℕ} (c : Fin (n + 1)) (next : BitVec (n + 1)) : BitVec (n + 1) :=
  let mask := bit c
  let newAllMask := BitVec.allOnes (n + 1) >>> 1
  let maskLow := mask - 1#(n + 1)
  let maskHigh := newAllMask ^^^ maskLow
  (next &&& maskLow) ||| ((next >>> 1) &&& maskHigh)

/-- One iteration of the inner `for` loop, `output_set.rs:537-548`.  The state is the target bitmap
and the queue (the end of the `BVec` is the head of the list). -/
def pruneInner {n : ℕ} (s : Bitmap (n + 1)) (polarity : Bool) (c : Fin (n + 1)) (index : BitVec (n + 1))
    (st : Bitmap n × List (BitVec (n + 1))) (i : Fin (n + 1)) : Bitmap n × List (BitVec (n + 1)) :=
  let flip := flipMask (n + 1) polarity
  let newFlip := flipMask n polarity
  let next := index ||| bit i
  let nextTarget := (pruneTarget c next).setWidth n ^^^ newFlip
  if s (next ^^^ flip) && !(st.1 nextTarget) then
    (Function.update st.1 nextTarget true, next :: st.2)
  else st

/-- The number of entries of a target bitmap that are still false (used for termination only).
Models code at `output_set.rs:531-544`. -/
def falseCount {n : ℕ} (t : Bitmap n) : ℕ := ((indices n).filter fun x => !(t x)).length

theorem indices_nodup (n : ℕ) : (indices n).Nodup := by
  unfold indices
  refine List.Nodup.map_on ?_ List.nodup_range
  intro a ha b hb h
  rw [List.mem_range] at ha hb
  have := congrArg BitVec.toNat h
  simpa [Nat.mod_eq_of_lt ha, Nat.mod_eq_of_lt hb] using this

theorem mem_indices {n : ℕ} (x : BitVec n) : x ∈ indices n := by
  unfold indices
  rw [List.mem_map]
  exact ⟨x.toNat, by simp [x.isLt], by simp⟩

theorem falseCount_update {n : ℕ} (t : Bitmap n) (x : BitVec n) (h : t x = false) :
    falseCount (Function.update t x true) + 1 = falseCount t := by
  unfold falseCount
  have key : ∀ L : List (BitVec n), L.Nodup → x ∈ L →
      (L.filter fun y => !(Function.update t x true y)).length + 1 = (L.filter fun y => !(t y)).length := by
    intro L
    induction L with
    | nil => intro _ h; simp at h
    | cons y L ih =>
      intro hnd hmem
      obtain ⟨hy, hnd⟩ := List.nodup_cons.1 hnd
      by_cases hxy : x = y
      · subst hxy
        have : L.filter (fun z => !(Function.update t x true z)) = L.filter fun z => !(t z) := by
          apply List.filter_congr
          intro z hz
          rw [Function.update_of_ne]
          rintro rfl; exact hy hz
        simp [this, h]
      · have hmem' : x ∈ L := by
          rcases List.mem_cons.1 hmem with h | h
          · exact absurd h hxy
          · exact h
        have := ih hnd hmem'
        have hne : Function.update t x true y = t y := Function.update_of_ne (fun h => hxy h.symm) _ _
        by_cases hty : t y = true
        · simp [hty, hne, this]
        · simp only [Bool.not_eq_true] at hty
          simp [hty, hne, this]
  exact key _ (indices_nodup n) (mem_indices x)

theorem pruneInner_measure {n : ℕ} (s : Bitmap (n + 1)) (p : Bool) (c : Fin (n + 1))
    (index : BitVec (n + 1)) (st : Bitmap n × List (BitVec (n + 1))) (i : Fin (n + 1)) :
    falseCount (pruneInner s p c index st i).1 + (pruneInner s p c index st i).2.length =
      falseCount st.1 + st.2.length := by
  unfold pruneInner
  dsimp only
  split
  · next h =>
    rw [Bool.and_eq_true, Bool.not_eq_true'] at h
    have := falseCount_update st.1 _ h.2
    dsimp only
    rw [List.length_cons]
    omega
  · rfl

theorem pruneInner_foldl_measure {n : ℕ} (s : Bitmap (n + 1)) (p : Bool) (c : Fin (n + 1))
    (index : BitVec (n + 1)) (L : List (Fin (n + 1))) (st : Bitmap n × List (BitVec (n + 1))) :
    falseCount (L.foldl (pruneInner s p c index) st).1 + (L.foldl (pruneInner s p c index) st).2.length =
      falseCount st.1 + st.2.length := by
  induction L generalizing st with
  | nil => rfl
  | cons i L ih => rw [List.foldl_cons, ih, pruneInner_measure]

/-- The `while` loop, `output_set.rs:534-549`. -/
def pruneLoop {n : ℕ} (s : Bitmap (n + 1)) (polarity : Bool) (c : Fin (n + 1))
    (target : Bitmap n) (queue : List (BitVec (n + 1))) : Bitmap n :=
  match queue with
  | [] => target
  | index :: queue =>
    let st := (List.finRange (n + 1)).foldl (pruneInner s polarity c index) (target, queue)
    pruneLoop s polarity c st.1 st.2
termination_by falseCount target + queue.length
decreasing_by
  have := pruneInner_foldl_measure s polarity c index (List.finRange (n + 1)) (target, queue)
  rw [List.length_cons]
  dsimp only at this
  omega

/-- `OutputSet::prune_extremal_channel_into`, `output_set.rs:500-550`; `none` is a panic of
`assert!(bitmap[index])`. -/
def Bitmap.pruneExtremalChannel {n : ℕ} (s : Bitmap (n + 1)) (polarity : Bool) (c : Fin (n + 1)) :
    Option (Bitmap n) :=
  let flip := flipMask (n + 1) polarity
  let newFlip := flipMask n polarity
  if s (bit c ^^^ flip) then
    some (pruneLoop s polarity c (Function.update (fun _ => false) newFlip true) [bit c])
  else none

/-- `pruneInner` with the fixed capacity of the queue made explicit: `ArrayVec::push` panics (`none`)
when the queue already has `cap` entries.  Models code at `output_set.rs:540-545`. -/
def pruneInnerCap {n : ℕ} (cap : ℕ) (s : Bitmap (n + 1)) (polarity : Bool) (c : Fin (n + 1))
    (index : BitVec (n + 1)) (st : Bitmap n × List (BitVec (n + 1))) (i : Fin (n + 1)) :
    Option (Bitmap n × List (BitVec (n + 1))) :=
  let st' := pruneInner s polarity c index st i
  if st'.2.length ≤ cap then some st' else none

/-- The `while` loop with explicit queue capacity and `fuel` bounding the number of iterations.
Models code at `output_set.rs:534-546`. -/
def pruneLoopCap {n : ℕ} (cap : ℕ) (s : Bitmap (n + 1)) (polarity : Bool) (c : Fin (n + 1)) :
    ℕ → Bitmap n → List (BitVec (n + 1)) → Option (Bitmap n)
  | _, target, [] => some target
  | 0, _, _ :: _ => none
  | fuel + 1, target, index :: queue => do
    let st ← (List.finRange (n + 1)).foldlM (pruneInnerCap cap s polarity c index) (target, queue)
    pruneLoopCap cap s polarity c fuel st.1 st.2

/-! ## Packing -/

/-- The byte computed from up to eight entries, `output_set.rs:393-400,407-414`. -/
def packByte (l : List Bool) : UInt8 :=
  ((l[0]?.getD false).toUInt8) |||
  ((l[1]?.getD false).toUInt8 <<< 1) |||
  ((l[2]?.getD false).toUInt8 <<< 2) |||
  ((l[3]?.getD false).toUInt8 <<< 3) |||
  ((l[4]?.getD false).toUInt8 <<< 4) |||
  ((l[5]?.getD false).toUInt8 <<< 5) |||
  ((l[6]?.getD false).toUInt8 <<< 6) |||
  ((l[7]?.getD false).toUInt8 <<< 7)

/-- `OutputSet::pack_into_slice` for a slice of `packed_len` bytes, `output_set.rs:381-432`: full
chunks of eight entries, then the remainder, if any. -/
def packBits (l : List Bool) : List UInt8 :=
  if l.length = 0 then []
  else packByte (l.take 8) :: packBits (l.drop 8)
termination_by l.length
decreasing_by rw [List.length_drop]; omega

/-- `OutputSet::packed_pvec`, `OutputSet::packed`, `output_set.rs:418-432`. -/
def Bitmap.packed {n : ℕ} (s : Bitmap n) : List UInt8 := packBits s.toList

/-- `OutputSet::packed_len`, `output_set.rs:381-383`, and `packed_len_for_channels`,
`output_set.rs:83-85`. -/
def packedLen (n : ℕ) : ℕ := (2 ^ n + 7) / 8

/-- The `k` entries read from a byte, `output_set.rs:649-656,663-665`. -/
def unpackByte (b : UInt8) (k : ℕ) : List Bool :=
  (List.range k).map fun i => (b &&& (1 <<< UInt8.ofNat i)) != 0

/-- `OutputSet::unpack_from_slice`, `output_set.rs:641-667`; `none` is a panic.  Full chunks without a
source byte keep their old entries, a remainder without a source byte panics, superfluous source
bytes are ignored. -/
def unpackBits (old : List Bool) (src : List UInt8) : Option (List Bool) :=
  if old.length = 0 then some []
  else if 8 ≤ old.length then
    match src with
    | [] => (unpackBits (old.drop 8) []).map (old.take 8 ++ ·)
    | b :: src => (unpackBits (old.drop 8) src).map (unpackByte b 8 ++ ·)
  else
    match src with
    | [] => none
    | b :: _ => some (unpackByte b old.length)
termination_by old.length
decreasing_by all_goals (rw [List.length_drop]; omega)

/-- A list of `1 << n` entries as a bitmap. -/
def Bitmap.ofList (n : ℕ) (l : List Bool) (h : l.length = 2 ^ n) : Bitmap n :=
  fun x => l[x.toNat]'(by rw [h]; exact x.isLt)

/-- `OutputSet::from_packed`, `output_set.rs:91-95`, as the list of entries. -/
def fromPackedList (n : ℕ) (packed : List UInt8) : Option (List Bool) :=
  unpackBits (allValues n).toList packed

end Sortnet
