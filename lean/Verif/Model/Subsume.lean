import Verif.Model.OutputSet

/-!
# Model of `Subsume`

Transcription of `/repo/src/output_set/subsume.rs` (cited as `subsume.rs`) and of the part of
`/repo/src/output_set.rs` used only by it.

Conventions.
* The two sides `0` and `1` are `false` and `true`; `1 - side` is `!side`.
* A mutating method takes the state and returns the new state.  The outer `Option` of every result is
  `none` if the method panics (index out of bounds, arithmetic overflow, `unwrap` of `None`, failed
  `debug_assert!`) or does not terminate.  Recursive methods are defined by `partial_fixpoint`, that
  is, as the least solution of their defining equation: no fuel and no bound on the number of
  iterations is involved.
* Bit masks of type `u16` are bit vectors with `n` bits.  Since `n ≤ MAX_CHANNELS = 11`, all bits
  from `n` on are zero in the masks that are stored.
* The undo stack is a list whose head is the top of the stack.
-/

namespace Sortnet

/-- `MAX_CHANNELS`, `output_set.rs:13`. -/
def maxChannels : ℕ := 11

/-- `OutputSet::low_channels_channel_abstraction_len`, `output_set.rs:268-272`. -/
def lowChannelsChannelAbstractionLen (n lowChannels : ℕ) : ℕ :=
  let weights := n - lowChannels
  let lowIndices := 2 ^ lowChannels
  weights * lowIndices * 3

/-- `OutputSet::low_channels_channel_abstraction`, `output_set.rs:274-307`.  The buffer is modelled as
a function from indices to values; `lowAbs_index_lt` shows that only indices below
`low_channels_channel_abstraction_len` are written. -/
def Bitmap.lowChannelsChannelAbstraction {n : ℕ} (s : Bitmap n) (lowChannels : ℕ) (c : Fin n) : ℕ → ℕ :=
  let weights := n - lowChannels
  let lowMask := BitVec.ofNat n (2 ^ lowChannels - 1)
  let mask := bit c
  let highMask := ~~~ (lowMask ||| mask)
  maskLoop n mask.toNat (fun x (buffer : ℕ → ℕ) =>
      let lowIndex := (x &&& lowMask).toNat
      let highWeight := countOnes (x &&& highMask)
      let hi := s x
      let lo := s (x ^^^ mask)
      let i := 3 * (highWeight + weights * lowIndex)
      let buffer := Function.update buffer (0 + i) (buffer (0 + i) + lo.toNat)
      let buffer := Function.update buffer (1 + i) (buffer (1 + i) + hi.toNat)
      Function.update buffer (2 + i) (buffer (2 + i) + (lo && hi).toNat))
    mask.toNat (fun _ => 0)

namespace Subsume

variable {n : ℕ}

/-- `enum UndoAction`, `subsume.rs:5-14`. -/
inductive Undo (n : ℕ) where
  | matching (channels : Bool → Fin n)
  | swap (target : Fin n) (source : Bool → Fin n)

/-- `struct Subsume`, `subsume.rs:16-24`.  The scratch buffer is not modelled. -/
structure St (n : ℕ) where
  sets : Bool → Bitmap n
  perms : Bool → Fin n → Fin n
  matching : Bool → Fin n → BitVec n
  undo : List (Undo n)
  fixed : ℕ

/-- `Subsume::new`, `subsume.rs:27-42`. -/
def new (s t : Bitmap n) : St n where
  sets := fun side => if side then t else s
  perms := fun _ i => i
  matching := fun _ _ => BitVec.allOnes n
  undo := []
  fixed := 0

/-- The set bits of a mask in ascending order: what `trailing_zeros` and `mask &= mask - 1` iterate
over, `subsume.rs:202-204`. -/
def setBits (m : BitVec n) : List (Fin n) := (List.finRange n).filter fun i : Fin n => m.getLsbD i

/-- `mask.trailing_zeros() as usize`; `none` if the mask is zero (the result is then out of bounds).
Models code at `subsume.rs:144,156,175,203,287`. -/
def trailingZeros (m : BitVec n) : Option (Fin n) := (setBits m).head?

/-- `mask & (mask - 1) == 0`; `none` if `mask - 1` overflows.  Models code at `subsume.rs:130,143,286`. -/
def isUnique (m : BitVec n) : Option Bool :=
  if m = 0#n then none else some (m &&& (m - 1#n) == 0#n)

/-- A pair of channels with channel `a` on side `side` and channel `b` on the other side.
Models code at `subsume.rs:153-157,212-214`. -/
def pair (side : Bool) (a b : Fin n) : Bool → Fin n := fun s => if s = side then a else b

/-- Modifies the mask of a channel.  Models code at `subsume.rs:138`. -/
def setMask (m : Bool → Fin n → BitVec n) (side : Bool) (c : Fin n) (v : BitVec n) :
    Bool → Fin n → BitVec n :=
  Function.update m side (Function.update (m side) c v)

/-- The loop body of `subsume.rs:96-103`. -/
def addEdge (m : Bool → Fin n → BitVec n) (ch : Bool → Fin n) (side : Bool) :
    Bool → Fin n → BitVec n :=
  let m := setMask m side (ch side) (m side (ch side) ||| bit (ch (!side)))
  setMask m (!side) (ch (!side)) (m (!side) (ch (!side)) ||| bit (ch side))

/-- `perm.swap(a, b)`.  Models code at `subsume.rs:114,300`. -/
def swapPerm (p : Fin n → Fin n) (a b : Fin n) : Fin n → Fin n :=
  Function.update (Function.update p a (p b)) b (p a)

/-- `subsume.rs:109-115` and `subsume.rs:298-301`. -/
def swapBoth (st : St n) (target : Fin n) (source : Bool → Fin n) : St n :=
  { st with
    sets := fun side => (st.sets side).swapChannels target (source side)
    perms := fun side => swapPerm (st.perms side) target (source side) }

/-- One iteration of the loop of `rollback`, `subsume.rs:94-117`. -/
def undoAction (st : St n) : Undo n → St n
  | .matching ch => { st with matching := addEdge (addEdge st.matching ch false) ch true }
  | .swap target source => swapBoth st target source

/-- `Subsume::rollback`, `subsume.rs:91-119`. -/
def rollback (st : St n) (depth fixed : ℕ) : St n :=
  let k := st.undo.length - depth
  let st' := (st.undo.take k).foldl undoAction { st with fixed := fixed }
  { st' with undo := st.undo.drop k }

/-- `Subsume::get_matching`, `subsume.rs:121-123`. -/
def getMatching (st : St n) (ch : Bool → Fin n) : Bool :=
  (st.matching false (ch false) &&& bit (ch true)) != 0#n

/-- `subsume.rs:135-139`. -/
def dropEdge (st : St n) (ch : Bool → Fin n) : St n :=
  let clear := fun (m : Bool → Fin n → BitVec n) (side : Bool) =>
    setMask m side (ch side) (m side (ch side) &&& ~~~ bit (ch (!side)))
  { st with
    undo := .matching ch :: st.undo
    matching := clear (clear st.matching false) true }

mutual

/-- `Subsume::remove_matching`, `subsume.rs:125-167`. -/
def removeMatching (st : St n) (ch : Bool → Fin n) : Option (Bool × St n) :=
  if getMatching st ch = false then none
  else do
    let u0 ← isUnique (st.matching false (ch false))
    if u0 then some (false, st)
    else do
      let u1 ← isUnique (st.matching true (ch true))
      if u1 then some (false, st)
      else do
        let r ← propagate (dropEdge st ch) ch false
        if r.1 then propagate r.2 ch true else some (false, r.2)
partial_fixpoint

/-- The body of the loop `subsume.rs:141-164` for one side. -/
def propagate (st : St n) (ch : Bool → Fin n) (side : Bool) : Option (Bool × St n) := do
  let mask := st.matching side (ch side)
  let u ← isUnique mask
  if u then do
    let other ← trailingZeros mask
    removeOthers st side (ch side) other
  else some (true, st)
partial_fixpoint

/-- The loop `subsume.rs:146-162`; `keep` is `channels[side]` and `other` is `other_channel`. -/
def removeOthers (st : St n) (side : Bool) (keep other : Fin n) : Option (Bool × St n) :=
  let otherMask := st.matching (!side) other &&& ~~~ bit keep
  if otherMask = 0#n then some (true, st)
  else do
    let target ← trailingZeros otherMask
    let r ← removeMatching st (pair side target other)
    if r.1 then removeOthers r.2 side keep other else some (false, r.2)
partial_fixpoint

end

/-- `Subsume::isolate_matching`, `subsume.rs:169-182`. -/
def isolateMatching (st : St n) (ch : Bool → Fin n) : Option (Bool × St n) :=
  let otherMask := st.matching true (ch true) &&& ~~~ bit (ch false)
  if otherMask = 0#n then some (true, st)
  else do
    let target ← trailingZeros otherMask
    let r ← removeMatching st (pair false target (ch true))
    if r.1 then isolateMatching r.2 ch else some (false, r.2)
partial_fixpoint

/-- Lexicographic order on triples, `Ord` for tuples.  Models code at `subsume.rs:192`. -/
def lexLt (a b : ℕ × ℕ × ℕ) : Bool :=
  a.1 < b.1 || (a.1 == b.1 && (a.2.1 < b.2.1 || (a.2.1 == b.2.1 && a.2.2 < b.2.2)))

/-- The running minimum of a list of choices.  Models code at `subsume.rs:192,207`. -/
def minChoice (init : ℕ × ℕ × ℕ) (l : List (ℕ × ℕ × ℕ)) : ℕ × ℕ × ℕ :=
  l.foldl (fun acc x => if lexLt x acc then x else acc) init

/-- The channels `fixed_channels..channels`.  Models code at `subsume.rs:188,234,251,256,283`. -/
def freeChannels (st : St n) : List (Fin n) := (List.finRange n).filter fun i : Fin n => st.fixed ≤ i

/-- The choices considered in the loop `subsume.rs:187-194`. -/
def choices (st : St n) : List (ℕ × ℕ × ℕ) :=
  [false, true].flatMap fun side =>
    (freeChannels st).map fun channel =>
      let m := st.perms side channel
      (countOnes (st.matching side m), side.toNat, m.val)

/-- The choices considered in the loop `subsume.rs:202-208` (with a constant second component, so
that the order is that of pairs). -/
def otherChoices (st : St n) (side : Bool) (c : Fin n) : List (ℕ × ℕ × ℕ) :=
  (setBits (st.matching side c)).map fun m => (countOnes (st.matching (!side) m), 0, m.val)

/-- A channel number as array index.  Models code at `subsume.rs:144,287`. -/
def toChannel (n : ℕ) (i : ℕ) : Option (Fin n) := if h : i < n then some ⟨i, h⟩ else none

/-- `Subsume::select_guess`, `subsume.rs:184-217`. -/
def selectGuess (st : St n) : Option (Bool → Fin n) := do
  let choice := minChoice (maxChannels + 1, 0, 0) (choices st)
  let side := choice.2.1 != 0
  let c ← toChannel n choice.2.2
  let other := minChoice (maxChannels + 1, 0, 0) (otherChoices st side c)
  let o ← toChannel n other.2.2
  some (pair side c o)

/-- The comparison `subsume.rs:260-263` of two abstraction buffers. -/
def abstractionExceeds (len : ℕ) (lo hi : ℕ → ℕ) : Bool := (List.range len).any fun i => lo i > hi i

/-- One iteration of the inner loop of `filter_matching`, `subsume.rs:258-270`.  The abstractions
depend only on the two sets and the number of fixed channels, which the loop does not change; the
code computes them before the loop (`subsume.rs:220-246`) for the state `st0`. -/
def filterStep (st0 st : St n) (lo hi : Fin n) : Option (Bool × St n) :=
  let ch := pair false (st.perms false lo) (st.perms true hi)
  if getMatching st ch then
    if abstractionExceeds (lowChannelsChannelAbstractionLen n st0.fixed)
        ((st0.sets false).lowChannelsChannelAbstraction st0.fixed lo)
        ((st0.sets true).lowChannelsChannelAbstraction st0.fixed hi) then
      removeMatching st ch
    else some (true, st)
  else some (true, st)

/-- The two nested loops of `filter_matching`, `subsume.rs:250-272`, over the list of pairs. -/
def filterLoop (st0 : St n) : List (Fin n × Fin n) → St n → Option (Bool × St n)
  | [], st => some (true, st)
  | p :: ps, st => do
    let r ← filterStep st0 st p.1 p.2
    if r.1 then filterLoop st0 ps r.2 else some (false, r.2)

/-- `Subsume::filter_matching`, `subsume.rs:219-278`. -/
def filterMatching (st : St n) : Option (Bool × St n) :=
  filterLoop st ((freeChannels st).flatMap fun lo => (freeChannels st).map fun hi => (lo, hi)) st

/-- `perms[1].iter().position(|&m| m == channel)`, `subsume.rs:288-290`. -/
def position (p : Fin n → Fin n) (c : Fin n) : Option (Fin n) :=
  ((List.finRange n).filter fun i => p i = c).head?

/-- One iteration of the loop of `move_unique`, `subsume.rs:283-306`. -/
def moveStep (st : St n) (moved : Bool) (lo : Fin n) : Option (Bool × St n) := do
  let mask := st.matching false (st.perms false lo)
  let u ← isUnique mask
  if u then do
    let c ← trailingZeros mask
    let hi ← position (st.perms true) c
    let target ← toChannel n st.fixed
    let source := pair false lo hi
    let st' := swapBoth st target source
    some (true, { st' with undo := .swap target source :: st.undo, fixed := st.fixed + 1 })
  else some (moved, st)

/-- The loop of `move_unique`.  Models code at `subsume.rs:283-306`. -/
def moveLoop : List (Fin n) → Bool → St n → Option (Bool × St n)
  | [], moved, st => some (moved, st)
  | lo :: los, moved, st => do
    let r ← moveStep st moved lo
    moveLoop los r.1 r.2

/-- `Subsume::move_unique`, `subsume.rs:280-308`. -/
def moveUnique (st : St n) : Option (Bool × St n) := moveLoop (freeChannels st) false st

/-- The permutation built in `subsume.rs:49-53`. -/
def resultPerm (st : St n) : Fin n → Fin n :=
  (List.finRange n).foldl (fun perm i => Function.update perm (st.perms true i) (st.perms false i)) id

mutual

/-- `Subsume::search`, `subsume.rs:44-89`.  Both loops continue at the top of the function body, and
are modelled by tail calls. -/
def search (st : St n) : Option (Option (Fin n → Fin n) × St n) :=
  if st.fixed = n then
    if (st.sets false).subsumesUnpermuted (st.sets true) then some (some (resultPerm st), st)
    else some (none, st)
  else do
    let f ← filterMatching st
    if f.1 then do
      let m ← moveUnique f.2
      if m.1 then search m.2 else branch m.2
    else some (none, f.2)
partial_fixpoint

/-- `subsume.rs:68-82`. -/
def branch (st : St n) : Option (Option (Fin n → Fin n) × St n) := do
  let guess ← selectGuess st
  let i ← isolateMatching st guess
  if i.1 then do
    let m ← moveUnique i.2
    let r ← search m.2
    match r.1 with
    | some p => some (some p, rollback r.2 st.undo.length st.fixed)
    | none => exclude (rollback r.2 st.undo.length st.fixed) guess
  else exclude (rollback i.2 st.undo.length st.fixed) guess
partial_fixpoint

/-- `subsume.rs:84-88`. -/
def exclude (st : St n) (guess : Bool → Fin n) : Option (Option (Fin n → Fin n) × St n) := do
  let r ← removeMatching st guess
  if r.1 then do
    let m ← moveUnique r.2
    search m.2
  else some (none, r.2)
partial_fixpoint

end

end Subsume

/-- `OutputSet::subsumes_permuted`, `output_set.rs:377-379`.  The outer `none` is a panic or
nontermination; for more than `MAX_CHANNELS` channels the `CVec`s collected in `subsume.rs:30` exceed
their capacity. -/
def Bitmap.subsumesPermuted {n : ℕ} (s t : Bitmap n) : Option (Option (Fin n → Fin n)) :=
  if n ≤ maxChannels then (Subsume.search (Subsume.new s t)).map Prod.fst else none

end Sortnet
