import Verif.Model.ProofGen

/-!
# Model of the conversion of old certificates, `/repo/src/fix.rs`

Conventions.
* `none` is a panic.
* Additions wrap, as in a release build; the truncation is in `le32` and `le64`.
* `OutputSet::packed_len_for_channels` shifts by the number of channels; for 64 and more channels the shift wraps in the
  code, but not here.  Sets with so many channels are not in the log, so both the code and the model panic.
* A panic while writing leaves an incomplete `proof.bin` behind; the model gives the files
  after a panic only in Model/CertWrite.lean.
-/

namespace Sortnet

namespace Fix

open Files ProofGen

/-- The keys and values of `pruned_sets`, `fix.rs:14`. -/
abbrev Sets := List ((ℕ × List UInt8) × ℕ)

/-- `BTreeMap::get`.  Models code at `fix.rs:76`. -/
def Sets.get (m : Sets) (key : ℕ × List UInt8) : Option ℕ := (m.find? fun e => decide (e.1 = key)).map Prod.snd

/-- The body of the loop over the lines of the index, `fix.rs:18-35`; a later insertion hides an earlier one. -/
def loadLine (fs : FS) (m : Sets) (line : Str) : Option Sets := do
  let channels ← lineChannels line
  let bound ← lineBound line
  let data ← fs (withExtension line extPbin)
  if data = [] then none
  else some ((chunks (packedLen channels) data).foldl (fun m packed => ((channels, packed), bound) :: m) m)

/-- `fix.rs:14-35`. -/
def load (fs : FS) : Option Sets := do
  let data ← fs indexName
  (lines data).foldlM (loadLine fs) []

/-- `read_u32` and `read_u64` with `LittleEndian`, for `k` bytes: the number and the rest of the file.
Models code at `fix.rs:46,55,56`. -/
def readLE (k : ℕ) (data : List UInt8) : Option (ℕ × List UInt8) :=
  if data.length < k then none
  else some ((data.take k).foldr (fun b x => b.toNat + 256 * x) 0, data.drop k)

/-- The loop over the table, `fix.rs:54-65`, for `count` entries beginning with number `step`: the lengths, the bytes
written, and the rest of the file. -/
def fixTable (step : ℕ) : (count : ℕ) → List UInt8 → Option (List ℕ × List UInt8 × List UInt8)
  | 0, data => some ([], [], data)
  | count + 1, data => do
    let (offset, data) ← readLE 8 data
    let (len, data) ← readLE 4 data
    let (lengths, out, data) ← fixTable (step + 1) count data
    some (len :: lengths, le64 (offset + step) ++ le32 (len + 1) ++ out, data)

/-- The body of the loop over the steps, `fix.rs:68-80`: the bytes written and the rest of the file. -/
def fixStep (m : Sets) (data : List UInt8) (len : ℕ) : Option (List UInt8 × List UInt8) :=
  match data.take len with
  | [] => none
  | c :: rest =>
    if rest.length < packedLen c.toNat then none
    else do
      let bound ← m.get (c.toNat, rest.take (packedLen c.toNat))
      some (c :: UInt8.ofNat bound :: rest, data.drop len)

/-- The loop over the steps, `fix.rs:67-81`. -/
def fixSteps (m : Sets) : List ℕ → List UInt8 → Option (List UInt8)
  | [], _ => some []
  | len :: lengths, data => do
    let (out, data) ← fixStep m data len
    let outs ← fixSteps m lengths data
    some (out ++ outs)

/-- `"proof.old.bin"`.  Models code at `fix.rs:37`. -/
def oldName : Str := str ['p', 'r', 'o', 'o', 'f', '.', 'o', 'l', 'd', '.', 'b', 'i', 'n']

/-- `fix_proof`, `fix.rs:13-82`, on the files of the input directory. -/
def fixProof (fs : FS) : Option FS := do
  let m ← load fs
  let data ← fs oldName
  if (fs proofName).isSome then none
  else do
    let (count, data) ← readLE 4 data
    let (lengths, table, data) ← fixTable 0 count data
    let steps ← fixSteps m lengths data
    some ((fs.create proofName).append proofName (le32 count ++ table ++ steps))

end Fix

end Sortnet
