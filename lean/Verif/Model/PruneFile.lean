import Verif.Model.Index
import Verif.Model.Dump

/-!
# Model of `prune` and `prune_all`

The closure of the parallel `filter` only reads the index, which is not changed meanwhile, and `collect` keeps
the order of the ids, so the result does not depend on how the calls are distributed over threads.  Progress
bars and log messages are left out.
-/

namespace Sortnet

namespace Files

open Index

/-- `OutputSet::from_packed`, `output_set.rs:91-95`. -/
def fromPacked (n : ℕ) (packed : List UInt8) : Option (Bitmap n) := do
  let l ← fromPackedList n packed
  if h : l.length = 2 ^ n then some (Bitmap.ofList n l h) else none

/-- `u8::count_ones`.  Models code at `prune.rs:58`. -/
def countOnes (b : UInt8) : ℕ := (List.range 8).countP fun i => (b &&& (1 <<< UInt8.ofNat i)) != 0

/-- `state_len`, `prune.rs:56-59`. -/
def stateLen (packed : List UInt8) : ℕ := (packed.map countOnes).sum

/-- `PackedOutputSets::get_packed`, `prune.rs:32-34`; `none` is a panic (slice out of range). -/
def getPacked (stride : ℕ) (data : List UInt8) (index : ℕ) : Option (List UInt8) :=
  if data.length < stride * index then none
  else if (data.drop (stride * index)).length < stride then none
  else some ((data.drop (stride * index)).take stride)

/-- `by_state_len.entry(state_len).or_insert_with(|| vec![]).push(i)`, `prune.rs:61-64`; the `BTreeMap` is a list
ordered by key. -/
def addLen (len i : ℕ) : List (ℕ × List ℕ) → List (ℕ × List ℕ)
  | [] => [(len, [i])]
  | (k, is) :: m =>
    if len = k then (k, is ++ [i]) :: m
    else if len < k then (len, [i]) :: (k, is) :: m
    else (k, is) :: addLen len i m

/-- The loop `prune.rs:55-67`. -/
def byStateLen (chunks : List (List UInt8)) : List (ℕ × List ℕ) :=
  (chunks.zipIdx).foldl (fun m p => addLen (stateLen p.1) p.2 m) []

/-- A filter with a condition that may panic.  Models code at `prune.rs:83-94`. -/
def filterOpt {α : Type} (p : α → Option Bool) : List α → Option (List α)
  | [] => some []
  | a :: l => do
    let b ← p a
    let l' ← filterOpt p l
    some (if b then a :: l' else l')

/-- The closure of the filter, `prune.rs:85-93`. -/
def notSubsumed (n : ℕ) (data : List UInt8) (index : OutputSetIndex n) (id : ℕ) : Option Bool := do
  let packed ← getPacked (packedLen n) data id
  let outputSet ← fromPacked n packed
  let abs ← outputSet.abstraction
  let r ← index.lookup .lowerInvert outputSet abs
  some r.isNone

/-- The body of the loop `prune.rs:96-106`; the state consists of the index and the bytes written. -/
def pruneWrite (n : ℕ) (data : List UInt8) (st : OutputSetIndex n × List UInt8) (id : ℕ) :
    Option (OutputSetIndex n × List UInt8) := do
  let packed ← getPacked (packedLen n) data id
  let outputSet ← fromPacked n packed
  let abs ← outputSet.abstraction
  let index ← st.1.insertNew .lowerInvert outputSet abs 0
  some (index, st.2 ++ packed)

/-- The body of the loop `prune.rs:79-109`. -/
def pruneGroup (n : ℕ) (data : List UInt8) (st : OutputSetIndex n × List UInt8) (g : ℕ × List ℕ) :
    Option (OutputSetIndex n × List UInt8) := do
  let ids ← filterOpt (notSubsumed n data st.1) g.2
  ids.foldlM (pruneWrite n data) st

/-- The bytes that `prune` writes for the given contents of the input file, `prune.rs:49-109`; `none` is a
panic.  The memory map of an empty file fails (`prune.rs:39`). -/
def pruneData (n : ℕ) (data : List UInt8) : Option (List UInt8) := do
  if data = [] then none
  else
    let index ← OutputSetIndex.new n
    let st ← (byStateLen (chunks (packedLen n) data)).foldlM (pruneGroup n data) (index, [])
    some st.2

/-! ## The file system operations of `prune_all`, with crashes -/

/-- `"pbin"`.  Models code at `prune.rs:41`. -/
def extPbin : Str := str ['p', 'b', 'i', 'n']

/-- `"tmp"`.  Models code at `prune.rs:46`. -/
def extTmp : Str := str ['t', 'm', 'p']

/-- What the process is doing.  Models code at `prune.rs:37-125`. -/
inductive Proc where
  /-- not started, or killed and not yet started again -/
  | stopped
  /-- in the loop of `prune_all` with the remaining lines of the index -/
  | loop (todo : List Str)
  /-- in `prune` with some bytes of the output not yet in the file (still in the `BufWriter`, or not yet
  computed) -/
  | writing (name : Str) (rest : List UInt8) (todo : List Str)
  | done
  | panicked

/-- One step of `prune_all`, `prune.rs:37-125`, on the files of the input directory.  The output is split into
arbitrary pieces that reach the file at arbitrary times.  Creating the file and reading the input happen at once:
the input file is never written to. -/
inductive PruneStep : FS × Proc → FS × Proc → Prop
  /-- `prune.rs:116-118` -/
  | start {fs : FS} {data : List UInt8} (h : fs indexName = some data) : PruneStep (fs, .stopped) (fs, .loop (lines data))
  /-- `prune.rs:117`, no index -/
  | startPanic {fs : FS} (h : fs indexName = none) : PruneStep (fs, .stopped) (fs, .panicked)
  /-- `prune.rs:41-45`: the output exists -/
  | skip {fs : FS} {name : Str} {todo : List Str} {n : ℕ} {data : List UInt8} (hn : lineChannels name = some n)
      (hd : fs name = some data) (hne : data ≠ [])
      (hp : (fs (withExtension name extPbin)).isSome) : PruneStep (fs, .loop (name :: todo)) (fs, .loop todo)
  /-- `prune.rs:46-47` -/
  | create {fs : FS} {name : Str} {todo : List Str} {n : ℕ} {data out : List UInt8} (hn : lineChannels name = some n)
      (hd : fs name = some data) (hp : fs (withExtension name extPbin) = none) (ho : pruneData n data = some out) :
      PruneStep (fs, .loop (name :: todo)) (fs.create (withExtension name extTmp), .writing name out todo)
  /-- `prune.rs:38-39,120`: no number of channels in the line, or no memory map of the input -/
  | panic {fs : FS} {name : Str} {todo : List Str}
      (h : lineChannels name = none ∨ fs name = none ∨ fs name = some []) :
      PruneStep (fs, .loop (name :: todo)) (fs, .panicked)
  /-- `prune.rs:49-109`: computing the output panics, with some bytes `now` in the temporary file -/
  | panicLate {fs : FS} {name : Str} {todo : List Str} {n : ℕ} {data now : List UInt8}
      (hn : lineChannels name = some n) (hd : fs name = some data) (hp : fs (withExtension name extPbin) = none)
      (ho : pruneData n data = none) : PruneStep (fs, .loop (name :: todo))
        ((fs.create (withExtension name extTmp)).append (withExtension name extTmp) now, .panicked)
  /-- some bytes reach the file -/
  | write {fs : FS} {name : Str} {todo : List Str} {now rest : List UInt8} (h : now ≠ []) :
      PruneStep (fs, .writing name (now ++ rest) todo)
        (fs.append (withExtension name extTmp) now, .writing name rest todo)
  /-- `prune.rs:111-112` -/
  | rename {fs : FS} {name : Str} {todo : List Str} : PruneStep (fs, .writing name [] todo)
      (fs.rename (withExtension name extTmp) (withExtension name extPbin), .loop todo)
  /-- end of `prune_all` -/
  | finish {fs : FS} : PruneStep (fs, .loop []) (fs, .done)

/-- A step of the process, or the process is killed (and can be started again).  Models code at `prune.rs:37-125`. -/
inductive CrashStep : FS × Proc → FS × Proc → Prop
  | step {a b : FS × Proc} (h : PruneStep a b) : CrashStep a b
  | crash {fs : FS} {p : Proc} : CrashStep (fs, p) (fs, .stopped)

/-- A step of the process that may be killed, or the last bytes are lost: `drop(output_file)` (`prune.rs:111`) ignores errors,
so that the file is renamed although the bytes `rest` could not be written. -/
inductive LossStep : FS × Proc → FS × Proc → Prop
  | crash {a b : FS × Proc} (h : CrashStep a b) : LossStep a b
  | lose {fs : FS} {name : Str} {rest : List UInt8} {todo : List Str} : LossStep (fs, .writing name rest todo)
      (fs.rename (withExtension name extTmp) (withExtension name extPbin), .loop todo)

end Files

end Sortnet
