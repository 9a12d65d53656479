import Verif.Model.StateMap
import Verif.Model.Files

/-!
# Model of `Search::dump_states`

Simplification: all file operations succeed.  The contents of a `BufWriter` are in the file when the
function returns.
-/

namespace Sortnet

namespace Files

open Search

/-- `"index.txt"`.  Models code at `search.rs:86`. -/
def indexName : Str := str ['i', 'n', 'd', 'e', 'x', '.', 't', 'x', 't']

/-- `format!("group_{}_{}.bin", group.0, group.1)`, `search.rs:95`. -/
def groupName (g : ℕ × ℕ) : Str :=
  str ['g', 'r', 'o', 'u', 'p', '_'] ++ dec g.1 ++ str ['_'] ++ dec g.2 ++ str ['.', 'b', 'i', 'n']

/-- The body of the inner loop of `dump_states`, `search.rs:91-103`: the files and the keys of
`group_files`. -/
def dumpEntry (st : FS × List (ℕ × ℕ)) (e : ℕ × List UInt8 × State) : FS × List (ℕ × ℕ) :=
  let (fs, groups) := st
  let (channels, packed, state) := e
  let group := (channels, state.lo)
  if group ∈ groups then (fs.append (groupName group) packed, groups)
  else
    let fs := fs.append indexName (groupName group ++ [10])
    let fs := fs.create (groupName group)
    (fs.append (groupName group) packed, groups ++ [group])

/-- `Search::dump_states`, `search.rs:80-107`, on the files of the output directory. -/
def dumpStates (m : StateMap) (fs : FS) : FS := (m.drain.foldl dumpEntry (fs.create indexName, [])).1

/-- The channels in a line of the index, `prune.rs:119-120`, `proof.rs:29-30`, `fix.rs:19-20`; `none` is a panic. -/
def lineChannels (line : Str) : Option ℕ :=
  if validUtf8 line then do
    let p ← (split 95 line)[1]?
    parseUInt (2 ^ 64) p
  else none

/-- The bound in a line of the index, `proof.rs:31-32`, `fix.rs:21-22`; `none` is a panic. -/
def lineBound (line : Str) : Option ℕ := do
  let p ← (split 95 line)[2]?
  let q ← (split 46 p).head?
  parseUInt 256 q

end Files

end Sortnet
