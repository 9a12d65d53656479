import Verif.Model.Index
import Verif.Model.Files
import Verif.Model.Gnp

/-!
# Model of the drawing of an index, `dump_dot`, and of the option `--dump-index` of `gnp`

`none` is a panic (an index out of bounds or `unreachable!`) or non-termination.  Errors of the writer are not modelled.
-/

namespace Sortnet

open Files

namespace Index

variable {β : Type}

/-- The name of a node in the drawing, the `n{}_{}` of `tree.rs:488-489`. -/
def dotName (tree id : ℕ) : Str := str ['n'] ++ dec tree ++ str ['_'] ++ dec id

/-- One line of the drawing, `writeln!` in `tree.rs:488` and `tree.rs:489`. -/
def dotEdge (tree src dst : ℕ) : Str :=
  str [' ', ' '] ++ dotName tree src ++ str [' ', '-', '>', ' '] ++ dotName tree dst ++ str [';', '\n']

/-- The loop of `Tree::dump_dot`, `tree.rs:481-501`, with the text written so far. -/
def dotLoop (t : Tree β) (tree : ℕ) (out : Str) (state : TState) : Option Str :=
  match state with
  | .done => some out
  | .node id => do
    let node ← t.nodes[id]?
    match node.links with
    | .inner l r => do
      let state ← enter t true id
      dotLoop t tree (out ++ dotEdge tree id l ++ dotEdge tree id r) state
    | .leaf _ _ => do
      let state ← skip t true id
      dotLoop t tree out state
  | .point _ _ => none
partial_fixpoint

/-- `Tree::dump_dot`, `tree.rs:479-502`. -/
def dumpDot (t : Tree β) (tree : ℕ) (out : Str) : Option Str := dotLoop t tree out (root t)

end Index

open Index

namespace OutputSetIndex

variable {n : ℕ}

/-- The loop of `OutputSetIndex::dump_dot` over the trees and their numbers, `index.rs:616-618`. -/
def dotTrees : ℕ → List (Index.Tree (List UInt8)) → Str → Option Str
  | _, [], out => some out
  | k, t :: ts, out => do
    let out ← Index.dumpDot t k out
    dotTrees (k + 1) ts out

/-- `OutputSetIndex::dump_dot`, `index.rs:614-621`. -/
def dumpDot (idx : OutputSetIndex n) : Option Str := do
  let out ← dotTrees 0 idx.trees (str ['d', 'i', 'g', 'r', 'a', 'p', 'h', ' ', '{', '\n'])
  some (out ++ str ['}', '\n'])

end OutputSetIndex

namespace Gnp

variable {n : ℕ}

/-- The name of the file for a layer, `sortnetopt.rs:180`. -/
def layerFile (layer : ℕ) : Str :=
  str ['_', 'l', 'a', 'y', 'e', 'r', '_'] ++ dec layer ++ str ['.', 'd', 'o', 't']

/-- The loop over the layers with `--dump-index`, `sortnetopt.rs:150-185`: the sizes in the log and the directory.  The
`BufWriter` is dropped at the end of each iteration, so the file is complete before the next layer. -/
def loopDump (hash : List ℕ → ℕ) (order : ℕ → ℕ → List (Bitmap n) → List (Bitmap n)) (layerCount : ℕ)
    (layer : OutputSetIndex n) (fs : FS) : Option (List ℕ × FS) :=
  if layer.isEmpty then some ([], fs)
  else do
    let next ← nextLayer hash (order layerCount) layer
    let text ← next.dumpDot
    let fs := (fs.create (layerFile (layerCount + 1))).append (layerFile (layerCount + 1)) text
    let r ← loopDump hash order (layerCount + 1) next fs
    some (next.len :: r.1, r.2)
partial_fixpoint

/-- `cmd_gnp` with `--dump-index`, `sortnetopt.rs:136-186`. -/
def gnpDump (hash : List ℕ → ℕ) (n : ℕ) (order : ℕ → ℕ → List (Bitmap n) → List (Bitmap n)) (fs : FS) :
    Option (List ℕ × FS) :=
  if n > maxChannels then none
  else do
    let abs ← (allValues n).abstraction
    let layer ← OutputSetIndex.new n
    let r ← layer.insert .lower (allValues n) abs 0
    loopDump hash order 0 r.1 fs

end Gnp

end Sortnet
