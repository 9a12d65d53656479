import Verif.Model.Index
import Verif.Model.Search

/-!
# Model of the generate-and-prune command, `cmd_gnp` in `/repo/src/bin/sortnetopt.rs`

`none` is a panic or non-termination.  The option `dump_index` only writes files, see Model/Dot.lean.
-/

namespace Sortnet

namespace Gnp

variable {n : ℕ}

/-- `HashSet::insert`; the order of the set is chosen when it is drained.  Models code at `sortnetopt.rs:153,161`. -/
def setInsert (l : List (Bitmap n)) (t : Bitmap n) : List (Bitmap n) :=
  if l.any fun u => decide (u.toList = t.toList) then l else l ++ [t]

/-- The body of the loops over the comparators, `sortnetopt.rs:158-162`. -/
def addSuccessor (hash : List ℕ → ℕ) (s : Bitmap n) (l : List (Bitmap n)) (c : Fin n × Fin n) : Option (List (Bitmap n)) :=
  let r := s.applyComparator c.1 c.2
  if r.2 then do
    let t ← r.1.canonicalize hash false
    some (setInsert l t.1)
  else some l

/-- The loops over the comparators, `sortnetopt.rs:156-164`. -/
def successors (hash : List ℕ → ℕ) (s : Bitmap n) : Option (List (Bitmap n)) :=
  (Search.pairs n).foldlM (addSuccessor hash s) []

/-- The loop that drains the hash set, `sortnetopt.rs:166-169`. -/
def insertAll (next : OutputSetIndex n) (l : List (Bitmap n)) : Option (OutputSetIndex n) :=
  l.foldlM (fun next t => do
    let abs ← t.abstraction
    let r ← next.insert .lower t abs 0
    some r.1) next

/-- The body of `for_each`, `sortnetopt.rs:155-170`; `order` is the order in which the hash set is drained. -/
def addSet (hash : List ℕ → ℕ) (order : List (Bitmap n) → List (Bitmap n)) (next : OutputSetIndex n) (s : Bitmap n) :
    Option (OutputSetIndex n) := do
  let l ← successors hash s
  insertAll next (order l)

/-- `for_each` with the number of the call, which the order may depend on.
Models code at `sortnetopt.rs:155-170` and `index.rs:581-604`. -/
def addSets (hash : List ℕ → ℕ) (order : ℕ → List (Bitmap n) → List (Bitmap n)) :
    ℕ → List (Bitmap n × List ℕ × ℕ) → OutputSetIndex n → Option (OutputSetIndex n)
  | _, [], next => some next
  | i, e :: es, next => do
    let next ← addSet hash (order i) next e.1
    addSets hash order (i + 1) es next

/-- The body of the loop over the layers, `sortnetopt.rs:151-170`. -/
def nextLayer (hash : List ℕ → ℕ) (order : ℕ → List (Bitmap n) → List (Bitmap n)) (layer : OutputSetIndex n) :
    Option (OutputSetIndex n) := do
  let next ← OutputSetIndex.new n
  let es ← layer.forEach .lower
  addSets hash order 0 es next

/-- The loop over the layers, `sortnetopt.rs:150-185`.  The result is the list of the sizes that are logged for the layers
`layer_count + 1`, `layer_count + 2`, ... -/
def loop (hash : List ℕ → ℕ) (order : ℕ → ℕ → List (Bitmap n) → List (Bitmap n)) (layerCount : ℕ)
    (layer : OutputSetIndex n) : Option (List ℕ) :=
  if layer.isEmpty then some []
  else do
    let next ← nextLayer hash (order layerCount) layer
    let sizes ← loop hash order (layerCount + 1) next
    some (next.len :: sizes)
partial_fixpoint

/-- `cmd_gnp`, `sortnetopt.rs:136-186`: the sizes of the layers 1, 2, ... in the log. -/
def gnp (hash : List ℕ → ℕ) (n : ℕ) (order : ℕ → ℕ → List (Bitmap n) → List (Bitmap n)) : Option (List ℕ) :=
  if n > maxChannels then none
  else do
    let abs ← (allValues n).abstraction
    let layer ← OutputSetIndex.new n
    let r ← layer.insert .lower (allValues n) abs 0
    loop hash order 0 r.1

end Gnp

end Sortnet
