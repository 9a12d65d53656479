import Mathlib.Data.List.Basic
import Mathlib.Data.Nat.Notation

/-!
# Model of the search tree of an index

Transcription of `/repo/src/output_set/index/tree.rs` (cited as `tree.rs`).

The three parallel arrays `points` (stride `point_dim`), `packed` (stride `packed_dim`) and `values` are
modelled by one array of entries; the assertions `tree.rs:107-117` (the arrays have the same number of
elements) hold by construction.  `ranges` (stride `point_dim`) is modelled by one array with an element
per node.  Numbers (`u8`, `u16`, `usize`) are natural numbers; the only arithmetic is on indices and,
in `build_tree`, on components of points, which are at most `2^11` (`C19`), so nothing overflows.

`none` is a panic (array index out of bounds, failed assertion, `unreachable!`) or nontermination.
-/

namespace Sortnet.Index

/-- `SPLIT_THRESHOLD`, `tree.rs:3`. -/
def splitThreshold : ℕ := 16

/-- One element of the arrays `points`, `packed` and `values`, `tree.rs:7-10`. -/
structure Entry (β : Type) where
  point : List ℕ
  packed : β
  value : ℕ
  deriving DecidableEq

/-- `struct Augmentation`, `tree.rs:29-33`. -/
structure Aug where
  size : ℕ
  lo : ℕ
  hi : ℕ
  deriving DecidableEq

/-- `enum Links`, `tree.rs:23-27`. -/
inductive Links where
  | leaf (start stop : ℕ)
  | inner (c0 c1 : ℕ)
  deriving DecidableEq

/-- `struct Node`, `tree.rs:15-21`. -/
structure Node where
  aug : Aug
  parent : ℕ
  isRight : Bool
  links : Links
  deriving DecidableEq

/-- `[[u16; 2]]`, the bounding box of a node.  Models code at `tree.rs:11`. -/
abbrev Ranges := List (ℕ × ℕ)

/-- `struct Tree`, `tree.rs:5-13`. -/
structure Tree (β : Type) where
  dim : ℕ
  entries : List (Entry β)
  ranges : List Ranges
  nodes : List Node

variable {β σ : Type}

/-- `Augmentation::new`, `tree.rs:51-62`; `values[0]` panics on an empty slice. -/
def Aug.ofValues : List ℕ → Option Aug
  | [] => none
  | v :: vs => some { size := vs.length + 1, lo := vs.foldl min v, hi := vs.foldl max v }

/-- The new value computed by `Augmentation::update_inner`, `tree.rs:85-88`. -/
def Aug.combine (a b : Aug) : Aug := { size := a.size + b.size, lo := min a.lo b.lo, hi := max a.hi b.hi }

/-- `compute_ranges`, `tree.rs:606-617`.  `chunks(0)` panics. -/
def computeRanges (dim : ℕ) (points : List (List ℕ)) : Option Ranges :=
  if dim = 0 then none
  else match points with
    | [] => some (List.replicate dim (0, 0))
    | p :: ps => some (ps.foldl (List.zipWith fun r c => (min r.1 c, max r.2 c)) (p.map fun c => (c, c)))

/-- The slice `entries[start..stop]`; slicing out of bounds panics.
Models code at `tree.rs:225,226,234,235,466,467`. -/
def slice (es : List (Entry β)) (start stop : ℕ) : Option (List (Entry β)) :=
  if start ≤ stop ∧ stop ≤ es.length then some ((es.take stop).drop start) else none

/-- `swap_values`, `tree.rs:269-289`. -/
def swapValues (t : Tree β) (left right : ℕ) : Option (Tree β) :=
  if left = right then some t
  else do
    let a ← t.entries[left]?
    let b ← t.entries[right]?
    some { t with entries := (t.entries.set left b).set right a }

/-- `self.points[index * self.point_dim + dim]`.  Models code at `tree.rs:254,257`. -/
def component (t : Tree β) (index dim : ℕ) : Option ℕ := do
  let e ← t.entries[index]?
  e.point[dim]?

/-- `while left < values.end && self.points[..] < at`, `tree.rs:254-256`. -/
def scanLeft (t : Tree β) (stop dim at_ left : ℕ) : Option ℕ :=
  if left < stop then do
    let c ← component t left dim
    if c < at_ then scanLeft t stop dim at_ (left + 1) else some left
  else some left
partial_fixpoint

/-- `while right > values.start && self.points[..] >= at`, `tree.rs:257-259`. -/
def scanRight (t : Tree β) (start dim at_ right : ℕ) : Option ℕ :=
  if start < right then do
    let c ← component t right dim
    if at_ ≤ c then scanRight t start dim at_ (right - 1) else some right
  else some right
partial_fixpoint

/-- The loop of `partition`, `tree.rs:253-264`; returns the final value of `left`. -/
def partitionLoop (t : Tree β) (start stop dim at_ left right : ℕ) : Option (Tree β × ℕ) := do
  let l ← scanLeft t stop dim at_ left
  let r ← scanRight t start dim at_ right
  if r ≤ l then some (t, l)
  else do
    let t' ← swapValues t l r
    partitionLoop t' start stop dim at_ l r
partial_fixpoint

/-- `partition`, `tree.rs:245-267`; the two parts are `start..m` and `m..stop` for the returned `m`.
(On an empty range the code returns it twice, which is the case `m = start`.) -/
def partition (t : Tree β) (start stop dim at_ : ℕ) : Option (Tree β × ℕ) :=
  if start = stop then some (t, start) else partitionLoop t start stop dim at_ start (stop - 1)

/-- `new_child`, `tree.rs:220-243`. -/
def newChild (t : Tree β) (parent : ℕ) (isRight : Bool) (start stop : ℕ) : Option (Tree β × ℕ) := do
  let es ← slice t.entries start stop
  let rng ← computeRanges t.dim (es.map Entry.point)
  let aug ← Aug.ofValues (es.map Entry.value)
  let node : Node := { aug := aug, parent := parent, isRight := isRight, links := .leaf start stop }
  some ({ t with ranges := t.ranges ++ [rng], nodes := t.nodes ++ [node] }, t.nodes.length)

/-- `.enumerate().max_by_key(..)`, `tree.rs:175-180`: the last dimension with the largest extent
`high - low`, with the extent and `low`; `unwrap` panics on an empty list. -/
def widest : List ((ℕ × ℕ) × ℕ) → Option (ℕ × ℕ × ℕ)
  | [] => none
  | r :: rs => some (rs.foldl (fun best r => if best.2.1 ≤ r.1.2 - r.1.1 then (r.2, r.1.2 - r.1.1, r.1.1) else best)
      (r.2, r.1.2 - r.1.1, r.1.1))

/-- `while self.nodes[node_id].is_right_child { .. }`, `tree.rs:202-207`; the inner `none` is the
`return`. -/
def climbRight (t : Tree β) (id : ℕ) : Option (Option ℕ) := do
  let node ← t.nodes[id]?
  if node.isRight then
    if id = 0 then some none else climbRight t node.parent
  else some (some id)
partial_fixpoint

/-- `tree.rs:208-213`. -/
def rightSibling (t : Tree β) (id : ℕ) : Option ℕ := do
  let node ← t.nodes[id]?
  let parent ← t.nodes[node.parent]?
  match parent.links with
  | .inner _ c1 => some c1
  | .leaf _ _ => none

/-- `self.nodes[id].links = links`.  Models code at `tree.rs:196,427`. -/
def setLinks (t : Tree β) (id : ℕ) (links : Links) : Option (Tree β) := do
  let node ← t.nodes[id]?
  some { t with nodes := t.nodes.set id { node with links := links } }

/-- `tree.rs:172-201`: splits a leaf if it is large enough; returns the left child if it did. -/
def splitLeaf (t : Tree β) (id start stop : ℕ) : Option (Tree β × Option ℕ) :=
  if stop - start > splitThreshold then do
    let rng ← t.ranges[id]?
    let (dim, range, low) ← widest rng.zipIdx
    let (t, m) ← partition t start stop dim (low + (range + 1) / 2)
    if start ≠ m ∧ m ≠ stop then do
      let (t, c0) ← newChild t id false start m
      let (t, c1) ← newChild t id true m stop
      let t ← setLinks t id (.inner c0 c1)
      some (t, some c0)
    else some (t, none)
  else some (t, none)

/-- `build_tree`, `tree.rs:168-218`.  On an inner node the loop body does nothing, so the loop does not
terminate. -/
def buildTree (t : Tree β) (id : ℕ) : Option (Tree β) := do
  let node ← t.nodes[id]?
  match node.links with
  | .leaf start stop => do
    let (t, next) ← splitLeaf t id start stop
    match next with
    | some c => buildTree t c
    | none => do
      let up ← climbRight t id
      match up with
      | none => some t
      | some id => do
        let c ← rightSibling t id
        buildTree t c
  | .inner _ _ => buildTree t id
partial_fixpoint

/-- `Tree::new`, `tree.rs:100-154`. -/
def new (dim : ℕ) (entries : List (Entry β)) : Option (Tree β) :=
  if entries.isEmpty then some { dim := dim, entries := entries, ranges := [], nodes := [] }
  else do
    let aug ← Aug.ofValues (entries.map Entry.value)
    let rng ← computeRanges dim (entries.map Entry.point)
    let node : Node := { aug := aug, parent := 0, isRight := true, links := .leaf 0 entries.length }
    buildTree { dim := dim, entries := entries, ranges := [rng], nodes := [node] } 0

/-- `is_empty`, `tree.rs:156-158`. -/
def isEmpty (t : Tree β) : Bool := t.nodes.isEmpty

/-- `len`, `tree.rs:160-166`. -/
def len (t : Tree β) : ℕ := match t.nodes with
  | [] => 0
  | node :: _ => node.aug.size

/-- `enum TraversalState`, `tree.rs:35-40`. -/
inductive TState where
  | done
  | node (id : ℕ)
  | point (id index : ℕ)
  deriving DecidableEq

/-- `enum TraversalMut`, `tree.rs:42-48`. -/
inductive Verdict where
  | brk
  | retain
  | remove
  deriving DecidableEq

/-- `traversal_root`, `tree.rs:304-310`. -/
def root (t : Tree β) : TState := if t.nodes.isEmpty then .done else .node 0

/-- `traversal_enter`, `tree.rs:312-322`. -/
def enter (t : Tree β) (ltr : Bool) (id : ℕ) : Option TState := do
  let node ← t.nodes[id]?
  match node.links with
  | .leaf start _ => some (.point id start)
  | .inner c0 c1 => some (.node (if !ltr then c1 else c0))

/-- `traversal_skip`, `tree.rs:324-344`. -/
def skip (t : Tree β) (ltr : Bool) (id : ℕ) : Option TState :=
  if id = 0 then some .done
  else do
    let node ← t.nodes[id]?
    if node.isRight = ltr then skip t ltr node.parent
    else do
      let parent ← t.nodes[node.parent]?
      match parent.links with
      | .inner c0 c1 => some (.node (if ltr then c1 else c0))
      | .leaf _ _ => none
partial_fixpoint

/-- `traversal_next`, `tree.rs:346-363`. -/
def next (t : Tree β) (ltr : Bool) (id index : ℕ) : Option TState := do
  let node ← t.nodes[id]?
  match node.links with
  | .leaf _ stop => if index + 1 = stop then skip t ltr id else some (.point id (index + 1))
  | .inner _ _ => none

/-- `self.nodes[id].augmentation = aug`.  Models code at `tree.rs:428,462,464`. -/
def setAug (t : Tree β) (id : ℕ) (aug : Aug) : Option (Tree β) := do
  let node ← t.nodes[id]?
  some { t with nodes := t.nodes.set id { node with aug := aug } }

/-- The new augmentation of a node, `tree.rs:450-469` (with the assertions). -/
def freshAug (t : Tree β) (id : ℕ) : Links → Option Aug
  | .inner c0 c1 =>
    if c0 ≠ c1 ∧ id ≠ c0 ∧ id ≠ c1 then do
      let n0 ← t.nodes[c0]?
      let n1 ← t.nodes[c1]?
      some (n0.aug.combine n1.aug)
    else none
  | .leaf start stop => do
    let es ← slice t.entries start stop
    Aug.ofValues (es.map Entry.value)

/-- `update_augmentation`, `tree.rs:446-477`. -/
def updateAug (t : Tree β) (id : ℕ) : Option (Tree β) := do
  let node ← t.nodes[id]?
  let aug ← freshAug t id node.links
  let t' ← setAug t id aug
  if aug ≠ node.aug ∧ id ≠ 0 then updateAug t' node.parent else some t'
partial_fixpoint

/-- `self.nodes[child].parent = parent`, `tree.rs:419`. -/
def setParent (t : Tree β) (id parent : ℕ) : Option (Tree β) := do
  let node ← t.nodes[id]?
  some { t with nodes := t.nodes.set id { node with parent := parent } }

/-- The loop `tree.rs:416-423`. -/
def reparent (t : Tree β) (parent : ℕ) : Links → Option (Tree β)
  | .inner c0 c1 => do
    let t ← setParent t c0 parent
    setParent t c1 parent
  | .leaf _ _ => some t

/-- `move_node_ranges`, `tree.rs:291-302`. -/
def moveRanges (t : Tree β) (dst src : ℕ) : Option (Tree β) :=
  if dst = src then some t
  else do
    let _ ← t.ranges[dst]?
    let r ← t.ranges[src]?
    some { t with ranges := t.ranges.set dst r }

/-- `traversal_unlink`, `tree.rs:395-444`. -/
def unlink (t : Tree β) (ltr : Bool) (id : ℕ) : Option (Tree β × TState) :=
  if id = 0 then some ({ t with nodes := [] }, .done)
  else do
    let node ← t.nodes[id]?
    let parentNode ← t.nodes[node.parent]?
    match parentNode.links with
    | .leaf _ _ => none
    | .inner c0 c1 => do
      let sibling := if !node.isRight then c1 else c0
      if sibling = id then none
      else do
        let moved ← t.nodes[sibling]?
        let t ← reparent t node.parent moved.links
        let t ← setLinks t node.parent moved.links
        let t ← setAug t node.parent moved.aug
        let t ← moveRanges t node.parent sibling
        let t ← if node.parent ≠ 0 then updateAug t parentNode.parent else some t
        if node.isRight ≠ ltr then some (t, .node node.parent)
        else do
          let s ← skip t ltr node.parent
          some (t, s)

/-- `traversal_remove`, `tree.rs:365-393`; `values.end -= 1` overflows for an empty range ending at 0. -/
def remove (t : Tree β) (ltr : Bool) (id index : ℕ) : Option (Tree β × TState) := do
  let node ← t.nodes[id]?
  match node.links with
  | .inner _ _ => none
  | .leaf start stop =>
    if stop = 0 then none
    else do
      let last := stop - 1
      let t ← setLinks t id (.leaf start last)
      if start = last then unlink t ltr id
      else do
        let t ← swapValues t index last
        let t ← updateAug t id
        if index = last then do
          let s ← skip t ltr id
          some (t, s)
        else some (t, .point id index)

/-- The loop of `traverse`, `tree.rs:516-547`. -/
def traverseLoop (t : Tree β) (ltr : Bool) (filter : σ → Aug → Ranges → Option Bool)
    (action : σ → Entry β → Option (σ × Bool)) (s : σ) (state : TState) : Option σ :=
  match state with
  | .done => some s
  | .node id => do
    let node ← t.nodes[id]?
    let rng ← t.ranges[id]?
    let enters ← filter s node.aug rng
    let state ← if enters then enter t ltr id else skip t ltr id
    traverseLoop t ltr filter action s state
  | .point id index => do
    let e ← t.entries[index]?
    let (s, continues) ← action s e
    if continues then do
      let state ← next t ltr id index
      traverseLoop t ltr filter action s state
    else some s
partial_fixpoint

/-- `traverse`, `tree.rs:503-548`. -/
def traverse (t : Tree β) (s : σ) (ltr : Bool) (filter : σ → Aug → Ranges → Option Bool)
    (action : σ → Entry β → Option (σ × Bool)) : Option σ :=
  traverseLoop t ltr filter action s (root t)

/-- The loop of `traverse_mut`, `tree.rs:563-602`.  The action returns the new user state, the new
value of the entry and its verdict. -/
def traverseMutLoop (ltr : Bool) (filter : σ → Aug → Ranges → Option Bool)
    (action : σ → Entry β → Option (σ × ℕ × Verdict)) (t : Tree β) (s : σ) (state : TState) :
    Option (Tree β × σ) :=
  match state with
  | .done => some (t, s)
  | .node id => do
    let node ← t.nodes[id]?
    let rng ← t.ranges[id]?
    let enters ← filter s node.aug rng
    let state ← if enters then enter t ltr id else skip t ltr id
    traverseMutLoop ltr filter action t s state
  | .point id index => do
    let e ← t.entries[index]?
    let (s, value, verdict) ← action s e
    let t' : Tree β := { t with entries := t.entries.set index { e with value := value } }
    match verdict with
    | .brk => some (t', s)
    | .remove => do
      let (t', state) ← remove t' ltr id index
      traverseMutLoop ltr filter action t' s state
    | .retain => do
      let t' ← if value ≠ e.value then updateAug t' id else some t'
      let state ← next t' ltr id index
      traverseMutLoop ltr filter action t' s state
partial_fixpoint

/-- `traverse_mut`, `tree.rs:550-603`. -/
def traverseMut (t : Tree β) (s : σ) (ltr : Bool) (filter : σ → Aug → Ranges → Option Bool)
    (action : σ → Entry β → Option (σ × ℕ × Verdict)) : Option (Tree β × σ) :=
  traverseMutLoop ltr filter action t s (root t)

end Sortnet.Index
