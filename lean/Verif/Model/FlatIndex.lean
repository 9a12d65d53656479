import Verif.Spec.Index

/-!
# Model of the index with its flat arrays

`Model/Tree.lean` and `Model/Index.lean` keep one list of entries and one list of bounding boxes.  The code keeps
the numbers of all points in one vector (`points`, stride `point_dim`), the bytes of all sets in one vector
(`packed`, stride `packed_dim`), the values in a third one, and the bounding boxes of all nodes in `ranges` (stride
`point_dim`); it moves rows with `swap_nonoverlapping` and `copy_nonoverlapping` in `unsafe` blocks, and unpacks every
candidate into the same buffer.  This file is the transcription with these vectors.

`none` is a panic, nontermination, a violated precondition of an `unsafe` function (undefined behaviour), or an
overflow of the arithmetic on `u16`.  The functions that access only `nodes` are those of `Model/Tree.lean`.
-/

namespace Sortnet.Index.Flat

variable {α σ : Type}

/-- `struct Tree`, `tree.rs:5-13`. -/
structure FTree where
  pointDim : ℕ
  points : List ℕ
  packedDim : ℕ
  packed : List UInt8
  values : List ℕ
  ranges : List (ℕ × ℕ)
  nodes : List Node

/-- The slice `v[start..stop]`; slicing out of bounds panics.  Models code at `tree.rs:225,226,234,235,466,467`. -/
def span (v : List α) (start stop : ℕ) : Option (List α) :=
  if start ≤ stop ∧ stop ≤ v.length then some ((v.take stop).drop start) else none

/-- The slice `v[index * dim..][..dim]`; slicing out of bounds panics.
Models code at `tree.rs:173,274,275,281,282,296,297,523,535,536,570,583,584`. -/
def row (v : List α) (dim index : ℕ) : Option (List α) :=
  if index * dim ≤ v.length ∧ dim ≤ v.length - index * dim then some ((v.drop (index * dim)).take dim) else none

/-- `v` with the elements starting at `start` replaced by those of `w`.
Models code at `tree.rs:277-279,284-286,299-301`. -/
def overwrite (v : List α) (start : ℕ) (w : List α) : List α := v.take start ++ w ++ v.drop (start + w.length)

/-- `std::ptr::swap_nonoverlapping` of `count` elements at the offsets `left` and `right`.  Its precondition is that
both ranges are inside of the vector and do not overlap.  Models code at `tree.rs:278,285`. -/
def swapNonoverlapping (v : List α) (left right count : ℕ) : Option (List α) :=
  if left + count ≤ v.length ∧ right + count ≤ v.length ∧ (left + count ≤ right ∨ right + count ≤ left) then
    some (overwrite (overwrite v left ((v.drop right).take count)) right ((v.drop left).take count))
  else none

/-- `std::ptr::copy_nonoverlapping` of `count` elements from the offset `src` to the offset `dst`, with the same
precondition.  Models code at `tree.rs:300`. -/
def copyNonoverlapping (v : List α) (src dst count : ℕ) : Option (List α) :=
  if src + count ≤ v.length ∧ dst + count ≤ v.length ∧ (src + count ≤ dst ∨ dst + count ≤ src) then
    some (overwrite v dst ((v.drop src).take count))
  else none

/-- `values.swap(left, right)`.  Models code at `tree.rs:288`. -/
def swapElems (v : List α) (left right : ℕ) : Option (List α) := do
  let a ← v[left]?
  let b ← v[right]?
  some ((v.set left b).set right a)

/-- `for (r, &c) in rs.iter_mut().zip(cs.iter()) { *r = f(r, c) }`.  Models code at `tree.rs:607-609,612-615`. -/
def zipUpdate (f : ℕ × ℕ → ℕ → ℕ × ℕ) : List (ℕ × ℕ) → List ℕ → List (ℕ × ℕ)
  | r :: rs, c :: cs => f r c :: zipUpdate f rs cs
  | rs, _ => rs

/-- `points.chunks(dim)` for `dim > 0`.  Models code at `tree.rs:611`. -/
def chunks (dim : ℕ) (v : List α) : List (List α) :=
  if _h : v.length = 0 ∨ dim = 0 then [] else v.take dim :: chunks dim (v.drop dim)
termination_by v.length
decreasing_by rw [List.length_drop]; omega

/-- `compute_ranges`, `tree.rs:606-617`.  `chunks(0)` panics. -/
def computeRanges (ranges : List (ℕ × ℕ)) (points : List ℕ) : Option (List (ℕ × ℕ)) :=
  let ranges := zipUpdate (fun _ c => (c, c)) ranges points
  if ranges.length = 0 then none
  else some (((chunks ranges.length points).drop 1).foldl
    (fun ranges point => zipUpdate (fun r c => (min r.1 c, max r.2 c)) ranges point) ranges)

namespace FTree

/-- The nodes alone, for the functions of `Model/Tree.lean` that access nothing else.
Models code at `tree.rs:5-13`. -/
def view (t : FTree) : Tree Unit := { dim := t.pointDim, entries := [], ranges := [], nodes := t.nodes }

/-- `swap_values`, `tree.rs:269-289`. -/
def swapValues (t : FTree) (left right : ℕ) : Option FTree :=
  if left = right then some t
  else do
    let _ ← row t.points t.pointDim left
    let _ ← row t.points t.pointDim right
    let points ← swapNonoverlapping t.points (left * t.pointDim) (right * t.pointDim) t.pointDim
    let _ ← row t.packed t.packedDim left
    let _ ← row t.packed t.packedDim right
    let packed ← swapNonoverlapping t.packed (left * t.packedDim) (right * t.packedDim) t.packedDim
    let values ← swapElems t.values left right
    some { t with points := points, packed := packed, values := values }

/-- `while left < values.end && self.points[left * self.point_dim + dim] < at`, `tree.rs:254-256`. -/
def scanLeft (t : FTree) (stop dim at_ left : ℕ) : Option ℕ :=
  if left < stop then do
    let c ← t.points[left * t.pointDim + dim]?
    if c < at_ then scanLeft t stop dim at_ (left + 1) else some left
  else some left
partial_fixpoint

/-- `while right > values.start && self.points[right * self.point_dim + dim] >= at`, `tree.rs:257-259`. -/
def scanRight (t : FTree) (start dim at_ right : ℕ) : Option ℕ :=
  if start < right then do
    let c ← t.points[right * t.pointDim + dim]?
    if at_ ≤ c then scanRight t start dim at_ (right - 1) else some right
  else some right
partial_fixpoint

/-- The loop of `partition`, `tree.rs:253-264`; returns the final value of `left`. -/
def partitionLoop (t : FTree) (start stop dim at_ left right : ℕ) : Option (FTree × ℕ) := do
  let l ← scanLeft t stop dim at_ left
  let r ← scanRight t start dim at_ right
  if r ≤ l then some (t, l)
  else do
    let t' ← swapValues t l r
    partitionLoop t' start stop dim at_ l r
partial_fixpoint

/-- `partition`, `tree.rs:245-267`; the two parts are `start..m` and `m..stop` for the returned `m`. -/
def partition (t : FTree) (start stop dim at_ : ℕ) : Option (FTree × ℕ) :=
  if start = stop then some (t, start) else partitionLoop t start stop dim at_ start (stop - 1)

/-- `new_child`, `tree.rs:220-243`: `ranges` grows by `point_dim` zeros, which `compute_ranges` overwrites. -/
def newChild (t : FTree) (parent : ℕ) (isRight : Bool) (start stop : ℕ) : Option (FTree × ℕ) := do
  let points ← span t.points (start * t.pointDim) (stop * t.pointDim)
  let rng ← computeRanges (List.replicate t.pointDim (0, 0)) points
  let vs ← span t.values start stop
  let aug ← Aug.ofValues vs
  let node : Node := { aug := aug, parent := parent, isRight := isRight, links := .leaf start stop }
  some ({ t with ranges := t.ranges ++ rng, nodes := t.nodes ++ [node] }, t.nodes.length)

/-- `self.nodes[id].links = links`.  Models code at `tree.rs:196,427`. -/
def setLinks (t : FTree) (id : ℕ) (links : Links) : Option FTree :=
  (Index.setLinks t.view id links).map fun v => { t with nodes := v.nodes }

/-- `split_low + (split_range + 1) / 2` on `u16`, `tree.rs:182`; `none` if a sum does not fit. -/
def splitAt (low range : ℕ) : Option ℕ :=
  if range + 1 < 2 ^ 16 ∧ low + (range + 1) / 2 < 2 ^ 16 then some (low + (range + 1) / 2) else none

/-- `tree.rs:172-201`: splits a leaf if it is large enough; returns the left child if it did.  `high - low`
(`tree.rs:177`) is a subtraction of `u16`, which must not be negative. -/
def splitLeaf (t : FTree) (id start stop : ℕ) : Option (FTree × Option ℕ) :=
  if stop - start > splitThreshold then do
    let rng ← row t.ranges t.pointDim id
    if rng.any (fun r => r.2 < r.1) then none
    else do
      let (dim, range, low) ← widest rng.zipIdx
      let at_ ← splitAt low range
      let (t, m) ← partition t start stop dim at_
      if start ≠ m ∧ m ≠ stop then do
        let (t, c0) ← newChild t id false start m
        let (t, c1) ← newChild t id true m stop
        let t ← setLinks t id (.inner c0 c1)
        some (t, some c0)
      else some (t, none)
  else some (t, none)

/-- `build_tree`, `tree.rs:168-218`. -/
def buildTree (t : FTree) (id : ℕ) : Option FTree := do
  let node ← t.nodes[id]?
  match node.links with
  | .leaf start stop => do
    let (t, next) ← splitLeaf t id start stop
    match next with
    | some c => buildTree t c
    | none => do
      let up ← climbRight t.view id
      match up with
      | none => some t
      | some id => do
        let c ← rightSibling t.view id
        buildTree t c
  | .inner _ _ => buildTree t id
partial_fixpoint

/-- `Tree::new`, `tree.rs:100-154`, with its assertions. -/
def new (pointDim : ℕ) (points : List ℕ) (packedDim : ℕ) (packed : List UInt8) (values : List ℕ) : Option FTree :=
  if values.length * pointDim ≠ points.length then none
  else if values.length * packedDim ≠ packed.length then none
  else if values.isEmpty then
    some { pointDim := pointDim, points := points, packedDim := packedDim, packed := packed, values := values,
           ranges := [], nodes := [] }
  else do
    let aug ← Aug.ofValues values
    let rng ← computeRanges (List.replicate pointDim (0, 0)) points
    let node : Node := { aug := aug, parent := 0, isRight := true, links := .leaf 0 values.length }
    buildTree { pointDim := pointDim, points := points, packedDim := packedDim, packed := packed, values := values,
                ranges := rng, nodes := [node] } 0

/-- `is_empty`, `tree.rs:156-158`. -/
def isEmpty (t : FTree) : Bool := t.nodes.isEmpty

/-- `len`, `tree.rs:160-166`. -/
def len (t : FTree) : ℕ := Index.len t.view

/-- `self.nodes[id].augmentation = aug`.  Models code at `tree.rs:428,462,464`. -/
def setAug (t : FTree) (id : ℕ) (aug : Aug) : Option FTree :=
  (Index.setAug t.view id aug).map fun v => { t with nodes := v.nodes }

/-- The new augmentation of a node, `tree.rs:450-469`.  The assertions for an inner node are the precondition of the
`unsafe` block: the three references do not alias. -/
def freshAug (t : FTree) (id : ℕ) : Links → Option Aug
  | .inner c0 c1 => Index.freshAug t.view id (.inner c0 c1)
  | .leaf start stop => do
    let _ ← span t.points (start * t.pointDim) (stop * t.pointDim)
    let vs ← span t.values start stop
    Aug.ofValues vs

/-- `update_augmentation`, `tree.rs:446-477`. -/
def updateAug (t : FTree) (id : ℕ) : Option FTree := do
  let node ← t.nodes[id]?
  let aug ← freshAug t id node.links
  let t' ← setAug t id aug
  if aug ≠ node.aug ∧ id ≠ 0 then updateAug t' node.parent else some t'
partial_fixpoint

/-- The loop `tree.rs:416-423`. -/
def reparent (t : FTree) (parent : ℕ) (links : Links) : Option FTree :=
  (Index.reparent t.view parent links).map fun v => { t with nodes := v.nodes }

/-- `move_node_ranges`, `tree.rs:291-302`. -/
def moveRanges (t : FTree) (dst src : ℕ) : Option FTree :=
  if dst = src then some t
  else do
    let _ ← row t.ranges t.pointDim dst
    let _ ← row t.ranges t.pointDim src
    let ranges ← copyNonoverlapping t.ranges (src * t.pointDim) (dst * t.pointDim) t.pointDim
    some { t with ranges := ranges }

/-- `traversal_unlink`, `tree.rs:395-444`. -/
def unlink (t : FTree) (ltr : Bool) (id : ℕ) : Option (FTree × TState) :=
  if id = 0 then some ({ t with nodes := [] }, .done)
  else do
    let node ← t.nodes[id]?
    let parentNode ← t.nodes[node.parent]?
    match parentNode.links with
    | .leaf _ _ => none
    | .inner c0 c1 => do
      let sibling := if !node.isRight then c1 else c0
      if sibling = id then none
      else do
        let moved ← t.nodes[sibling]?
        let t ← reparent t node.parent moved.links
        let t ← setLinks t node.parent moved.links
        let t ← setAug t node.parent moved.aug
        let t ← moveRanges t node.parent sibling
        let t ← if node.parent ≠ 0 then updateAug t parentNode.parent else some t
        if node.isRight ≠ ltr then some (t, .node node.parent)
        else do
          let s ← skip t.view ltr node.parent
          some (t, s)

/-- `traversal_remove`, `tree.rs:365-393`; `values.end -= 1` overflows for an empty range ending at 0. -/
def remove (t : FTree) (ltr : Bool) (id index : ℕ) : Option (FTree × TState) := do
  let node ← t.nodes[id]?
  match node.links with
  | .inner _ _ => none
  | .leaf start stop =>
    if stop = 0 then none
    else do
      let last := stop - 1
      let t ← setLinks t id (.leaf start last)
      if start = last then unlink t ltr id
      else do
        let t ← swapValues t index last
        let t ← updateAug t id
        if index = last then do
          let s ← skip t.view ltr id
          some (t, s)
        else some (t, .point id index)

/-- The entry at an index: the slices passed to the action, `tree.rs:533-538,580-585`, and the value. -/
def entry (t : FTree) (index : ℕ) : Option (Entry (List UInt8)) := do
  let point ← row t.points t.pointDim index
  let packed ← row t.packed t.packedDim index
  let value ← t.values[index]?
  some { point := point, packed := packed, value := value }

/-- The loop of `traverse`, `tree.rs:516-547`. -/
def traverseLoop (t : FTree) (ltr : Bool) (filter : σ → Aug → Ranges → Option Bool)
    (action : σ → Entry (List UInt8) → Option (σ × Bool)) (s : σ) (state : TState) : Option σ :=
  match state with
  | .done => some s
  | .node id => do
    let node ← t.nodes[id]?
    let rng ← row t.ranges t.pointDim id
    let enters ← filter s node.aug rng
    let state ← if enters then enter t.view ltr id else skip t.view ltr id
    traverseLoop t ltr filter action s state
  | .point id index => do
    let e ← entry t index
    let (s, continues) ← action s e
    if continues then do
      let state ← next t.view ltr id index
      traverseLoop t ltr filter action s state
    else some s
partial_fixpoint

/-- `traverse`, `tree.rs:503-548`. -/
def traverse (t : FTree) (s : σ) (ltr : Bool) (filter : σ → Aug → Ranges → Option Bool)
    (action : σ → Entry (List UInt8) → Option (σ × Bool)) : Option σ :=
  traverseLoop t ltr filter action s (root t.view)

/-- The loop of `traverse_mut`, `tree.rs:563-602`. -/
def traverseMutLoop (ltr : Bool) (filter : σ → Aug → Ranges → Option Bool)
    (action : σ → Entry (List UInt8) → Option (σ × ℕ × Verdict)) (t : FTree) (s : σ) (state : TState) :
    Option (FTree × σ) :=
  match state with
  | .done => some (t, s)
  | .node id => do
    let node ← t.nodes[id]?
    let rng ← row t.ranges t.pointDim id
    let enters ← filter s node.aug rng
    let state ← if enters then enter t.view ltr id else skip t.view ltr id
    traverseMutLoop ltr filter action t s state
  | .point id index => do
    let e ← entry t index
    let (s, value, verdict) ← action s e
    let t' : FTree := { t with values := t.values.set index value }
    match verdict with
    | .brk => some (t', s)
    | .remove => do
      let (t', state) ← remove t' ltr id index
      traverseMutLoop ltr filter action t' s state
    | .retain => do
      let t' ← if value ≠ e.value then updateAug t' id else some t'
      let state ← next t'.view ltr id index
      traverseMutLoop ltr filter action t' s state
partial_fixpoint

/-- `traverse_mut`, `tree.rs:550-603`. -/
def traverseMut (t : FTree) (s : σ) (ltr : Bool) (filter : σ → Aug → Ranges → Option Bool)
    (action : σ → Entry (List UInt8) → Option (σ × ℕ × Verdict)) : Option (FTree × σ) :=
  traverseMutLoop ltr filter action t s (root t.view)

end FTree

/-- `struct OutputSetIndex`, `index.rs:273-282`; `channels` is the parameter `n`. -/
structure FIndex (n : ℕ) where
  trees : List FTree
  pointDim : ℕ
  points : List ℕ
  packedDim : ℕ
  packed : List UInt8
  values : List ℕ

/-- `repeat(false).take(1 << self.channels).collect()`, `index.rs:305,377,493,582`: the buffer into which all
candidates of one call are unpacked. -/
def newBuffer (n : ℕ) : List Bool := List.replicate (2 ^ n) false

/-- `candidate_output_set.unpack_from_slice(packed)`: the new contents of the buffer, and the set in it.
Models code at `index.rs:327,399,519,586`. -/
def unpackInto (n : ℕ) (buffer : List Bool) (packed : List UInt8) : Option (List Bool × Bitmap n) := do
  let l ← unpackBits buffer packed
  if h : l.length = 2 ^ n then some (l, Bitmap.ofList n l h) else none

namespace FIndex

variable {n : ℕ}

/-- `new`, `index.rs:285-296`. -/
def new (n : ℕ) : Option (FIndex n) := do
  let dim ← abstractionLen n
  some { trees := [], pointDim := dim, points := [], packedDim := packedLen n, packed := [], values := [] }

/-- The slices of the entry at an index of the loose entries, `index.rs:358-365`. -/
def entry (idx : FIndex n) (index value : ℕ) : Option (Entry (List UInt8)) := do
  let point ← row idx.points idx.pointDim index
  let packed ← row idx.packed idx.packedDim index
  some { point := point, packed := packed, value := value }

/-- `for (index, &value) in self.values.iter().enumerate() { action(..) }`, `index.rs:358-365,427-434,596-603`. -/
def forLoose (idx : FIndex n) (action : σ → Entry (List UInt8) → Option σ) (s : σ) : Option σ :=
  idx.values.zipIdx.foldlM (fun s vi => do
    let e ← idx.entry vi.2 vi.1
    action s e) s

/-- `action` of `lookup_subsuming_with_abstraction`, `index.rs:316-347`; the state is the best hit and the buffer. -/
def hitAction (d : Dir) (q : Bitmap n) (abs : List ℕ) (s : Option (OutputSetIndex.Hit n) × List Bool)
    (e : Entry (List UInt8)) : Option (Option (OutputSetIndex.Hit n) × List Bool) :=
  if !d.doesImprove (s.1.map Prod.fst) e.value then some s
  else do
    let ok ← d.testAbstraction e.point abs
    if !ok then some s
    else do
      let (buffer, cand) ← unpackInto n s.2 e.packed
      if cand.toList = q.toList then some (some (e.value, (false, id), cand), buffer)
      else do
        let perm ← d.testPrecise cand e.point q abs
        match perm with
        | some perm => some (some (e.value, perm, cand), buffer)
        | none => some (s.1, buffer)

/-- `lookup_subsuming_with_abstraction`, `index.rs:298-368`. -/
def lookupSubsuming (idx : FIndex n) (d : Dir) (q : Bitmap n) (abs : List ℕ) :
    Option (Option (OutputSetIndex.Hit n)) := do
  let s ← idx.trees.foldlM (fun s tree => tree.traverse s d.lookupDir
    (fun s aug rng => OutputSetIndex.nodeFilter d abs (s.1.map Prod.fst) aug rng)
    (fun s e => (hitAction d q abs s e).map fun s => (s, true))) (none, newBuffer n)
  let s ← idx.forLoose (hitAction d q abs) s
  some s.1

/-- `action` of `lookup_with_abstraction`, `index.rs:388-416`. -/
def valueAction (d : Dir) (q : Bitmap n) (abs : List ℕ) (s : Option ℕ × List Bool) (e : Entry (List UInt8)) :
    Option (Option ℕ × List Bool) :=
  if !d.doesImprove s.1 e.value then some s
  else do
    let ok ← d.testAbstraction e.point abs
    if !ok then some s
    else do
      let (buffer, cand) ← unpackInto n s.2 e.packed
      if cand.toList ≠ q.toList then do
        let perm ← d.testPrecise cand e.point q abs
        if perm.isNone then some (s.1, buffer) else some (some e.value, buffer)
      else some (some e.value, buffer)

/-- `lookup_with_abstraction`, `index.rs:370-437`. -/
def lookup (idx : FIndex n) (d : Dir) (q : Bitmap n) (abs : List ℕ) : Option (Option ℕ) := do
  let s ← idx.trees.foldlM (fun s tree => tree.traverse s d.lookupDir
    (fun s aug rng => OutputSetIndex.nodeFilter d abs s.1 aug rng)
    (fun s e => (valueAction d q abs s e).map fun s => (s, true))) (none, newBuffer n)
  let s ← idx.forLoose (valueAction d q abs) s
  some s.1

/-- The loop `index.rs:455-472`; the list of trees is reversed, so that the head is popped first. -/
def mergeTrees (d : Dir) : List FTree → List ℕ × List UInt8 × List ℕ →
    Option (List FTree × List ℕ × List UInt8 × List ℕ)
  | [], loose => some ([], loose)
  | tree :: rest, loose =>
    if tree.len > loose.2.2.length then some (tree :: rest, loose)
    else do
      let loose ← tree.traverse loose d.lookupDir (fun _ _ _ => some true)
        (fun l e => some ((l.1 ++ e.point, l.2.1 ++ e.packed, l.2.2 ++ [e.value]), true))
      mergeTrees d rest loose

/-- `pack_into_slice` of a set into a slice of the vector `packed` that begins at `start`, `output_set.rs:385-416`.  A
slice of another length than `packed_len` does not occur; `none` stands for it. -/
def packInto (packed : List UInt8) (start : ℕ) (q : Bitmap n) : Option (List UInt8) :=
  if start + q.packed.length = packed.length then some (overwrite packed start q.packed) else none

/-- `insert_new_unchecked_with_abstraction`, `index.rs:439-483`. -/
def insertNew (idx : FIndex n) (d : Dir) (q : Bitmap n) (abs : List ℕ) (value : ℕ) : Option (FIndex n) := do
  let packed ← packInto (idx.packed ++ List.replicate idx.packedDim 0) idx.packed.length q
  let points := idx.points ++ abs
  let values := idx.values ++ [value]
  if values.length ≥ treeThreshold then do
    let sorted := idx.trees.insertionSort fun a b => b.len ≤ a.len
    let (trees, points, packed, values) ← mergeTrees d sorted.reverse (points, packed, values)
    let tree ← FTree.new idx.pointDim points idx.packedDim packed values
    some { idx with trees := trees.reverse ++ [tree], points := [], packed := [], values := [] }
  else some { idx with points := points, packed := packed, values := values }

/-- `action` of `insert_with_abstraction`, `index.rs:508-536`; the state is `updated_in_place` and the buffer. -/
def updateAction (d : Dir) (q : Bitmap n) (abs : List ℕ) (value : ℕ) (s : Bool × List Bool) (e : Entry (List UInt8)) :
    Option ((Bool × List Bool) × ℕ × Verdict) :=
  if !d.wouldBeUpdated e.value value then some (s, e.value, .retain)
  else do
    let ok ← d.testAbstractionUpdate e.point abs
    if !ok then some (s, e.value, .retain)
    else do
      let (buffer, cand) ← unpackInto n s.2 e.packed
      if cand.toList = q.toList then
        if s.1 then none else some ((true, buffer), value, .retain)
      else do
        let ok ← d.testPreciseUpdate cand e.point q abs
        if !ok then some ((s.1, buffer), e.value, .retain) else some ((s.1, buffer), e.value, .remove)

/-- The loop over the trees, `index.rs:538-540`. -/
def updateTrees (d : Dir) (q : Bitmap n) (abs : List ℕ) (value : ℕ) :
    Bool × List Bool → List FTree → Option ((Bool × List Bool) × List FTree)
  | s, [] => some (s, [])
  | s, tree :: rest => do
    let (tree, s) ← tree.traverseMut s d.lookupDir (fun _ aug rng => OutputSetIndex.updateFilter d abs value aug rng)
      (updateAction d q abs value)
    let (s, rest) ← updateTrees d q abs value s rest
    some (s, tree :: rest)

/-- `let (keep, last) = v.split_at_mut(len * dim); keep[index * dim..][..dim].copy_from_slice(last);`,
`index.rs:558-566`.  `split_at_mut`, the slices and `copy_from_slice` panic if the lengths do not fit. -/
def moveLast (v : List α) (dim len index : ℕ) : Option (List α) :=
  if len * dim ≤ v.length then do
    let keep := v.take (len * dim)
    let last := v.drop (len * dim)
    let old ← row keep dim index
    if old.length = last.length then some (overwrite keep (index * dim) last ++ last) else none
  else none

/-- The removal of a loose entry, `index.rs:555-570`.  `swap_remove` moves the last value to the index. -/
def removeLoose (idx : FIndex n) (index : ℕ) : Option (FIndex n) := do
  let _ ← idx.values[index]?
  let last ← idx.values.getLast?
  let values := (idx.values.set index last).dropLast
  let points ← if index ≠ values.length then moveLast idx.points idx.pointDim values.length index else some idx.points
  let packed ← if index ≠ values.length then moveLast idx.packed idx.packedDim values.length index else some idx.packed
  some { idx with points := points.take (values.length * idx.pointDim)
                  packed := packed.take (values.length * idx.packedDim)
                  values := values }

/-- The loop `index.rs:546-573`. -/
def updateLoose (d : Dir) (q : Bitmap n) (abs : List ℕ) (value : ℕ) (s : Bool × List Bool) (idx : FIndex n)
    (index : ℕ) : Option ((Bool × List Bool) × FIndex n) :=
  if index < idx.values.length then do
    let old ← idx.values[index]?
    let e ← idx.entry index old
    let (s, v, verdict) ← updateAction d q abs value s e
    let idx := { idx with values := idx.values.set index v }
    if verdict = .remove then do
      let idx ← removeLoose idx index
      updateLoose d q abs value s idx index
    else updateLoose d q abs value s idx (index + 1)
  else some (s, idx)
partial_fixpoint

/-- `insert_with_abstraction`, `index.rs:485-579`; returns the new index and the value. -/
def insert (idx : FIndex n) (d : Dir) (q : Bitmap n) (abs : List ℕ) (value : ℕ) : Option (FIndex n × ℕ) := do
  let best ← idx.lookup d q abs
  if !d.doesImprove best value then do
    let best ← best
    some (idx, best)
  else do
    let (s, trees) ← updateTrees d q abs value (false, newBuffer n) idx.trees
    let trees := trees.filter fun tree => !tree.isEmpty
    let (s, idx) ← updateLoose d q abs value s { idx with trees := trees } 0
    if s.1 then some (idx, value)
    else do
      let idx ← idx.insertNew d q abs value
      some (idx, value)

/-- The action of `for_each`, `index.rs:585-590`; the calls of the user's action are collected. -/
def eachAction (n : ℕ) (s : List (Bitmap n × List ℕ × ℕ) × List Bool) (e : Entry (List UInt8)) :
    Option (List (Bitmap n × List ℕ × ℕ) × List Bool) := do
  let (buffer, set) ← unpackInto n s.2 e.packed
  some (s.1 ++ [(set, e.point, e.value)], buffer)

/-- `for_each`, `index.rs:581-604`: the arguments of the calls of the action, in order. -/
def forEach (idx : FIndex n) (d : Dir) : Option (List (Bitmap n × List ℕ × ℕ)) := do
  let s ← idx.trees.foldlM (fun s tree => tree.traverse s d.lookupDir (fun _ _ _ => some true)
    (fun s e => (eachAction n s e).map fun s => (s, true))) ([], newBuffer n)
  let s ← idx.forLoose (eachAction n) s
  some s.1

/-- `is_empty`, `index.rs:606-608`. -/
def isEmpty (idx : FIndex n) : Bool := idx.values.isEmpty && idx.trees.isEmpty

/-- `len`, `index.rs:610-612`. -/
def len (idx : FIndex n) : ℕ := idx.values.length + (idx.trees.map FTree.len).sum

end FIndex

/-- One call, as in `Op.apply`.  Models code at `index.rs:439-604`. -/
def apply {n : ℕ} (d : Dir) (idx : FIndex n) : Op n → Option (FIndex n)
  | .insert s v => do
    let a ← s.abstraction
    (idx.insert d s a v).map Prod.fst
  | .insertNew s v => do
    let a ← s.abstraction
    idx.insertNew d s a v

/-- A new index after a history of calls.  Models code at `index.rs:439-604`. -/
def history (d : Dir) (n : ℕ) (ops : List (Op n)) : Option (FIndex n) := do
  let idx ← FIndex.new n
  ops.foldlM (apply d) idx

end Sortnet.Index.Flat
