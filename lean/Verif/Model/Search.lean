import Verif.Model.Canon
import Verif.Model.Huffman
import Mathlib.Data.List.Sort

/-!
# Model of the search: `Search`, `Edges`, the use of `StateMap` and of the thread pool

Transcription of `/repo/src/search.rs` (cited as `search.rs`) and of the parts of
`/repo/src/search/states.rs` and `/repo/src/thread_pool.rs` the search interacts with.

The async functions are modelled as programs (`Prog`) whose atomic actions are the accesses to shared
data: reading and writing the state map, taking a lock, creating, scheduling, polling and dropping a task.
Everything between two such actions only touches local variables.  The heads of the loops and the points
where a future awaits another one inline are program points (`PC`), which carry the local variables that
are live there; `code` gives the program that runs from a program point to the next one.

`Step` is the interleaving of any number of tasks.  A task is a stack of async calls.  Every action is one
step, every other task may run in between, on any number of threads.  A task whose handle is dropped is
cancelled: as soon as it is at a suspension point its whole stack may be dropped, which releases the locks
and drops the handles of its own children, one after the other.

Simplifications.
* The state map is a function from output sets to optional states; that the sharded maps of packed sets
  implement this is C34.  The lock map is a function from output sets to optional tokens, a token standing
  for the channel whose receiver is stored in the map.
* `u8` values are natural numbers; the two additions `+ 1` are done modulo 256 (release builds wrap), the
  overflow of the Huffman bound is a panic (`maxPlus1Huffman`).
* A suspended task may be resumed at any time (spurious wakeups are allowed).
* The priorities of pending tasks are not used: a pending task may be started at any time.  The queue is
  modelled in C46 and C47.
* Logging and the info task are left out: they do not change any state.
-/

namespace Sortnet

/-- An output set with its number of channels.  Models code at `output_set.rs:30-33`. -/
structure OSet where
  n : ℕ
  s : Bitmap n

theorem OSet.toList_inj {n : ℕ} {s t : Bitmap n} (h : s.toList = t.toList) : s = t := by
  funext x
  unfold Bitmap.toList at h
  have hx : x ∈ indices n := by
    unfold indices
    exact List.mem_map.2 ⟨x.toNat, List.mem_range.2 x.isLt, by simp⟩
  exact List.map_inj_left.1 h x hx

instance : DecidableEq OSet := fun a b =>
  if h : a.n = b.n then
    if h2 : a.s.toList = b.s.toList then
      isTrue (by
        obtain ⟨n, s⟩ := a
        obtain ⟨m, t⟩ := b
        obtain rfl : n = m := h
        obtain rfl : s = t := OSet.toList_inj h2
        rfl)
    else isFalse (by rintro rfl; exact h2 rfl)
  else isFalse (by rintro rfl; exact h rfl)

namespace Search

/-- `State`, `states.rs:17-21`: `bounds = [lo, hi]`, `huffman_bounds = [hlo, hhi]`. -/
structure State where
  lo : ℕ
  hi : ℕ
  hlo : ℕ
  hhi : ℕ
deriving DecidableEq

/-- The array `known_bounds`, `states.rs:76`. -/
def knownBounds : List ℕ := [0, 0, 1, 3, 5, 9, 12, 16, 19, 25, 29, 35]

/-- The default of `StateMap::get` for a set that is not in the map, `states.rs:62-87`. -/
def defaultState (A : OSet) : State :=
  if A.s.isSorted then { lo := 0, hi := 0, hlo := 0, hhi := 0 }
  else if A.n ≤ 2 then { lo := 1, hi := 1, hlo := 1, hhi := 1 }
  else
    let quadraticBound := (A.n * (A.n - 1)) / 2
    let bound := knownBounds[A.n]?.getD (quadraticBound % 256)
    { lo := 1, hi := bound, hlo := 1, hhi := bound }

/-- The contents of the state map.  Models code at `states.rs:23-26`. -/
abbrev Store := OSet → Option State

/-- `StateMap::get`, `states.rs:48-89`. -/
def Store.get (σ : Store) (A : OSet) : State := (σ A).getD (defaultState A)

/-- `StateMap::set`, `states.rs:91-104`. -/
def Store.set (σ : Store) (A : OSet) (v : State) : Store := fun B => if B = A then some v else σ B

/-- A `Handle` (`thread_pool.rs:33-40`) together with its `Schedule`, for the task `tid`.  `target` and
`prev` are ghosts: the output set the task was spawned for and the state it has to improve on. -/
structure Handle where
  tid : ℕ
  target : OSet
  prev : State
deriving DecidableEq

/-- Programs over the atomic actions.  Models code at `search.rs:127-509`. -/
inductive Prog (α : Type) where
  | ret (a : α)
  /-- The task panics, and with it the process (`abort_on_panic`, `thread_pool.rs:148`). -/
  | panic
  /-- `self.states.get(A)` -/
  | get (A : OSet) (k : State → Prog α)
  /-- `self.states.set(A, v)` -/
  | set (A : OSet) (v : State) (k : Prog α)
  /-- `self.states.lock(A).await`; the result tells whether it is `Some`. -/
  | lock (A : OSet) (k : Bool → Prog α)
  /-- `pool.spawn_delayed(self.improve_boxed(pool, level, previous_state, A))` -/
  | spawn (level : ℕ) (prev : State) (A : OSet) (k : Handle → Prog α)
  /-- `pool.add_pending(prio, &schedule)` -/
  | addPending (prio : ℕ × ℕ × ℕ) (h : Handle) (k : Prog α)
  /-- `schedule.schedule()` -/
  | schedule (h : Handle) (k : Prog α)
  /-- `schedule.is_scheduled()` -/
  | isScheduled (h : Handle) (k : Bool → Prog α)
  /-- `poll!(handle)` -/
  | poll (h : Handle) (k : Option State → Prog α)
  /-- Dropping a handle. -/
  | dropHandle (h : Handle) (k : Prog α)
  /-- `pending!()` -/
  | pending (k : Prog α)

namespace Prog

/-- Sequential composition.  Models code at `search.rs:127-509`. -/
def bind {α β : Type} : Prog α → (α → Prog β) → Prog β
  | ret a, f => f a
  | panic, _ => panic
  | get A k, f => get A fun r => (k r).bind f
  | set A v k, f => set A v (k.bind f)
  | lock A k, f => lock A fun r => (k r).bind f
  | spawn l p A k, f => spawn l p A fun r => (k r).bind f
  | addPending p h k, f => addPending p h (k.bind f)
  | schedule h k, f => schedule h (k.bind f)
  | isScheduled h k, f => isScheduled h fun r => (k r).bind f
  | poll h k, f => poll h fun r => (k r).bind f
  | dropHandle h k, f => dropHandle h (k.bind f)
  | pending k, f => pending (k.bind f)

instance : Monad Prog where
  pure := ret
  bind := bind

/-- `Option` results of the models of sequential code: `none` is a panic.  Models code at `search.rs:445,483`. -/
def ofOption {α : Type} : Option α → Prog α
  | none => panic
  | some a => ret a

/-- `assert!`.  Models code at `search.rs:445,483`. -/
def assert (b : Bool) : Prog Unit := if b then ret () else panic

end Prog

open Prog

/-! ## Sequential helpers -/

/-- `canonicalize(true)`.  Models code at `search.rs:176,222,295`. -/
def canon (hash : List ℕ → ℕ) (A : OSet) : Option OSet :=
  (A.s.canonicalize hash true).map fun r => ⟨A.n, r.1⟩

/-- `extremal_channels[pol]`, `search.rs:157-165,274-282`. -/
def extremal (A : OSet) (pol : Bool) : List (Fin A.n) :=
  (List.finRange A.n).filter fun c => A.s.channelIsExtremal pol c

/-- `OutputSet::all_values(channels - 1)` and `prune_extremal_channel_into`, `search.rs:169-174,294-295`.
Without channels the subtraction would underflow; there is no channel `c` then. -/
def prune (A : OSet) (pol : Bool) (c : Fin A.n) : Option OSet :=
  match A, c with
  | ⟨0, _⟩, _ => none
  | ⟨n + 1, s⟩, c => (s.pruneExtremalChannel pol c).map fun t => ⟨n, t⟩

/-- The pairs `(i, j)` of the loops `search.rs:215-216`. -/
def pairs (n : ℕ) : List (Fin n × Fin n) :=
  (List.finRange n).flatMap fun i => ((List.finRange n).filter fun j => j < i).map fun j => (i, j)

/-- `apply_comparator([i, j])` on a copy, `search.rs:217-218`; `none` if the comparator is redundant. -/
def successor (A : OSet) (i j : Fin A.n) : Option OSet :=
  let r := A.s.applyComparator i j
  if r.2 then some ⟨A.n, r.1⟩ else none

/-! ## Edges -/

/-- `EdgeTarget`, `search.rs:357-362`. -/
structure EdgeTarget where
  set : OSet
  state : State
  len : ℕ
  running : Option Handle

/-- `Edges`, `search.rs:350-355`.  The map `target_to_id` is a search in `targets`. -/
structure Edges where
  targets : List EdgeTarget
  active : List ℕ

/-- `Edges::default()`.  Models code at `search.rs:216,283`. -/
def Edges.empty : Edges := { targets := [], active := [] }

/-- `target_to_id`.  Models code at `search.rs:352,370`. -/
def Edges.find (E : Edges) (A : OSet) : Option ℕ := E.targets.findIdx? fun t => t.set = A

/-- `Edges::add_edge`, `search.rs:365-390`: the new edges and the id. -/
def Edges.addEdge (E : Edges) (A : OSet) : Prog (Edges × ℕ) :=
  match E.find A with
  | some id => ret (E, id)
  | none => do
    let id := E.targets.length
    let state ← Prog.get A ret
    ret ({ targets := E.targets ++ [{ set := A, state := state, len := A.s.len, running := none }],
           active := if state.lo ≠ state.hi then E.active ++ [id] else E.active }, id)

/-- `targets[id].running = None` for a running target: the handle is dropped.  Models code at `search.rs:404,433`. -/
def Edges.clearRunning (E : Edges) (id : ℕ) : Edges :=
  { targets := E.targets.modify id fun t => { t with running := none }
    active := E.active }

/-- `targets[id].state = state`.  Models code at `search.rs:432`. -/
def Edges.setState (E : Edges) (id : ℕ) (state : State) : Edges :=
  { targets := E.targets.modify id fun t => { t with state := state }
    active := E.active }

/-- `targets[id].running = Some(..)`.  Models code at `search.rs:501`. -/
def Edges.setRunning (E : Edges) (id : ℕ) (h : Handle) : Edges :=
  { targets := E.targets.modify id fun t => { t with running := some h }
    active := E.active }

/-- The loop of `Edges::retain_edges`, `search.rs:400-409`, over the remaining ids. -/
def Edges.retainLoop (keep : ℕ → Bool) : List ℕ → Edges → Prog Edges
  | [], E => ret E
  | id :: ids, E =>
    if keep id then Edges.retainLoop keep ids E
    else
      match E.targets[id]? with
      | none => panic
      | some t =>
        match t.running with
        | none => Edges.retainLoop keep ids E
        | some h => dropHandle h (Edges.retainLoop keep ids (E.clearRunning id))

/-- `Edges::retain_edges`, `search.rs:400-409`. -/
def Edges.retainEdges (E : Edges) (keep : ℕ → Bool) : Prog Edges := do
  let E' ← Edges.retainLoop keep E.active E
  ret { targets := E'.targets, active := E'.active.filter keep }

/-- The polling loop of `improve_next`, `search.rs:427-439`; returns the edges, `finished` and
`num_running`. -/
def Edges.pollLoop : List ℕ → Edges → Bool → ℕ → Prog (Edges × Bool × ℕ)
  | [], E, finished, numRunning => ret (E, finished, numRunning)
  | id :: ids, E, finished, numRunning =>
    match E.targets[id]? with
    | none => panic
    | some t =>
      match t.running with
      | none => Edges.pollLoop ids E finished numRunning
      | some h =>
        poll h fun r =>
          match r with
          | some newState =>
            dropHandle h (Edges.pollLoop ids ((E.setState id newState).clearRunning id) true numRunning)
          | none =>
            isScheduled h fun b =>
              Edges.pollLoop ids E finished (if b then numRunning + 1 else numRunning)

/-- Whether `targets[id].state` has different bounds (the closure in `search.rs:441-448`). -/
def Edges.open (E : Edges) (id : ℕ) : Bool :=
  match E.targets[id]? with
  | none => false
  | some t => t.state.lo ≠ t.state.hi

/-- The assertion in the closure, `search.rs:444-446`, and the index check. -/
def Edges.retainOk (E : Edges) (id : ℕ) : Bool :=
  match E.targets[id]? with
  | none => false
  | some t => t.state.lo ≠ t.state.hi || t.running.isNone

/-- The sort key of a target, `search.rs:461-479`; lists of naturals in lexicographic order. -/
def EdgeTarget.key (order : Option ℕ) (t : EdgeTarget) : List ℕ :=
  match order with
  | some limit => [if t.state.lo ≥ limit then 1 else 0, t.len, t.state.lo, t.state.hi]
  | none => [t.state.lo, t.len, t.state.hi]

/-- Lexicographic comparison of keys.  Models code at `search.rs:461-476`. -/
def keyLe : List ℕ → List ℕ → Bool
  | [], _ => true
  | _ :: _, [] => false
  | x :: xs, y :: ys => if x < y then true else if y < x then false else keyLe xs ys

/-- The key of an id.  Models code at `search.rs:461-476`. -/
def Edges.keyOf (E : Edges) (order : Option ℕ) (id : ℕ) : List ℕ :=
  match E.targets[id]? with
  | none => []
  | some t => t.key order

/-- `active_ids.sort_by_key`, `search.rs:460-480` (a stable sort). -/
def Edges.sorted (E : Edges) (order : Option ℕ) : List ℕ :=
  E.active.insertionSort fun a b => keyLe (E.keyOf order a) (E.keyOf order b) = true

/-- The spawning loop of `improve_next`, `search.rs:482-507`; `index` is the position of the head of the
remaining ids.  Returns the edges and `block`. -/
def Edges.spawnLoop (level : ℕ) (order : Option ℕ) : List ℕ → ℕ → Edges → Bool → Prog (Edges × Bool)
  | [], _, E, block => ret (E, block)
  | id :: ids, index, E, block =>
    match E.targets[id]? with
    | none => panic
    | some t =>
      match t.running with
      | some h =>
        if index = 0 then schedule h (Edges.spawnLoop level order ids (index + 1) E block)
        else Edges.spawnLoop level order ids (index + 1) E block
      | none =>
        if t.state.lo = t.state.hi then panic
        else
          spawn level t.state t.set fun h =>
            if index ≠ 0 then
              if ∃ limit ∈ order, t.state.lo < limit then
                addPending (level, t.len, t.state.lo) h
                  (Edges.spawnLoop level order ids (index + 1) (E.setRunning id h) false)
              else Edges.spawnLoop level order ids (index + 1) (E.setRunning id h) false
            else schedule h (Edges.spawnLoop level order ids (index + 1) (E.setRunning id h) false)

/-! ## Program points -/

/-- Where `improve_next` returns to.  Models code at `search.rs:255-257,343`. -/
inductive Ret where
  /-- The loop `search.rs:226-258`. -/
  | edges (level : ℕ) (A : OSet) (state : State)
  /-- The loop `search.rs:303-344`; `ids`, `uh` are `pruned_ids` and `upper_huffman_bounds`. -/
  | huffman (level : ℕ) (A : OSet) (state : State) (ids : Bool → List ℕ) (uh : Bool → ℕ)

/-- Program points with the live local variables.  Models code at `search.rs:127-347,411-509`. -/
inductive PC where
  /-- Start of the main task, `search.rs:59-60`. -/
  | start (limit : Option ℕ) (A : OSet)
  /-- Loop of the main task, `search.rs:61-68`. -/
  | main (limit : Option ℕ) (A : OSet) (state : State)
  /-- Loop of `improve` that takes the lock, `search.rs:134-146`. -/
  | improve (level : ℕ) (prev : State) (A : OSet)
  /-- `improve` after taking the lock, `search.rs:148`. -/
  | locked (level : ℕ) (prev : State) (A : OSet)
  /-- Loop for a single extremal channel, `search.rs:180-203`. -/
  | pruned (level : ℕ) (A : OSet) (state : State) (P : OSet) (prunedState : State)
  /-- `improve` after `improve_huffman` returned `new`, `search.rs:209-212`. -/
  | afterHuffman (level : ℕ) (A : OSet) (state new : State)
  /-- Loop over the successors, `search.rs:226-258`. -/
  | edgesLoop (level : ℕ) (A : OSet) (state : State) (E : Edges)
  /-- `improve_huffman`, `search.rs:261`. -/
  | huffman (level : ℕ) (A : OSet)
  /-- Loop of `improve_huffman`, `search.rs:303-344`. -/
  | huffLoop (level : ℕ) (A : OSet) (state : State) (E : Edges) (ids : Bool → List ℕ) (uh : Bool → ℕ)
  /-- Loop of `improve_next`, `search.rs:422-508`. -/
  | nextLoop (level : ℕ) (order : Option ℕ) (E : Edges) (block : Bool) (r : Ret)

/-- What happens at the end of the program of a program point.  Models code at `search.rs:127-347,411-509`. -/
inductive Exit where
  /-- `return v` -/
  | done (v : State)
  /-- Continue at another program point of the same call. -/
  | goto (pc : PC)
  /-- Await another async function inline and continue with its result. -/
  | call (pc : PC) (k : State → PC)

/-- Return point of `improve_next`.  Models code at `search.rs:255-257,343`. -/
def Ret.resume (r : Ret) (E : Edges) : PC :=
  match r with
  | .edges level A state => .edgesLoop level A state E
  | .huffman level A state ids uh => .huffLoop level A state E ids uh

/-- The edges of all non-redundant comparators, `search.rs:213-224`, for the remaining pairs. -/
def buildEdges (hash : List ℕ → ℕ) (A : OSet) : List (Fin A.n × Fin A.n) → Edges → Prog Edges
  | [], E => ret E
  | (i, j) :: ps, E =>
    match successor A i j with
    | none => buildEdges hash A ps E
    | some T => do
      let C ← ofOption (canon hash T)
      let r ← E.addEdge C
      buildEdges hash A ps r.1

/-- The edges of the extremal channels of one polarity, `search.rs:288-299`, for the remaining
channels. -/
def buildPruned (hash : List ℕ → ℕ) (A : OSet) (pol : Bool) :
    List (Fin A.n) → Edges → Prog (Edges × List ℕ)
  | [], E => ret (E, [])
  | c :: cs, E => do
    let T ← ofOption (prune A pol c)
    let C ← ofOption (canon hash T)
    let r ← E.addEdge C
    let rest ← buildPruned hash A pol cs r.1
    ret (rest.1, r.2 :: rest.2)

/-- The bounds of the edges in a list of ids, `search.rs:306-313`; `none` is an index out of bounds. -/
def Edges.boundsOf (E : Edges) (f : State → ℕ) (ids : List ℕ) : Option (List ℕ) :=
  ids.mapM fun id => E.targets[id]?.map fun t => f t.state

/-- Body of the `for` loop over the polarities in `improve_huffman`, `search.rs:304-335`, for one
polarity.  The first component is true if the function has to return the state. -/
def huffPol (A : OSet) (pol : Bool) (ids : Bool → List ℕ) (state : State) (E : Edges) (uh : Bool → ℕ) :
    Prog (Bool × State × Edges × (Bool → ℕ)) :=
  if uh pol > state.lo then do
    let lowerBounds ← ofOption (E.boundsOf State.lo (ids pol))
    let upperBounds ← ofOption (E.boundsOf State.hi (ids pol))
    let lower ← ofOption (maxPlus1Huffman lowerBounds)
    let upper ← ofOption (maxPlus1Huffman upperBounds)
    let E' ← if upper ≤ state.lo then E.retainEdges (fun id => (ids (!pol)).contains id) else ret E
    let uh' := Function.update uh pol upper
    if lower > state.hlo then
      if lower > state.lo then
        let state' := { state with hlo := lower, lo := lower }
        Prog.set A state' (ret (true, state', E', uh'))
      else
        let state' := { state with hlo := lower }
        Prog.set A state' (ret (false, state', E', uh'))
    else ret (false, state, E', uh')
  else ret (false, state, E, uh)

/-- `iter().min()`.  Models code at `search.rs:231,245`. -/
def listMin : List ℕ → Option ℕ
  | [] => none
  | x :: xs => some (xs.foldl min x)

/-- The code from the point after the shortcut for single extremal channels to the loop over the
successors or to the call of `improve_huffman`, `search.rs:207-224`. -/
def codeEdges (hash : List ℕ → ℕ) (level : ℕ) (A : OSet) (state : State) : Prog Exit := do
  let E ← buildEdges hash A (pairs A.n) Edges.empty
  ret (.goto (.edgesLoop level A state E))

/-- `search.rs:207-208`. -/
def codeHuffman (hash : List ℕ → ℕ) (level : ℕ) (A : OSet) (state : State) : Prog Exit :=
  if state.hhi > state.lo then ret (.call (.huffman level A) (fun new => .afterHuffman level A state new))
  else codeEdges hash level A state

/-- The shortcut for a polarity with a single extremal channel, `search.rs:168-180`. -/
def codeShortcut (hash : List ℕ → ℕ) (level : ℕ) (A : OSet) (state : State) (pol : Bool)
    (otherwise : Prog Exit) : Prog Exit :=
  match extremal A pol with
  | [c] => do
    let T ← ofOption (prune A pol c)
    let P ← ofOption (canon hash T)
    let prunedState ← Prog.get P ret
    ret (.goto (.pruned level A state P prunedState))
  | _ => otherwise

/-- Second half of the loop body for a single extremal channel, `search.rs:192-202`. -/
def codePrunedLower (level : ℕ) (A : OSet) (state : State) (P : OSet) (prunedState : State) : Prog Exit :=
  if prunedState.lo > state.lo then
    let state' := { state with lo := prunedState.lo, hlo := prunedState.lo }
    Prog.set A state' (ret (.done state'))
  else ret (.call (.improve level prunedState P) (fun ps => .pruned level A state P ps))

/-- Second half of the body of the loop over the successors, `search.rs:243-257`. -/
def codeEdgesLower (level : ℕ) (A : OSet) (state : State) (E : Edges) : Prog Exit := do
  let m ← ofOption (listMin (E.targets.map fun t => t.state.lo))
  let combinedLower := (m + 1) % 256
  if combinedLower > state.lo then
    let state ← Prog.get A ret
    let state' := { state with lo := combinedLower }
    Prog.set A state' (ret (.done state'))
  else
    ret (.goto (.nextLoop (level + 1) (some state.lo) E false (.edges level A state)))

/-- The rest of the body of the loop of `improve_huffman`, `search.rs:337-343`. -/
def codeHuffRest (level : ℕ) (A : OSet) (state : State) (E : Edges) (ids : Bool → List ℕ)
    (uh : Bool → ℕ) : Prog Exit :=
  let maxUpper := max (uh false) (uh true)
  if maxUpper < state.hhi then
    let state' := { state with hhi := maxUpper }
    Prog.set A state' (ret (.goto (.nextLoop (level + 1) none E false (.huffman level A state' ids uh))))
  else ret (.goto (.nextLoop (level + 1) none E false (.huffman level A state ids uh)))

/-- Sorting and spawning in `improve_next`, `search.rs:458-507`. -/
def codeSpawn (level : ℕ) (order : Option ℕ) (E : Edges) (r : Ret) : Prog Exit := do
  let E' : Edges := { targets := E.targets, active := E.sorted order }
  let q ← Edges.spawnLoop level order E'.active 0 E' true
  ret (.goto (.nextLoop level order q.1 q.2 r))

/-- The program from a program point to the next one.  Models code at `search.rs:127-347,411-509`. -/
def code (hash : List ℕ → ℕ) : PC → Prog Exit
  | .start limit A => do
    let state ← Prog.get A ret
    ret (.goto (.main limit A state))
  | .main limit A state =>
    if state.lo = state.hi ∨ (∃ l ∈ limit, state.lo ≥ l) then ret (.done state)
    else ret (.call (.improve 0 state A) (fun st => .main limit A st))
  | .improve level prev A => do
    let state ← Prog.get A ret
    if state ≠ prev then ret (.done state)
    else if state.lo = state.hi then ret (.done state)
    else
      Prog.lock A fun locked =>
        if locked then ret (.goto (.locked level prev A)) else ret (.goto (.improve level prev A))
  | .locked level prev A => do
    let state ← Prog.get A ret
    if state ≠ prev then ret (.done state)
    else if state.lo = state.hi then ret (.done state)
    else
      codeShortcut hash level A state false
        (codeShortcut hash level A state true (codeHuffman hash level A state))
  | .pruned level A state P prunedState =>
    if prunedState.hi < state.hi then
      let state' := { state with hi := prunedState.hi, hhi := prunedState.hi }
      Prog.set A state'
        (if state'.lo = state'.hi then ret (.done state')
         else codePrunedLower level A state' P prunedState)
    else codePrunedLower level A state P prunedState
  | .afterHuffman level A state new =>
    if new.lo > state.lo then ret (.done new) else codeEdges hash level A new
  | .edgesLoop level A state E => do
    let m ← ofOption (listMin (E.targets.map fun t => t.state.hi))
    let combinedUpper := (m + 1) % 256
    if combinedUpper < state.hi then
      let state' := { state with hi := combinedUpper, hhi := min combinedUpper state.hhi }
      Prog.set A state'
        (if state'.lo = state'.hi then ret (.done state') else codeEdgesLower level A state' E)
    else codeEdgesLower level A state E
  | .huffman level A => do
    let state ← Prog.get A ret
    if state.hhi ≤ state.lo then ret (.done state)
    else do
      let q0 ← buildPruned hash A false (extremal A false) Edges.empty
      let q1 ← buildPruned hash A true (extremal A true) q0.1
      ret (.goto (.huffLoop level A state q1.1 (fun pol => if pol then q1.2 else q0.2)
        (fun _ => state.hhi)))
  | .huffLoop level A state E ids uh =>
    if state.hhi > state.lo then do
      let q0 ← huffPol A false ids state E uh
      if q0.1 then ret (.done q0.2.1)
      else do
        let q1 ← huffPol A true ids q0.2.1 q0.2.2.1 q0.2.2.2
        if q1.1 then ret (.done q1.2.1)
        else codeHuffRest level A q1.2.1 q1.2.2.1 ids q1.2.2.2
    else ret (.done state)
  | .nextLoop level order E block r => do
    let p ← Edges.pollLoop E.active E false 0
    let E1 := p.1
    assert (E1.active.all fun id => E1.retainOk id)
    let E2 : Edges := { targets := E1.targets, active := E1.active.filter E1.open }
    if p.2.1 ∨ E2.active = [] then ret (.goto (r.resume E2))
    else if block ∧ p.2.2 > 0 then Prog.pending (codeSpawn level order E2 r)
    else codeSpawn level order E2 r

/-! ## Tasks and interleaving -/

/-- What a call owns and releases when it returns or is dropped.
Models code at `thread_pool.rs:33-40,83-114` and `search.rs:127-509`. -/
inductive Res where
  /-- A `StateLock`. -/
  | lock (A : OSet) (token : ℕ)
  /-- A `Handle` of a child task. -/
  | handle (h : Handle)
deriving DecidableEq

/-- A suspended caller: what it owns and how it continues with the result.
Models code at `thread_pool.rs:33-40,83-114` and `search.rs:127-509`. -/
structure Frame where
  owned : List Res
  k : State → PC

/-- The state of a task.  Models code at `thread_pool.rs:33-40,83-114` and `search.rs:127-509`. -/
inductive Status where
  /-- Running. -/
  | run (p : Prog Exit) (owned : List Res) (stack : List Frame)
  /-- Suspended: not started yet, or at `pending!()`. -/
  | sleep (p : Prog Exit) (owned : List Res) (stack : List Frame)
  /-- Suspended: waiting for the release of the lock with the given token, `states.rs:115-118`. -/
  | wait (A : OSet) (token : ℕ) (p : Prog Exit) (owned : List Res) (stack : List Frame)
  /-- Returning from a call: dropping the variables of the call. -/
  | unwind (v : State) (owned : List Res) (stack : List Frame)
  /-- Cancelled: dropping all variables. -/
  | dropping (owned : List Res)
  /-- Finished, with the result not yet taken. -/
  | done (v : State)
  /-- Finished and the result has been taken. -/
  | taken
  /-- Panicked. -/
  | panicked

/-- Everything a task owns.  Models code at `thread_pool.rs:33-40,83-114` and `search.rs:127-509`. -/
def Status.res : Status → List Res
  | .run _ owned stack => owned ++ stack.flatMap Frame.owned
  | .sleep _ owned stack => owned ++ stack.flatMap Frame.owned
  | .wait _ _ _ owned stack => owned ++ stack.flatMap Frame.owned
  | .unwind _ owned stack => owned ++ stack.flatMap Frame.owned
  | .dropping owned => owned
  | .done _ => []
  | .taken => []
  | .panicked => []

/-- A task.  Models code at `thread_pool.rs:33-40,83-114` and `search.rs:127-509`. -/
structure Task where
  status : Status
  /-- Ghost: the program point the task was started with. -/
  root : PC
  /-- `Schedule` has been used (`is_scheduled`). -/
  scheduled : Bool
  /-- Handed to the pending queue. -/
  queued : Bool
  /-- The handle has been dropped (`JoinHandle::cancel`). -/
  cancelled : Bool

/-- Everything a task owns.  Models code at `thread_pool.rs:33-40,83-114` and `search.rs:127-509`. -/
abbrev Task.res (t : Task) : List Res := t.status.res

/-- The shared data and all tasks.  Models code at `search.rs:58-71`. -/
structure Global where
  store : Store
  /-- The lock map. -/
  locks : OSet → Option ℕ
  /-- Next unused token. -/
  nextToken : ℕ
  /-- The channels with a message. -/
  sent : ℕ → Bool
  tasks : ℕ → Option Task

/-- Replaces the status of a task.  Models code at `thread_pool.rs:83-114`. -/
def Global.setStatus (G : Global) (i : ℕ) (t : Task) (s : Status) : Global :=
  { G with tasks := Function.update G.tasks i (some { t with status := s }) }

/-- `JoinHandle::cancel`.  Models code at `thread_pool.rs:67-71`. -/
def Global.cancel (G : Global) (i : ℕ) : Global :=
  { G with tasks := Function.update G.tasks i ((G.tasks i).map fun t => { t with cancelled := true }) }

/-- Dropping a variable: `StateLock::drop` (`states.rs:162-169`, one atomic action because it happens while
the shard is locked for writing) or `Handle::drop` (`thread_pool.rs:67-71`). -/
def Global.release (G : Global) : Res → Global
  | .lock A token => { G with
      sent := Function.update G.sent token true
      locks := fun B => if B = A then none else G.locks B }
  | .handle h => G.cancel h.tid

/-- The `unwrap` in `StateLock::drop` succeeds: the receiver still exists.  Only the copy in the map is
considered.  Models code at `states.rs:166`. -/
def Global.receiver (G : Global) : Res → Prop
  | .lock A token => G.locks A = some token
  | .handle _ => True

/-- The map operations of `OutputSetMap` panic outside of 3 to 11 channels
(`states.rs:339-410`). -/
def mapOk (A : OSet) : Prop := 2 < A.n ∧ A.n ≤ 11

/-- One atomic step of task `i` or, for the task `i`, of the thread pool.
Models code at `search.rs:127-509` and `thread_pool.rs:141-204`. -/
inductive Act (hash : List ℕ → ℕ) : ℕ → Global → Global → Prop
  /-- `StateMap::get`. -/
  | get {i G t A k owned stack} :
      G.tasks i = some t → t.status = .run (.get A k) owned stack →
      Act hash i G (G.setStatus i t (.run (k (G.store.get A)) owned stack))
  /-- `StateMap::set`. -/
  | set {i G t A v k owned stack} :
      G.tasks i = some t → t.status = .run (.set A v k) owned stack → mapOk A →
      Act hash i G { G.setStatus i t (.run k owned stack) with store := G.store.set A v }
  /-- `StateMap::set` outside of 3 to 11 channels. -/
  | setPanic {i G t A v k owned stack} :
      G.tasks i = some t → t.status = .run (.set A v k) owned stack → ¬ mapOk A →
      Act hash i G (G.setStatus i t .panicked)
  /-- `StateMap::lock` for a free lock, `states.rs:119-125,139-143`. -/
  | lockFree {i G t A k owned stack} :
      G.tasks i = some t → t.status = .run (.lock A k) owned stack → mapOk A → G.locks A = none →
      Act hash i G { G.setStatus i t (.run (k true) (.lock A G.nextToken :: owned) stack) with
        locks := fun B => if B = A then some G.nextToken else G.locks B
        nextToken := G.nextToken + 1 }
  /-- `StateMap::lock` for a lock that is held, `states.rs:115-116,137-138`. -/
  | lockBusy {i G t A k owned stack token} :
      G.tasks i = some t → t.status = .run (.lock A k) owned stack → mapOk A → G.locks A = some token →
      Act hash i G (G.setStatus i t (.wait A token (k false) owned stack))
  /-- `StateMap::lock` outside of 3 to 11 channels. -/
  | lockPanic {i G t A k owned stack} :
      G.tasks i = some t → t.status = .run (.lock A k) owned stack → ¬ mapOk A →
      Act hash i G (G.setStatus i t .panicked)
  /-- The lock a task waits for has been released, `states.rs:116-117`. -/
  | lockWake {i G t A token p owned stack} :
      G.tasks i = some t → t.status = .wait A token p owned stack → G.sent token = true →
      Act hash i G (G.setStatus i t (.run p owned stack))
  /-- `ThreadPool::spawn_delayed`: a new task `j`, not scheduled. -/
  | spawn {i G t level prev A k owned stack j} :
      G.tasks i = some t → t.status = .run (.spawn level prev A k) owned stack → G.tasks j = none →
      Act hash i G { G with
        tasks := Function.update
          (Function.update G.tasks i
            (some { t with status := .run (k ⟨j, A, prev⟩) (.handle ⟨j, A, prev⟩ :: owned) stack })) j
          (some { status := .sleep (code hash (.improve level prev A)) [] []
                  root := .improve level prev A
                  scheduled := false, queued := false, cancelled := false }) }
  /-- `ThreadPool::add_pending`. -/
  | addPending {i G t prio h k owned stack c} :
      G.tasks i = some t → t.status = .run (.addPending prio h k) owned stack →
      G.tasks h.tid = some c → h.tid ≠ i →
      Act hash i G { G with
        tasks := Function.update
          (Function.update G.tasks i (some { t with status := .run k owned stack })) h.tid
          (some { c with queued := true }) }
  /-- `Schedule::schedule`. -/
  | schedule {i G t h k owned stack c} :
      G.tasks i = some t → t.status = .run (.schedule h k) owned stack →
      G.tasks h.tid = some c → h.tid ≠ i →
      Act hash i G { G with
        tasks := Function.update
          (Function.update G.tasks i (some { t with status := .run k owned stack })) h.tid
          (some { c with scheduled := true }) }
  /-- `Schedule::is_scheduled`. -/
  | isScheduled {i G t h k owned stack c} :
      G.tasks i = some t → t.status = .run (.isScheduled h k) owned stack → G.tasks h.tid = some c →
      Act hash i G (G.setStatus i t (.run (k c.scheduled) owned stack))
  /-- Polling the handle of a finished task takes the result. -/
  | pollReady {i G t h k owned stack c v} :
      G.tasks i = some t → t.status = .run (.poll h k) owned stack →
      G.tasks h.tid = some c → c.status = .done v → h.tid ≠ i →
      Act hash i G { G with
        tasks := Function.update
          (Function.update G.tasks i (some { t with status := .run (k (some v)) owned stack })) h.tid
          (some { c with status := .taken }) }
  /-- Polling the handle of an unfinished task. -/
  | pollPending {i G t h k owned stack c} :
      G.tasks i = some t → t.status = .run (.poll h k) owned stack → G.tasks h.tid = some c →
      (∀ v, c.status ≠ .done v) → c.status ≠ .taken → c.cancelled = false →
      Act hash i G (G.setStatus i t (.run (k none) owned stack))
  /-- Polling the handle of a task that was cancelled, or whose result was taken, gives `None`, which is
  unwrapped (`thread_pool.rs:60-64`). -/
  | pollPanic {i G t h k owned stack c} :
      G.tasks i = some t → t.status = .run (.poll h k) owned stack → G.tasks h.tid = some c →
      (c.status = .taken ∨ c.cancelled = true) → (∀ v, c.status ≠ .done v) →
      Act hash i G (G.setStatus i t .panicked)
  /-- Dropping a handle. -/
  | dropHandle {i G t h k owned stack} :
      G.tasks i = some t → t.status = .run (.dropHandle h k) owned stack →
      Act hash i G ((G.setStatus i t (.run k (owned.erase (.handle h)) stack)).release (.handle h))
  /-- `pending!()`. -/
  | pending {i G t k owned stack} :
      G.tasks i = some t → t.status = .run (.pending k) owned stack →
      Act hash i G (G.setStatus i t (.sleep k owned stack))
  /-- A scheduled task is started or resumed. -/
  | wake {i G t p owned stack} :
      G.tasks i = some t → t.status = .sleep p owned stack → t.scheduled = true →
      Act hash i G (G.setStatus i t (.run p owned stack))
  /-- A worker takes a task from the pending queue, `thread_pool.rs:182-189`.  Taking a task that has already
been scheduled changes nothing and is not modelled. -/
  | worker {i G t} :
      G.tasks i = some t → t.queued = true → t.scheduled = false →
      Act hash i G { G with tasks := Function.update G.tasks i (some { t with scheduled := true }) }
  /-- A panic. -/
  | panic {i G t owned stack} :
      G.tasks i = some t → t.status = .run .panic owned stack →
      Act hash i G (G.setStatus i t .panicked)
  /-- Continue at another program point. -/
  | goto {i G t pc owned stack} :
      G.tasks i = some t → t.status = .run (.ret (.goto pc)) owned stack →
      Act hash i G (G.setStatus i t (.run (code hash pc) owned stack))
  /-- Await another function inline. -/
  | call {i G t pc k owned stack} :
      G.tasks i = some t → t.status = .run (.ret (.call pc k)) owned stack →
      Act hash i G (G.setStatus i t (.run (code hash pc) [] (⟨owned, k⟩ :: stack)))
  /-- Start to return. -/
  | ret {i G t v owned stack} :
      G.tasks i = some t → t.status = .run (.ret (.done v)) owned stack →
      Act hash i G (G.setStatus i t (.unwind v owned stack))
  /-- Drop a variable of the call that returns. -/
  | unwind {i G t v r owned stack} :
      G.tasks i = some t → t.status = .unwind v owned stack → r ∈ owned → G.receiver r →
      Act hash i G ((G.setStatus i t (.unwind v (owned.erase r) stack)).release r)
  /-- Panic while dropping a variable. -/
  | unwindPanic {i G t v r owned stack} :
      G.tasks i = some t → t.status = .unwind v owned stack → r ∈ owned → ¬ G.receiver r →
      Act hash i G (G.setStatus i t .panicked)
  /-- Continue the caller. -/
  | return {i G t v f stack} :
      G.tasks i = some t → t.status = .unwind v [] (f :: stack) →
      Act hash i G (G.setStatus i t (.run (code hash (f.k v)) f.owned stack))
  /-- The task is finished. -/
  | finish {i G t v} :
      G.tasks i = some t → t.status = .unwind v [] [] →
      Act hash i G (G.setStatus i t (.done v))
  /-- A cancelled task is dropped at a suspension point. -/
  | dropSleep {i G t p owned stack} :
      G.tasks i = some t → t.status = .sleep p owned stack → t.cancelled = true →
      Act hash i G (G.setStatus i t (.dropping (owned ++ stack.flatMap Frame.owned)))
  /-- A cancelled task is dropped while waiting for a lock. -/
  | dropWait {i G t A token p owned stack} :
      G.tasks i = some t → t.status = .wait A token p owned stack → t.cancelled = true →
      Act hash i G (G.setStatus i t (.dropping (owned ++ stack.flatMap Frame.owned)))
  /-- Drop a variable of a dropped task. -/
  | drop {i G t r owned} :
      G.tasks i = some t → t.status = .dropping owned → r ∈ owned → G.receiver r →
      Act hash i G ((G.setStatus i t (.dropping (owned.erase r))).release r)
  /-- Panic while dropping a variable. -/
  | dropPanic {i G t r owned} :
      G.tasks i = some t → t.status = .dropping owned → r ∈ owned → ¬ G.receiver r →
      Act hash i G (G.setStatus i t .panicked)

/-- One atomic step of some task.  Models code at `search.rs:127-509` and `thread_pool.rs:141-204`. -/
def Step (hash : List ℕ → ℕ) (G G' : Global) : Prop := ∃ i, Act hash i G G'

/-- The state when the main task has been spawned, `search.rs:36-43,58-59`: all maps are empty, task 0 is
the main task. -/
def init (hash : List ℕ → ℕ) (limit : Option ℕ) (A : OSet) : Global where
  store := fun _ => none
  locks := fun _ => none
  nextToken := 0
  sent := fun _ => false
  tasks := fun i => if i = 0 then
      some { status := .sleep (code hash (.start limit A)) [] []
             root := .start limit A
             scheduled := true, queued := false, cancelled := false }
    else none

/-- The states that can be reached.  Models code at `search.rs:127-509` and `thread_pool.rs:141-204`. -/
inductive Reach (hash : List ℕ → ℕ) (limit : Option ℕ) (A : OSet) : Global → Prop
  | init : Reach hash limit A (init hash limit A)
  | step {G G' : Global} : Reach hash limit A G → Step hash G G' → Reach hash limit A G'

/-- A run of `Search::search(initial, limit, ..)` (`search.rs:31-78`) up to the state `G`: the initial set
is canonicalized first. -/
def Run (hash : List ℕ → ℕ) (limit : Option ℕ) (initial : OSet) (G : Global) : Prop :=
  ∃ A, canon hash initial = some A ∧ Reach hash limit A G

/-- `Search::search` has computed `r` in the state `G`: the main task has finished.
Models code at `search.rs:61-63,70`. -/
def Returned (G : Global) (r : ℕ) : Prop :=
  ∃ t v, G.tasks 0 = some t ∧ t.status = .done v ∧ v.lo = r

end Search

end Sortnet
