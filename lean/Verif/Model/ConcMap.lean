import Mathlib.Data.Finset.Insert
import Mathlib.Data.Finset.Erase
import Verif.Model.StateMap

/-!
# Model of `search/states.rs` with concurrent callers

`Model/StateMap.lean` has the operations of the state map as atomic functions.  Here they are what they are in
the program: every shard has a `RwLock`, a caller takes it, accesses the shard and releases it, and the steps of
different callers are interleaved.

Simplifications.
* A caller is a number.  It stands for the thread or the task that makes the call; `StateMap::lock` is the only
  function with a point where the caller can be suspended, and there its future can also be dropped.
* The locks and the channels are sequentially consistent.
* `RwLock`: a reader can enter if there is no writer, and a writer if there is nobody.  Which of several waiting
  callers enters is not determined.  A panic while writing poisons the lock, and then every caller panics.
* An access to a shard consists of two steps, its beginning and its end, and has its effect at the end.  That
  nobody sees it half done is a property (no two callers access a shard at the same time, one of them writing).
* The channel of a lock is a number, and `StateLock` has the number instead of the sender.  Sending fails if the
  receiver is not in the map any more; in the program it can also be kept alive by a caller that waits.
* A `StateLock` can only be dropped by somebody who has it, and only once; Rust checks this.
* `usize` does not overflow when the numbers of states are added up.
-/

namespace Sortnet

namespace Search

namespace Conc

/-- `StateLock`, `states.rs:154-160`; `token` stands for `unlock`. -/
structure StateLock where
  channels : ℕ
  packed : List UInt8
  shard : ℕ
  token : ℕ
deriving DecidableEq

/-- The calls; `unlock` is `StateLock::drop`.  Models code at `states.rs:41-151,162-169`. -/
inductive Op where
  | len
  | get (A : OSet)
  | set (A : OSet) (v : State)
  | lock (A : OSet)
  | unlock (l : StateLock)
deriving DecidableEq

/-- The results; `held` and `free` are the results `Some` and `None` of `lock`.  Models code at `states.rs:41-144`. -/
inductive Res where
  | num (n : ℕ)
  | state (v : State)
  | unit
  | held (l : StateLock)
  | free
deriving DecidableEq

/-- What an observer sees: a call, a return, and that a waiting call of `lock` is given up.
Models code at `states.rs:41-151,162-169`. -/
inductive Event where
  | call (t : ℕ) (op : Op)
  | ret (t : ℕ) (r : Res)
  | cancel (t : ℕ)
deriving DecidableEq

/-- `RwLock` without the data.  Models code at `states.rs:23-26`. -/
structure Rw where
  readers : Finset ℕ
  writer : Option ℕ
  poisoned : Bool

/-- The sections of the code in which the lock of a shard is held, with the local variables.
Models code at `states.rs:41-144,162-169`. -/
inductive Sec where
  /-- `states.rs:56-60`: the index of the shard. -/
  | get (A : OSet) (i : ℕ)
  /-- `states.rs:44`: the index of the shard and the sum of the previous ones. -/
  | len (i acc : ℕ)
  /-- `states.rs:99-103`. -/
  | set (A : OSet) (v : State) (i : ℕ)
  /-- `states.rs:134-143`. -/
  | lock (A : OSet) (i : ℕ)
  /-- `states.rs:164-167`. -/
  | unlock (l : StateLock)
deriving DecidableEq

namespace Sec

/-- Whether the lock is taken with `write()`: `states.rs:44,57` use `read()`, `states.rs:99,134,164`
`write()`. -/
def write : Sec → Bool
  | get .. => false
  | len .. => false
  | set .. => true
  | lock .. => true
  | unlock .. => true

/-- Whether the shard is one of `lock_shards`.  Models code at `states.rs:25,106-144,162-169`. -/
def locks : Sec → Bool
  | get .. => false
  | len .. => false
  | set .. => false
  | lock .. => true
  | unlock .. => true

/-- The index of the shard.  Models code at `states.rs:51-54`. -/
def shard : Sec → ℕ
  | get _ i => i
  | len i _ => i
  | set _ _ i => i
  | lock _ i => i
  | unlock l => l.shard

end Sec

/-- Where a caller is.  Models code at `states.rs:41-144,162-169`. -/
inductive PC where
  /-- Not in a call. -/
  | idle
  /-- Before taking the lock of a shard. -/
  | want (s : Sec)
  /-- Has the lock. -/
  | inside (s : Sec)
  /-- Has the lock and accesses the shard. -/
  | busy (s : Sec)
  /-- Has the lock and has done the access; continues with `next`. -/
  | after (s : Sec) (next : PC)
  /-- At `lock.await`, `states.rs:116`. -/
  | await (token : ℕ)
  /-- At the end of the call. -/
  | done (r : Res)
  /-- Has panicked. -/
  | panicked
deriving DecidableEq

/-- The shared data, except for the locks.  Models code at `states.rs:23-26`. -/
structure Mem where
  map : StateMap
  /-- The channels with a message. -/
  sent : ℕ → Bool
  nextToken : ℕ

/-- The state of the whole system.  Models code at `states.rs:23-26`. -/
structure G where
  mem : Mem
  /-- The locks of the shards, `false` for `state_shards` and `true` for `lock_shards`. -/
  rw : Bool → ℕ → Rw
  /-- The instances of `StateLock` that callers have. -/
  owned : List StateLock
  pc : ℕ → PC

/-- `StateMap::len` from the shard `i` on, `states.rs:41-46`. -/
def lenFrom (shards i acc : ℕ) : PC := if i < shards then .want (.len i acc) else .done (.num acc)

/-- The beginning of a call up to the point where the lock of the first shard is taken: `states.rs:42-43,49-54,
92-97,107-112,163`.  `FxHasher` is the parameter. -/
def start (hash : List UInt8 → ℕ) (m : StateMap) : Op → PC
  | .len => lenFrom m.stateShards.length 0 0
  | .get A => .want (.get A (shardOf hash m.stateShards.length A.s.packed))
  | .set A v => .want (.set A v (shardOf hash m.stateShards.length A.s.packed))
  | .lock A => .want (.lock A (shardOf hash m.lockShards.length A.s.packed))
  | .unlock l => .want (.unlock l)

/-- What happens before the access to the shard: `StateLock::drop` sends the message, `states.rs:166`.  `none` is a
panic. -/
def begin (M : Mem) : Sec → Option Mem
  | .unlock l => do
    let shard ← M.map.lockShards[l.shard]?
    let r ← shard.getWithPacked l.channels l.packed
    if r = some l.token then some { M with sent := Function.update M.sent l.token true } else none
  | _ => some M

/-- The access to the shard and how the call continues after the lock has been released: `states.rs:56-88`,
`states.rs:44`, `states.rs:99-103`, `states.rs:136-143` with `114-126`, and `states.rs:167`.  `none` is a panic. -/
def finish (M : Mem) : Sec → Option (Mem × PC)
  | .get A i => do
    let shard ← M.map.stateShards[i]?
    let r ← shard.getWithPacked A.n A.s.packed
    match r with
    | some result => some (M, .done (.state result))
    | none => some (M, .done (.state (defaultState A)))
  | .len i acc => do
    let shard ← M.map.stateShards[i]?
    some (M, lenFrom M.map.stateShards.length (i + 1) (acc + shard.len))
  | .set A v i => do
    let shard ← M.map.stateShards[i]?
    let shard' ← shard.setWithPacked A.n A.s.packed v
    some ({ M with map := { M.map with stateShards := M.map.stateShards.set i shard' } }, .done .unit)
  | .lock A i => do
    let shard ← M.map.lockShards[i]?
    let r ← shard.getWithPacked A.n A.s.packed
    match r with
    | some existing => some (M, .await existing)
    | none => do
      let shard' ← shard.setWithPacked A.n A.s.packed M.nextToken
      some ({ M with map := { M.map with lockShards := M.map.lockShards.set i shard' },
                     nextToken := M.nextToken + 1 },
        .done (.held { channels := A.n, packed := A.s.packed, shard := i, token := M.nextToken }))
  | .unlock l => do
    let shard ← M.map.lockShards[l.shard]?
    let shard' ← shard.removeWithPacked l.channels l.packed
    some ({ M with map := { M.map with lockShards := M.map.lockShards.set l.shard shard' } }, .done .unit)

/-- `read()` or `write()` of a lock that is not poisoned: `none` if the caller has to wait.
Models code at `states.rs:41-144,162-169`. -/
def Rw.acquire (r : Rw) (write : Bool) (t : ℕ) : Option Rw :=
  if r.writer ≠ none then none
  else if write then if r.readers = ∅ then some { r with writer := some t } else none
  else some { r with readers := insert t r.readers }

/-- Drop of the guard.  Models code at `states.rs:41-144,162-169`. -/
def Rw.release (r : Rw) (write : Bool) (t : ℕ) : Rw :=
  if write then { r with writer := none } else { r with readers := r.readers.erase t }

namespace G

/-- Replaces the lock of a shard.  Models code at `states.rs:41-144,162-169`. -/
def setRw (g : G) (s : Sec) (r : Rw) : G :=
  { g with rw := fun a i => if a = s.locks ∧ i = s.shard then r else g.rw a i }

/-- Replaces the position of a caller.  Models code at `states.rs:41-144,162-169`. -/
def setPc (g : G) (t : ℕ) (p : PC) : G := { g with pc := Function.update g.pc t p }

/-- A panic while the lock of a shard is held.  Models code at `states.rs:41-144,162-169`. -/
def panic (g : G) (t : ℕ) (s : Sec) : G :=
  let r := g.rw s.locks s.shard
  (g.setRw s { r.release s.write t with poisoned := r.poisoned || s.write }).setPc t .panicked

end G

/-- What can happen to a caller.  Models code at `states.rs:41-144,162-169`. -/
inductive Move where
  | call (op : Op)
  /-- The next step of the call. -/
  | go
  /-- The future of a waiting call of `lock` is dropped. -/
  | cancel

/-- One step of one caller; `none` if it is not possible.  Models code at `states.rs:41-144,162-169`. -/
def step (hash : List UInt8 → ℕ) (g : G) (t : ℕ) : Move → Option (G × Option Event)
  | .call op =>
    match g.pc t with
    | .idle =>
      match op with
      | .unlock l =>
        if l ∈ g.owned then
          some (({ g with owned := g.owned.erase l } : G).setPc t (start hash g.mem.map op), some (.call t op))
        else none
      | _ => some (g.setPc t (start hash g.mem.map op), some (.call t op))
    | _ => none
  | .go =>
    match g.pc t with
    | .idle => none
    | .want s =>
      if (g.rw s.locks s.shard).poisoned then some (g.setPc t .panicked, none)
      else
        match (g.rw s.locks s.shard).acquire s.write t with
        | some r => some ((g.setRw s r).setPc t (.inside s), none)
        | none => none
    | .inside s =>
      match begin g.mem s with
      | some M => some (({ g with mem := M } : G).setPc t (.busy s), none)
      | none => some (g.panic t s, none)
    | .busy s =>
      match finish g.mem s with
      | some (M, next) => some (({ g with mem := M } : G).setPc t (.after s next), none)
      | none => some (g.panic t s, none)
    | .after s next =>
      some ((g.setRw s ((g.rw s.locks s.shard).release s.write t)).setPc t next, none)
    | .await token => if g.mem.sent token then some (g.setPc t (.done .free), none) else none
    | .done r =>
      match r with
      | .held l => some (({ g with owned := l :: g.owned } : G).setPc t .idle, some (.ret t r))
      | _ => some (g.setPc t .idle, some (.ret t r))
    | .panicked => none
  | .cancel =>
    match g.pc t with
    | .await _ => some (g.setPc t .idle, some (.cancel t))
    | _ => none

/-- A new map, for the given number of CPUs, and no calls.  Models code at `states.rs:28-38`. -/
def init (threads : ℕ) : G :=
  { mem := { map := StateMap.new threads, sent := fun _ => false, nextToken := 0 }
    rw := fun _ _ => { readers := ∅, writer := none, poisoned := false }
    owned := []
    pc := fun _ => .idle }

/-- Executes a schedule and gives the events.  Models code at `states.rs:41-144,162-169`. -/
def run (hash : List UInt8 → ℕ) : G → List (ℕ × Move) → Option (G × List Event)
  | g, [] => some (g, [])
  | g, (t, m) :: ms => do
    let (g', e) ← step hash g t m
    let (g'', es) ← run hash g' ms
    some (g'', e.toList ++ es)

end Conc

end Search

end Sortnet
