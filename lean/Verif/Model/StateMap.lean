import Verif.Model.Search

/-!
# Model of `search/states.rs`: the sharded state map

`Model/Search.lean` uses a function from output sets to optional states.  Here is what the program does:
it distributes the sets over shards by a hash of the packed form, and each shard has one `BTreeMap` per
number of channels from 3 to 11, whose keys are byte arrays.

Simplifications.
* A `BTreeMap` is a list of pairs with increasing keys.  The maps for 9 to 11 channels have arrays of arrays
  as keys; the lexicographic order is the same.
* `FxHasher` is an arbitrary function.
* Each operation holds the lock of the shard, so the operations are atomic.
* A receiver in the lock map is represented by a token.
-/

namespace Sortnet

namespace Search

/-- `BTreeMap` with byte arrays as keys, in increasing order.  Models code at `states.rs:171-181`. -/
abbrev BMap (T : Type) := List (List UInt8 × T)

/-- The lexicographic order of byte arrays.  Models code at `states.rs:171-181`. -/
def bytesLt (a b : List UInt8) : Prop := a.map UInt8.toNat < b.map UInt8.toNat

instance (a b : List UInt8) : Decidable (bytesLt a b) := inferInstanceAs (Decidable (_ < _))

namespace BMap

variable {T : Type}

/-- `BTreeMap::get`.  Models code at `states.rs:289-329`. -/
def get : BMap T → List UInt8 → Option T
  | [], _ => none
  | (k', v) :: m, k => if k = k' then some v else get m k

/-- `BTreeMap::insert`.  Models code at `states.rs:342-375`. -/
def insert : BMap T → List UInt8 → T → BMap T
  | [], k, v => [(k, v)]
  | (k', v') :: m, k, v =>
    if k = k' then (k, v) :: m else if bytesLt k k' then (k, v) :: (k', v') :: m else (k', v') :: insert m k v

/-- `BTreeMap::remove`.  Models code at `states.rs:386-404`. -/
def remove : BMap T → List UInt8 → BMap T
  | [], _ => []
  | (k', v') :: m, k => if k = k' then m else (k', v') :: remove m k

end BMap

/-- `array_ref!(packed, 0, len)`; `none` is a panic.  Models code at `states.rs:293-326,345-371,387-402`. -/
def arrayRef (packed : List UInt8) (len : ℕ) : Option (List UInt8) :=
  if len ≤ packed.length then some (packed.take len) else none

/-- `OutputSetMap`, `states.rs:171-181`. -/
structure OSMap (T : Type) where
  m3 : BMap T
  m4 : BMap T
  m5 : BMap T
  m6 : BMap T
  m7 : BMap T
  m8 : BMap T
  m9 : BMap T
  m10 : BMap T
  m11 : BMap T

namespace OSMap

variable {T : Type}

/-- `OutputSetMap::default`, `states.rs:183-197`. -/
def empty : OSMap T := ⟨[], [], [], [], [], [], [], [], []⟩

/-- `OutputSetMap::len`, `states.rs:200-210`. -/
def len (m : OSMap T) : ℕ :=
  m.m3.length + m.m4.length + m.m5.length + m.m6.length + m.m7.length + m.m8.length + m.m9.length +
    m.m10.length + m.m11.length

/-- `OutputSetMap::drain_packed`, `states.rs:212-287`. -/
def drainPacked (m : OSMap T) : List (ℕ × List UInt8 × T) :=
  m.m3.map (fun e => (3, e.1, e.2)) ++ m.m4.map (fun e => (4, e.1, e.2)) ++
  m.m5.map (fun e => (5, e.1, e.2)) ++ m.m6.map (fun e => (6, e.1, e.2)) ++
  m.m7.map (fun e => (7, e.1, e.2)) ++ m.m8.map (fun e => (8, e.1, e.2)) ++
  m.m9.map (fun e => (9, e.1, e.2)) ++ m.m10.map (fun e => (10, e.1, e.2)) ++
  m.m11.map (fun e => (11, e.1, e.2))

/-- `OutputSetMap::get_with_packed`, `states.rs:289-337`; the outer `none` is a panic. -/
def getWithPacked (m : OSMap T) (channels : ℕ) (packed : List UInt8) : Option (Option T) :=
  match channels with
  | 3 => (arrayRef packed (1 <<< 0)).map m.m3.get
  | 4 => (arrayRef packed (1 <<< 1)).map m.m4.get
  | 5 => (arrayRef packed (1 <<< 2)).map m.m5.get
  | 6 => (arrayRef packed (1 <<< 3)).map m.m6.get
  | 7 => (arrayRef packed (1 <<< 4)).map m.m7.get
  | 8 => (arrayRef packed (1 <<< 5)).map m.m8.get
  | 9 => (arrayRef packed (1 <<< 6)).map m.m9.get
  | 10 => (arrayRef packed (1 <<< 7)).map m.m10.get
  | 11 => (arrayRef packed (1 <<< 8)).map m.m11.get
  | _ => some none

/-- `OutputSetMap::set_with_packed`, `states.rs:339-381`; `none` is a panic. -/
def setWithPacked (m : OSMap T) (channels : ℕ) (packed : List UInt8) (v : T) : Option (OSMap T) :=
  match channels with
  | 3 => (arrayRef packed (1 <<< 0)).map fun k => { m with m3 := m.m3.insert k v }
  | 4 => (arrayRef packed (1 <<< 1)).map fun k => { m with m4 := m.m4.insert k v }
  | 5 => (arrayRef packed (1 <<< 2)).map fun k => { m with m5 := m.m5.insert k v }
  | 6 => (arrayRef packed (1 <<< 3)).map fun k => { m with m6 := m.m6.insert k v }
  | 7 => (arrayRef packed (1 <<< 4)).map fun k => { m with m7 := m.m7.insert k v }
  | 8 => (arrayRef packed (1 <<< 5)).map fun k => { m with m8 := m.m8.insert k v }
  | 9 => (arrayRef packed (1 <<< 6)).map fun k => { m with m9 := m.m9.insert k v }
  | 10 => (arrayRef packed (1 <<< 7)).map fun k => { m with m10 := m.m10.insert k v }
  | 11 => (arrayRef packed (1 <<< 8)).map fun k => { m with m11 := m.m11.insert k v }
  | _ => none

/-- `OutputSetMap::remove_with_packed`, `states.rs:383-418`; `none` is a panic. -/
def removeWithPacked (m : OSMap T) (channels : ℕ) (packed : List UInt8) : Option (OSMap T) :=
  match channels with
  | 3 => (arrayRef packed (1 <<< 0)).map fun k => { m with m3 := m.m3.remove k }
  | 4 => (arrayRef packed (1 <<< 1)).map fun k => { m with m4 := m.m4.remove k }
  | 5 => (arrayRef packed (1 <<< 2)).map fun k => { m with m5 := m.m5.remove k }
  | 6 => (arrayRef packed (1 <<< 3)).map fun k => { m with m6 := m.m6.remove k }
  | 7 => (arrayRef packed (1 <<< 4)).map fun k => { m with m7 := m.m7.remove k }
  | 8 => (arrayRef packed (1 <<< 5)).map fun k => { m with m8 := m.m8.remove k }
  | 9 => (arrayRef packed (1 <<< 6)).map fun k => { m with m9 := m.m9.remove k }
  | 10 => (arrayRef packed (1 <<< 7)).map fun k => { m with m10 := m.m10.remove k }
  | 11 => (arrayRef packed (1 <<< 8)).map fun k => { m with m11 := m.m11.remove k }
  | _ => none

end OSMap

/-- `StateMap`, `states.rs:23-26`. -/
structure StateMap where
  stateShards : List (OSMap State)
  lockShards : List (OSMap ℕ)

/-- The index of the shard of a packed set, `states.rs:51-54,94-97,109-112`; `FxHasher` is the parameter. -/
def shardOf (hash : List UInt8 → ℕ) (shards : ℕ) (packed : List UInt8) : ℕ := hash packed &&& (shards - 1)

namespace StateMap

/-- `StateMap::default`, `states.rs:28-38`, for the given number of CPUs. -/
def new (threads : ℕ) : StateMap :=
  let shards := Nat.nextPowerOfTwo (threads * threads * 8)
  { stateShards := List.replicate shards OSMap.empty, lockShards := List.replicate shards OSMap.empty }

/-- `StateMap::len`, `states.rs:41-46`. -/
def len (m : StateMap) : ℕ := (m.stateShards.map OSMap.len).sum

/-- `StateMap::get`, `states.rs:48-89`; `none` is a panic. -/
def get (hash : List UInt8 → ℕ) (m : StateMap) (A : OSet) : Option State := do
  let packed := A.s.packed
  let shard ← m.stateShards[shardOf hash m.stateShards.length packed]?
  let r ← shard.getWithPacked A.n packed
  match r with
  | some result => some result
  | none => some (defaultState A)

/-- `StateMap::set`, `states.rs:91-104`; `none` is a panic. -/
def set (hash : List UInt8 → ℕ) (m : StateMap) (A : OSet) (v : State) : Option StateMap := do
  let packed := A.s.packed
  let i := shardOf hash m.stateShards.length packed
  let shard ← m.stateShards[i]?
  let shard' ← shard.setWithPacked A.n packed v
  some { m with stateShards := m.stateShards.set i shard' }

/-- `StateMap::lock` up to the point where it waits and `StateMap::get_lock`, `states.rs:106-144`; `token` is a
new channel.  The result is the token of the lock that is held, or `none` and the new map if the lock has
been taken.  The outer `none` is a panic. -/
def getLock (hash : List UInt8 → ℕ) (m : StateMap) (A : OSet) (token : ℕ) : Option (StateMap × Option ℕ) := do
  let packed := A.s.packed
  let i := shardOf hash m.lockShards.length packed
  let shard ← m.lockShards[i]?
  let r ← shard.getWithPacked A.n packed
  match r with
  | some existing => some (m, some existing)
  | none => do
    let shard' ← shard.setWithPacked A.n packed token
    some ({ m with lockShards := m.lockShards.set i shard' }, none)

/-- `StateLock::drop`, `states.rs:162-169`, for the lock of `A`.  The send succeeds if the receiver is still in
the map; `none` is a panic. -/
def dropLock (hash : List UInt8 → ℕ) (m : StateMap) (A : OSet) (token : ℕ) : Option StateMap := do
  let packed := A.s.packed
  let i := shardOf hash m.lockShards.length packed
  let shard ← m.lockShards[i]?
  let r ← shard.getWithPacked A.n packed
  if r = some token then do
    let shard' ← shard.removeWithPacked A.n packed
    some { m with lockShards := m.lockShards.set i shard' }
  else none

/-- `StateMap::into_shards` and `drain_packed` for each shard, as in `search.rs:89-90`. -/
def drain (m : StateMap) : List (ℕ × List UInt8 × State) := m.stateShards.flatMap OSMap.drainPacked

end StateMap

end Search

end Sortnet
