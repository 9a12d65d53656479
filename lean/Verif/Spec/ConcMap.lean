import Mathlib.Data.Set.Card
import Verif.Model.ConcMap

/-!
# A state map with atomic operations

The specification of the state map for concurrent callers: there is one map and one table of locks, and every
operation takes effect in a single step between its call and its return.  This uses from the model only the
names of the calls, the results and the events.
-/

namespace Sortnet

namespace Search

namespace Conc

/-- Where a caller of the atomic map is. -/
inductive APC where
  | idle
  /-- The operation has not taken effect yet. -/
  | called (op : Op)
  /-- A call of `len`, with the number of states at the time of the call. -/
  | counting (lo : ℕ)
  /-- A call of `lock` that has found the lock taken. -/
  | waiting (token : ℕ)
  /-- The operation has taken effect with this result. -/
  | done (r : Res)

/-- The atomic map. -/
structure Atomic where
  /-- The states that have been set. -/
  store : OSet → Option State
  /-- The locks that are held. -/
  locks : OSet → Option ℕ
  /-- The locks that have been released. -/
  released : Set ℕ
  pc : ℕ → APC

namespace Atomic

/-- The number of sets that have a state. -/
noncomputable def size (S : Atomic) : ℕ := {A | S.store A ≠ none}.ncard

/-- A lock that has never been taken. -/
def New (S : Atomic) (token : ℕ) : Prop := token ∉ S.released ∧ ∀ A, S.locks A ≠ some token

/-- The steps, with what an observer sees. -/
inductive Step : Atomic → Option Event → Atomic → Prop where
  | call {S : Atomic} {t : ℕ} {op : Op} (h : S.pc t = .idle) (h' : op ≠ .len) :
    Step S (some (.call t op)) { S with pc := Function.update S.pc t (.called op) }
  | ret {S : Atomic} {t : ℕ} {r : Res} (h : S.pc t = .done r) :
    Step S (some (.ret t r)) { S with pc := Function.update S.pc t .idle }
  /-- `get` gives the state that has been set last, and otherwise the default. -/
  | get {S : Atomic} {t : ℕ} {A : OSet} (h : S.pc t = .called (.get A)) :
    Step S none { S with pc := Function.update S.pc t (.done (.state ((S.store A).getD (defaultState A)))) }
  /-- `set` changes the state of this set and no other. -/
  | set {S : Atomic} {t : ℕ} {A : OSet} {v : State} (h : S.pc t = .called (.set A v)) :
    Step S none { S with
      store := Function.update S.store A (some v)
      pc := Function.update S.pc t (.done .unit) }
  /-- `lock` takes a lock that is free. -/
  | lock {S : Atomic} {t : ℕ} {A : OSet} {l : StateLock} (h : S.pc t = .called (.lock A))
      (hA : S.locks A = none) (hl : S.New l.token) :
    Step S none { S with
      locks := Function.update S.locks A (some l.token)
      pc := Function.update S.pc t (.done (.held l)) }
  /-- `lock` waits for a lock that is held … -/
  | wait {S : Atomic} {t : ℕ} {A : OSet} {token : ℕ} (h : S.pc t = .called (.lock A))
      (hA : S.locks A = some token) :
    Step S none { S with pc := Function.update S.pc t (.waiting token) }
  /-- … until it is released. -/
  | wake {S : Atomic} {t : ℕ} {token : ℕ} (h : S.pc t = .waiting token) (hr : token ∈ S.released) :
    Step S none { S with pc := Function.update S.pc t (.done .free) }
  | cancel {S : Atomic} {t : ℕ} {token : ℕ} (h : S.pc t = .waiting token) :
    Step S (some (.cancel t)) { S with pc := Function.update S.pc t .idle }
  /-- Dropping the `StateLock` releases the lock that it stands for. -/
  | unlock {S : Atomic} {t : ℕ} {l : StateLock} {A : OSet} (h : S.pc t = .called (.unlock l))
      (hA : S.locks A = some l.token) :
    Step S none { S with
      locks := Function.update S.locks A none
      released := insert l.token S.released
      pc := Function.update S.pc t (.done .unit) }
  /-- `len` gives a number between the number of states at the call … -/
  | callLen {S : Atomic} {t : ℕ} (h : S.pc t = .idle) :
    Step S (some (.call t .len)) { S with pc := Function.update S.pc t (.counting S.size) }
  /-- … and now. -/
  | len {S : Atomic} {t lo n : ℕ} (h : S.pc t = .counting lo) (h1 : lo ≤ n) (h2 : n ≤ S.size) :
    Step S none { S with pc := Function.update S.pc t (.done (.num n)) }

/-- Executions with the list of events. -/
inductive Exec : Atomic → List Event → Atomic → Prop where
  | nil (S : Atomic) : Exec S [] S
  | snoc {S S' S'' : Atomic} {es : List Event} {e : Option Event} (h : Exec S es S') (hs : Step S' e S'') :
    Exec S (es ++ e.toList) S''

/-- No states, no locks and no calls. -/
def init : Atomic := { store := fun _ => none, locks := fun _ => none, released := ∅, pc := fun _ => .idle }

end Atomic

/-- The section whose lock the caller has. -/
def PC.holds : PC → Option Sec
  | inside s => some s
  | busy s => some s
  | after s _ => some s
  | _ => none

/-- The access in a section can change the shard, in some state of the memory. -/
def Sec.Modifies (s : Sec) : Prop := ∃ (M M' : Mem) (next : PC), finish M s = some (M', next) ∧ M'.map ≠ M.map

/-- A call is allowed: states and locks only for 3 to 11 channels. -/
def Event.Valid : Event → Prop
  | .call _ (.set A _) => 3 ≤ A.n ∧ A.n ≤ 11
  | .call _ (.lock A) => 3 ≤ A.n ∧ A.n ≤ 11
  | _ => True

end Conc

end Search

end Sortnet
