import Verif.Spec.Pool
import Mathlib.Logic.Function.Basic
import Mathlib.Logic.Relation

/-!
# Model of the thread pool, `/repo/src/thread_pool.rs`

Any number of threads interleave, with one access to shared data per step.  The shared data are the `RwLock<Option<Task>>`
of each task with its strong references, the channel `queue` of runnable tasks, the channel `pending_queue`, the
counter `pending_id`, and the locked data `pending`.

Simplifications.
* Worker threads run the loop of `scope`; the code inside of tasks, which runs on the workers, is attributed to other
  threads (`client`), which may use the pool in any way.  This only adds interleavings.
* A task is a number; its future and its result are left out.  `Task::schedule` of `async_task` calls the closure
  given to `async_task::spawn` with the task, once; a task that was started may be sent again by its waker.
* A read lock that is taken for a single read is one step, which needs that there is no writer.
* `pending_id` does not wrap around.  Time is left out: `recv_timeout` may fail at any time.
* The field `log` is a ghost, the history of events, newest first; see `Spec/Pool.lean` for the events.
-/

namespace Sortnet

namespace Pool

/-- The steps of `schedule`, `thread_pool.rs:43-50`.  The write guard lives until the end of the `if let`. -/
inductive Phase where
  /-- before `write()` -/
  | lock
  /-- before `take()` -/
  | locked
  /-- before `task.schedule()` -/
  | taken
  /-- before returning `true` -/
  | sent
  /-- before returning `false` -/
  | empty
deriving DecidableEq

/-- Where a thread is.  Models code at `thread_pool.rs:43-50,116-122,146-202`. -/
inductive PC (Prio : Type) where
  /-- Outside of the pool's code. -/
  | client
  /-- In `add_pending`, before `send`. -/
  | adding (e : Entry Prio)
  /-- In `schedule`, called for an entry of the pending queue or by a client. -/
  | call (t : ℕ) (p : Phase) (e : Option (Entry Prio))
  /-- `thread_pool.rs:147` -/
  | drain
  /-- `thread_pool.rs:152` -/
  | lockPending
  /-- `thread_pool.rs:154` -/
  | limit
  /-- `thread_pool.rs:157`, with `queue_limit` and `counter` -/
  | recv (limit counter : ℕ)
  /-- `thread_pool.rs:158`, with the entry received -/
  | gcCheck (limit counter : ℕ) (e : Entry Prio)
  /-- `thread_pool.rs:161`, with the entries that are still to be filtered and those that were kept -/
  | gc (limit counter : ℕ) (e : Entry Prio) (todo kept : List (Entry Prio))
  /-- `thread_pool.rs:165`, for the entry `x` -/
  | gcTest (limit counter : ℕ) (e x : Entry Prio) (todo kept : List (Entry Prio))
  /-- dropping the strong reference of the task `t` after `thread_pool.rs:165` -/
  | gcRelease (limit counter : ℕ) (e : Entry Prio) (t : ℕ) (todo kept : List (Entry Prio))
  /-- `thread_pool.rs:175` -/
  | insert (limit counter : ℕ) (e : Entry Prio)
  /-- `thread_pool.rs:182` -/
  | pop
  /-- `thread_pool.rs:184` -/
  | upgrade (e : Entry Prio)
  /-- dropping the strong reference of the task `t` after `thread_pool.rs:185`, where `schedule` returned `b` -/
  | release (t : ℕ) (b : Bool)
  /-- dropping the guard of the pending queue, `thread_pool.rs:186` -/
  | unlock
  /-- `thread_pool.rs:192` -/
  | wait
  /-- `thread_pool.rs:198` -/
  | exited

/-- The `Arc<RwLock<Option<Task>>>` of a task, `thread_pool.rs:39`. -/
structure Slot where
  /-- The option is `Some`. -/
  task : Bool
  /-- The thread that holds the write lock. -/
  writer : Option ℕ
  /-- The number of `Schedule` objects clients have. -/
  refs : ℕ
  /-- The number of strong references workers have got by `upgrade`. -/
  temp : ℕ

/-- The state of the pool, its clients and its workers, `thread_pool.rs:20-40,124-146`. -/
structure St (Prio : Type) where
  /-- The number of tasks created so far. -/
  spawned : ℕ
  slot : ℕ → Slot
  runQueue : List ℕ
  chan : List (Entry Prio)
  nextId : ℕ
  /-- The thread that holds the lock of `pending`. -/
  holder : Option ℕ
  nextGc : ℕ
  /-- The `BTreeMap`, as a list ordered by key. -/
  queue : List (Entry Prio)
  thread : ℕ → PC Prio
  log : List (Event Prio)

variable {Prio : Type}

/-- The start of `scope`, `thread_pool.rs:125-146`, with a number of workers.  A slot that is not used yet is as
`spawn_delayed` creates it, but without references. -/
def init (workers : ℕ) : St Prio :=
  { spawned := 0, slot := fun _ => { task := true, writer := none, refs := 0, temp := 0 }, runQueue := [], chan := [],
    nextId := 0, holder := none, nextGc := 0, queue := [], thread := fun i => if i < workers then .drain else .client,
    log := [] }

namespace St

/-- Thread `i` goes to `pc`.  Models code at `thread_pool.rs:146-202`. -/
def goto (s : St Prio) (i : ℕ) (pc : PC Prio) : St Prio := { s with thread := Function.update s.thread i pc }

/-- An event.  Models code at `thread_pool.rs:146-202`. -/
def emit (s : St Prio) (e : Event Prio) : St Prio := { s with log := e :: s.log }

/-- Changing a slot.  Models code at `thread_pool.rs:38-50`. -/
def setSlot (s : St Prio) (t : ℕ) (v : Slot) : St Prio := { s with slot := Function.update s.slot t v }

/-- `Weak::upgrade` succeeds.  Models code at `thread_pool.rs:164,184`. -/
def Alive (s : St Prio) (t : ℕ) : Prop := 0 < (s.slot t).refs + (s.slot t).temp

/-- Dropping a strong reference; `v` is the slot without it.  Models code at `thread_pool.rs:164-168,184-188`. -/
def dropTo (s : St Prio) (t : ℕ) (v : Slot) : St Prio :=
  { s.setSlot t v with log := if v.refs + v.temp = 0 then .dropped t :: s.log else s.log }

end St

/-- `BTreeMap::insert`.  Models code at `thread_pool.rs:175`. -/
def insertKey [LinearOrder Prio] (e : Entry Prio) : List (Entry Prio) → List (Entry Prio)
  | [] => [e]
  | x :: q => if e.key < x.key then e :: x :: q else if e.key = x.key then e :: q else x :: insertKey e q

/-- Where a thread goes when `schedule` returns.  Models code at `thread_pool.rs:185-187`. -/
def afterCall (t : ℕ) (b : Bool) : Option (Entry Prio) → PC Prio
  | none => .client
  | some _ => .release t b

/-- One step of one thread: of a client, in `schedule`, or of a worker.
Models code at `thread_pool.rs:43-50,116-122,146-202`. -/
inductive Step [LinearOrder Prio] : St Prio → St Prio → Prop where
  /-- `spawn_delayed`, `thread_pool.rs:83-114` -/
  | spawn {s : St Prio} {i : ℕ} (h : s.thread i = .client) :
      Step s ({ s.setSlot s.spawned { s.slot s.spawned with refs := 1 } with spawned := s.spawned + 1 }.emit
        (.spawned s.spawned))
  /-- `Schedule::clone` -/
  | clone {s : St Prio} {i : ℕ} (t : ℕ) (h : s.thread i = .client) (hr : 0 < (s.slot t).refs) :
      Step s (s.setSlot t { s.slot t with refs := (s.slot t).refs + 1 } |>.emit (.cloned t))
  /-- dropping a `Schedule` -/
  | dropRef {s : St Prio} {i : ℕ} (t : ℕ) (h : s.thread i = .client) (hr : 0 < (s.slot t).refs) :
      Step s ((s.emit (.released t)).dropTo t { s.slot t with refs := (s.slot t).refs - 1 })
  /-- calling `schedule` -/
  | callSchedule {s : St Prio} {i : ℕ} (t : ℕ) (h : s.thread i = .client) (hr : 0 < (s.slot t).refs) :
      Step s (s.goto i (.call t .lock none))
  /-- `is_scheduled`, `thread_pool.rs:52-54` -/
  | isScheduled {s : St Prio} {i : ℕ} (t : ℕ) (h : s.thread i = .client) (hr : 0 < (s.slot t).refs)
      (hw : (s.slot t).writer = none) : Step s (s.emit (.observed t (!(s.slot t).task)))
  /-- `add_pending`, `thread_pool.rs:117` -/
  | addPending {s : St Prio} {i : ℕ} (prio : Prio) (t : ℕ) (h : s.thread i = .client) (hr : 0 < (s.slot t).refs) :
      Step s ({ s with nextId := s.nextId + 1 }.goto i (.adding ⟨prio, s.nextId, t⟩))
  /-- `add_pending`, `thread_pool.rs:120-121` -/
  | sendPending {s : St Prio} {i : ℕ} {e : Entry Prio} (h : s.thread i = .adding e) :
      Step s ({ s with chan := s.chan ++ [e] }.goto i .client |>.emit (.added e))
  /-- A waker sends a task that was started again, `thread_pool.rs:103`. -/
  | wake {s : St Prio} (t : ℕ) (h : ∃ b, .started t b ∈ s.log) : 
      Step s ({ s with runQueue := s.runQueue ++ [t] }.emit (.woken t))
  /-- `schedule`, `thread_pool.rs:43-50` -/
  | lock {s : St Prio} {i t : ℕ} {e : Option (Entry Prio)} (h : s.thread i = .call t .lock e)
      (hw : (s.slot t).writer = none) :
      Step s (s.setSlot t { s.slot t with writer := some i } |>.goto i (.call t .locked e))
  | take {s : St Prio} {i t : ℕ} {e : Option (Entry Prio)} (h : s.thread i = .call t .locked e)
      (ht : (s.slot t).task = true) :
      Step s (s.setSlot t { s.slot t with task := false } |>.goto i (.call t .taken e))
  | takeNone {s : St Prio} {i t : ℕ} {e : Option (Entry Prio)} (h : s.thread i = .call t .locked e)
      (ht : (s.slot t).task = false) : Step s (s.goto i (.call t .empty e))
  | send {s : St Prio} {i t : ℕ} {e : Option (Entry Prio)} (h : s.thread i = .call t .taken e) :
      Step s ({ s with runQueue := s.runQueue ++ [t] }.goto i (.call t .sent e) |>.emit
        (.started t (e.map fun e => (i, e))))
  | returnTrue {s : St Prio} {i t : ℕ} {e : Option (Entry Prio)} (h : s.thread i = .call t .sent e) :
      Step s (s.setSlot t { s.slot t with writer := none } |>.goto i (afterCall t true e) |>.emit (.returned t true))
  | returnFalse {s : St Prio} {i t : ℕ} {e : Option (Entry Prio)} (h : s.thread i = .call t .empty e) :
      Step s (s.setSlot t { s.slot t with writer := none } |>.goto i (afterCall t false e) |>.emit (.returned t false))
  /-- `thread_pool.rs:147-149` -/
  | drainRun {s : St Prio} {i t : ℕ} {rest : List ℕ} (h : s.thread i = .drain) (hq : s.runQueue = t :: rest) :
      Step s ({ s with runQueue := rest }.emit (.ran i t))
  | drainEmpty {s : St Prio} {i : ℕ} (h : s.thread i = .drain) (hq : s.runQueue = []) : Step s (s.goto i .lockPending)
  /-- `thread_pool.rs:152` -/
  | lockPending {s : St Prio} {i : ℕ} (h : s.thread i = .lockPending) (hl : s.holder = none) :
      Step s ({ s with holder := some i }.goto i .limit)
  /-- `thread_pool.rs:154-156` -/
  | limit {s : St Prio} {i : ℕ} (h : s.thread i = .limit) :
      Step s (s.goto i (.recv (s.chan.length * 2) 0) |>.emit (.acquired i))
  /-- `thread_pool.rs:157` -/
  | recvNone {s : St Prio} {i l c : ℕ} (h : s.thread i = .recv l c) (hc : s.chan = []) : Step s (s.goto i .pop)
  | recvSome {s : St Prio} {i l c : ℕ} {e : Entry Prio} {rest : List (Entry Prio)} (h : s.thread i = .recv l c)
      (hc : s.chan = e :: rest) : Step s ({ s with chan := rest }.goto i (.gcCheck l c e))
  /-- `thread_pool.rs:158-159` -/
  | gcNo {s : St Prio} {i l c : ℕ} {e : Entry Prio} (h : s.thread i = .gcCheck l c e) (hg : s.queue.length < s.nextGc) :
      Step s (s.goto i (.insert l c e))
  | gcYes {s : St Prio} {i l c : ℕ} {e : Entry Prio} (h : s.thread i = .gcCheck l c e) (hg : s.nextGc ≤ s.queue.length) :
      Step s ({ s with queue := [] }.goto i (.gc l c e s.queue []))
  /-- `thread_pool.rs:164` -/
  | gcUpgrade {s : St Prio} {i l c : ℕ} {e x : Entry Prio} {todo kept : List (Entry Prio)}
      (h : s.thread i = .gc l c e (x :: todo) kept) (ha : s.Alive x.task) :
      Step s (s.setSlot x.task { s.slot x.task with temp := (s.slot x.task).temp + 1 } |>.goto i
        (.gcTest l c e x todo kept))
  | gcDead {s : St Prio} {i l c : ℕ} {e x : Entry Prio} {todo kept : List (Entry Prio)}
      (h : s.thread i = .gc l c e (x :: todo) kept) (ha : ¬ s.Alive x.task) :
      Step s (s.goto i (.gc l c e todo kept) |>.emit (.collected x))
  /-- `thread_pool.rs:165` -/
  | gcKeep {s : St Prio} {i l c : ℕ} {e x : Entry Prio} {todo kept : List (Entry Prio)}
      (h : s.thread i = .gcTest l c e x todo kept) (hw : (s.slot x.task).writer = none)
      (ht : (s.slot x.task).task = true) : Step s (s.goto i (.gcRelease l c e x.task todo (kept ++ [x])))
  | gcCollect {s : St Prio} {i l c : ℕ} {e x : Entry Prio} {todo kept : List (Entry Prio)}
      (h : s.thread i = .gcTest l c e x todo kept) (hw : (s.slot x.task).writer = none)
      (ht : (s.slot x.task).task = false) :
      Step s (s.goto i (.gcRelease l c e x.task todo kept) |>.emit (.collected x))
  | gcRelease {s : St Prio} {i l c t : ℕ} {e : Entry Prio} {todo kept : List (Entry Prio)}
      (h : s.thread i = .gcRelease l c e t todo kept) :
      Step s (s.dropTo t { s.slot t with temp := (s.slot t).temp - 1 } |>.goto i (.gc l c e todo kept))
  /-- `thread_pool.rs:161,170-172` -/
  | gcEnd {s : St Prio} {i l c : ℕ} {e : Entry Prio} {kept : List (Entry Prio)} (h : s.thread i = .gc l c e [] kept) :
      Step s ({ s with queue := kept, nextGc := max kept.length 5000 * 2 }.goto i (.insert l c e))
  /-- `thread_pool.rs:175-179` -/
  | insert {s : St Prio} {i l c : ℕ} {e : Entry Prio} (h : s.thread i = .insert l c e) :
      Step s ({ s with queue := insertKey e s.queue }.goto i (if l ≤ c + 1 then .pop else .recv l (c + 1)))
  /-- `thread_pool.rs:182-183` -/
  | popSome {s : St Prio} {i : ℕ} {e : Entry Prio} {rest : List (Entry Prio)} (h : s.thread i = .pop)
      (hq : s.queue = e :: rest) : Step s ({ s with queue := rest }.goto i (.upgrade e))
  | popNone {s : St Prio} {i : ℕ} (h : s.thread i = .pop) (hq : s.queue = []) :
      Step s ({ s with holder := none }.goto i .wait |>.emit (.idle i))
  /-- `thread_pool.rs:184` -/
  | upgradeSome {s : St Prio} {i : ℕ} {e : Entry Prio} (h : s.thread i = .upgrade e) (ha : s.Alive e.task) :
      Step s (s.setSlot e.task { s.slot e.task with temp := (s.slot e.task).temp + 1 } |>.goto i
        (.call e.task .lock (some e)))
  | upgradeNone {s : St Prio} {i : ℕ} {e : Entry Prio} (h : s.thread i = .upgrade e) (ha : ¬ s.Alive e.task) :
      Step s (s.goto i .pop)
  /-- `thread_pool.rs:185-186` -/
  | release {s : St Prio} {i t : ℕ} {b : Bool} (h : s.thread i = .release t b) :
      Step s (s.dropTo t { s.slot t with temp := (s.slot t).temp - 1 } |>.goto i (if b then .unlock else .pop))
  | unlock {s : St Prio} {i : ℕ} (h : s.thread i = .unlock) : 
      Step s ({ s with holder := none }.goto i .drain |>.emit (.unlocked i))
  /-- `thread_pool.rs:192-201` -/
  | waitRun {s : St Prio} {i t : ℕ} {rest : List ℕ} (h : s.thread i = .wait) (hq : s.runQueue = t :: rest) :
      Step s ({ s with runQueue := rest }.goto i .drain |>.emit (.ran i t))
  | waitTimeout {s : St Prio} {i : ℕ} (h : s.thread i = .wait) : Step s (s.goto i .drain)
  | waitExit {s : St Prio} {i : ℕ} (h : s.thread i = .wait) : Step s (s.goto i .exited)

/-- The states of the executions of a pool.  Models code at `thread_pool.rs:124-204`. -/
def Reachable [LinearOrder Prio] (workers : ℕ) (s : St Prio) : Prop := Relation.ReflTransGen Step (init workers) s

end Pool

end Sortnet
