import Verif.Model.Search
import Verif.Spec.Schedule

/-!
# Model of the wakeups of the search

The model in Model/Search.lean lets a suspended task continue at any time.  In the program a suspended task only
continues when it has been put into the queue of the thread pool (`thread_pool.rs:102-104,147-149,192-195`), which
happens when it is scheduled for the first time and when its waker is called.  Here the states are extended by the
queue and by the registered wakers.

Modelled: `Schedule::schedule` (`thread_pool.rs:43-50`), the waker of a `JoinHandle` (`Handle::poll` and `Handle::drop`,
`thread_pool.rs:57-71`, with the single waker slot of `async_task`), the wakers of a shared `oneshot::Receiver`
(`states.rs:114-118,166`), and a worker that runs a task of the queue.

Simplified: `get_lock` and the first poll of the receiver are one step.  The order of the queue is not modelled: any
task in the queue may be the next one.  A cancelled task may be dropped at any time, not only when it is taken from the
queue.
-/

namespace Sortnet

namespace Search

/-- The state of the search, the queue and the registered wakers.  Models code at `thread_pool.rs:20-31,57-71`. -/
structure World where
  G : Global
  /-- The task is in the queue of the thread pool or, if it is running, will be put there when it is suspended. -/
  notified : ℕ → Prop
  /-- `awaiter c j`: the waker in the `JoinHandle` of task `c` is the one of task `j`. -/
  awaiter : ℕ → ℕ → Prop

/-- The task is suspended.  Models code at `thread_pool.rs:146-202`. -/
def Suspended (G : Global) (i : ℕ) : Prop :=
  (∃ p owned stack, statusOf G i = some (.sleep p owned stack)) ∨
    ∃ A tok p owned stack, statusOf G i = some (.wait A tok p owned stack)

/-- The task is running.  Models code at `thread_pool.rs:146-202`. -/
def Running (G : Global) (i : ℕ) : Prop := ∃ p owned stack, statusOf G i = some (.run p owned stack)

/-- Task `i` is resumed in the step from `G` to `G'`: `task.run()` in `thread_pool.rs:148,194`. -/
def Resumes (G G' : Global) (i : ℕ) : Prop := Suspended G i ∧ Running G' i

/-- Task `i` polls the handle of task `c`, which is not finished (`search.rs:430`). -/
def Registers (G : Global) (i c : ℕ) : Prop :=
  ∃ h k owned stack, statusOf G i = some (.run (.poll h k) owned stack) ∧ h.tid = c ∧
    ∀ v, statusOf G c ≠ some (.done v)

/-- Task `c` finishes in the step from `G` to `G'`.  Models code at `thread_pool.rs:57-65,99-107`. -/
def Finishes (G G' : Global) (c : ℕ) : Prop :=
  (∀ v, statusOf G c ≠ some (.done v)) ∧ ∃ v, statusOf G' c = some (.done v)

/-- Task `c` is cancelled in the step from `G` to `G'`.  Models code at `thread_pool.rs:67-71`. -/
def Cancels (G G' : Global) (c : ℕ) : Prop :=
  ∃ t t', G.tasks c = some t ∧ t.cancelled = false ∧ G'.tasks c = some t' ∧ t'.cancelled = true

/-- Task `c` is scheduled for the first time in the step from `G` to `G'`.  Models code at `thread_pool.rs:43-50`. -/
def Schedules (G G' : Global) (c : ℕ) : Prop :=
  ∃ t t', G.tasks c = some t ∧ t.scheduled = false ∧ G'.tasks c = some t' ∧ t'.scheduled = true

/-- The receiver that task `j` waits for gets its message in the step from `G` to `G'`.
Models code at `states.rs:116,166`. -/
def Unlocks (G G' : Global) (j : ℕ) : Prop :=
  ∃ A tok p owned stack, statusOf G j = some (.wait A tok p owned stack) ∧ G.sent tok = false ∧ G'.sent tok = true

/-- Task `j` is put into the queue in the step from `W` to `G'`: because it is scheduled
(`thread_pool.rs:43-50`), because it is cancelled and has to be dropped (`thread_pool.rs:67-71`), because a task with
its waker finishes or is cancelled, or because the lock it waits for is released (`states.rs:166`). -/
def World.Wakes (W : World) (G' : Global) (j : ℕ) : Prop :=
  Schedules W.G G' j ∨ Cancels W.G G' j ∨ (∃ c, (Finishes W.G G' c ∨ Cancels W.G G' c) ∧ W.awaiter c j) ∨
    Unlocks W.G G' j

/-- The state after task `i` has made the step to `G'`.  Running a task removes it from the queue.  Polling the handle of
an unfinished task replaces the waker in it; a task that finishes or is cancelled removes the waker.
Models code at `thread_pool.rs:43-71,83-114,141-204` and `states.rs:116,166` and `search.rs:431,455`. -/
def World.after (W : World) (i : ℕ) (G' : Global) : World where
  G := G'
  notified j := W.Wakes G' j ∨ (W.notified j ∧ ¬ (j = i ∧ Resumes W.G G' i))
  awaiter c j := (Registers W.G i c ∧ j = i) ∨
    (¬ Registers W.G i c ∧ ¬ Finishes W.G G' c ∧ ¬ Cancels W.G G' c ∧ W.awaiter c j)

/-- What happens in a step.
Models code at `thread_pool.rs:43-71,83-114,141-204` and `states.rs:116,166` and `search.rs:431,455`. -/
inductive Event where
  /-- A task makes an atomic step. -/
  | act (i : ℕ)
  /-- A task in the queue that waits for a lock is run, polls the receiver again and is suspended again. -/
  | repoll (i : ℕ)
  /-- The waker of a task is called for no reason. -/
  | extra (i : ℕ)

/-- One atomic step.  A suspended task is only resumed if it is in the queue.
Models code at `thread_pool.rs:43-71,83-114,141-204` and `states.rs:116,166` and `search.rs:431,455`. -/
inductive WStep (hash : List ℕ → ℕ) : Event → World → World → Prop
  | act {i : ℕ} {W : World} {G' : Global} :
      Act hash i W.G G' → (Resumes W.G G' i → W.notified i) → WStep hash (.act i) W (W.after i G')
  | repoll {i : ℕ} {W : World} {A : OSet} {tok : ℕ} {p : Prog Exit} {owned : List Res} {stack : List Frame} :
      statusOf W.G i = some (.wait A tok p owned stack) → W.G.sent tok = false → W.notified i →
      WStep hash (.repoll i) W { W with notified := fun j => W.notified j ∧ j ≠ i }
  | extra {i : ℕ} {W : World} :
      WStep hash (.extra i) W { W with notified := fun j => W.notified j ∨ j = i }

/-- The state when the main task has been spawned, `search.rs:58-59`, `thread_pool.rs:78-79`: it is in the queue. -/
def winit (hash : List ℕ → ℕ) (limit : Option ℕ) (A : OSet) : World where
  G := init hash limit A
  notified i := i = 0
  awaiter _ _ := False

/-- The states that can be reached.
Models code at `thread_pool.rs:43-71,83-114,141-204` and `states.rs:116,166` and `search.rs:431,455`. -/
inductive WReach (hash : List ℕ → ℕ) (limit : Option ℕ) (A : OSet) : World → Prop
  | init : WReach hash limit A (winit hash limit A)
  | step {W W' : World} {e : Event} : WReach hash limit A W → WStep hash e W W' → WReach hash limit A W'

/-- The thread pool has something to do for task `i`: it is running, or it is in the queue.
Models code at `thread_pool.rs:43-71,83-114,141-204` and `states.rs:116,166` and `search.rs:431,455`. -/
def Runnable (W : World) (i : ℕ) : Prop := Unfinished W.G i ∧ (Suspended W.G i → W.notified i)

/-- An execution with a queue: at time `k` the event `ev k` happens, or nothing if `ev k` is `none`.
Models code at `thread_pool.rs:43-71,83-114,141-204` and `states.rs:116,166` and `search.rs:431,455`. -/
structure WExecution (hash : List ℕ → ℕ) (limit : Option ℕ) (A : OSet) (W : ℕ → World) (ev : ℕ → Option Event) :
    Prop where
  start : W 0 = winit hash limit A
  step : ∀ k e, ev k = some e → WStep hash e (W k) (W (k + 1))
  idle : ∀ k, ev k = none → W (k + 1) = W k

end Search

end Sortnet
