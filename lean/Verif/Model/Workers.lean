import Verif.Model.Wake

/-!
# Model of the worker threads that execute the tasks of the search

In Model/Wake.lean any number of tasks may be running at the same time.  In the program there is a fixed number of worker
threads (`thread_pool.rs:139-203`), and `task.run()` executes one task on one worker until the task is suspended or has
finished.  Here the states of Model/Wake.lean are extended by what the workers do.

Simplified: the order of the queue is not modelled, any task in the queue may be the next one.  What a worker does
between two tasks (`thread_pool.rs:151-189,192-201`, see Model/Pool.lean and C51, C68) is left out, except that it may
schedule a task from the pending queue.  A task that is cancelled while it is running is put into the queue again when it
is suspended, and then dropped; in the program the worker drops it at once, which is the same as taking it from the queue
immediately.  Wakers are not called for no reason.
-/

namespace Sortnet

namespace Search

/-- The state of the search and of the workers.  Models code at `thread_pool.rs:139-204`. -/
structure Crew where
  W : World
  /-- The task the worker executes: it has been taken from the queue, and `task.run()` has not returned. -/
  on : ℕ → Option ℕ

/-- The task is being executed, or dropped.  Models code at `thread_pool.rs:139-204`. -/
def Executing (G : Global) (i : ℕ) : Prop := Unfinished G i ∧ ¬ Suspended G i

open Classical in
/-- The state after a step of the task `i` on the worker `w`: if the task is suspended or has ended, `task.run()` returns.
Models code at `thread_pool.rs:139-204`. -/
noncomputable def Crew.after (C : Crew) (w i : ℕ) (W' : World) : Crew where
  W := W'
  on := if Executing W'.G i then C.on else Function.update C.on w none

/-- What happens in a step.  Models code at `thread_pool.rs:139-204`. -/
inductive CEvent where
  /-- Worker `w` takes task `i` from the queue. -/
  | take (w i : ℕ)
  /-- Task `i` makes an atomic step, on worker `w`. -/
  | run (w i : ℕ)
  /-- Task `i`, which waits for a lock, polls the receiver again in vain, on worker `w`. -/
  | repoll (w i : ℕ)
  /-- Worker `w` schedules task `i` of the pending queue. -/
  | start (w i : ℕ)
  /-- Task `i`, which has never been scheduled, is dropped. -/
  | free (i : ℕ)

/-- The worker that makes the step.  Models code at `thread_pool.rs:139-204`. -/
def CEvent.worker : CEvent → Option ℕ
  | .take w _ | .run w _ | .repoll w _ | .start w _ => some w
  | .free _ => none

/-- One step, with `n` workers.  Models code at `thread_pool.rs:139-204`. -/
inductive CStep (hash : List ℕ → ℕ) (n : ℕ) : CEvent → Crew → Crew → Prop
  /-- `thread_pool.rs:147,192` -/
  | take {w i : ℕ} {C : Crew} : w < n → C.on w = none → Unfinished C.W.G i → Suspended C.W.G i → C.W.notified i →
      (∀ v, C.on v ≠ some i) → CStep hash n (.take w i) C { C with on := Function.update C.on w (some i) }
  /-- `thread_pool.rs:148,194`.  A task that has been cancelled is not resumed but dropped. -/
  | run {w i : ℕ} {C : Crew} {W' : World} : w < n → C.on w = some i → WStep hash (.act i) C.W W' →
      (∀ t, C.W.G.tasks i = some t → t.cancelled = true → ¬ Resumes C.W.G W'.G i) →
      CStep hash n (.run w i) C (C.after w i W')
  /-- `thread_pool.rs:148,194` -/
  | repoll {w i : ℕ} {C : Crew} {W' : World} : w < n → C.on w = some i → WStep hash (.repoll i) C.W W' →
      (∀ t, C.W.G.tasks i = some t → t.cancelled = false) →
      CStep hash n (.repoll w i) C (C.after w i W')
  /-- `thread_pool.rs:182-189` -/
  | start {w i : ℕ} {t : Task} {C : Crew} : w < n → C.on w = none → C.W.G.tasks i = some t → t.queued = true →
      t.scheduled = false →
      CStep hash n (.start w i) C
        { C with W := C.W.after i { C.W.G with
            tasks := Function.update C.W.G.tasks i (some { t with scheduled := true }) } }
  /-- The last reference to a task that has never been scheduled is dropped, `search.rs:361,501`. -/
  | free {i : ℕ} {t : Task} {p : Prog Exit} {C : Crew} : C.W.G.tasks i = some t → t.scheduled = false →
      t.cancelled = true → t.status = .sleep p [] [] →
      CStep hash n (.free i) C { C with W := C.W.after i (C.W.G.setStatus i t (.dropping [])) }

/-- The state when the main task has been spawned.  Models code at `thread_pool.rs:139-204`. -/
def cinit (hash : List ℕ → ℕ) (limit : Option ℕ) (A : OSet) : Crew where
  W := winit hash limit A
  on _ := none

/-- The states that can be reached with `n` workers.  Models code at `thread_pool.rs:139-204`. -/
inductive CReach (hash : List ℕ → ℕ) (limit : Option ℕ) (A : OSet) (n : ℕ) : Crew → Prop
  | init : CReach hash limit A n (cinit hash limit A)
  | step {C C' : Crew} {e : CEvent} : CReach hash limit A n C → CStep hash n e C C' → CReach hash limit A n C'

/-- An execution with `n` workers: at time `k` the event `ev k` happens, or nothing if `ev k` is `none`.
Models code at `thread_pool.rs:139-204`. -/
structure CExecution (hash : List ℕ → ℕ) (limit : Option ℕ) (A : OSet) (n : ℕ) (C : ℕ → Crew) (ev : ℕ → Option CEvent) :
    Prop where
  start : C 0 = cinit hash limit A
  step : ∀ k e, ev k = some e → CStep hash n e (C k) (C (k + 1))
  idle : ∀ k, ev k = none → C (k + 1) = C k

end Search

end Sortnet
