import Verif.Model.Wake

/-!
# The end of the search

`ThreadPool::scope` (`thread_pool.rs:122-217`) drops the pool when the main task has finished, and then waits for the
worker threads (`thread_pool.rs:205-209`).  A worker ends only when the queue has no sender any more
(`thread_pool.rs:196-200`).  Besides the pool, every task object has a sender (`thread_pool.rs:91,102-106`).  So the
workers end when all task objects have been freed.
-/

namespace Sortnet

namespace Search

/-- The future of the task has been dropped: it has finished, or it has been cancelled and all its variables have been
dropped. -/
def Ended (G : Global) (i : ℕ) : Prop :=
  ∃ t, G.tasks i = some t ∧ ((∃ v, t.status = .done v) ∨ t.status = .taken ∨ t.status = .dropping [])

/-- The task was never scheduled and its handle has been dropped, and with the handle its `Schedule`
(`search.rs:361,501`): the task object is about to be dropped without being run. -/
def Orphan (G : Global) (i : ℕ) : Prop :=
  ∃ t, G.tasks i = some t ∧ t.scheduled = false ∧ t.cancelled = true ∧ ∃ p owned stack, t.status = .sleep p owned stack

/-- There is a reference to task object `c` in task object `d`: a variable of `d` is the handle of `c`, or the waker
registered in the handle of `d` is the one of `c`. -/
def References (W : World) (d c : ℕ) : Prop :=
  (∃ t h, W.G.tasks d = some t ∧ Res.handle h ∈ t.res ∧ h.tid = c) ∨ W.awaiter d c

/-- A set of task objects that is not freed: each of them has not ended, or there is a reference to it in another one of
the set. -/
def NotFreed (W : World) (S : ℕ → Prop) : Prop :=
  ∀ c, S c → (∃ t, W.G.tasks c = some t) ∧ (¬ Ended W.G c ∨ ∃ d, S d ∧ References W d c)

end Search

end Sortnet
