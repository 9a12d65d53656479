import Verif.Model.Wake

/-!
# Model of the end of `ThreadPool::scope`

`search.rs:46-71` runs the search in `ThreadPool::scope` (`thread_pool.rs:124-217`).  The closure given to it returns as
soon as the main task has finished (`search.rs:70`), then the pool is dropped (`thread_pool.rs:212-214`), and only then,
when `scope` returns, the worker threads are waited for (`thread_pool.rs:206-210`).  The tasks have references to the
pool, whose lifetime is hidden by `transmute` (`thread_pool.rs:93-98`).

Here the states of Model/Wake.lean are extended by whether the pool has been dropped.  In addition, a task that has been
cancelled is not resumed: `async_task` drops it instead (`Handle::drop`, `thread_pool.rs:67-71`); and wakers are not called
for no reason.

Simplified: the info task (`search.rs:47-56`), whose handle is dropped before the pool, is left out.  Dropping the pool is
one step.  What a method call on a dropped pool does is undefined; here it does what it does before.
-/

namespace Sortnet

namespace Search

/-- The state of the search and whether the pool has been dropped.  Models code at `thread_pool.rs:206-217`. -/
structure Scope where
  W : World
  dropped : Bool

/-- The next action of the running task `i` is a method call on the pool: `spawn_delayed` (`search.rs:487-492`,
`thread_pool.rs:83-114`), which clones the sender in the pool, or `add_pending` (`search.rs:496-499`,
`thread_pool.rs:116-122`), which uses the counter and the second sender in the pool. -/
def UsesPool (G : Global) (i : ℕ) : Prop :=
  ∃ t owned stack, G.tasks i = some t ∧
    ((∃ level prev A k, t.status = .run (.spawn level prev A k) owned stack) ∨
      ∃ prio h k, t.status = .run (.addPending prio h k) owned stack)

/-- One step: of a task, or the pool is dropped, which only needs the main task to have finished.
Models code at `thread_pool.rs:206-217`. -/
inductive SStep (hash : List ℕ → ℕ) : Scope → Scope → Prop
  | act {i : ℕ} {W W' : World} {d : Bool} : WStep hash (.act i) W W' →
      (∀ t, W.G.tasks i = some t → t.cancelled = true → ¬ Resumes W.G W'.G i) → SStep hash ⟨W, d⟩ ⟨W', d⟩
  | repoll {i : ℕ} {W W' : World} {d : Bool} : WStep hash (.repoll i) W W' → SStep hash ⟨W, d⟩ ⟨W', d⟩
  | drop {W : World} {r : ℕ} : Returned W.G r → SStep hash ⟨W, false⟩ ⟨W, true⟩

/-- The states that can be reached.  Models code at `thread_pool.rs:206-217`. -/
inductive SReach (hash : List ℕ → ℕ) (limit : Option ℕ) (A : OSet) : Scope → Prop
  | init : SReach hash limit A ⟨winit hash limit A, false⟩
  | step {S S' : Scope} : SReach hash limit A S → SStep hash S S' → SReach hash limit A S'

end Search

end Sortnet
