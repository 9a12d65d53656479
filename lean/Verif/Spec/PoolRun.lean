import Verif.Model.Pool

/-!
# Executions of the thread pool
-/

namespace Sortnet

namespace Pool

variable {Prio : Type}

/-- The entries a worker is dealing with. -/
def held : PC Prio → List (Entry Prio)
  | .gcCheck _ _ e => [e]
  | .gc _ _ e todo kept => e :: (kept ++ todo)
  | .gcTest _ _ e x todo kept => e :: (kept ++ x :: todo)
  | .gcRelease _ _ e _ todo kept => e :: (kept ++ todo)
  | .insert _ _ e => [e]
  | .upgrade e => [e]
  | .call _ _ e => e.toList
  | .client | .adding _ | .drain | .lockPending | .limit | .recv _ _ | .pop | .release _ _ | .unlock | .wait | .exited => []

/-- The task to which a worker has a strong reference, from `upgrade` until it is dropped. -/
def strong : PC Prio → Option ℕ
  | .gcTest _ _ _ x _ _ => some x.task
  | .gcRelease _ _ _ t _ _ => some t
  | .call t _ (some _) => some t
  | .release t _ => some t
  | _ => none

/-- Thread `i` can make a step. -/
def CanMove [LinearOrder Prio] (s : St Prio) (i : ℕ) : Prop := ∃ s', Step s s' ∧ s'.thread i ≠ s.thread i

/-- An infinite execution; between two states there is a step of a thread, or nothing happens. -/
structure Exec [LinearOrder Prio] (workers : ℕ) (f : ℕ → St Prio) : Prop where
  start : f 0 = init workers
  step : ∀ n, f (n + 1) = f n ∨ Step (f n) (f (n + 1))

/-- A thread that can make a step again and again does so.  Clients need not do anything. -/
def Fair [LinearOrder Prio] (f : ℕ → St Prio) : Prop :=
  ∀ i, (∀ n, ∃ m, n ≤ m ∧ CanMove (f m) i ∧ (f m).thread i ≠ .client) →
    ∀ n, ∃ m, n ≤ m ∧ (f (m + 1)).thread i ≠ (f m).thread i

/-- The `m`-th step is that the worker `w` takes the task `t` from the queue of runnable tasks and runs it. -/
def Runs (f : ℕ → St Prio) (m w t : ℕ) : Prop := (f (m + 1)).log = .ran w t :: (f m).log

/-- A worker that is about to take a task from the queue of runnable tasks, and could do so all the time, does it. -/
def FairRun (f : ℕ → St Prio) : Prop :=
  ∀ w n, (∀ m, n ≤ m → (f m).thread w = .drain ∧ (f m).runQueue ≠ []) → ∃ m t, n ≤ m ∧ Runs f m w t

/-- A thread waits for a lock another thread has. -/
def WaitsFor (s : St Prio) (i j : ℕ) : Prop :=
  (∃ t e, s.thread i = .call t .lock e ∧ (s.slot t).writer = some j) ∨
  (∃ l c e x todo kept, s.thread i = .gcTest l c e x todo kept ∧ (s.slot x.task).writer = some j) ∨
  s.thread i = .lockPending ∧ s.holder = some j

end Pool

end Sortnet
