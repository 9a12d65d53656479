import Verif.Model.Workers
import Verif.Spec.TearDown

/-!
# Fair schedules of the worker threads
-/

namespace Sortnet

namespace Search

/-- Worker `w` can make a step. -/
def Crew.CanMove (hash : List ℕ → ℕ) (n : ℕ) (C : Crew) (w : ℕ) : Prop :=
  ∃ e C', CStep hash n e C C' ∧ e.worker = some w

/-- The operating system does not stop a worker for ever: a worker that from some time on could always make a step makes
one. -/
def FairWorkers (hash : List ℕ → ℕ) (n : ℕ) (C : ℕ → Crew) (ev : ℕ → Option CEvent) : Prop :=
  ∀ w k, (∀ k', k ≤ k' → (C k').CanMove hash n w) → ∃ k' e, k ≤ k' ∧ ev k' = some e ∧ e.worker = some w

/-- A task that will never be scheduled and has been cancelled is eventually dropped, or scheduled after all. -/
def OrphansDropped (C : ℕ → Crew) : Prop := ∀ i k, ∃ k', k ≤ k' ∧ ¬ Orphan (C k').W.G i

end Search

end Sortnet
