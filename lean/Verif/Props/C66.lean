import Verif.Proof.PoolDrop
import Verif.Props.C29

/-!
# C66: no task uses the thread pool after it has been dropped

`ThreadPool::scope` drops the pool as soon as the main task has finished, before the worker threads are waited for
(`thread_pool.rs:206-216`).  The model with the point at which the pool is dropped is in Model/PoolDrop.lean; `Doomed` is
defined in Spec/PoolDrop.lean.

The property does not hold: `C66_false`.  A task that returns because its upper bound has improved drops the handles of
its children, which cancels them, but a child that is being executed by another worker at that moment goes on until it is
suspended the next time, and may spawn children until then.
-/

namespace Sortnet

open Search

variable (hash : List ℕ → ℕ) (limit : Option ℕ) (initial : OSet) (h0 : Chained initial.s.toSet)
  (hn : initial.n ≤ 11) (A : OSet) (hA : canon hash initial = some A)

include h0 hn hA

/-- C66, what holds: a task that uses the pool after it has been dropped has been cancelled, or is a descendant of a task
that has been cancelled.  Missing: that there is no such task, which is false, see `C66_false`. -/
theorem C66_partial (W : World) (h : SReach hash limit A ⟨W, true⟩) (i : ℕ) (hu : UsesPool W.G i) : Doomed W.G i := by
  have hok := (canon_of_eq ⟨h0, hn⟩ hA).1
  obtain ⟨r, hr⟩ := h.returned hok rfl
  obtain ⟨t, owned, stack, ht, hs⟩ := hu
  refine doomed_of_returned hok h.wreach.reach hr ht ?_
  rintro rfl
  obtain ⟨t0, v, ht0, hs0, _⟩ := hr
  rw [ht] at ht0
  cases ht0
  rcases hs with ⟨_, _, _, _, hs⟩ | ⟨_, _, _, hs⟩ <;>
  · rw [hs0] at hs; cases hs

/-- If these calls do what they do before the pool is dropped, the result of the search is not changed: after the pool has
been dropped the main task has finished, and its result is the number of comparators needed (without a limit). -/
theorem C66_result (W : World) (h : SReach hash none A ⟨W, true⟩) : ∃ r, Returned W.G r ∧ IsOpt initial.s.toSet r := by
  obtain ⟨r, hr⟩ := h.returned (canon_of_eq ⟨h0, hn⟩ hA).1 rfl
  exact ⟨r, hr, C29_exact hash initial h0 hn W.G ⟨A, hA, h.wreach.reach⟩ r hr⟩

omit h0 hn hA

/-- The sets of values after the comparators 01 and 02, on four channels. -/
def afterTwo : OSet := ⟨4, (((allValues 4).applyComparator 0 1).1.applyComparator 0 2).1⟩

theorem afterTwo_chained : Chained afterTwo.s.toSet := by
  unfold afterTwo
  dsimp only
  rw [applyComparator_toSet _ (by decide), applyComparator_toSet _ (by decide), toSet_allValues]
  exact (chained_univ.applyCmp _).applyCmp _

/-- Task `i` acts `k` times. -/
def acts (i k : ℕ) : List (Bool × ℕ) := List.replicate k (true, i)

/-- The property is false: when the search that starts after the comparators 01 and 02, on four channels, has returned 4
and the pool has been dropped, there may be a running task whose next action is a method call on the pool. -/
theorem C66_false : ∃ hash A W i, canon hash afterTwo = some A ∧ SReach hash none A ⟨W, true⟩ ∧ Returned W.G 4 ∧
    UsesPool W.G i := by
  obtain ⟨A, W, h⟩ := sreach_of_followS (hash := fun l => l.foldl (fun a x => (a * 1009 + x) % 1000003) 7) (limit := none)
    (initial := afterTwo) ⟨afterTwo_chained, by decide⟩ (i := 9) (r := 4)
    (l := acts 0 69 ++ acts 1 11 ++ acts 0 22 ++ acts 2 16 ++ acts 0 37 ++ acts 4 21 ++ acts 0 38 ++ acts 5 16 ++
      acts 0 34 ++ acts 6 16 ++ acts 0 33 ++ acts 9 19 ++ [(false, 7)] ++ acts 7 27 ++ acts 0 18) (by decide +kernel)
  exact ⟨_, A, W, 9, h⟩

/-- Non-vacuity of `C66_partial` and `C66_result`. -/
example : ∃ hash A W i, SReach hash none A ⟨W, true⟩ ∧ UsesPool W.G i ∧ Doomed W.G i ∧ IsOpt afterTwo.s.toSet 4 := by
  obtain ⟨hash, A, W, i, hA, hW, hr, hu⟩ := C66_false
  exact ⟨hash, A, W, i, hW, hu, C66_partial hash none afterTwo afterTwo_chained (by decide) A hA W hW i hu,
    C29_exact hash afterTwo afterTwo_chained (by decide) W.G ⟨A, hA, hW.wreach.reach⟩ 4 hr⟩

end Sortnet
