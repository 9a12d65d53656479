import Verif.Proof.PoolLog

/-!
# C46: a delayed task is scheduled exactly once
-/

namespace Sortnet

open Pool

/-- C46.  For every number of workers, every number of other threads, every use they make of the pool and every
interleaving: a task is sent to the queue of runnable tasks by `schedule` only once, of all the calls of `schedule` that
return, by workers or by others, the first one returns `true` and the others `false`, each only after the task was sent, and
`is_scheduled` returns `true` exactly if the task was sent before.  See `StartsOnce`. -/
theorem C46_schedule {Prio : Type} [LinearOrder Prio] {workers : ℕ} {s : St Prio} (h : Reachable workers s) :
    Always StartsOnce s.log :=
  startsOnce h

/-- The same in numbers: a task is started at most once, and if a call of `schedule` has returned then it was started and
exactly one call has returned `true`. -/
theorem C46_count {Prio : Type} [LinearOrder Prio] {workers : ℕ} {s : St Prio} (h : Reachable workers s) (t : ℕ) :
    s.log.countP (isStart t) ≤ 1 ∧
      ∀ b, .returned t b ∈ s.log → s.log.countP (isStart t) = 1 ∧ s.log.countP (isTrue t) = 1 := by
  have h1 := (startsOnce h).countP_start t
  have h2 := (startsOnce h).countP_true t
  have h3 : ∀ {l : List (Event Prio)}, Always StartsOnce l → Returned t l → Started t l := by
    intro l hl hr
    induction l with
    | nil => obtain ⟨b, hb⟩ := hr; simp at hb
    | cons x l ih =>
      rw [returned_cons] at hr
      rw [started_cons]
      rcases hr with ⟨b, rfl⟩ | hr
      · exact Or.inr hl.1.1
      · exact Or.inr (ih hl.2 hr)
  refine ⟨by omega, fun b hb => ⟨?_, ?_⟩⟩
  · exact (h1.resolve_left fun hn => hn.2 (h3 (startsOnce h) ⟨b, hb⟩)).1
  · exact (h2.resolve_left fun hn => hn.2 ⟨b, hb⟩).1

/-- No task is lost or duplicated on its way to the workers: what was taken from the queue of runnable tasks and what is still
in it is what was started or woken. -/
theorem C46_queue {Prio : Type} [LinearOrder Prio] {workers : ℕ} {s : St Prio} (h : Reachable workers s) (t : ℕ) :
    s.runQueue.count t + s.log.countP (isRun t) = s.log.countP (isStart t) + s.log.countP (isWake t) :=
  count_runQueue h t

/-- For example two threads call `schedule` for the same task at the same time. -/
theorem C46_example : ∃ s : St ℕ, Reachable 1 s ∧
    s.log = [.observed 0 true, .returned 0 false, .returned 0 true, .started 0 none, .observed 0 false, .spawned 0] := by
  have h0 : Reachable 1 (init 1 : St ℕ) := .refl
  have h1 := h0.tail (.spawn (i := 1) rfl)
  have h2 := h1.tail (.callSchedule (i := 1) 0 rfl (by decide))
  have h3 := h2.tail (.callSchedule (i := 2) 0 rfl (by decide))
  have h4 := h3.tail (.isScheduled (i := 3) 0 rfl (by decide) rfl)
  have h5 := h4.tail (.lock (i := 2) (t := 0) (e := none) rfl rfl)
  have h6 := h5.tail (.take (i := 2) (t := 0) (e := none) rfl rfl)
  have h7 := h6.tail (.send (i := 2) (t := 0) (e := none) rfl)
  have h8 := h7.tail (.returnTrue (i := 2) (t := 0) (e := none) rfl)
  have h9 := h8.tail (.lock (i := 1) (t := 0) (e := none) rfl rfl)
  have h10 := h9.tail (.takeNone (i := 1) (t := 0) (e := none) rfl rfl)
  have h11 := h10.tail (.returnFalse (i := 1) (t := 0) (e := none) rfl)
  have h12 := h11.tail (.isScheduled (i := 3) 0 rfl (by decide) rfl)
  exact ⟨_, h12, rfl⟩

end Sortnet
