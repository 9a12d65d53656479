import Verif.Proof.PoolIdle

/-!
# C51: the locks of the thread pool
-/

namespace Sortnet

open Pool

/-- C51, no deadlock.  In every state of every execution: a thread that is in a call of `schedule`, waits for the pending
queue or has locked it can make a step, or it waits for a lock, and the chain of the threads that wait for each other has
at most two links and ends with a thread that can make a step. -/
theorem C51_no_deadlock {Prio : Type} [LinearOrder Prio] {workers : ℕ} {s : St Prio} (h : Reachable workers s) {i : ℕ}
    (hi : (∃ t p e, s.thread i = .call t p e) ∨ s.thread i = .lockPending ∨ s.holder = some i) :
    CanMove s i ∨ (∃ j, WaitsFor s i j ∧ CanMove s j) ∨ ∃ j k, WaitsFor s i j ∧ WaitsFor s j k ∧ CanMove s k := by
  rcases hi with ⟨t, p, e, hi⟩ | hi | hi
  · by_cases hp : p = .lock
    · subst hp
      rcases hw : (s.slot t).writer with _ | j
      · exact Or.inl (canMove_call (by rw [hi]; rfl) (fun _ => hw))
      · exact Or.inr (Or.inl ⟨j, Or.inl ⟨t, e, hi, hw⟩, writer_canMove h hw⟩)
    · exact Or.inl (canMove_call (by rw [hi]; rfl) (fun e => absurd e hp))
  · rcases hw : s.holder with _ | w
    · exact Or.inl ⟨_, .lockPending hi hw, by simp [St.goto, hi]⟩
    · have hwait : WaitsFor s i w := Or.inr (Or.inr ⟨hi, hw⟩)
      rcases inLock_canMove h ((holderInv h w).2 hw) with h1 | ⟨j, h1, h2⟩
      · exact Or.inr (Or.inl ⟨w, hwait, h1⟩)
      · exact Or.inr (Or.inr ⟨w, j, hwait, h1, h2⟩)
  · rcases inLock_canMove h ((holderInv h i).2 hi) with h1 | h1
    · exact Or.inl h1
    · exact Or.inr (Or.inl h1)

/-- In every fair execution every call of `schedule` returns, whether a client or a worker has made it. -/
theorem C51_schedule_returns {Prio : Type} [LinearOrder Prio] {workers : ℕ} {f : ℕ → St Prio} (h : Exec workers f)
    (hf : Fair f) {i n t : ℕ} {p : Phase} {e : Option (Entry Prio)} (_hi : (f n).thread i = .call t p e) :
    ∃ m, n ≤ m ∧ ∀ t p e, (f m).thread i ≠ .call t p e := by
  obtain ⟨m, hm, hc⟩ := call_leaves h hf i n
  refine ⟨m, hm, fun t p e he => ?_⟩
  rw [he] at hc
  simp [callOf] at hc

/-- In every fair execution a worker that has locked the pending queue unlocks it, no matter how many entries are added
meanwhile. -/
theorem C51_unlocks {Prio : Type} [LinearOrder Prio] {workers : ℕ} {f : ℕ → St Prio} (h : Exec workers f)
    (hf : Fair f) (n : ℕ) : ∃ m, n ≤ m ∧ (f m).holder = none :=
  holder_none h hf n

/-- In every fair execution a worker that waits for the pending queue gets it. -/
theorem C51_locks {Prio : Type} [LinearOrder Prio] {workers : ℕ} {f : ℕ → St Prio} (h : Exec workers f)
    (hf : Fair f) {i n : ℕ} (hi : (f n).thread i = .lockPending) : ∃ m, n ≤ m ∧ (f m).holder = some i :=
  lockPending_leaves h hf hi

/-- For example the execution of a pool with one worker that has nothing to do is fair, and the worker waits for the pending
queue again and again. -/
theorem C51_example : Exec 1 idleExec ∧ Fair idleExec ∧ (idleExec 1).thread 0 = .lockPending :=
  ⟨execOf_exec idleInv_init (by simp) rfl, execOf_fair idleInv_init, by simp [idleExec, execOf, idleFrom, nextIdle, init, St.goto]⟩

end Sortnet
