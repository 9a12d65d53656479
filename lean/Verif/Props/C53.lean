import Verif.Proof.Wake
import Verif.Props.C52

/-!
# C53: no wakeup is lost

The model with the queue of the thread pool and the registered wakers is in Model/Wake.lean.  There a suspended task
continues only when a worker takes it from the queue, and it is in the queue only if its waker has been called.
`Unfinished` and `Blocked` are defined in Spec/Schedule.lean, without reference to wakers.
-/

namespace Sortnet

open Search

variable (hash : List ℕ → ℕ) (limit : Option ℕ) (initial : OSet) (h0 : Chained initial.s.toSet)
  (hn : initial.n ≤ 11) (A : OSet) (hA : canon hash initial = some A)

include h0 hn hA

/-- C53.  In every reachable state, a suspended task that could continue, because the lock it waits for has been released
or one of the child tasks it waits for has finished, is in the queue. -/
theorem C53_no_lost_wakeup (W : World) (h : WReach hash limit A W) (i : ℕ) (hu : Unfinished W.G i)
    (hb : ¬ Blocked W.G i) (hs : Suspended W.G i) : W.notified i :=
  ((h.ok (canon_of_eq ⟨h0, hn⟩ hA).1).runnable hu hb).2 hs

/-- The thread pool is never idle before the search has returned: some task is running or in the queue, and a step can be
made for it. -/
theorem C53_not_idle (W : World) (h : WReach hash limit A W) (hr : ¬ ∃ r, Returned W.G r) :
    ∃ i, Runnable W i ∧ ∃ W', WStep hash (.act i) W W' ∨ WStep hash (.repoll i) W W' := by
  have hok := (canon_of_eq ⟨h0, hn⟩ hA).1
  obtain ⟨j, _, hj, hb, _⟩ := C32_never_stuck hash limit initial h0 hn W.G ⟨A, hA, h.reach⟩ hr
  have := (h.ok hok).runnable hj hb
  exact ⟨j, this, this.step hok h.reach⟩

variable (W : ℕ → World) (ev : ℕ → Option Event) (h : WExecution hash limit A W ev)
  (hx : ∃ K, ∀ k, K ≤ k → ∀ i, ev k ≠ some (.extra i))

include h hx

/-- Tasks are not resumed again and again in vain: every execution is finite, unless wakers are called infinitely often
for no reason. -/
theorem C53_finite : ∃ K, ∀ k, K ≤ k → ev k = none := h.stops (canon_of_eq ⟨h0, hn⟩ hA).1 hx

/-- The search returns if the workers eventually go on whenever some task is running or in the queue.  No fairness is needed:
the queue may be served in any order. -/
theorem C53_returns (hwork : ∀ k, (∃ i, Runnable (W k) i) → ∃ k', k ≤ k' ∧ ev k' ≠ none) : ∃ k r, Returned (W k).G r := by
  obtain ⟨K, hK⟩ := C53_finite hash limit initial h0 hn A hA W ev h hx
  by_contra hcon
  push Not at hcon
  obtain ⟨i, hi, _⟩ := C53_not_idle hash limit initial h0 hn A hA (W K) (h.wreach K) fun ⟨r, hr⟩ => hcon K r hr
  obtain ⟨k', hk', hne⟩ := hwork K ⟨i, hi⟩
  exact hne (hK k' hk')

/-- And without a limit it returns the number of comparators needed. -/
theorem C53_total (hl : limit = none) (hwork : ∀ k, (∃ i, Runnable (W k) i) → ∃ k', k ≤ k' ∧ ev k' ≠ none) :
    ∃ k r, Returned (W k).G r ∧ IsOpt initial.s.toSet r := by
  subst hl
  obtain ⟨k, r, hr⟩ := C53_returns hash none initial h0 hn A hA W ev h hx hwork
  exact ⟨k, r, hr, C29_exact hash initial h0 hn (W k).G ⟨A, hA, (h.wreach k).reach⟩ r hr⟩

omit hA h hx in
/-- Non-vacuity, for all inputs: there is such an execution, without any unnecessary call of a waker. -/
theorem C53_exists : ∃ A W ev, canon hash initial = some A ∧ WExecution hash limit A W ev ∧
    (∀ k i, ev k ≠ some (.extra i)) ∧ (∀ k, (∃ i, Runnable (W k) i) → ev k ≠ none) ∧ ∃ k r, Returned (W k).G r := by
  obtain ⟨A, hA, hok, _⟩ := canon_spec (hash := hash) (A := initial) ⟨h0, hn⟩
  have hwork : ∀ k, (∃ i, Runnable (wgreedy hash limit A k) i) → (wnext hash (wgreedy hash limit A k)).1 ≠ none := by
    rintro k ⟨i, hi⟩ hnone
    exact wnext_none hok ((wgreedy_execution limit A).wreach k).reach hnone i hi
  exact ⟨A, _, _, hA, wgreedy_execution limit A, fun k i => wnext_extra _ i, hwork,
    C53_returns hash limit initial h0 hn A hA _ _ (wgreedy_execution limit A) ⟨0, fun k _ i => wnext_extra _ i⟩
      fun k hk => ⟨k, Nat.le_refl k, hwork k hk⟩⟩

omit h0 hn hA h hx in
/-- The restriction to tasks in the queue does not hide states: with unnecessary calls of wakers all states of the search
are reached. -/
theorem C53_all_states (G : Global) (h : Reach hash limit A G) : ∃ W, WReach hash limit A W ∧ W.G = G := by
  induction h with
  | init => exact ⟨_, .init, rfl⟩
  | step _ hs ih =>
    obtain ⟨W, hW, rfl⟩ := ih
    obtain ⟨i, hs⟩ := hs
    exact ⟨_, .step (.step hW (.extra (i := i))) (.act hs fun _ => Or.inr rfl), rfl⟩

/-- Whether a task is suspended and one of its child tasks has finished. -/
def ready (i : ℕ) (G : Global) : Bool :=
  match G.tasks i with
  | some t =>
    match t.status with
    | .sleep _ owned _ => t.scheduled && anyDone G owned
    | _ => false
  | none => false

omit h0 hn hA h hx in
theorem ready_spec {i : ℕ} {G : Global} (h : ready i G = true) : Suspended G i ∧ Unfinished G i ∧ ¬ Blocked G i := by
  unfold ready at h
  split at h
  · next t ht =>
    split at h
    · next p owned stack hs =>
      rw [Bool.and_eq_true] at h
      refine ⟨Or.inl ⟨p, owned, stack, statusOf_some ht hs⟩, ⟨t, ht, h.1, by simp [hs], by simp [hs], by simp [hs],
        by simp [hs]⟩, ?_⟩
      rintro ⟨t', ht', hb⟩
      rw [ht] at ht'
      cases ht'
      rcases hb with ⟨_, _, _, _, _, hs', _⟩ | ⟨_, _, _, hs', _, hb⟩
      · rw [hs] at hs'; cases hs'
      · rw [hs] at hs'
        cases hs'
        have h2 := h.2
        unfold anyDone at h2
        rw [List.any_eq_true] at h2
        obtain ⟨r, hr, h2⟩ := h2
        split at h2
        · next hd =>
          split at h2
          · next c hc =>
            cases hv : c.status with
            | done v => exact hb hd hr c hc v hv
            | _ => rw [hv] at h2; simp [Status.isDone] at h2
          · simp at h2
        · simp at h2
    · simp at h
  · simp at h

/-- Non-vacuity: there is a state in which the main task is suspended, one of its child tasks has finished, and
therefore the main task is in the queue. -/
example : ∃ A W, canon (fun _ => 0) ⟨4, allValues 4⟩ = some A ∧ WReach (fun _ => 0) none A W ∧ Suspended W.G 0 ∧
    Unfinished W.G 0 ∧ ¬ Blocked W.G 0 ∧ W.notified 0 := by
  obtain ⟨G, ⟨A, hA, h1⟩, h2⟩ := run_of_exec_test (hash := fun _ => 0) (limit := none) (initial := ⟨4, allValues 4⟩)
    (l := List.replicate 29 (1, 0) ++ List.replicate 9 (2, 0) ++ List.replicate 15 (2, 1)) (test := ready 0)
    (by decide +kernel)
  obtain ⟨W, hW, rfl⟩ := C53_all_states (fun _ => 0) none A G h1
  obtain ⟨hs, hu, hb⟩ := ready_spec h2
  exact ⟨A, W, hA, hW, hs, hu, hb, C53_no_lost_wakeup (fun _ => 0) none ⟨4, allValues 4⟩
    (by dsimp only; rw [toSet_allValues]; exact chained_univ) (by decide) A hA W hW 0 hu hb hs⟩

end Sortnet
