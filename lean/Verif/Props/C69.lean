import Verif.Proof.Workers
import Verif.Props.C55

/-!
# C69: the search with a fixed number of worker threads

The model with the workers is in Model/Workers.lean; `FairWorkers` and `OrphansDropped` are defined in Spec/Workers.lean.
-/

namespace Sortnet

open Search

variable (hash : List ℕ → ℕ) (limit : Option ℕ) (initial : OSet) (h0 : Chained initial.s.toSet)
  (hn : initial.n ≤ 11) (A : OSet) (hA : canon hash initial = some A) (n : ℕ)

include h0 hn hA

/-- Every running task is executed by exactly one worker; so at most `n` tasks are running. -/
theorem C69_running (C : Crew) (h : CReach hash limit A n C) (i : ℕ) (hi : Running C.W.G i) :
    ∃! w, C.on w = some i ∧ w < n := by
  have hok := (canon_of_eq ⟨h0, hn⟩ hA).1
  have hC := CInv.reach hok h
  obtain ⟨β, hG, _⟩ := GInv.reach hok h.wreach.reach
  obtain ⟨p, owned, stack, hs⟩ := hi
  obtain ⟨t, ht, hst⟩ := Tail.statusOf_eq hs
  have hu : Unfinished C.W.G i := ⟨t, ht, hG.own.started ht (by simp [hst]) (by simp [hst]), by simp [hst], by simp [hst],
    by simp [hst], by simp [hst]⟩
  obtain ⟨w, hw⟩ := hC.active i ⟨hu, by
    rintro (⟨_, _, _, e⟩ | ⟨_, _, _, _, _, e⟩) <;> rw [hs] at e <;> cases e⟩
  exact ⟨w, ⟨hw, (hC.held w i hw).1⟩, fun v hv => hC.inj v w i hv.1 hw⟩

/-- A worker that executes a task is never blocked: there is always a next step. -/
theorem C69_not_blocked (C : Crew) (h : CReach hash limit A n C) (w i : ℕ) (hw : C.on w = some i) :
    C.CanMove hash n w := h.held_moves (canon_of_eq ⟨h0, hn⟩ hA).1 hw

/-- As long as the search has not returned, some worker can make a step. -/
theorem C69_not_idle (hpos : 0 < n) (C : Crew) (h : CReach hash limit A n C) (hr : ¬ ∃ r, Returned C.W.G r) :
    ∃ w < n, C.CanMove hash n w := by
  obtain ⟨i, hi, _⟩ := C53_not_idle hash limit initial h0 hn A hA C.W h.wreach hr
  exact h.moves (canon_of_eq ⟨h0, hn⟩ hA).1 hpos hi

variable (C : ℕ → Crew) (ev : ℕ → Option CEvent) (h : CExecution hash limit A n C ev)

include h

/-- Every execution is finite, whatever the schedule: the workers cannot keep each other busy for ever. -/
theorem C69_finite : ∃ K, ∀ k, K ≤ k → ev k = none := h.stops (canon_of_eq ⟨h0, hn⟩ hA).1

variable (hpos : 0 < n) (hf : FairWorkers hash n C ev)

include hpos hf

/-- C69.  With any number of worker threads, at least one, the search returns, if no thread is stopped for ever.  The queue
may be served in any order. -/
theorem C69_returns : ∃ k r, Returned (C k).W.G r :=
  C53_returns hash limit initial h0 hn A hA _ _ h.wexecution ⟨0, fun k _ i => CExecution.no_extra ev k i⟩ fun k hk =>
    h.works (canon_of_eq ⟨h0, hn⟩ hA).1 hpos hf k (Or.inl hk)

/-- Without a limit the result is the number of comparators needed. -/
theorem C69_total (hl : limit = none) : ∃ k r, Returned (C k).W.G r ∧ IsOpt initial.s.toSet r := by
  subst hl
  exact C53_total hash none initial h0 hn A hA _ _ h.wexecution ⟨0, fun k _ i => CExecution.no_extra ev k i⟩ rfl
    fun k hk => h.works (canon_of_eq ⟨h0, hn⟩ hA).1 hpos hf k (Or.inl hk)

/-- If the tasks that are never scheduled are dropped, then in the end all tasks have ended, no lock is held, all
task objects are freed, and the workers execute nothing: `scope` returns. -/
theorem C69_teardown (ho : OrphansDropped C) : ∃ K, ∀ k, K ≤ k → ev k = none ∧ (∃ r, Returned (C k).W.G r) ∧
    (∀ i t, (C k).W.G.tasks i = some t → Ended (C k).W.G i) ∧ (∀ B, (C k).W.G.locks B = none) ∧
    (∀ S, NotFreed (C k).W S → ∀ c, ¬ S c) ∧ ∀ w, (C k).on w = none := by
  have hok := (canon_of_eq ⟨h0, hn⟩ hA).1
  obtain ⟨K, hK⟩ := C55_teardown hash limit initial h0 hn A hA _ _ h.wexecution
    ⟨0, fun k _ i => CExecution.no_extra ev k i⟩ fun k ⟨i, hi⟩ => h.works hok hpos hf k
      (hi.elim (fun hi => Or.inl ⟨i, hi⟩) fun hi => Or.inr ⟨ho, i, hi⟩)
  obtain ⟨K', hK', hq⟩ := h.quiet hok hpos hf
  refine ⟨max K K', fun k hk => ?_⟩
  obtain ⟨_, h2, h3, h4, h5⟩ := hK k (by omega)
  refine ⟨hK' k (by omega), h2, h3, h4, h5, fun w => Option.eq_none_iff_forall_ne_some.2 fun i hi => ?_⟩
  rw [h.const hK' (by omega)] at hi
  exact hq i ((CInv.reach hok (h.creach K')).held w i hi).2

omit hA h hpos hf in
/-- Non-vacuity, for all inputs and all numbers of workers: there is such an execution. -/
theorem C69_exists : ∃ A C ev, canon hash initial = some A ∧ CExecution hash limit A n C ev ∧ FairWorkers hash n C ev ∧
    OrphansDropped C := by
  obtain ⟨A, hA, hok, _⟩ := canon_spec (hash := hash) (A := initial) ⟨h0, hn⟩
  exact ⟨A, _, _, hA, cgreedy_execution limit A n, (cgreedy_fair hok n).1, (cgreedy_fair hok n).2⟩

omit h0 hn hA h hpos hf in
/-- Non-vacuity of `C69_running` and `C69_not_blocked`: the main task is taken from the queue by the second of two workers, and
runs. -/
theorem C69_example : ∃ C, CReach hash limit A 2 C ∧ Running C.W.G 0 ∧ C.on 1 = some 0 := by
  have hs : statusOf (winit hash limit A).G 0 = some (.sleep (code hash (.start limit A)) [] []) := rfl
  have ht : (winit hash limit A).G.tasks 0 = some
      { status := .sleep (code hash (.start limit A)) [] [], root := .start limit A, scheduled := true, queued := false,
        cancelled := false } := rfl
  have h1 := CReach.step (.init (hash := hash) (limit := limit) (A := A) (n := 2)) (.take (w := 1) (i := 0) (by decide) rfl
    ⟨_, ht, rfl, nofun, nofun, nofun, nofun⟩ (Or.inl ⟨_, _, _, hs⟩) rfl (fun _ => nofun))
  have h2 := h1.step (.run (w := 1) (i := 0) (by decide) rfl (.act (.wake ht rfl rfl) fun _ => rfl)
    (fun t h hc => by cases ht.symm.trans h; cases hc))
  refine ⟨_, h2, ⟨_, _, _, rfl⟩, ?_⟩
  unfold Crew.after
  dsimp only
  rw [if_pos]
  · rfl
  · refine ⟨⟨_, rfl, rfl, nofun, nofun, nofun, nofun⟩, ?_⟩
    rintro (⟨_, _, _, e⟩ | ⟨_, _, _, _, _, e⟩) <;> cases e

omit h0 hn hA h hpos hf in
/-- Without workers nothing happens: the hypothesis `0 < n` is needed. -/
theorem C69_no_workers (hC : CExecution hash limit A 0 C ev) (k : ℕ) : C k = cinit hash limit A := by
  induction k with
  | zero => exact hC.start
  | succ k ih =>
    cases e : ev k with
    | none => rw [hC.idle k e, ih]
    | some a =>
      have hs := hC.step k a e
      rw [ih] at hs
      generalize C (k + 1) = C' at hs
      cases hs with
      | take hw => omega
      | run hw => omega
      | repoll hw => omega
      | start hw => omega
      | free ht hs =>
        unfold cinit winit Search.init at ht
        dsimp only at ht
        split at ht
        · cases ht; cases hs
        · cases ht

end Sortnet
