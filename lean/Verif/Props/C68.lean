import Verif.Proof.PoolIdle
import Verif.Proof.PoolQuiet
import Verif.Proof.PoolRecv

/-!
# C68: the workers leave no work behind

`Fair`, `FairRun` and `Runs` are defined in Spec/PoolRun.lean.
-/

namespace Sortnet

open Pool

variable {Prio : Type} [LinearOrder Prio] {workers : ℕ} {f : ℕ → St Prio} (h : Exec workers f) (hf : Fair f)
  (hr : FairRun f) {w : ℕ} (hw : w < workers) (hx : ∀ n, (f n).thread w ≠ .exited)

include h hf hr hw hx

/-- C68.  In every fair execution in which at least one worker does not end, every task in the queue of runnable tasks is
eventually taken from it and run. -/
theorem C68_run {n t : ℕ} (ht : t ∈ (f n).runQueue) : ∃ m v, n ≤ m ∧ Runs f m v t :=
  mem_runs h hf hw hx hr ht

/-- In particular a task is run after it was started or woken. -/
theorem C68_started {n t : ℕ} {x : Event Prio} (hs : (f (n + 1)).log = x :: (f n).log)
    (ht : x = .woken t ∨ ∃ b, x = .started t b) : ∃ m v, n ≤ m ∧ Runs f m v t := by
  have hmem : t ∈ (f (n + 1)).runQueue := by
    have h1 := count_runQueue (h.reachable n) t
    have h2 := count_runQueue (h.reachable (n + 1)) t
    have hle : 0 < (f (n + 1)).runQueue.count t := by
      rcases h.step n with e | e
      · rw [e] at hs
        exact absurd hs self_ne_cons
      · rw [hs] at h2
        rcases ht with rfl | ⟨b, rfl⟩ <;> simp [List.countP_cons, isRun, isStart, isWake] at h2 <;> omega
    exact List.count_pos_iff.1 hle
  obtain ⟨m, v, hm, hv⟩ := C68_run h hf hr hw hx hmem
  exact ⟨m, v, by omega, hv⟩

/-- If the number of tasks that are created and the number of times tasks are woken are bounded (as in the search, see C52 and
C53), then from some time on there are no runnable tasks, ... -/
theorem C68_drained {B : ℕ} (hB : ∀ n, (f n).log.countP isSpawn ≤ B ∧ (f n).log.countP isAnyWake ≤ B) :
    ∃ K, ∀ k, K ≤ k → (f k).runQueue = [] := by
  obtain ⟨K, hK⟩ := quiet h hB
  obtain ⟨K', -, h'⟩ := drained h hf hw hx hr hK
  exact ⟨K', h'⟩

/-- ... and every task that was added to the pending queue is eventually started or dropped, and if it was started it
is run. -/
theorem C68_pending {B : ℕ} (hB : ∀ n, (f n).log.countP isSpawn ≤ B ∧ (f n).log.countP isAnyWake ≤ B) {n : ℕ}
    {e : Entry Prio} (he : .added e ∈ (f n).log) :
    ∃ m, n ≤ m ∧ (.dropped e.task ∈ (f m).log ∨ Started e.task (f m).log ∧ ∃ v, .ran v e.task ∈ (f m).log) := by
  obtain ⟨K, hK⟩ := quiet h hB
  obtain ⟨K', hK', hq⟩ := drained h hf hw hx hr hK
  obtain ⟨m, hm, hg⟩ := pending_gone h hf hw hx (fun k hk => (hK k (le_trans hK' hk)).1) hq he
  refine ⟨max m K', le_trans hm (le_max_left _ _), ?_⟩
  rcases hg with ⟨b, hg⟩ | hg
  · have hg' := h.mem_log (le_max_left m K') hg
    refine Or.inr ⟨⟨b, hg'⟩, ?_⟩
    have h1 := count_runQueue (h.reachable (max m K')) e.task
    rw [hq _ (le_max_right _ _)] at h1
    have h2 : 0 < (f (max m K')).log.countP (isStart e.task) :=
      List.countP_pos_iff.2 ⟨_, hg', by simp [isStart]⟩
    have h3 : 0 < (f (max m K')).log.countP (isRun e.task) := by simp at h1; omega
    obtain ⟨x, hx1, hx2⟩ := List.countP_pos_iff.1 h3
    cases x with
    | ran v t' =>
      simp only [isRun, beq_iff_eq] at hx2
      subst hx2
      exact ⟨v, hx1⟩
    | _ => simp [isRun] at hx2
  · exact Or.inl (h.mem_log (le_max_left _ _) hg)

omit h hf hr hw hx

/-- Non-vacuity: there is such an execution with a task that is added to the pending queue, started by a worker, run, woken and
run again. -/
theorem C68_example : ∃ f : ℕ → St ℕ, Exec 1 f ∧ Fair f ∧ FairRun f ∧ (∀ n, (f n).thread 0 ≠ .exited) ∧
    (∃ B, ∀ n, (f n).log.countP isSpawn ≤ B ∧ (f n).log.countP isAnyWake ≤ B) ∧
    ∃ n, (f n).log = [.ran 0 0, .woken 0, .ran 0 0, .unlocked 0, .returned 0 true, .started 0 (some (0, ⟨5, 0, 0⟩)), .acquired 0,
      .added ⟨5, 0, 0⟩, .spawned 0] := by
  obtain ⟨s, hs, hi, hlog⟩ : ∃ s : St ℕ, Reachable 1 s ∧ IdleInv s ∧ s.log = [.ran 0 0, .woken 0, .ran 0 0, .unlocked 0,
      .returned 0 true, .started 0 (some (0, ⟨5, 0, 0⟩)), .acquired 0, .added ⟨5, 0, 0⟩, .spawned 0] := by
    have h0 : Reachable 1 (init 1 : St ℕ) := .refl
    have h1 := h0.tail (.spawn (i := 1) rfl)
    have h3 := h1.tail (.addPending (i := 1) 5 0 rfl (by decide))
    have h4 := h3.tail (.sendPending (i := 1) (e := ⟨5, 0, 0⟩) rfl)
    have h7 := h4.tail (.drainEmpty (i := 0) rfl rfl)
    have h8 := h7.tail (.lockPending (i := 0) rfl rfl)
    have h9 := h8.tail (.limit (i := 0) rfl)
    have h14 := h9.tail (.recvSome (i := 0) (l := 2) (c := 0) (e := ⟨5, 0, 0⟩) (rest := []) rfl rfl)
    have h15 := h14.tail (.gcYes (i := 0) (l := 2) (c := 0) (e := ⟨5, 0, 0⟩) rfl (by decide))
    have h15' := h15.tail (.gcEnd (i := 0) (l := 2) (c := 0) (e := ⟨5, 0, 0⟩) (kept := []) rfl)
    have h16 := h15'.tail (.insert (i := 0) (l := 2) (c := 0) (e := ⟨5, 0, 0⟩) rfl)
    have h17 := h16.tail (.recvNone (i := 0) (l := 2) (c := 1) rfl rfl)
    have h18 := h17.tail (.popSome (i := 0) (e := ⟨5, 0, 0⟩) (rest := []) rfl rfl)
    have h19 := h18.tail (.upgradeSome (i := 0) (e := ⟨5, 0, 0⟩) rfl Nat.one_pos)
    have h21 := h19.tail (.lock (i := 0) (t := 0) (e := some ⟨5, 0, 0⟩) rfl rfl)
    have h22 := h21.tail (.take (i := 0) (t := 0) (e := some ⟨5, 0, 0⟩) rfl rfl)
    have h23 := h22.tail (.send (i := 0) (t := 0) (e := some ⟨5, 0, 0⟩) rfl)
    have h24 := h23.tail (.returnTrue (i := 0) (t := 0) (e := some ⟨5, 0, 0⟩) rfl)
    have h25 := h24.tail (.release (i := 0) (t := 0) (b := true) rfl)
    have h26 := h25.tail (.unlock (i := 0) rfl)
    have h27 := h26.tail (.drainRun (i := 0) (t := 0) (rest := []) rfl rfl)
    have h28 := h27.tail (.wake 0 ⟨some (0, ⟨5, 0, 0⟩), by
      change _ ∈ [Event.ran 0 0, .unlocked 0, .returned 0 true, .started 0 (some (0, ⟨5, 0, 0⟩)), .acquired 0,
        .added ⟨5, 0, 0⟩, .spawned 0]
      simp⟩)
    have h29 := h28.tail (.drainRun (i := 0) (t := 0) (rest := []) rfl rfl)
    exact ⟨_, h29, ⟨rfl, rfl, rfl, fun i hi => by
      by_cases hj : i = 1
      · subst hj; rfl
      · simp [St.goto, St.emit, St.setSlot, St.dropTo, init, hi, hj],
      Or.inl ⟨Or.inl rfl, rfl⟩⟩, rfl⟩
  obtain ⟨f, e1, e2, e3, e4, n, e5⟩ := exists_exec hs hi
  have hn : f n = s := e5 0
  refine ⟨f, e1, e2, e3, e4, ⟨1, fun m => ?_⟩, n, by rw [hn, hlog]⟩
  have key : ∀ p : Event ℕ → Bool, p (.acquired 0) = false → p (.idle 0) = false →
      (f m).log.countP p ≤ s.log.countP p := fun p p1 p2 => by
    have hmono : ∀ a d, (f a).log.countP p ≤ (f (a + d)).log.countP p := fun a d => by
      induction d with
      | zero => exact le_rfl
      | succ d ih => exact le_trans ih (e1.countP_mono p (a + d))
    have h1 := hmono m n
    rw [Nat.add_comm, e5, idle_countP hi p p1 p2] at h1
    exact h1
  have k1 := key isSpawn rfl rfl
  have k2 := key isAnyWake rfl rfl
  rw [hlog] at k1 k2
  exact ⟨k1, k2⟩

/-- C68, bounded time with the lock.  However many entries other threads add meanwhile, a worker that has the lock of the pending
queue receives at most twice as many entries as there were when it began, and at most one if there were none. -/
theorem C68_receives {s : St Prio} {i k m : ℕ} (h : Received i k m s) : m ≤ max 1 (2 * k) := h.le

/-- The bound is reached: there is one entry, another one is added, and both are received. -/
theorem C68_receives_example : ∃ s : St ℕ, Reachable 1 s ∧ Received 0 1 2 s := by
  have h1 : Reachable 1 (init 1 : St ℕ) := .refl
  have h2 := h1.tail (.spawn (i := 1) rfl)
  have h3 := h2.tail (.addPending (i := 1) 5 0 rfl Nat.one_pos)
  have h4 := h3.tail (.sendPending (i := 1) (e := ⟨5, 0, 0⟩) rfl)
  have h5 := h4.tail (.drainEmpty (i := 0) rfl rfl)
  have h6 := h5.tail (.lockPending (i := 0) rfl rfl)
  have other : ∀ {m : ℕ} {s s' : St ℕ} (p q : PC ℕ), Reachable 1 s ∧ Received 0 1 m s → Step s s' → s.thread 0 = p →
      s'.thread 0 = q → (∀ l c e, ¬ (p = .recv l c ∧ q = .gcCheck l c e)) → q ≠ .pop →
      Reachable 1 s' ∧ Received 0 1 m s' := fun p q a b hp hq c d =>
    ⟨a.1.tail b, a.2.other b (fun ⟨l, k, e, h1, h2⟩ => c l k e ⟨hp ▸ h1, hq ▸ h2⟩) (hq ▸ d)⟩
  have receive : ∀ {m : ℕ} {s s' : St ℕ}, Reachable 1 s ∧ Received 0 1 m s → Step s s' → Receives s s' 0 →
      Reachable 1 s' ∧ Received 0 1 (m + 1) s' := fun a b c => ⟨a.1.tail b, a.2.receive b c⟩
  have enter : ∀ {s s' : St ℕ}, Reachable 1 s → s.chan.length = 1 → s.thread 0 = .limit → Step s s' →
      s'.thread 0 = .recv 2 0 → Reachable 1 s' ∧ Received 0 1 0 s' := fun a l b c d =>
    ⟨a.tail c, l ▸ Received.enter b c (by rw [d]; simp)⟩
  have h7 := enter h6 rfl rfl (.limit (i := 0) rfl) rfl
  have h8 := other (.recv 2 0) (.recv 2 0) h7 (.addPending (i := 1) 7 0 rfl Nat.one_pos) rfl rfl
    (by simp) (by simp)
  have h9 := other (.recv 2 0) (.recv 2 0) h8 (.sendPending (i := 1) (e := ⟨7, 1, 0⟩) rfl) rfl rfl
    (by simp) (by simp)
  have h10 := receive h9 (.recvSome (i := 0) (l := 2) (c := 0) (e := ⟨5, 0, 0⟩) (rest := [⟨7, 1, 0⟩]) rfl rfl)
    ⟨2, 0, ⟨5, 0, 0⟩, rfl, rfl⟩
  have h11 := other (.gcCheck 2 0 ⟨5, 0, 0⟩) (.gc 2 0 ⟨5, 0, 0⟩ [] []) h10 (.gcYes (i := 0) (l := 2) (c := 0) (e := ⟨5, 0, 0⟩) rfl (by decide)) rfl rfl
    (by simp) (by simp)
  have h12 := other (.gc 2 0 ⟨5, 0, 0⟩ [] []) (.insert 2 0 ⟨5, 0, 0⟩) h11 (.gcEnd (i := 0) (l := 2) (c := 0) (e := ⟨5, 0, 0⟩) (kept := []) rfl) rfl rfl
    (by simp) (by simp)
  have h13 := other (.insert 2 0 ⟨5, 0, 0⟩) (.recv 2 1) h12 (.insert (i := 0) (l := 2) (c := 0) (e := ⟨5, 0, 0⟩) rfl) rfl rfl
    (by simp) (by simp)
  have h14 := receive h13 (.recvSome (i := 0) (l := 2) (c := 1) (e := ⟨7, 1, 0⟩) (rest := []) rfl rfl)
    ⟨2, 1, ⟨7, 1, 0⟩, rfl, rfl⟩
  exact ⟨_, h14⟩

end Sortnet
