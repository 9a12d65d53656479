import Verif.Proof.PoolLog

/-!
# C47: the pending queue is drained in order
-/

namespace Sortnet

open Pool

/-- C47.  For every number of workers and every interleaving: when a worker starts a task from the pending queue, then of the
entries that were added before the worker has locked the queue all those with a smaller priority, or the same priority and a
smaller number, belong to tasks that were started or dropped; a worker that finds nothing to do leaves no entry of another
kind behind; and the clean-up only drops entries whose task was started or dropped.  See `InOrder`. -/
theorem C47_order {Prio : Type} [LinearOrder Prio] {workers : ℕ} {s : St Prio} (h : Reachable workers s) :
    Always InOrder s.log :=
  inOrder h

/-- No entry is lost: an entry that was added is waiting in the channel or in the queue, unless its task was started or
dropped, or the worker that has locked the queue is just dealing with it. -/
theorem C47_kept {Prio : Type} [LinearOrder Prio] {workers : ℕ} {s : St Prio} (h : Reachable workers s) {e : Entry Prio}
    (he : .added e ∈ s.log) : e ∈ s.chan ∨ e ∈ s.queue ∨ Gone e s.log ∨ ∃ w, s.holder = some w ∧ e ∈ held (s.thread w) := by
  rcases lossInv h e he with h' | h' | ⟨w, h'⟩ | h'
  · exact Or.inl h'
  · exact Or.inr (Or.inl h')
  · exact Or.inr (Or.inr (Or.inr ⟨w, (holderInv h w).1 (inLock_of_held h'), h'⟩))
  · exact Or.inr (Or.inr (Or.inl h'))

/-- A task counts as dropped exactly if it was created and there is no reference to it any more; then `upgrade` fails. -/
theorem C47_dropped {Prio : Type} [LinearOrder Prio] {workers : ℕ} {s : St Prio} (h : Reachable workers s) {t : ℕ} :
    .dropped t ∈ s.log ↔ .spawned t ∈ s.log ∧ ¬ s.Alive t := by
  have hb := baseInv h
  unfold St.Alive
  rw [← hb.spawned]
  constructor
  · intro hd
    have := hb.dropped t hd
    have := (hb.dead t this).2 hd
    exact ⟨‹_›, by omega⟩
  · rintro ⟨h1, h2⟩
    exact (hb.dead t h1).1 (by omega)

/-- A task does not count as dropped before all `Schedule` objects of it are dropped: the one `spawn_delayed` has returned and
all clones. -/
theorem C47_dropped_refs {Prio : Type} [LinearOrder Prio] {workers : ℕ} {s : St Prio} (h : Reachable workers s) {t : ℕ}
    (hd : .dropped t ∈ s.log) : s.log.countP (isUnref t) = s.log.countP (isRef t) := by
  have h1 := count_refs h t
  have h2 := ((baseInv h).dead t ((baseInv h).dropped t hd)).2 hd
  omega

/-- Nothing is leaked: a task that was created counts as dropped as soon as all `Schedule` objects of it are dropped and no
worker is just dealing with it (that is, the only strong references are those of the `Schedule` objects and the one a worker
takes for the time in which it looks at the task or calls its `schedule`). -/
theorem C47_no_leak {Prio : Type} [LinearOrder Prio] {workers : ℕ} {s : St Prio} (h : Reachable workers s) {t : ℕ} :
    .dropped t ∈ s.log ↔ .spawned t ∈ s.log ∧ s.log.countP (isUnref t) = s.log.countP (isRef t) ∧
      ∀ w, strong (s.thread w) ≠ some t := by
  have h1 := count_refs h t
  have h2 := count_temp h t
  have h3 : (∀ w, strong (s.thread w) ≠ some t) ↔ (s.slot t).temp = 0 := by
    rw [h2]
    constructor
    · intro hw
      rw [if_neg]
      unfold cur
      cases s.holder with
      | none => simp
      | some w => exact hw w
    · intro h0 w hw
      rw [(holderInv h w).1 (inLock_of_strong (by rw [hw])), cur_some, hw, if_pos rfl] at h0
      omega
  rw [C47_dropped h, h3]
  unfold St.Alive
  constructor
  · rintro ⟨h4, h5⟩
    exact ⟨h4, by omega, by omega⟩
  · rintro ⟨h4, h5, h6⟩
    exact ⟨h4, by omega⟩

/-- For example the worker 0 starts the task 1, which has the smaller priority although it was added last, and cleans up the
queue before. -/
theorem C47_example : ∃ s : St ℕ, Reachable 1 s ∧
    s.log = [.started 1 (some (0, ⟨3, 1, 1⟩)), .acquired 0, .added ⟨3, 1, 1⟩, .added ⟨5, 0, 0⟩, .spawned 1, .spawned 0] := by
  have h0 : Reachable 1 (init 1 : St ℕ) := .refl
  have h1 := h0.tail (.spawn (i := 1) rfl)
  have h2 := h1.tail (.spawn (i := 1) rfl)
  have h3 := h2.tail (.addPending (i := 1) 5 0 rfl (by decide))
  have h4 := h3.tail (.sendPending (i := 1) (e := ⟨5, 0, 0⟩) rfl)
  have h5 := h4.tail (.addPending (i := 1) 3 1 rfl (by decide))
  have h6 := h5.tail (.sendPending (i := 1) (e := ⟨3, 1, 1⟩) rfl)
  have h7 := h6.tail (.drainEmpty (i := 0) rfl rfl)
  have h8 := h7.tail (.lockPending (i := 0) rfl rfl)
  have h9 := h8.tail (.limit (i := 0) rfl)
  have h10 := h9.tail (.recvSome (i := 0) (l := 4) (c := 0) (e := ⟨5, 0, 0⟩) (rest := [⟨3, 1, 1⟩]) rfl rfl)
  have h11 := h10.tail (.gcYes (i := 0) (l := 4) (c := 0) (e := ⟨5, 0, 0⟩) rfl (by decide))
  have h12 := h11.tail (.gcEnd (i := 0) (l := 4) (c := 0) (e := ⟨5, 0, 0⟩) (kept := []) rfl)
  have h13 := h12.tail (.insert (i := 0) (l := 4) (c := 0) (e := ⟨5, 0, 0⟩) rfl)
  have h14 := h13.tail (.recvSome (i := 0) (l := 4) (c := 1) (e := ⟨3, 1, 1⟩) (rest := []) rfl rfl)
  have h15 := h14.tail (.gcNo (i := 0) (l := 4) (c := 1) (e := ⟨3, 1, 1⟩) rfl (by decide))
  have h16 := h15.tail (.insert (i := 0) (l := 4) (c := 1) (e := ⟨3, 1, 1⟩) rfl)
  have h17 := h16.tail (.recvNone (i := 0) (l := 4) (c := 2) rfl rfl)
  have h18 := h17.tail (.popSome (i := 0) (e := ⟨3, 1, 1⟩) (rest := [⟨5, 0, 0⟩]) rfl rfl)
  have h19 := h18.tail (.upgradeSome (i := 0) (e := ⟨3, 1, 1⟩) rfl Nat.one_pos)
  have h20 := h19.tail (.lock (i := 0) (t := 1) (e := some ⟨3, 1, 1⟩) rfl rfl)
  have h21 := h20.tail (.take (i := 0) (t := 1) (e := some ⟨3, 1, 1⟩) rfl rfl)
  have h22 := h21.tail (.send (i := 0) (t := 1) (e := some ⟨3, 1, 1⟩) rfl)
  exact ⟨_, h22, rfl⟩

/-- For example a task is dropped while the worker holds a reference to it: it counts as dropped when the worker is done. -/
theorem C47_example_leak : ∃ s s' : St ℕ, Reachable 1 s ∧ Reachable 1 s' ∧ strong (s.thread 0) = some 0 ∧
    s.log = [.released 0, .acquired 0, .added ⟨5, 0, 0⟩, .spawned 0] ∧
    s'.log = [.dropped 0, .returned 0 true, .started 0 (some (0, ⟨5, 0, 0⟩)), .released 0, .acquired 0, .added ⟨5, 0, 0⟩, .spawned 0] := by
  have h0 : Reachable 1 (init 1 : St ℕ) := .refl
  have h1 := h0.tail (.spawn (i := 1) rfl)
  have h3 := h1.tail (.addPending (i := 1) 5 0 rfl (by decide))
  have h4 := h3.tail (.sendPending (i := 1) (e := ⟨5, 0, 0⟩) rfl)
  have h7 := h4.tail (.drainEmpty (i := 0) rfl rfl)
  have h8 := h7.tail (.lockPending (i := 0) rfl rfl)
  have h9 := h8.tail (.limit (i := 0) rfl)
  have h14 := h9.tail (.recvSome (i := 0) (l := 2) (c := 0) (e := ⟨5, 0, 0⟩) (rest := []) rfl rfl)
  have h15 := h14.tail (.gcYes (i := 0) (l := 2) (c := 0) (e := ⟨5, 0, 0⟩) rfl (by decide))
  have h15' := h15.tail (.gcEnd (i := 0) (l := 2) (c := 0) (e := ⟨5, 0, 0⟩) (kept := []) rfl)
  have h16 := h15'.tail (.insert (i := 0) (l := 2) (c := 0) (e := ⟨5, 0, 0⟩) rfl)
  have h17 := h16.tail (.recvNone (i := 0) (l := 2) (c := 1) rfl rfl)
  have h18 := h17.tail (.popSome (i := 0) (e := ⟨5, 0, 0⟩) (rest := []) rfl rfl)
  have h19 := h18.tail (.upgradeSome (i := 0) (e := ⟨5, 0, 0⟩) rfl Nat.one_pos)
  have h20 := h19.tail (.dropRef (i := 1) 0 rfl (by decide))
  have h21 := h20.tail (.lock (i := 0) (t := 0) (e := some ⟨5, 0, 0⟩) rfl rfl)
  have h22 := h21.tail (.take (i := 0) (t := 0) (e := some ⟨5, 0, 0⟩) rfl rfl)
  have h23 := h22.tail (.send (i := 0) (t := 0) (e := some ⟨5, 0, 0⟩) rfl)
  have h24 := h23.tail (.returnTrue (i := 0) (t := 0) (e := some ⟨5, 0, 0⟩) rfl)
  have h25 := h24.tail (.release (i := 0) (t := 0) (b := true) rfl)
  exact ⟨_, _, h20, h25, rfl, rfl, rfl⟩

end Sortnet
