import Verif.Proof.PoolLive

/-!
# The workers of the thread pool do the work
-/

namespace Sortnet

namespace Pool

variable {Prio : Type}

/-- Where a worker can be. -/
def atWork (pc : PC Prio) : Prop :=
  inLock pc = true ∨ pc = .drain ∨ pc = .lockPending ∨ pc = .wait ∨ pc = .exited

theorem atWork_afterCall {t : ℕ} {b : Bool} {e : Entry Prio} : atWork (afterCall t b (some e)) := Or.inl rfl

theorem worker_atWork [LinearOrder Prio] {workers : ℕ} {s : St Prio} (h : Reachable workers s) {i : ℕ} (hi : i < workers) :
    atWork (s.thread i) := by
  induction h with
  | refl => simp [init, hi, atWork]
  | @tail s s' hr hs ih =>
    clear hr
    cases hs
    all_goals try dsimp only [St.goto, St.emit, St.setSlot, St.dropTo] at *
    all_goals try exact ih
    case returnTrue j t e h =>
      by_cases hj : i = j
      · subst hj
        cases e with
        | none => rw [h] at ih; simp [atWork, inLock] at ih
        | some e => rw [Function.update_self]; exact atWork_afterCall
      · rw [Function.update_of_ne hj]; exact ih
    case returnFalse j t e h =>
      by_cases hj : i = j
      · subst hj
        cases e with
        | none => rw [h] at ih; simp [atWork, inLock] at ih
        | some e => rw [Function.update_self]; exact atWork_afterCall
      · rw [Function.update_of_ne hj]; exact ih
    all_goals grind [atWork, inLock]

theorem self_ne_cons {α : Type} {l : List α} {x : α} : l ≠ x :: l := fun e => by
  have := congrArg List.length e
  simp at this

theorem cons_cons_ne_cons {α : Type} {l : List α} {x y z : α} : x :: y :: l ≠ z :: l := fun e => by
  have := congrArg List.length e
  simp at this

/-- The first task of the queue is run, or tasks are added at the end. -/
theorem runQueue_step [LinearOrder Prio] {s s' : St Prio} (hs : Step s s') {t : ℕ} {rest : List ℕ}
    (h : s.runQueue = t :: rest) :
    (∃ w, s'.log = .ran w t :: s.log ∧ s'.runQueue = rest) ∨
      (∃ r, s'.runQueue = t :: rest ++ r) ∧ ∀ w u, s'.log ≠ .ran w u :: s.log := by
  cases hs
  all_goals try dsimp only [St.goto, St.emit, St.setSlot, St.dropTo] at *
  case drainRun w t' rest' _ hq =>
    rw [h] at hq
    cases hq
    exact Or.inl ⟨w, rfl, rfl⟩
  case waitRun w t' rest' _ hq =>
    rw [h] at hq
    cases hq
    exact Or.inl ⟨w, rfl, rfl⟩
  all_goals
    refine Or.inr ⟨?_, fun w u => ?_⟩
    · first
      | exact ⟨[], h.trans (List.append_nil _).symm⟩
      | exact ⟨[_], congrArg (· ++ [_]) h⟩
    · first
      | exact self_ne_cons
      | (split <;> first | exact self_ne_cons | exact cons_cons_ne_cons | (intro e; cases e; done))
      | (intro e; cases e; done)

theorem drain_step [LinearOrder Prio] {s s' : St Prio} (hs : Step s s') {i : ℕ} (h : s.thread i = .drain)
    (hq : s.runQueue ≠ []) : s'.thread i = .drain := by
  cases hs
  all_goals try dsimp only [St.goto, St.emit, St.setSlot, St.dropTo] at *
  all_goals grind

theorem wait_step [LinearOrder Prio] {s s' : St Prio} (hs : Step s s') {i : ℕ} (h : s.thread i = .wait) :
    s'.thread i = .wait ∨ s'.thread i = .drain ∨ s'.thread i = .exited := by
  cases hs
  all_goals try dsimp only [St.goto, St.emit, St.setSlot, St.dropTo] at *
  all_goals grind

/-- How a worker unlocks the pending queue. -/
theorem unlock_step [LinearOrder Prio] {s s' : St Prio} (hh : HolderInv s) (hs : Step s s') {w : ℕ} (h : s.holder = some w)
    (h' : ¬ s'.holder = some w) : s.thread w = .unlock ∧ s'.thread w = .drain ∨
      s'.thread w = .wait ∧ s'.log = .idle w :: s.log := by
  have hw : ∀ i, inLock (s.thread i) = true → i = w := fun i hi => by
    have := (hh i).1 hi
    rw [h] at this
    exact (Option.some.inj this).symm
  cases hs
  all_goals try dsimp only [St.goto, St.emit, St.setSlot, St.dropTo] at *
  all_goals try exact absurd h h'
  all_goals grind [inLock]

/-- The moment at which `P` ceases to hold. -/
theorem last_time [LinearOrder Prio] {workers : ℕ} {f : ℕ → St Prio} (h : Exec workers f) {P : St Prio → Prop} {n m : ℕ}
    (hm : n ≤ m) (h1 : P (f n)) (h2 : ¬ P (f m)) :
    ∃ k, n ≤ k ∧ k < m ∧ (∀ j, n ≤ j → j ≤ k → P (f j)) ∧ ¬ P (f (k + 1)) ∧ Step (f k) (f (k + 1)) := by
  obtain ⟨d, rfl⟩ := Nat.exists_eq_add_of_le hm
  clear hm
  induction d generalizing n with
  | zero => exact absurd h1 h2
  | succ d ih =>
    by_cases hd : P (f (n + 1))
    · obtain ⟨k, k1, k2, k3, k4⟩ := ih hd (by rw [show n + 1 + d = n + (d + 1) by omega]; exact h2)
      refine ⟨k, by omega, by omega, fun j j1 j2 => ?_, k4⟩
      by_cases hj : j = n
      · rw [hj]
        exact h1
      · exact k3 j (by omega) j2
    · refine ⟨n, le_rfl, by omega, fun j j1 j2 => ?_, hd, ?_⟩
      · rw [show j = n by omega]
        exact h1
      · rcases h.step n with e | e
        · rw [e] at hd
          exact absurd h1 hd
        · exact e

section

variable [LinearOrder Prio] {workers : ℕ} {f : ℕ → St Prio} (h : Exec workers f) (hf : Fair f) {w : ℕ} (hw : w < workers)
  (hx : ∀ n, (f n).thread w ≠ .exited)

include h hf hx in
theorem wait_drain {n : ℕ} (hn : (f n).thread w = .wait) : ∃ m, n ≤ m ∧ (f m).thread w = .drain := by
  obtain ⟨m, hm, hne⟩ := leaves h hf (i := w) (P := fun s => s.thread w = .wait) (fun _ => 0) (· < ·) wellFounded_lt
    (by
      intro s s' _ hs hP
      by_cases hP' : s'.thread w = .wait
      · exact Or.inr (Or.inl ⟨hP'.trans hP.symm, rfl⟩)
      · exact Or.inl hP')
    (by
      intro k hk
      exact ⟨k, le_rfl, ⟨_, .waitTimeout (hk k le_rfl), by simp [St.goto, hk k le_rfl]⟩, by simp [hk k le_rfl]⟩) n
  obtain ⟨k, k1, -, k3, k4, k5⟩ := last_time h (P := fun s => s.thread w = .wait) hm hn hne
  rcases wait_step k5 (k3 k k1 le_rfl) with e | e | e
  · exact absurd e k4
  · exact ⟨k + 1, by omega, e⟩
  · exact absurd e (hx _)

include h hf hx in
theorem lock_drain {n : ℕ} (hn : (f n).holder = some w) : ∃ m, n ≤ m ∧ (f m).thread w = .drain := by
  obtain ⟨m, hm, hne⟩ := holder_leaves h hf w n
  obtain ⟨k, k1, -, k3, k4, k5⟩ := last_time h (P := fun s => s.holder = some w) hm hn hne
  rcases unlock_step (holderInv (h.reachable k)) k5 (k3 k k1 le_rfl) k4 with e | e
  · exact ⟨k + 1, by omega, e.2⟩
  · obtain ⟨m', h1, h2⟩ := wait_drain h hf hx e.1
    exact ⟨m', by omega, h2⟩

include h hf hw hx in
/-- A worker comes back to the queue of runnable tasks. -/
theorem to_drain (n : ℕ) : ∃ m, n ≤ m ∧ (f m).thread w = .drain := by
  rcases worker_atWork (h.reachable n) hw with e | e | e | e | e
  · exact lock_drain h hf hx ((holderInv (h.reachable n) w).1 e)
  · exact ⟨n, le_rfl, e⟩
  · obtain ⟨m, hm, h1⟩ := lockPending_leaves h hf e
    obtain ⟨m', h2, h3⟩ := lock_drain h hf hx h1
    exact ⟨m', by omega, h3⟩
  · exact wait_drain h hf hx e
  · exact absurd e (hx n)

/-- The `m`-th step is not that a task is run. -/
theorem runQueue_next {n t : ℕ} {rest : List ℕ} (h : Exec workers f) (hq : (f n).runQueue = t :: rest) :
    (∃ v, Runs f n v t ∧ (f (n + 1)).runQueue = rest) ∨
      (∃ r, (f (n + 1)).runQueue = t :: rest ++ r) ∧ ∀ v u, ¬ Runs f n v u := by
  rcases h.step n with e | e
  · refine Or.inr ⟨⟨[], by rw [e, hq]; simp⟩, fun v u hr => ?_⟩
    unfold Runs at hr
    rw [e] at hr
    exact self_ne_cons hr
  · exact runQueue_step e hq

include h hf hw hx in
/-- The first task in the queue is run; meanwhile others can be added at the end. -/
theorem first_runs (hr : FairRun f) {n t : ℕ} {rest : List ℕ} (hq : (f n).runQueue = t :: rest) :
    ∃ m v r, n ≤ m ∧ Runs f m v t ∧ (f (m + 1)).runQueue = rest ++ r := by
  have key : ∀ d, (∃ m v r, n ≤ m ∧ Runs f m v t ∧ (f (m + 1)).runQueue = rest ++ r) ∨
      (∃ r, (f (n + d)).runQueue = t :: rest ++ r) ∧ ∀ j, n ≤ j → j < n + d → ∀ v u, ¬ Runs f j v u := by
    intro d
    induction d with
    | zero => exact Or.inr ⟨⟨[], by simp [hq]⟩, fun j h1 h2 => by omega⟩
    | succ d ih =>
      rcases ih with ih | ⟨⟨r, ih⟩, ih'⟩
      · exact Or.inl ih
      · rcases runQueue_next h ih with ⟨v, h1, h2⟩ | ⟨⟨r', h1⟩, h2⟩
        · exact Or.inl ⟨n + d, v, r, by omega, h1, h2⟩
        · refine Or.inr ⟨⟨r ++ r', by rw [← Nat.add_assoc, h1]; simp⟩, fun j j1 j2 => ?_⟩
          by_cases hj : j < n + d
          · exact ih' j j1 hj
          · rw [show j = n + d by omega]
            exact h2
  by_contra hcon
  have hall : ∀ d, (∃ r, (f (n + d)).runQueue = t :: rest ++ r) ∧ ∀ j, n ≤ j → j < n + d → ∀ v u, ¬ Runs f j v u := fun d =>
    (key d).resolve_left hcon
  have hne : ∀ m, n ≤ m → (f m).runQueue ≠ [] := fun m hm => by
    obtain ⟨d, rfl⟩ := Nat.exists_eq_add_of_le hm
    obtain ⟨⟨r, e⟩, -⟩ := hall d
    rw [e]
    simp
  obtain ⟨m, hm, hd⟩ := to_drain h hf hw hx n
  have hstay : ∀ k, (f (m + k)).thread w = .drain := by
    intro k
    induction k with
    | zero => exact hd
    | succ k ih =>
      rcases h.step (m + k) with e | e
      · rw [← Nat.add_assoc, e]
        exact ih
      · exact drain_step e ih (hne _ (by omega))
  obtain ⟨m', u, h1, h2⟩ := hr w m (fun m' hm' => by
    obtain ⟨d, rfl⟩ := Nat.exists_eq_add_of_le hm'
    exact ⟨hstay d, hne _ (by omega)⟩)
  obtain ⟨d, rfl⟩ := Nat.exists_eq_add_of_le (le_trans hm h1)
  exact (hall (d + 1)).2 (n + d) (by omega) (by omega) w u h2

include h hf hw hx in
/-- Every task in the queue is run. -/
theorem mem_runs (hr : FairRun f) {n t : ℕ} (ht : t ∈ (f n).runQueue) : ∃ m v, n ≤ m ∧ Runs f m v t := by
  obtain ⟨l, r, e⟩ := List.append_of_mem ht
  clear ht
  induction l generalizing n r with
  | nil =>
    obtain ⟨m, v, r', h1, h2, -⟩ := first_runs h hf hw hx hr e
    exact ⟨m, v, h1, h2⟩
  | cons x l ih =>
    obtain ⟨m, v, r', h1, -, h3⟩ := first_runs h hf hw hx hr e
    obtain ⟨m', v', h4, h5⟩ := ih (n := m + 1) (r := r ++ r') (by rw [h3]; simp)
    exact ⟨m', v', by omega, h5⟩

end

end Pool

end Sortnet
