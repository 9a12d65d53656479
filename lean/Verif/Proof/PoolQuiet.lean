import Verif.Proof.PoolServe
import Mathlib.Data.List.Perm.Subperm

/-!
# When no more tasks are created and woken, nothing is left to do
-/

namespace Sortnet

namespace Pool

variable {Prio : Type}

/-- The event is that some task was started. -/
def isAnyStart : Event Prio → Bool
  | .started _ _ => true
  | _ => false

/-- The tasks that were started. -/
def starts (l : List (Event Prio)) : List ℕ := l.filterMap fun
  | .started t _ => some t
  | _ => none

/-- The tasks that were created. -/
def spawns (l : List (Event Prio)) : List ℕ := l.filterMap fun
  | .spawned t => some t
  | _ => none

theorem length_starts (l : List (Event Prio)) : (starts l).length = l.countP isAnyStart := by
  induction l with
  | nil => rfl
  | cons x l ih => cases x <;> simp_all [starts, isAnyStart, List.countP_cons]

theorem length_spawns (l : List (Event Prio)) : (spawns l).length = l.countP isSpawn := by
  induction l with
  | nil => rfl
  | cons x l ih => cases x <;> simp_all [spawns, isSpawn, List.countP_cons]

theorem mem_starts {l : List (Event Prio)} {t : ℕ} : t ∈ starts l ↔ Started t l := by
  unfold starts Started
  rw [List.mem_filterMap]
  constructor
  · rintro ⟨x, hx, h⟩
    cases x <;> simp at h
    subst h
    exact ⟨_, hx⟩
  · rintro ⟨b, hb⟩
    exact ⟨_, hb, rfl⟩

theorem mem_spawns {l : List (Event Prio)} {t : ℕ} : t ∈ spawns l ↔ .spawned t ∈ l := by
  unfold spawns
  rw [List.mem_filterMap]
  constructor
  · rintro ⟨x, hx, h⟩
    cases x <;> simp at h
    subst h
    exact hx
  · intro hb
    exact ⟨_, hb, rfl⟩

theorem starts_nodup {l : List (Event Prio)} (h : Always StartsOnce l) : (starts l).Nodup ∧ starts l ⊆ spawns l := by
  induction l with
  | nil => simp [starts]
  | cons x l ih =>
    obtain ⟨h1, h2⟩ := ih h.2
    have h3 : spawns l ⊆ spawns (x :: l) := fun t ht => by
      rw [mem_spawns] at *
      exact List.mem_cons_of_mem _ ht
    cases x with
    | started t b =>
      have hc : starts (.started t b :: l) = t :: starts l := by simp [starts]
      rw [hc]
      refine ⟨List.nodup_cons.2 ⟨fun hm => h.1.2 (mem_starts.1 hm), h1⟩, ?_⟩
      intro u hu
      rcases List.mem_cons.1 hu with rfl | hu
      · exact h3 (mem_spawns.2 h.1.1)
      · exact h3 (h2 hu)
    | _ => exact ⟨by simpa [starts] using h1, fun u hu => h3 (h2 (by simpa [starts] using hu))⟩

/-- At most as many tasks are started as are created. -/
theorem countP_start_le {l : List (Event Prio)} (h : Always StartsOnce l) : l.countP isAnyStart ≤ l.countP isSpawn := by
  rw [← length_starts, ← length_spawns]
  obtain ⟨h1, h2⟩ := starts_nodup h
  exact (List.subperm_of_subset h1 h2).length_le

/-- A number that does not decrease and is bounded does not change any more from some time on. -/
theorem eventually_const {g : ℕ → ℕ} (hg : ∀ n, g n ≤ g (n + 1)) {B : ℕ} (hB : ∀ n, g n ≤ B) :
    ∃ K, ∀ k, K ≤ k → g k = g K := by
  have hmono : ∀ n d, g n ≤ g (n + d) := fun n d => by
    induction d with
    | zero => exact le_rfl
    | succ d ih => exact le_trans ih (hg _)
  by_contra hcon
  push Not at hcon
  have : ∀ c, ∃ k, c ≤ g k := fun c => by
    induction c with
    | zero => exact ⟨0, Nat.zero_le _⟩
    | succ c ih =>
      obtain ⟨k, hk⟩ := ih
      obtain ⟨k', h1, h2⟩ := hcon k
      obtain ⟨d, rfl⟩ := Nat.exists_eq_add_of_le h1
      have := hmono k d
      exact ⟨k + d, by omega⟩
  obtain ⟨k, hk⟩ := this (B + 1)
  have := hB k
  omega

/-- What a step does to the history. -/
theorem log_step [LinearOrder Prio] {s s' : St Prio} (hs : Step s s') : ∃ l, s'.log = l ++ s.log := by
  cases hs
  all_goals try dsimp only [St.goto, St.emit, St.setSlot, St.dropTo] at *
  all_goals try split
  all_goals first
    | exact ⟨[], rfl⟩
    | exact ⟨[_], rfl⟩
    | exact ⟨[_, _], rfl⟩

theorem Exec.log_next [LinearOrder Prio] {workers : ℕ} {f : ℕ → St Prio} (h : Exec workers f) (n : ℕ) :
    ∃ l, (f (n + 1)).log = l ++ (f n).log := by
  rcases h.step n with e | e
  · exact ⟨[], by rw [e]; rfl⟩
  · exact log_step e

theorem Exec.mem_log [LinearOrder Prio] {workers : ℕ} {f : ℕ → St Prio} (h : Exec workers f) {n m : ℕ} (hm : n ≤ m)
    {x : Event Prio} (hx : x ∈ (f n).log) : x ∈ (f m).log := by
  obtain ⟨d, rfl⟩ := Nat.exists_eq_add_of_le hm
  clear hm
  induction d with
  | zero => exact hx
  | succ d ih =>
    obtain ⟨l, e⟩ := h.log_next (n + d)
    rw [← Nat.add_assoc, e]
    exact List.mem_append_right _ ih

/-- Without tasks being started or woken nothing is added to the queue. -/
theorem runQueue_quiet [LinearOrder Prio] {s s' : St Prio} (hs : Step s s')
    (h1 : s'.log.countP isAnyStart = s.log.countP isAnyStart) (h2 : s'.log.countP isAnyWake = s.log.countP isAnyWake) :
    s'.runQueue = s.runQueue ∨ ∃ w t, s.runQueue = t :: s'.runQueue ∧ s'.log = .ran w t :: s.log := by
  cases hs
  all_goals try dsimp only [St.goto, St.emit, St.setSlot, St.dropTo] at *
  all_goals try exact Or.inl rfl
  case wake => simp [List.countP_cons, isAnyWake] at h2
  case send => simp [List.countP_cons, isAnyStart] at h1
  case drainRun w t rest h hq => exact Or.inr ⟨w, t, hq, rfl⟩
  case waitRun w t rest h hq => exact Or.inr ⟨w, t, hq, rfl⟩

/-- A worker has started a task in this pass through the pending queue. -/
def done : PC Prio → Bool
  | .call _ .sent _ => true
  | .release _ b => b
  | .unlock => true
  | _ => false

theorem done_afterCall {t : ℕ} {b : Bool} {e : Option (Entry Prio)} (h : b = false) : done (afterCall t b e) = false := by
  subst h
  cases e <;> rfl

theorem done_quiet [LinearOrder Prio] {s s' : St Prio} (hs : Step s s')
    (h1 : s'.log.countP isAnyStart = s.log.countP isAnyStart) {w : ℕ} (hw : done (s.thread w) = false) :
    done (s'.thread w) = false := by
  cases hs
  all_goals try dsimp only [St.goto, St.emit, St.setSlot, St.dropTo] at *
  all_goals try exact hw
  case send => simp [List.countP_cons, isAnyStart] at h1
  case returnTrue i t e hi =>
    by_cases hj : w = i
    · subst hj
      rw [hi] at hw
      simp [done] at hw
    · rw [Function.update_of_ne hj]; exact hw
  case returnFalse i t e hi =>
    by_cases hj : w = i
    · subst hj
      rw [Function.update_self]
      exact done_afterCall rfl
    · rw [Function.update_of_ne hj]; exact hw
  all_goals grind [done]

theorem AddedBefore.cons {w : ℕ} {e : Entry Prio} {past : List (Event Prio)} (x : Event Prio) (h : AddedBefore w e past) :
    AddedBefore w e (x :: past) := by
  obtain ⟨l₁, l₂, rfl, h1, h2⟩ := h
  by_cases hx : x = .acquired w
  · subst hx
    exact ⟨[], _, rfl, by simp, by simp [h2]⟩
  · refine ⟨x :: l₁, l₂, rfl, ?_, h2⟩
    rintro h
    rcases List.mem_cons.1 h with h | h
    · exact hx h.symm
    · exact h1 h

theorem AddedBefore.append {w : ℕ} {e : Entry Prio} {past : List (Event Prio)} (l : List (Event Prio))
    (h : AddedBefore w e past) : AddedBefore w e (l ++ past) := by
  induction l with
  | nil => exact h
  | cons x l ih => exact ih.cons x

/-- A worker that will lock the pending queue, or has done so after the entry was added. -/
def Sees (w : ℕ) (e : Entry Prio) (s : St Prio) : Prop :=
  s.thread w = .drain ∨ s.thread w = .lockPending ∨ s.thread w = .limit ∨ AddedBefore w e s.log

theorem sees_step [LinearOrder Prio] {s s' : St Prio} (hs : Step s s') {w : ℕ} {e : Entry Prio} (he : .added e ∈ s.log)
    (h : Sees w e s) : Sees w e s' := by
  by_cases hb : AddedBefore w e s.log
  · obtain ⟨l, hl⟩ := log_step hs
    exact Or.inr (Or.inr (Or.inr (hl ▸ hb.append l)))
  have h' : s.thread w = .drain ∨ s.thread w = .lockPending ∨ s.thread w = .limit := by
    rcases h with h | h | h | h
    · exact Or.inl h
    · exact Or.inr (Or.inl h)
    · exact Or.inr (Or.inr h)
    · exact absurd h hb
  clear h hb
  unfold Sees
  cases hs
  case limit i hi =>
    by_cases hj : w = i
    · subst hj
      exact Or.inr (Or.inr (Or.inr ⟨[], _, rfl, by simp, he⟩))
    · dsimp only [St.goto, St.emit]
      rw [Function.update_of_ne hj]
      tauto
  all_goals try dsimp only [St.goto, St.emit, St.setSlot, St.dropTo] at *
  all_goals grind

theorem drain_lock [LinearOrder Prio] {s s' : St Prio} (hs : Step s s') {i : ℕ} (h : s.thread i = .drain) :
    s'.thread i = .drain ∨ s'.thread i = .lockPending := by
  cases hs
  all_goals try dsimp only [St.goto, St.emit, St.setSlot, St.dropTo] at *
  all_goals grind

theorem ran_ne_nil [LinearOrder Prio] {s s' : St Prio} (hs : Step s s') {w t : ℕ} (h : s'.log = .ran w t :: s.log)
    (hq : s.runQueue = []) : False := by
  cases hs
  case drainRun h' => rw [hq] at h'; simp at h'
  case waitRun h' => rw [hq] at h'; simp at h'
  all_goals try dsimp only [St.goto, St.emit, St.setSlot, St.dropTo] at *
  all_goals revert h
  all_goals first
    | exact self_ne_cons
    | (split <;> first | exact self_ne_cons | exact cons_cons_ne_cons | (intro e; cases e; done))
    | (intro e; cases e; done)

theorem limit_no_idle [LinearOrder Prio] {s s' : St Prio} (hs : Step s s') {w : ℕ} (h : s.thread w = .limit)
    (hl : s'.log = .idle w :: s.log) : False := by
  cases hs
  case popNone i hi _ =>
    dsimp only [St.goto, St.emit] at hl
    cases hl
    rw [h] at hi
    cases hi
  all_goals try dsimp only [St.goto, St.emit, St.setSlot, St.dropTo] at *
  all_goals revert hl
  all_goals first
    | exact self_ne_cons
    | (split <;> first | exact self_ne_cons | exact cons_cons_ne_cons | (intro e; cases e; done))
    | (intro e; cases e; done)

section

variable [LinearOrder Prio] {workers : ℕ} {f : ℕ → St Prio} (h : Exec workers f) (hf : Fair f) {w : ℕ} (hw : w < workers)
  (hx : ∀ n, (f n).thread w ≠ .exited) {B : ℕ}

theorem Exec.countP_mono (h : Exec workers f) (p : Event Prio → Bool) (n : ℕ) :
    (f n).log.countP p ≤ (f (n + 1)).log.countP p := by
  obtain ⟨l, e⟩ := h.log_next n
  rw [e, List.countP_append]
  omega

include h in
/-- From some time on no task is started or woken. -/
theorem quiet (hB : ∀ n, (f n).log.countP isSpawn ≤ B ∧ (f n).log.countP isAnyWake ≤ B) :
    ∃ K, ∀ k, K ≤ k → (f (k + 1)).log.countP isAnyStart = (f k).log.countP isAnyStart ∧
      (f (k + 1)).log.countP isAnyWake = (f k).log.countP isAnyWake := by
  obtain ⟨K₁, h1⟩ := eventually_const (h.countP_mono isAnyStart)
    (fun n => le_trans (countP_start_le (startsOnce (h.reachable n))) (hB n).1)
  obtain ⟨K₂, h2⟩ := eventually_const (h.countP_mono isAnyWake) (fun n => (hB n).2)
  refine ⟨max K₁ K₂, fun k hk => ?_⟩
  have e1 := le_trans (le_max_left _ _) hk
  have e2 := le_trans (le_max_right _ _) hk
  exact ⟨(h1 _ (by omega)).trans (h1 _ e1).symm, (h2 _ (by omega)).trans (h2 _ e2).symm⟩

include h hf hw hx in
/-- From some time on the queue of runnable tasks is empty. -/
theorem drained (hr : FairRun f) {K : ℕ}
    (hK : ∀ k, K ≤ k → (f (k + 1)).log.countP isAnyStart = (f k).log.countP isAnyStart ∧
      (f (k + 1)).log.countP isAnyWake = (f k).log.countP isAnyWake) :
    ∃ K', K ≤ K' ∧ ∀ k, K' ≤ k → (f k).runQueue = [] := by
  have hnext : ∀ k, K ≤ k → (f (k + 1)).runQueue = (f k).runQueue ∨
      ∃ v t, (f k).runQueue = t :: (f (k + 1)).runQueue ∧ Runs f k v t := fun k hk => by
    rcases h.step k with e | e
    · exact Or.inl (by rw [e])
    · exact runQueue_quiet e (hK k hk).1 (hK k hk).2
  have hlen : ∀ k d, K ≤ k → (f (k + d)).runQueue.length ≤ (f k).runQueue.length := fun k d hk => by
    induction d with
    | zero => exact le_rfl
    | succ d ih =>
      rcases hnext (k + d) (by omega) with e | ⟨v, t, e, -⟩
      · rw [← Nat.add_assoc, e]
        exact ih
      · rw [← Nat.add_assoc]
        rw [e] at ih
        simp at ih
        omega
  have key : ∀ c k, K ≤ k → (f k).runQueue.length ≤ c → ∃ m, K ≤ m ∧ (f m).runQueue = [] := by
    intro c
    induction c with
    | zero => exact fun k hk hc => ⟨k, hk, List.length_eq_zero_iff.1 (by omega)⟩
    | succ c ih =>
      intro k hk hc
      cases hq : (f k).runQueue with
      | nil => exact ⟨k, hk, hq⟩
      | cons t rest =>
        obtain ⟨m, v, r, h1, h2, -⟩ := first_runs h hf hw hx hr hq
        refine ih (m + 1) (by omega) ?_
        obtain ⟨d, rfl⟩ := Nat.exists_eq_add_of_le h1
        have hl := hlen k d hk
        rcases hnext (k + d) (by omega) with e | ⟨v', t', e, -⟩
        · exfalso
          cases hq' : (f (k + d)).runQueue with
          | nil =>
            rcases h.step (k + d) with e' | e'
            · unfold Runs at h2
              rw [e'] at h2
              exact self_ne_cons h2
            · exact ran_ne_nil e' h2 hq'
          | cons t' rest' =>
            rcases runQueue_next h hq' with ⟨v', -, h4⟩ | ⟨-, h4⟩
            · rw [e, hq'] at h4
              exact self_ne_cons h4.symm
            · exact h4 v t h2
        · rw [e] at hl
          simp at hl
          omega
  obtain ⟨m, hm, hq⟩ := key _ K le_rfl le_rfl
  refine ⟨m, hm, fun k hk => ?_⟩
  obtain ⟨d, rfl⟩ := Nat.exists_eq_add_of_le hk
  have := hlen m d hm
  rw [hq] at this
  exact List.length_eq_zero_iff.1 (by simpa using this)

include h hf hw hx in
/-- Every entry of the pending queue is dealt with. -/
theorem pending_gone {K : ℕ}
    (hK : ∀ k, K ≤ k → (f (k + 1)).log.countP isAnyStart = (f k).log.countP isAnyStart)
    (hq : ∀ k, K ≤ k → (f k).runQueue = []) {n : ℕ} {e : Entry Prio} (he : .added e ∈ (f n).log) :
    ∃ m, n ≤ m ∧ Gone e (f m).log := by
  obtain ⟨n₀, hn₀, hd⟩ := to_drain h hf hw hx (max n K)
  have hn : n ≤ n₀ := le_trans (le_max_left _ _) hn₀
  have hk : K ≤ n₀ := le_trans (le_max_right _ _) hn₀
  have hdone : ∀ d, done ((f (n₀ + d)).thread w) = false := fun d => by
    induction d with
    | zero => rw [Nat.add_zero, hd]; rfl
    | succ d ih =>
      rcases h.step (n₀ + d) with e | e
      · rw [← Nat.add_assoc, e]; exact ih
      · exact done_quiet e (hK _ (by omega)) ih
  have hsees : ∀ d, Sees w e (f (n₀ + d)) := fun d => by
    induction d with
    | zero => exact Or.inl hd
    | succ d ih =>
      rcases h.step (n₀ + d) with e | e
      · rw [← Nat.add_assoc, e]; exact ih
      · exact sees_step e (h.mem_log (by omega) he) ih
  -- the worker finds that there is no runnable task
  obtain ⟨m₁, hm₁, hne⟩ := leaves h hf (i := w) (P := fun s => s.thread w = .drain) (fun _ => 0) (· < ·) wellFounded_lt
    (by
      intro s s' _ hs hP
      by_cases hP' : s'.thread w = .drain
      · exact Or.inr (Or.inl ⟨hP'.trans hP.symm, rfl⟩)
      · exact Or.inl hP')
    (by
      intro k hk
      refine ⟨max k n₀, le_max_left _ _, ⟨_, .drainEmpty (hk _ (le_max_left _ _)) (hq _ ?_), ?_⟩, ?_⟩
      · exact le_trans ‹K ≤ n₀› (le_max_right _ _)
      · simp [St.goto, hk _ (le_max_left _ _)]
      · simp [hk _ (le_max_left _ _)]) n₀
  obtain ⟨k, k1, -, k3, k4, k5⟩ := last_time h (P := fun s => s.thread w = .drain) hm₁ hd hne
  have hlp : (f (k + 1)).thread w = .lockPending := (drain_lock k5 (k3 k k1 le_rfl)).resolve_left k4
  obtain ⟨m₂, hm₂, hh⟩ := lockPending_leaves h hf hlp
  obtain ⟨m₃, hm₃, hne⟩ := holder_leaves h hf w m₂
  obtain ⟨j, j1, -, j3, j4, j5⟩ := last_time h (P := fun s => s.holder = some w) hm₃ hh hne
  have hj := j3 j j1 le_rfl
  obtain ⟨d, hdj⟩ : ∃ d, j = n₀ + d := ⟨j - n₀, by omega⟩
  rcases unlock_step (holderInv (h.reachable j)) j5 hj j4 with hu | hu
  · have := hdone d
    rw [← hdj, hu.1] at this
    simp [done] at this
  · refine ⟨j, by omega, ?_⟩
    have hal := inOrder (h.reachable (j + 1))
    rw [hu.2] at hal
    refine hal.1 e ?_
    have hin := (holderInv (h.reachable j) w).2 hj
    rcases hdj ▸ hsees d with hs | hs | hs | hs
    · rw [hs] at hin; simp [inLock] at hin
    · rw [hs] at hin; simp [inLock] at hin
    · exact absurd (limit_no_idle j5 hs hu.2) id
    · exact hs

end

end Pool

end Sortnet
