import Verif.Proof.PoolLive

/-!
# Examples of fair executions of the thread pool
-/

namespace Sortnet

namespace Pool

/-- One worker with nothing to do. -/
def nextIdle (s : St ℕ) : St ℕ :=
  match s.thread 0 with
  | .drain => s.goto 0 .lockPending
  | .lockPending => { s with holder := some 0 }.goto 0 .limit
  | .limit => s.goto 0 (.recv (s.chan.length * 2) 0) |>.emit (.acquired 0)
  | .recv _ _ => s.goto 0 .pop
  | .pop => { s with holder := none }.goto 0 .wait |>.emit (.idle 0)
  | .wait => s.goto 0 .drain
  | _ => s

/-- From the state `s` on there is nothing to do. -/
def idleFrom (s : St ℕ) : ℕ → St ℕ
  | 0 => s
  | n + 1 => nextIdle (idleFrom s n)

structure IdleInv (s : St ℕ) : Prop where
  run : s.runQueue = []
  chan : s.chan = []
  queue : s.queue = []
  client : ∀ i, i ≠ 0 → s.thread i = .client
  worker : (s.thread 0 = .drain ∨ s.thread 0 = .wait ∨ s.thread 0 = .lockPending) ∧ s.holder = none ∨
    s.thread 0 = .limit ∨ (∃ l c, s.thread 0 = .recv l c) ∨ s.thread 0 = .pop

theorem idleInv_next {s : St ℕ} (h : IdleInv s) : IdleInv (nextIdle s) := by
  obtain ⟨h1, h2, h3, h4, h6⟩ := h
  rcases h6 with ⟨h | h | h, hh⟩ | h | ⟨l, c, h⟩ | h
  all_goals
    constructor
    all_goals simp only [nextIdle, h]
    all_goals simp +contextual [St.goto, St.emit, *]

theorem idleInv {s : St ℕ} (h : IdleInv s) (n : ℕ) : IdleInv (idleFrom s n) := by
  induction n with
  | zero => exact h
  | succ n ih => exact idleInv_next ih

theorem idle_step {s : St ℕ} (h : IdleInv s) : Step s (nextIdle s) := by
  obtain ⟨h1, h2, h3, h4, h6⟩ := h
  rcases h6 with ⟨h | h | h, hh⟩ | h | ⟨l, c, h⟩ | h
  · simp only [nextIdle, h]; exact .drainEmpty h h1
  · simp only [nextIdle, h]; exact .waitTimeout h
  · simp only [nextIdle, h]; exact .lockPending h hh
  · simp only [nextIdle, h]; exact .limit h
  · simp only [nextIdle, h]; exact .recvNone h h2
  · simp only [nextIdle, h]; exact .popNone h h3

theorem idle_moves {s : St ℕ} (h : IdleInv s) : (nextIdle s).thread 0 ≠ s.thread 0 := by
  obtain ⟨h1, h2, h3, h4, h6⟩ := h
  rcases h6 with ⟨h | h | h, hh⟩ | h | ⟨l, c, h⟩ | h <;> simp [nextIdle, h, St.goto, St.emit]

/-- First the states of a list, and then there is nothing to do. -/
def execOf : List (St ℕ) → St ℕ → ℕ → St ℕ
  | [], s, n => idleFrom s n
  | x :: _, _, 0 => x
  | _ :: l, s, n + 1 => execOf l s n

theorem execOf_add (l : List (St ℕ)) (s : St ℕ) (n : ℕ) : execOf l s (l.length + n) = idleFrom s n := by
  induction l with
  | nil => simp [execOf]
  | cons x l ih =>
    rw [show (x :: l).length + n = (l.length + n) + 1 by simp; omega]
    exact ih

theorem execOf_fair {l : List (St ℕ)} {s : St ℕ} (h : IdleInv s) : Fair (execOf l s) := by
  intro i hi
  by_cases h0 : i = 0
  · subst h0
    intro n
    refine ⟨l.length + n, by omega, ?_⟩
    rw [show l.length + n + 1 = l.length + (n + 1) by omega, execOf_add, execOf_add]
    exact idle_moves (idleInv h n)
  · obtain ⟨m, hm, -, hne⟩ := hi l.length
    obtain ⟨d, rfl⟩ := Nat.exists_eq_add_of_le hm
    rw [execOf_add] at hne
    exact absurd ((idleInv h d).client i h0) hne

theorem execOf_fairRun {l : List (St ℕ)} {s : St ℕ} (h : IdleInv s) : FairRun (execOf l s) := by
  intro w n hn
  have := (hn (l.length + n) (by omega)).2
  rw [execOf_add] at this
  exact absurd (idleInv h n).run this

theorem execOf_exec {l : List (St ℕ)} {s : St ℕ} (h : IdleInv s) (hl : List.IsChain Step (l ++ [s]))
    (h0 : (l ++ [s]).head? = some (init 1)) : Exec 1 (execOf l s) := by
  refine ⟨?_, fun n => Or.inr ?_⟩
  · cases l with
    | nil => exact Option.some.inj h0
    | cons x l => exact Option.some.inj h0
  · clear h0
    induction l generalizing n with
    | nil => exact idle_step (idleInv h n)
    | cons x l ih =>
      cases n with
      | zero =>
        cases l with
        | nil => exact (List.isChain_cons_cons.1 hl).1
        | cons y l => exact (List.isChain_cons_cons.1 hl).1
      | succ n =>
        refine ih ?_ n
        cases l with
        | nil => simp
        | cons y l => exact (List.isChain_cons_cons.1 hl).2

theorem exited_step {s s' : St ℕ} (hs : Step s s') {i : ℕ} (h : s.thread i = .exited) : s'.thread i = .exited := by
  cases hs
  all_goals try dsimp only [St.goto, St.emit, St.setSlot, St.dropTo] at *
  all_goals grind

theorem exists_chain {a s : St ℕ} (h : Relation.ReflTransGen Step a s) :
    ∃ l, List.IsChain Step (l ++ [s]) ∧ (l ++ [s]).head? = some a := by
  induction h using Relation.ReflTransGen.head_induction_on with
  | refl => exact ⟨[], by simp, rfl⟩
  | @head a c hs _ ih =>
    obtain ⟨l, h1, h2⟩ := ih
    refine ⟨a :: l, ?_, rfl⟩
    cases hl : l ++ [s] with
    | nil => simp at hl
    | cons x r =>
      rw [hl] at h1 h2
      cases h2
      rw [List.cons_append, hl]
      exact List.isChain_cons_cons.2 ⟨hs, h1⟩

theorem idle_countP {s : St ℕ} (h : IdleInv s) (p : Event ℕ → Bool) (h1 : p (.acquired 0) = false) (h2 : p (.idle 0) = false)
    (n : ℕ) : (idleFrom s n).log.countP p = s.log.countP p := by
  induction n with
  | zero => rfl
  | succ n ih =>
    rw [← ih]
    obtain ⟨-, -, -, -, h6⟩ := idleInv h n
    rcases h6 with ⟨h | h | h, hh⟩ | h | ⟨l, c, h⟩ | h <;>
      simp [idleFrom, nextIdle, h, St.goto, St.emit, h1, h2]

/-- Every state without anything to do is reached by a fair execution in which the worker does not end. -/
theorem exists_exec {s : St ℕ} (hs : Reachable 1 s) (h : IdleInv s) : ∃ f, Exec 1 f ∧ Fair f ∧ FairRun f ∧
    (∀ n, (f n).thread 0 ≠ .exited) ∧ (∃ n, ∀ m, f (n + m) = idleFrom s m) := by
  obtain ⟨l, h1, h2⟩ := exists_chain hs
  have he := execOf_exec h h1 h2
  refine ⟨execOf l s, he, execOf_fair h, execOf_fairRun h, fun n hn => ?_, l.length, execOf_add l s⟩
  have : ∀ d, (execOf l s (n + d)).thread 0 = .exited := fun d => by
    induction d with
    | zero => exact hn
    | succ d ih =>
      rcases he.step (n + d) with e | e
      · rw [← Nat.add_assoc, e]
        exact ih
      · exact exited_step e ih
  have h0 := this l.length
  rw [Nat.add_comm, execOf_add] at h0
  obtain ⟨-, -, -, -, h6⟩ := idleInv h n
  rcases h6 with ⟨h | h | h, hh⟩ | h | ⟨l, c, h⟩ | h <;> rw [h] at h0 <;> cases h0

/-- An execution without any task. -/
def idleExec : ℕ → St ℕ := execOf [] (init 1)

theorem idleInv_init : IdleInv (init 1) := by
  constructor <;> simp [init]

end Pool

end Sortnet
