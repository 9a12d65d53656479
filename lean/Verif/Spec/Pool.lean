import Mathlib.Data.Prod.Lex

/-!
# Specification: histories of a thread pool

A history is the list of what happened, newest first.  Nothing here refers to the code.
-/

namespace Sortnet

namespace Pool

/-- An entry of the pending queue: a task with its priority, and a number that tells entries with the same priority
apart. -/
structure Entry (Prio : Type) where
  prio : Prio
  id : ℕ
  task : ℕ
deriving DecidableEq

/-- Entries are ordered by priority, and by number if the priorities are the same. -/
def Entry.key {Prio : Type} (e : Entry Prio) : Prio ×ₗ ℕ := toLex (e.prio, e.id)

/-- What happened. -/
inductive Event (Prio : Type) where
  /-- `spawn_delayed` returned the task `t`. -/
  | spawned (t : ℕ)
  /-- A `Schedule` object of the task `t` was cloned. -/
  | cloned (t : ℕ)
  /-- A `Schedule` object of the task `t` is dropped. -/
  | released (t : ℕ)
  /-- The last reference to the task `t` was dropped. -/
  | dropped (t : ℕ)
  /-- A call of `schedule` sent the task `t` to the queue of runnable tasks.  The call was made by a worker for an entry of
  the pending queue, or by somebody else (`none`). -/
  | started (t : ℕ) (by' : Option (ℕ × Entry Prio))
  /-- The waker of the task `t` sent it to the queue of runnable tasks again. -/
  | woken (t : ℕ)
  /-- A call of `schedule` returned `b`. -/
  | returned (t : ℕ) (b : Bool)
  /-- A call of `is_scheduled` returned `b`. -/
  | observed (t : ℕ) (b : Bool)
  /-- `add_pending` added an entry. -/
  | added (e : Entry Prio)
  /-- The worker `w` has locked the pending queue. -/
  | acquired (w : ℕ)
  /-- The clean-up dropped an entry. -/
  | collected (e : Entry Prio)
  /-- The worker `w` found nothing to do in the pending queue. -/
  | idle (w : ℕ)
  /-- The worker `w` unlocks the pending queue to run tasks. -/
  | unlocked (w : ℕ)
  /-- The worker `w` took the task `t` from the queue of runnable tasks and runs it. -/
  | ran (w : ℕ) (t : ℕ)

variable {Prio : Type}

/-- `P x past` holds for every event `x` of the history, where `past` is what happened before it. -/
def Always (P : Event Prio → List (Event Prio) → Prop) : List (Event Prio) → Prop
  | [] => True
  | x :: past => P x past ∧ Always P past

/-- The task was sent to the queue of runnable tasks. -/
def Started (t : ℕ) (past : List (Event Prio)) : Prop := ∃ b, .started t b ∈ past

/-- A call of `schedule` has returned. -/
def Returned (t : ℕ) (past : List (Event Prio)) : Prop := ∃ b, .returned t b ∈ past

/-- The event is that there is one more `Schedule` object of the task `t`. -/
def isRef (t : ℕ) : Event Prio → Bool
  | .spawned t' => t' == t
  | .cloned t' => t' == t
  | _ => false

/-- The event is that a `Schedule` object of the task `t` is dropped. -/
def isUnref (t : ℕ) : Event Prio → Bool
  | .released t' => t' == t
  | _ => false

/-- The event is that the task `t` was started. -/
def isStart (t : ℕ) : Event Prio → Bool
  | .started t' _ => t' == t
  | _ => false

/-- The event is that the task `t` was woken. -/
def isWake (t : ℕ) : Event Prio → Bool
  | .woken t' => t' == t
  | _ => false

/-- The event is that the task `t` was run. -/
def isRun (t : ℕ) : Event Prio → Bool
  | .ran _ t' => t' == t
  | _ => false

/-- The event is that a task was created. -/
def isSpawn : Event Prio → Bool
  | .spawned _ => true
  | _ => false

/-- The event is that some task was woken. -/
def isAnyWake : Event Prio → Bool
  | .woken _ => true
  | _ => false

/-- The event is that a call of `schedule` for the task `t` returned `true`. -/
def isTrue (t : ℕ) : Event Prio → Bool
  | .returned t' b => t' == t && b
  | _ => false

/-- The task of an entry is started or dropped. -/
def Gone (e : Entry Prio) (past : List (Event Prio)) : Prop := Started e.task past ∨ .dropped e.task ∈ past

/-- The entry was added before the worker `w` has locked the pending queue for the last time. -/
def AddedBefore (w : ℕ) (e : Entry Prio) (past : List (Event Prio)) : Prop :=
  ∃ l₁ l₂, past = l₁ ++ .acquired w :: l₂ ∧ .acquired w ∉ l₁ ∧ .added e ∈ l₂

/-- The worker `w` has started a task from the pending queue since it has locked it for the last time. -/
def StartedOne (w : ℕ) (past : List (Event Prio)) : Prop :=
  ∃ l₁ l₂ t e, past = l₁ ++ .acquired w :: l₂ ∧ .acquired w ∉ l₁ ∧ .started t (some (w, e)) ∈ l₁

/-- Tasks are started once, by the first call of `schedule` that returns, which returns `true`, and `is_scheduled` reports
it. -/
def StartsOnce : Event Prio → List (Event Prio) → Prop
  | .spawned t, past => .spawned t ∉ past
  | .started t _, past => .spawned t ∈ past ∧ ¬ Started t past
  | .returned t b, past => Started t past ∧ (b = true ↔ ¬ Returned t past)
  | .observed t b, past => b = true ↔ Started t past
  | .woken t, past => Started t past
  | .ran _ t, past => Started t past
  | _, _ => True

/-- Entries are taken from the pending queue in order, and only those are dropped that are not needed. -/
def InOrder [LinearOrder Prio] : Event Prio → List (Event Prio) → Prop
  | .added e, past => .spawned e.task ∈ past ∧ ∀ e', .added e' ∈ past → e'.id ≠ e.id
  | .started t (some (w, e)), past => e.task = t ∧ .added e ∈ past ∧
      ∀ e', AddedBefore w e' past → e'.key < e.key → Gone e' past
  | .unlocked w, past => StartedOne w past
  | .idle w, past => ∀ e, AddedBefore w e past → Gone e past
  | .collected e, past => Gone e past
  | _, _ => True

end Pool

end Sortnet
