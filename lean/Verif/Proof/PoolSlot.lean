import Verif.Model.Pool
import Mathlib.Tactic.Common

/-!
# The locks of the tasks of the thread pool
-/

namespace Sortnet

namespace Pool

variable {Prio : Type}

/-- The call of `schedule` a thread is in. -/
def callOf : PC Prio → Option (ℕ × Phase)
  | .call t p _ => some (t, p)
  | _ => none

/-- What matters for the locks of the tasks. -/
structure Abs where
  task : ℕ → Bool
  writer : ℕ → Option ℕ
  call : ℕ → Option (ℕ × Phase)
  started : ℕ → Prop
  returned : ℕ → Prop

def abs (s : St Prio) : Abs :=
  { task := fun t => (s.slot t).task, writer := fun t => (s.slot t).writer, call := fun i => callOf (s.thread i),
    started := fun t => Started t s.log, returned := fun t => Returned t s.log }

structure SlotInv (a : Abs) : Prop where
  own : ∀ t i, a.writer t = some i ↔ ∃ p, p ≠ .lock ∧ a.call i = some (t, p)
  free : ∀ t, a.writer t = none → (a.task t = true ↔ ¬ a.started t) ∧ (a.started t ↔ a.returned t)
  locked : ∀ t i, a.call i = some (t, .locked) → (a.task t = true ↔ ¬ a.started t) ∧ (a.started t ↔ a.returned t)
  taken : ∀ t i, a.call i = some (t, .taken) → a.task t = false ∧ ¬ a.started t ∧ ¬ a.returned t
  sent : ∀ t i, a.call i = some (t, .sent) → a.task t = false ∧ a.started t ∧ ¬ a.returned t
  empty : ∀ t i, a.call i = some (t, .empty) → a.task t = false ∧ a.started t ∧ a.returned t

@[simp] theorem started_cons {t : ℕ} {x : Event Prio} {l : List (Event Prio)} :
    Started t (x :: l) ↔ (∃ b, x = .started t b) ∨ Started t l := by
  simp only [Started, List.mem_cons]
  constructor
  · rintro ⟨b, rfl | h⟩
    · exact Or.inl ⟨b, rfl⟩
    · exact Or.inr ⟨b, h⟩
  · rintro (⟨b, rfl⟩ | ⟨b, h⟩)
    · exact ⟨b, Or.inl rfl⟩
    · exact ⟨b, Or.inr h⟩

@[simp] theorem returned_cons {t : ℕ} {x : Event Prio} {l : List (Event Prio)} :
    Returned t (x :: l) ↔ (∃ b, x = .returned t b) ∨ Returned t l := by
  simp only [Returned, List.mem_cons]
  constructor
  · rintro ⟨b, rfl | h⟩
    · exact Or.inl ⟨b, rfl⟩
    · exact Or.inr ⟨b, h⟩
  · rintro (⟨b, rfl⟩ | ⟨b, h⟩)
    · exact ⟨b, Or.inl rfl⟩
    · exact ⟨b, Or.inr h⟩

theorem slotInv_init (workers : ℕ) : SlotInv (abs (init workers : St Prio)) := by
  have h : ∀ i, callOf ((init workers : St Prio).thread i) = none := by
    intro i
    simp only [init]
    split <;> rfl
  constructor <;> simp [abs, h, Started, Returned] <;> simp [init]

theorem abs_ext {s s' : St Prio} (h1 : ∀ t, (s'.slot t).task = (s.slot t).task)
    (h2 : ∀ t, (s'.slot t).writer = (s.slot t).writer) (h3 : ∀ i, callOf (s'.thread i) = callOf (s.thread i))
    (h4 : ∀ t, Started t s'.log ↔ Started t s.log) (h5 : ∀ t, Returned t s'.log ↔ Returned t s.log) :
    abs s' = abs s := by
  simp only [abs, Abs.mk.injEq]
  exact ⟨funext h1, funext h2, funext h3, funext fun t => propext (h4 t), funext fun t => propext (h5 t)⟩

theorem callOf_afterCall {t : ℕ} {b : Bool} {e : Option (Entry Prio)} : callOf (afterCall t b e) = none := by
  cases e <;> rfl

/-- The calls of `schedule` on the locks. -/
inductive AStep : Abs → Abs → Prop where
  | call {a : Abs} {i t : ℕ} (h : a.call i = none) : AStep a { a with call := Function.update a.call i (some (t, .lock)) }
  | lock {a : Abs} {i t : ℕ} (h : a.call i = some (t, .lock)) (hw : a.writer t = none) :
      AStep a { a with writer := Function.update a.writer t (some i), call := Function.update a.call i (some (t, .locked)) }
  | take {a : Abs} {i t : ℕ} (h : a.call i = some (t, .locked)) (ht : a.task t = true) :
      AStep a { a with task := Function.update a.task t false, call := Function.update a.call i (some (t, .taken)) }
  | takeNone {a : Abs} {i t : ℕ} (h : a.call i = some (t, .locked)) (ht : a.task t = false) :
      AStep a { a with call := Function.update a.call i (some (t, .empty)) }
  | send {a : Abs} {i t : ℕ} (h : a.call i = some (t, .taken)) :
      AStep a { a with call := Function.update a.call i (some (t, .sent)), started := fun t' => t' = t ∨ a.started t' }
  | ret {a : Abs} {i t : ℕ} (h : a.call i = some (t, .sent) ∨ a.call i = some (t, .empty)) :
      AStep a { a with writer := Function.update a.writer t none, call := Function.update a.call i none,
                       returned := fun t' => t' = t ∨ a.returned t' }

theorem SlotInv.uniq {a : Abs} (h : SlotInv a) {t i j : ℕ} {p q : Phase} (hp : p ≠ .lock) (hq : q ≠ .lock)
    (hi : a.call i = some (t, p)) (hj : a.call j = some (t, q)) : i = j := by
  have h1 := (h.own t i).2 ⟨p, hp, hi⟩
  have h2 := (h.own t j).2 ⟨q, hq, hj⟩
  rw [h1] at h2
  exact Option.some.inj h2

theorem SlotInv.step {a b : Abs} (h : SlotInv a) (hs : AStep a b) : SlotInv b := by
  have hu := @SlotInv.uniq _ h
  have ho : ∀ t i p, a.call i = some (t, p) → p ≠ .lock → a.writer t = some i := fun t i p h1 h2 =>
    (h.own t i).2 ⟨p, h2, h1⟩
  obtain ⟨own, free, locked, taken, sent, empty⟩ := h
  cases hs <;> constructor <;> simp only [Function.update_apply] <;> grind

theorem callOf_update {f : ℕ → PC Prio} {i : ℕ} {pc : PC Prio} :
    (fun j => callOf (Function.update f i pc j)) = Function.update (fun j => callOf (f j)) i (callOf pc) := by
  funext j
  simp only [Function.update_apply]
  split <;> rfl

theorem task_update {f : ℕ → Slot} {t : ℕ} {v : Slot} :
    (fun j => (Function.update f t v j).task) = Function.update (fun j => (f j).task) t v.task := by
  funext j
  simp only [Function.update_apply]
  split <;> rfl

theorem writer_update {f : ℕ → Slot} {t : ℕ} {v : Slot} :
    (fun j => (Function.update f t v j).writer) = Function.update (fun j => (f j).writer) t v.writer := by
  funext j
  simp only [Function.update_apply]
  split <;> rfl

theorem callOf_call {t : ℕ} {p : Phase} {e : Option (Entry Prio)} : callOf (.call t p e) = some (t, p) := rfl

/-- What a step of the pool does to the locks. -/
theorem abs_step [LinearOrder Prio] {s s' : St Prio} (h : Step s s') : abs s' = abs s ∨ AStep (abs s) (abs s') := by
  cases h with
  | @callSchedule i t h hr =>
    right
    convert AStep.call (a := abs s) (i := i) (t := t) (by simp [abs, h, callOf]) using 1
    simp [abs, St.goto, callOf_update, callOf_call]
  | @lock i t e h hw =>
    right
    convert AStep.lock (a := abs s) (i := i) (t := t) (by simp [abs, h, callOf]) hw using 1
    simp [abs, St.goto, St.setSlot, callOf_update, callOf_call, task_update, writer_update]
  | @take i t e h ht =>
    right
    convert AStep.take (a := abs s) (i := i) (t := t) (by simp [abs, h, callOf]) ht using 1
    simp [abs, St.goto, St.setSlot, callOf_update, callOf_call, task_update, writer_update]
  | @takeNone i t e h ht =>
    right
    convert AStep.takeNone (a := abs s) (i := i) (t := t) (by simp [abs, h, callOf]) ht using 1
    simp [abs, St.goto, callOf_update, callOf_call]
  | @send i t e h =>
    right
    convert AStep.send (a := abs s) (i := i) (t := t) (by simp [abs, h, callOf]) using 1
    simp [abs, St.goto, St.emit, callOf_update, callOf_call, eq_comm]
  | @returnTrue i t e h =>
    right
    convert AStep.ret (a := abs s) (i := i) (t := t) (by simp [abs, h, callOf]) using 1
    simp [abs, St.goto, St.setSlot, St.emit, callOf_update, callOf_afterCall, task_update, writer_update, eq_comm]
  | @returnFalse i t e h =>
    right
    convert AStep.ret (a := abs s) (i := i) (t := t) (by simp [abs, h, callOf]) using 1
    simp [abs, St.goto, St.setSlot, St.emit, callOf_update, callOf_afterCall, task_update, writer_update, eq_comm]
  | @upgradeSome i e h ha =>
    right
    convert AStep.call (a := abs s) (i := i) (t := e.task) (by simp [abs, h, callOf]) using 1
    simp [abs, St.goto, St.setSlot, callOf_update, callOf_call, task_update, writer_update]
  | _ =>
    left
    refine abs_ext (fun t => ?_) (fun t => ?_) (fun j => ?_) (fun t => ?_) (fun t => ?_)
    all_goals dsimp only [St.goto, St.emit, St.setSlot, St.dropTo]
    all_goals first | rfl | grind [St.goto, St.emit, St.setSlot, St.dropTo, callOf, started_cons, returned_cons]

theorem slotInv [LinearOrder Prio] {workers : ℕ} {s : St Prio} (h : Reachable workers s) : SlotInv (abs s) := by
  induction h with
  | refl => exact slotInv_init workers
  | tail _ hs ih =>
    rcases abs_step hs with e | e
    · rw [e]; exact ih
    · exact ih.step e

end Pool

end Sortnet
