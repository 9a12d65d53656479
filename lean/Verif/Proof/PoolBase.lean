import Verif.Spec.PoolRun
import Verif.Proof.PoolSlot

/-!
# Basic invariants of the thread pool
-/

namespace Sortnet

namespace Pool

variable {Prio : Type}

/-- The thread holds the lock of the pending queue. -/
def inLock : PC Prio → Bool
  | .limit | .recv _ _ | .gcCheck _ _ _ | .gc _ _ _ _ _ | .gcTest _ _ _ _ _ _ | .gcRelease _ _ _ _ _ _
  | .insert _ _ _ | .pop | .upgrade _ | .release _ _ | .unlock => true
  | .call _ _ e => e.isSome
  | .client | .adding _ | .drain | .lockPending | .wait | .exited => false

theorem inLock_of_held {pc : PC Prio} {e : Entry Prio} (h : e ∈ held pc) : inLock pc = true := by
  cases pc with
  | call t p e => cases e <;> simp_all [held, inLock]
  | _ => simp_all [held, inLock]

def HolderInv (s : St Prio) : Prop := ∀ i, inLock (s.thread i) = true ↔ s.holder = some i

theorem inLock_afterCall {t : ℕ} {b : Bool} {e : Option (Entry Prio)} : inLock (afterCall t b e) = e.isSome := by
  cases e <;> rfl

theorem held_afterCall {t : ℕ} {b : Bool} {e : Option (Entry Prio)} : held (afterCall t b e) = [] := by
  cases e <;> rfl

theorem afterCall_ne_call {t t' : ℕ} {b : Bool} {e e' : Option (Entry Prio)} {p : Phase} :
    afterCall t b e ≠ .call t' p e' := by
  cases e <;> simp [afterCall]

theorem afterCall_ne_adding {t : ℕ} {b : Bool} {e : Option (Entry Prio)} {e' : Entry Prio} :
    afterCall t b e ≠ .adding e' := by
  cases e <;> simp [afterCall]

theorem afterCall_ne_gcRelease {t l c t' : ℕ} {b : Bool} {e : Option (Entry Prio)} {e' : Entry Prio}
    {todo kept : List (Entry Prio)} : afterCall t b e ≠ .gcRelease l c e' t' todo kept := by
  cases e <;> simp [afterCall]

theorem afterCall_eq_release {t t' : ℕ} {b b' : Bool} {e : Option (Entry Prio)}
    (h : afterCall t b e = .release t' b') : t = t' := by
  cases e <;> simp_all [afterCall]

theorem holderInv [LinearOrder Prio] {workers : ℕ} {s : St Prio} (h : Reachable workers s) : HolderInv s := by
  induction h with
  | refl =>
    intro i
    simp only [init]
    split <;> simp [inLock]
  | tail _ hs ih =>
    intro j
    have ihj := ih j
    clear *- ih ihj hs
    unfold HolderInv at ih
    cases hs
    all_goals dsimp only [St.goto, St.emit, St.setSlot, St.dropTo]
    all_goals first | exact ih j | grind [inLock, inLock_afterCall]

/-- Where tasks and entries come from. -/
structure BaseInv (s : St Prio) : Prop where
  spawned : ∀ t, t < s.spawned ↔ .spawned t ∈ s.log
  refs : ∀ t, s.spawned ≤ t → (s.slot t).refs = 0 ∧ (s.slot t).temp = 0
  call : ∀ i t p e, s.thread i = .call t p e → t < s.spawned
  entry : ∀ i t p e, s.thread i = .call t p (some e) → t = e.task
  adding : ∀ i e, s.thread i = .adding e → e.task < s.spawned
  added : ∀ e, .added e ∈ s.log → e.task < s.spawned
  run : ∀ t ∈ s.runQueue, Started t s.log
  chan : ∀ e ∈ s.chan, .added e ∈ s.log
  queue : ∀ e ∈ s.queue, .added e ∈ s.log
  held : ∀ i, ∀ e ∈ held (s.thread i), .added e ∈ s.log
  rel1 : ∀ i l c e t todo kept, s.thread i = .gcRelease l c e t todo kept → t < s.spawned
  rel2 : ∀ i t b, s.thread i = .release t b → t < s.spawned
  dropped : ∀ t, .dropped t ∈ s.log → t < s.spawned
  dead : ∀ t, t < s.spawned → ((s.slot t).refs + (s.slot t).temp = 0 ↔ .dropped t ∈ s.log)

theorem mem_insertKey [LinearOrder Prio] {e x : Entry Prio} {q : List (Entry Prio)} (h : x ∈ insertKey e q) :
    x = e ∨ x ∈ q := by
  induction q with
  | nil => simpa [insertKey] using h
  | cons a q ih =>
    simp only [insertKey] at h
    split at h
    · simpa using h
    · split at h
      · simp only [List.mem_cons] at h ⊢
        tauto
      · simp only [List.mem_cons] at h ⊢
        rcases h with h | h
        · tauto
        · rcases ih h with h | h <;> tauto

theorem baseInv_init (workers : ℕ) : BaseInv (init workers : St Prio) := by
  have h : ∀ i, (init workers : St Prio).thread i = .drain ∨ (init workers : St Prio).thread i = .client := by
    intro i
    simp only [init]
    split <;> simp
  constructor
  case held => intro i; rcases h i with h | h <;> simp [h, Pool.held]
  case call => intro i; rcases h i with h | h <;> simp [h]
  case entry => intro i; rcases h i with h | h <;> simp [h]
  case adding => intro i; rcases h i with h | h <;> simp [h]
  case rel1 => intro i; rcases h i with h | h <;> simp [h]
  case rel2 => intro i; rcases h i with h | h <;> simp [h]
  all_goals simp [init]

theorem baseInv_spawned [LinearOrder Prio] {s s' : St Prio} (h : BaseInv s) (hs : Step s s') :
    ∀ t, t < s'.spawned ↔ .spawned t ∈ s'.log := by
  have hspawned := h.spawned
  clear h
  cases hs
  all_goals try dsimp only [St.goto, St.emit, St.setSlot, St.dropTo, St.Alive] at *
  all_goals first | assumption | grind

theorem baseInv_refs [LinearOrder Prio] {s s' : St Prio} (h : BaseInv s) (hs : Step s s') :
    ∀ t, s'.spawned ≤ t → (s'.slot t).refs = 0 ∧ (s'.slot t).temp = 0 := by
  have hrefs := h.refs
  clear h
  cases hs
  all_goals try dsimp only [St.goto, St.emit, St.setSlot, St.dropTo, St.Alive] at *
  all_goals first | assumption | grind

theorem baseInv_call [LinearOrder Prio] {s s' : St Prio} (h : BaseInv s) (hs : Step s s') :
    ∀ i t p e, s'.thread i = .call t p e → t < s'.spawned := by
  have hcall := h.call
  have hrefs := h.refs
  have hheld := h.held
  have hadded := h.added
  clear h
  cases hs
  all_goals try dsimp only [St.goto, St.emit, St.setSlot, St.dropTo, St.Alive] at *
  all_goals first | assumption | grind [Pool.held, afterCall_ne_call]

theorem baseInv_entry [LinearOrder Prio] {s s' : St Prio} (h : BaseInv s) (hs : Step s s') :
    ∀ i t p e, s'.thread i = .call t p (some e) → t = e.task := by
  have hentry := h.entry
  clear h
  cases hs
  all_goals try dsimp only [St.goto, St.emit, St.setSlot, St.dropTo, St.Alive] at *
  all_goals first | assumption | grind [afterCall_ne_call]

theorem baseInv_adding [LinearOrder Prio] {s s' : St Prio} (h : BaseInv s) (hs : Step s s') :
    ∀ i e, s'.thread i = .adding e → e.task < s'.spawned := by
  have hadding := h.adding
  have hrefs := h.refs
  clear h
  cases hs
  all_goals try dsimp only [St.goto, St.emit, St.setSlot, St.dropTo, St.Alive] at *
  all_goals first | assumption | grind [afterCall_ne_adding]

theorem baseInv_added [LinearOrder Prio] {s s' : St Prio} (h : BaseInv s) (hs : Step s s') :
    ∀ e, .added e ∈ s'.log → e.task < s'.spawned := by
  have hadded := h.added
  have hadding := h.adding
  clear h
  cases hs
  all_goals try dsimp only [St.goto, St.emit, St.setSlot, St.dropTo, St.Alive] at *
  all_goals first | assumption | grind

theorem baseInv_run [LinearOrder Prio] {s s' : St Prio} (h : BaseInv s) (hs : Step s s') :
    ∀ t ∈ s'.runQueue, Started t s'.log := by
  have hrun := h.run
  clear h
  cases hs
  all_goals try dsimp only [St.goto, St.emit, St.setSlot, St.dropTo, St.Alive] at *
  all_goals first | assumption | grind [started_cons, Started]

theorem baseInv_chan [LinearOrder Prio] {s s' : St Prio} (h : BaseInv s) (hs : Step s s') :
    ∀ e ∈ s'.chan, .added e ∈ s'.log := by
  have hchan := h.chan
  clear h
  cases hs
  all_goals try dsimp only [St.goto, St.emit, St.setSlot, St.dropTo, St.Alive] at *
  all_goals first | assumption | grind

theorem baseInv_queue [LinearOrder Prio] {s s' : St Prio} (h : BaseInv s) (hs : Step s s') :
    ∀ e ∈ s'.queue, .added e ∈ s'.log := by
  have hqueue := h.queue
  have hheld := h.held
  clear h
  cases hs
  all_goals try dsimp only [St.goto, St.emit, St.setSlot, St.dropTo, St.Alive] at *
  all_goals first | assumption | grind [Pool.held, mem_insertKey]

theorem baseInv_held [LinearOrder Prio] {s s' : St Prio} (h : BaseInv s) (hs : Step s s') :
    ∀ i, ∀ e ∈ Pool.held (s'.thread i), .added e ∈ s'.log := by
  have hheld := h.held
  have hchan := h.chan
  have hqueue := h.queue
  clear h
  cases hs
  all_goals try dsimp only [St.goto, St.emit, St.setSlot, St.dropTo, St.Alive] at *
  all_goals first | assumption | grind [Pool.held, held_afterCall]

theorem baseInv_rel1 [LinearOrder Prio] {s s' : St Prio} (h : BaseInv s) (hs : Step s s') :
    ∀ i l c e t todo kept, s'.thread i = .gcRelease l c e t todo kept → t < s'.spawned := by
  have hrel1 := h.rel1
  have hheld := h.held
  have hadded := h.added
  clear h
  cases hs
  all_goals try dsimp only [St.goto, St.emit, St.setSlot, St.dropTo, St.Alive] at *
  all_goals first | assumption | grind [Pool.held, afterCall_ne_gcRelease]

theorem baseInv_rel2 [LinearOrder Prio] {s s' : St Prio} (h : BaseInv s) (hs : Step s s') :
    ∀ i t b, s'.thread i = .release t b → t < s'.spawned := by
  have hrel2 := h.rel2
  have hcall := h.call
  clear h
  cases hs
  all_goals try dsimp only [St.goto, St.emit, St.setSlot, St.dropTo, St.Alive] at *
  all_goals first | assumption | grind [afterCall_eq_release]

theorem baseInv_dropped [LinearOrder Prio] {s s' : St Prio} (h : BaseInv s) (hs : Step s s') :
    ∀ t, .dropped t ∈ s'.log → t < s'.spawned := by
  have hdropped := h.dropped
  have hrel1 := h.rel1
  have hrel2 := h.rel2
  have hrefs := h.refs
  clear h
  cases hs
  all_goals try dsimp only [St.goto, St.emit, St.setSlot, St.dropTo, St.Alive] at *
  all_goals first | assumption | grind

theorem baseInv_dead [LinearOrder Prio] {s s' : St Prio} (h : BaseInv s) (hs : Step s s') :
    ∀ t, t < s'.spawned → ((s'.slot t).refs + (s'.slot t).temp = 0 ↔ .dropped t ∈ s'.log) := by
  have hdead := h.dead
  have hrefs := h.refs
  have hdropped := h.dropped
  have hrel1 := h.rel1
  have hrel2 := h.rel2
  clear h
  cases hs
  all_goals try dsimp only [St.goto, St.emit, St.setSlot, St.dropTo, St.Alive] at *
  all_goals first | assumption | grind

theorem baseInv_step [LinearOrder Prio] {s s' : St Prio} (h : BaseInv s) (hs : Step s s') : BaseInv s' :=
  ⟨baseInv_spawned h hs, baseInv_refs h hs, baseInv_call h hs, baseInv_entry h hs, baseInv_adding h hs, baseInv_added h hs, baseInv_run h hs, baseInv_chan h hs, baseInv_queue h hs, baseInv_held h hs,
    baseInv_rel1 h hs, baseInv_rel2 h hs, baseInv_dropped h hs, baseInv_dead h hs⟩

theorem baseInv [LinearOrder Prio] {workers : ℕ} {s : St Prio} (h : Reachable workers s) : BaseInv s := by
  induction h with
  | refl => exact baseInv_init workers
  | tail _ hs ih => exact baseInv_step ih hs

end Pool

end Sortnet
