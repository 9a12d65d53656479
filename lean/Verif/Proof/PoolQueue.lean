import Verif.Proof.PoolBase

/-!
# The pending queue of the thread pool
-/

namespace Sortnet

namespace Pool

variable {Prio : Type}

/-- Entries are told apart by their numbers. -/
structure IdInv (s : St Prio) : Prop where
  added : ∀ e, .added e ∈ s.log → e.id < s.nextId
  adding : ∀ i e, s.thread i = .adding e → e.id < s.nextId
  fresh : ∀ i e, s.thread i = .adding e → ∀ e', .added e' ∈ s.log → e'.id ≠ e.id
  fresh' : ∀ i j e e', s.thread i = .adding e → s.thread j = .adding e' → i ≠ j → e.id ≠ e'.id
  uniq : ∀ e e', .added e ∈ s.log → .added e' ∈ s.log → e.id = e'.id → e = e'

theorem idInv [LinearOrder Prio] {workers : ℕ} {s : St Prio} (h : Reachable workers s) : IdInv s := by
  induction h with
  | refl =>
    have h : ∀ i, (init workers : St Prio).thread i = .drain ∨ (init workers : St Prio).thread i = .client := by
      intro i
      simp only [init]
      split <;> simp
    constructor
    case adding => intro i; rcases h i with h | h <;> simp [h]
    case fresh => intro i; rcases h i with h | h <;> simp [h]
    case fresh' => intro i; rcases h i with h | h <;> simp [h]
    all_goals simp [init]
  | tail _ hs ih =>
    clear * - ih hs
    obtain ⟨h1, h2, h3, h4, h5⟩ := ih
    constructor
    · clear h3 h4 h5
      cases hs
      all_goals try dsimp only [St.goto, St.emit, St.setSlot, St.dropTo, St.Alive] at *
      all_goals first | assumption | grind
    · clear h1 h3 h4 h5
      cases hs
      all_goals try dsimp only [St.goto, St.emit, St.setSlot, St.dropTo, St.Alive] at *
      all_goals first | assumption | grind [afterCall_ne_adding]
    · clear h5
      cases hs
      all_goals try dsimp only [St.goto, St.emit, St.setSlot, St.dropTo, St.Alive] at *
      all_goals first | assumption | grind [afterCall_ne_adding]
    · clear h5
      cases hs
      all_goals try dsimp only [St.goto, St.emit, St.setSlot, St.dropTo, St.Alive] at *
      all_goals first | assumption | grind [afterCall_ne_adding]
    · cases hs
      all_goals try dsimp only [St.goto, St.emit, St.setSlot, St.dropTo, St.Alive] at *
      all_goals first | assumption | grind

/-- The thread is cleaning up the queue, and the entries it has left. -/
def cleaning : PC Prio → Option (List (Entry Prio))
  | .gc _ _ _ todo kept => some (kept ++ todo)
  | .gcTest _ _ _ x todo kept => some (kept ++ x :: todo)
  | .gcRelease _ _ _ _ todo kept => some (kept ++ todo)
  | .client | .adding _ | .drain | .lockPending | .limit | .recv _ _ | .pop | .release _ _ | .unlock | .wait | .exited
  | .gcCheck _ _ _ | .insert _ _ _ | .upgrade _ | .call _ _ _ => none

/-- The entry the thread has taken from the front of the queue. -/
def front : PC Prio → Option (Entry Prio)
  | .upgrade e => some e
  | .call _ _ e => e
  | .client | .adding _ | .drain | .lockPending | .limit | .recv _ _ | .pop | .release _ _ | .unlock | .wait | .exited
  | .gcCheck _ _ _ | .insert _ _ _ | .gc _ _ _ _ _ | .gcTest _ _ _ _ _ _ | .gcRelease _ _ _ _ _ _ => none

theorem cleaning_afterCall {t : ℕ} {b : Bool} {e : Option (Entry Prio)} : cleaning (afterCall t b e) = none := by
  cases e <;> rfl

theorem front_afterCall {t : ℕ} {b : Bool} {e : Option (Entry Prio)} : front (afterCall t b e) = none := by
  cases e <;> rfl

/-- The queue is ordered. -/
structure OrderInv [LinearOrder Prio] (s : St Prio) : Prop where
  sorted : s.queue.Pairwise (·.key ≤ ·.key)
  clean : ∀ i l, cleaning (s.thread i) = some l → s.queue = [] ∧ l.Pairwise (·.key ≤ ·.key)
  front : ∀ i e, front (s.thread i) = some e → ∀ x ∈ s.queue, e.key ≤ x.key

theorem sorted_insertKey [LinearOrder Prio] {e : Entry Prio} {q : List (Entry Prio)} (h : q.Pairwise (·.key ≤ ·.key)) :
    (insertKey e q).Pairwise (·.key ≤ ·.key) := by
  induction q with
  | nil => simp [insertKey]
  | cons a q ih =>
    rw [List.pairwise_cons] at h
    simp only [insertKey]
    split
    · next hlt =>
      refine List.pairwise_cons.2 ⟨fun x hx => ?_, List.pairwise_cons.2 h⟩
      rcases List.mem_cons.1 hx with rfl | hx
      · exact hlt.le
      · exact hlt.le.trans (h.1 x hx)
    · split
      · next heq => exact List.pairwise_cons.2 ⟨fun x hx => heq ▸ h.1 x hx, h.2⟩
      · next h1 h2 =>
        refine List.pairwise_cons.2 ⟨fun x hx => ?_, ih h.2⟩
        rcases mem_insertKey hx with rfl | hx
        · exact not_lt.1 h1
        · exact h.1 x hx

theorem mem_insertKey_self [LinearOrder Prio] {e : Entry Prio} {q : List (Entry Prio)} : e ∈ insertKey e q := by
  induction q with
  | nil => simp [insertKey]
  | cons a q ih =>
    simp only [insertKey]
    split
    · simp
    · split
      · simp
      · exact List.mem_cons_of_mem _ ih

theorem mem_insertKey_of_mem [LinearOrder Prio] {e x : Entry Prio} {q : List (Entry Prio)} (h : x ∈ q) :
    x ∈ insertKey e q ∨ x.id = e.id := by
  induction q with
  | nil => simp at h
  | cons a q ih =>
    simp only [insertKey]
    split
    · exact Or.inl (List.mem_cons_of_mem _ h)
    · split
      · next heq =>
        rcases List.mem_cons.1 h with rfl | h
        · right
          simp only [Entry.key, toLex_inj, Prod.mk.injEq] at heq
          exact heq.2.symm
        · exact Or.inl (List.mem_cons_of_mem _ h)
      · rcases List.mem_cons.1 h with rfl | h
        · exact Or.inl List.mem_cons_self
        · rcases ih h with h | h
          · exact Or.inl (List.mem_cons_of_mem _ h)
          · exact Or.inr h

theorem inLock_of_cleaning {pc : PC Prio} {l : List (Entry Prio)} (h : cleaning pc = some l) : inLock pc = true := by
  cases pc <;> simp_all [cleaning, inLock]

theorem inLock_of_front {pc : PC Prio} {e : Entry Prio} (h : front pc = some e) : inLock pc = true := by
  cases pc <;> simp_all [front, inLock]

theorem orderInv [LinearOrder Prio] {workers : ℕ} {s : St Prio} (h : Reachable workers s) : OrderInv s := by
  induction h with
  | refl =>
    have h : ∀ i, (init workers : St Prio).thread i = .drain ∨ (init workers : St Prio).thread i = .client := by
      intro i
      simp only [init]
      split <;> simp
    constructor
    case clean => intro i; rcases h i with h | h <;> simp [h, cleaning]
    case front => intro i; rcases h i with h | h <;> simp [h, Pool.front]
    all_goals simp [init]
  | tail hr hs ih =>
    have hh := holderInv hr
    clear * - ih hs hh
    unfold HolderInv at hh
    obtain ⟨h1, h2, h3⟩ := ih
    constructor
    · clear h3
      cases hs
      all_goals try dsimp only [St.goto, St.emit, St.setSlot, St.dropTo, St.Alive] at *
      all_goals first | assumption | exact List.Pairwise.nil | grind [cleaning, sorted_insertKey]
    · clear h3
      cases hs
      all_goals try dsimp only [St.goto, St.emit, St.setSlot, St.dropTo, St.Alive] at *
      all_goals first | assumption | grind [cleaning, cleaning_afterCall, inLock_of_cleaning, inLock]
    · clear h2
      cases hs
      all_goals try dsimp only [St.goto, St.emit, St.setSlot, St.dropTo, St.Alive] at *
      all_goals first | assumption | grind [front, front_afterCall, inLock_of_front, inLock, List.pairwise_cons]

/-- Nothing is lost. -/
def LossInv (s : St Prio) : Prop :=
  ∀ e, .added e ∈ s.log → e ∈ s.chan ∨ e ∈ s.queue ∨ (∃ i, e ∈ held (s.thread i)) ∨ Gone e s.log

theorem gone_cons {e : Entry Prio} {x : Event Prio} {l : List (Event Prio)} (h : Gone e l) : Gone e (x :: l) := by
  rcases h with ⟨b, h⟩ | h
  · exact Or.inl ⟨b, List.mem_cons_of_mem _ h⟩
  · exact Or.inr (List.mem_cons_of_mem _ h)

/-- A step of thread `i` that keeps the entries it is dealing with. -/
theorem held_update {f : ℕ → PC Prio} {i : ℕ} {pc : PC Prio} {e : Entry Prio} (h : ∃ j, e ∈ held (f j))
    (h' : e ∈ held (f i) → e ∈ held pc) : ∃ j, e ∈ held (Function.update f i pc j) := by
  obtain ⟨j, hj⟩ := h
  by_cases hji : j = i
  · subst hji
    exact ⟨j, by rw [Function.update_self]; exact h' hj⟩
  · exact ⟨j, by rw [Function.update_of_ne hji]; exact hj⟩

theorem held_update' {f : ℕ → PC Prio} {i : ℕ} {pc : PC Prio} {e : Entry Prio} {P : Prop} (h : ∃ j, e ∈ held (f j))
    (h' : e ∈ held (f i) → e ∈ held pc ∨ P) : (∃ j, e ∈ held (Function.update f i pc j)) ∨ P := by
  by_cases hP : P
  · exact Or.inr hP
  · exact Or.inl (held_update h fun he => (h' he).resolve_right hP)

theorem lossInv [LinearOrder Prio] {workers : ℕ} {s : St Prio} (h : Reachable workers s) : LossInv s := by
  induction h with
  | refl => intro e he; simp [init] at he
  | @tail s s' hr hs ih =>
    have hh := holderInv hr
    have hb := baseInv hr
    have hd : ∀ e, .added e ∈ s.log → ¬ s.Alive e.task → Gone e s.log := fun e he ha =>
      Or.inr ((hb.dead e.task (hb.added e he)).1 (by unfold St.Alive at ha; omega))
    have hslot := slotInv hr
    have hu := (idInv hr).uniq
    have hc := (orderInv hr).clean
    have hheld := hb.held
    have hqueue := hb.queue
    intro x hx
    clear hr
    have hx' : .added x ∈ s.log ∨ x ∈ s'.chan := by
      clear * - hs hx
      cases hs
      all_goals try dsimp only [St.goto, St.emit, St.setSlot, St.dropTo, St.Alive] at *
      all_goals grind
    rcases hx' with hx' | hx'
    swap
    · exact Or.inl hx'
    have hg : Gone x s.log → Gone x s'.log := by
      clear * - hs
      intro h
      cases hs
      all_goals try dsimp only [St.goto, St.emit, St.setSlot, St.dropTo, St.Alive] at *
      all_goals grind [gone_cons]
    rcases ih x hx' with h | h | ⟨j, h⟩ | h
    · clear * - hs h
      cases hs
      all_goals try dsimp only [St.goto, St.emit, St.setSlot, St.dropTo, St.Alive] at *
      all_goals try exact Or.inl h
      · exact Or.inl (by simp [h])
      · next i _ _ e rest _ hc =>
        rw [hc] at h
        rcases List.mem_cons.1 h with rfl | h
        · exact Or.inr (Or.inr (Or.inl ⟨i, by simp [held]⟩))
        · exact Or.inl h
    · clear * - hs h hc hx' hu hheld
      cases hs
      all_goals try dsimp only [St.goto, St.emit, St.setSlot, St.dropTo, St.Alive] at *
      all_goals try exact Or.inr (Or.inl h)
      · next i _ _ e _ _ => exact Or.inr (Or.inr (Or.inl ⟨i, by simp [held, h]⟩))
      · next i _ _ e kept hi =>
        have := (hc i kept (by simp [hi, cleaning])).1
        simp [this] at h
      · next i _ _ e hi =>
        rcases mem_insertKey_of_mem (e := e) h with h | h
        · exact Or.inr (Or.inl h)
        · rw [hu x e hx' (hheld i e (by simp [hi, held])) h]
          exact Or.inr (Or.inl mem_insertKey_self)
      · next i e rest _ hq =>
        rw [hq] at h
        rcases List.mem_cons.1 h with rfl | h
        · exact Or.inr (Or.inr (Or.inl ⟨i, by simp [held]⟩))
        · exact Or.inr (Or.inl h)
    · have hj : ∀ (i : ℕ) (pc : PC Prio), s'.thread = Function.update s.thread i pc →
          (x ∈ held (s.thread i) → x ∈ held pc ∨ x ∈ s'.queue ∨ Gone x s.log) →
          x ∈ s'.chan ∨ x ∈ s'.queue ∨ (∃ i, x ∈ held (s'.thread i)) ∨ Gone x s'.log := by
        intro i pc e hi
        by_cases hji : j = i
        · subst hji
          rcases hi h with h | h | h
          · exact Or.inr (Or.inr (Or.inl ⟨j, by rw [e, Function.update_self]; exact h⟩))
          · exact Or.inr (Or.inl h)
          · exact Or.inr (Or.inr (Or.inr (hg h)))
        · exact Or.inr (Or.inr (Or.inl ⟨j, by rw [e, Function.update_of_ne hji]; exact h⟩))
      cases hs
      all_goals try dsimp only [St.goto, St.emit, St.setSlot, St.dropTo, St.Alive] at *
      all_goals try exact Or.inr (Or.inr (Or.inl ⟨j, h⟩))
      all_goals refine hj _ _ rfl ?_
      all_goals clear hj h hg ih hx
      case gcCollect i _ _ _ y _ _ hi hw ht =>
        have : Gone y s.log := by
          have := (hslot.free y.task hw).1
          refine Or.inl (not_not.1 fun hn => ?_)
          have := this.2 hn
          dsimp only [abs] at this
          simp [ht] at this
        clear * - this hi
        grind [held]
      case returnTrue i _ e hi =>
        intro hm
        right; right
        cases e with
        | none => simp [hi, held] at hm
        | some e =>
          have hm : x = e := by simpa [hi, held] using hm
          subst hm
          have he := hb.entry i _ _ _ hi
          subst he
          exact Or.inl (hslot.sent _ i (by simp [abs, hi, callOf])).2.1
      case returnFalse i _ e hi =>
        intro hm
        right; right
        cases e with
        | none => simp [hi, held] at hm
        | some e =>
          have hm : x = e := by simpa [hi, held] using hm
          subst hm
          have he := hb.entry i _ _ _ hi
          subst he
          exact Or.inl (hslot.empty _ i (by simp [abs, hi, callOf])).2.1
      all_goals clear hslot hb hheld hqueue hu hc hh
      all_goals grind [held, mem_insertKey_self]
    · exact Or.inr (Or.inr (Or.inr (hg h)))

end Pool

end Sortnet
