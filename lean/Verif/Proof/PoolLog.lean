import Verif.Proof.PoolQueue

/-!
# The history of the thread pool
-/

namespace Sortnet

namespace Pool

variable {Prio : Type}

/-- How many more entries the worker may receive, at least. -/
def budget : PC Prio → Option ℕ
  | .recv l c => some (l - c)
  | .gcCheck l c _ | .gc l c _ _ _ | .gcTest l c _ _ _ _ | .gcRelease l c _ _ _ _ | .insert l c _ => some (l - (c + 1))
  | .pop | .upgrade _ | .release _ _ => some 0
  | .call _ _ e => e.map fun _ => 0
  | .client | .adding _ | .drain | .lockPending | .limit | .unlock | .wait | .exited => none

theorem budget_afterCall {t : ℕ} {b : Bool} {e : Option (Entry Prio)} :
    budget (afterCall t b e) = e.map fun _ => 0 := by
  cases e <;> rfl

theorem inLock_of_budget {pc : PC Prio} {k : ℕ} (h : budget pc = some k) : inLock pc = true := by
  cases pc with
  | call t p e => cases e <;> simp_all [budget, inLock]
  | _ => simp_all [budget, inLock]

theorem addedBefore_acquired {w : ℕ} {e : Entry Prio} {l : List (Event Prio)} :
    AddedBefore w e (.acquired w :: l) ↔ .added e ∈ l := by
  constructor
  · rintro ⟨l₁, l₂, h, hn, hm⟩
    cases l₁ with
    | nil =>
      simp only [List.nil_append, List.cons.injEq, true_and] at h
      exact h ▸ hm
    | cons a l₁ =>
      simp only [List.cons_append, List.cons.injEq] at h
      exact absurd (h.1 ▸ List.mem_cons_self) hn
  · exact fun h => ⟨[], l, rfl, by simp, h⟩

theorem addedBefore_cons {w : ℕ} {e : Entry Prio} {x : Event Prio} {l : List (Event Prio)} (hx : x ≠ .acquired w) :
    AddedBefore w e (x :: l) ↔ AddedBefore w e l := by
  constructor
  · rintro ⟨l₁, l₂, h, hn, hm⟩
    cases l₁ with
    | nil =>
      simp only [List.nil_append, List.cons.injEq] at h
      exact absurd h.1 hx
    | cons a l₁ =>
      simp only [List.cons_append, List.cons.injEq] at h
      exact ⟨l₁, l₂, h.2, fun hh => hn (List.mem_cons_of_mem _ hh), hm⟩
  · rintro ⟨l₁, l₂, rfl, hn, hm⟩
    exact ⟨x :: l₁, l₂, rfl, by simp [hn, hx.symm], hm⟩

theorem AddedBefore.mem {w : ℕ} {e : Entry Prio} {l : List (Event Prio)} (h : AddedBefore w e l) : .added e ∈ l := by
  obtain ⟨l₁, l₂, rfl, -, hm⟩ := h
  simp [hm]

theorem mem_drop_append {α : Type} {l : List α} {x y : α} {k : ℕ} (h : y ∈ (l ++ [x]).drop k) :
    y = x ∨ y ∈ l.drop k := by
  rw [List.drop_append, List.mem_append] at h
  rcases h with h | h
  · exact Or.inr h
  · exact Or.inl (List.mem_singleton.1 (List.mem_of_mem_drop h))

theorem mem_drop_cons {α : Type} {l : List α} {x y : α} {k c : ℕ} (h : y ∈ l.drop (k - (c + 1))) :
    y ∈ (x :: l).drop (k - c) := by
  by_cases hk : k ≤ c
  · rw [show k - c = 0 by omega]
    rw [show k - (c + 1) = 0 by omega] at h
    exact List.mem_cons_of_mem _ h
  · rw [show k - c = (k - (c + 1)) + 1 by omega, List.drop_succ_cons]
    exact h

/-- The entries that were added before a worker has locked the queue are received first. -/
def RecvInv (s : St Prio) : Prop :=
  ∀ w k, budget (s.thread w) = some k → ∀ e, AddedBefore w e s.log → e ∉ s.chan.drop k

theorem recvInv [LinearOrder Prio] {workers : ℕ} {s : St Prio} (h : Reachable workers s) : RecvInv s := by
  induction h with
  | refl => intro w k h e he; have := he.mem; simp [init] at this
  | @tail s s' hr hs ih =>
    have hh := holderInv hr
    have hfresh := (idInv hr).fresh
    have hmem := fun w e => @AddedBefore.mem _ w e s.log
    clear hr
    intro w k hk e he
    unfold HolderInv at hh
    unfold RecvInv at ih
    cases hs
    all_goals try dsimp only [St.goto, St.emit, St.setSlot, St.dropTo, St.Alive] at *
    case sendPending i x hi =>
      have hwi : w ≠ i := by rintro rfl; simp [budget] at hk
      rw [Function.update_of_ne hwi] at hk
      rw [addedBefore_cons (by simp)] at he
      intro hm
      rcases mem_drop_append hm with rfl | hm
      · exact hfresh i e hi e (hmem w e he) rfl
      · exact ih w k hk e he hm
    case limit i hi =>
      by_cases hwi : w = i
      · subst hwi
        have hk : s.chan.length * 2 = k := by simpa [budget] using hk
        rw [List.drop_of_length_le (by omega)]
        simp
      · rw [Function.update_of_ne hwi] at hk
        rw [addedBefore_cons (by simpa using Ne.symm hwi)] at he
        exact ih w k hk e he
    case recvSome i l c x rest hi hc =>
      by_cases hwi : w = i
      · subst hwi
        have hk : l - (c + 1) = k := by simpa [budget] using hk
        subst hk
        intro hm
        exact ih w (l - c) (by simp [hi, budget]) e he (hc ▸ mem_drop_cons hm)
      · rw [Function.update_of_ne hwi] at hk
        exact absurd (Option.some.inj (((hh w).1 (inLock_of_budget hk)).symm.trans ((hh i).1 (by simp [hi, inLock])))) hwi
    all_goals grind [budget, budget_afterCall, addedBefore_acquired, addedBefore_cons, inLock_of_budget, inLock]

theorem startsOnce [LinearOrder Prio] {workers : ℕ} {s : St Prio} (h : Reachable workers s) :
    Always StartsOnce s.log := by
  induction h with
  | refl => trivial
  | @tail s s' hr hs ih =>
    have hb := baseInv hr
    have hslot := slotInv hr
    have hsp := hb.spawned
    have hrun := hb.run
    have hcall := hb.call
    clear hr
    cases hs
    all_goals try dsimp only [St.goto, St.emit, St.setSlot, St.dropTo, St.Alive] at *
    all_goals try exact ih
    case spawn => exact ⟨fun hm => lt_irrefl _ ((hsp _).2 hm), ih⟩
    case dropRef => split <;> first | exact ⟨trivial, ih⟩ | exact ⟨trivial, trivial, ih⟩
    case gcRelease => split <;> first | exact ih | exact ⟨trivial, ih⟩
    case release => split <;> first | exact ih | exact ⟨trivial, ih⟩
    case isScheduled i t hi hr hw =>
      refine ⟨?_, ih⟩
      have := (hslot.free t hw).1
      dsimp only [abs] at this
      simp only [StartsOnce, Bool.not_eq_true']
      rw [← Bool.not_eq_true, this, not_not]
    case send i t e hi =>
      exact ⟨⟨(hsp t).1 (hcall i t _ _ hi), (hslot.taken t i (by simp [abs, hi, callOf])).2.1⟩, ih⟩
    case returnTrue i t e hi =>
      have := hslot.sent t i (by simp [abs, hi, callOf])
      exact ⟨⟨this.2.1, by simpa [abs] using this.2.2⟩, ih⟩
    case returnFalse i t e hi =>
      have := hslot.empty t i (by simp [abs, hi, callOf])
      exact ⟨⟨this.2.1, by simpa [abs] using this.2.2⟩, ih⟩
    case wake t ht => exact ⟨ht, ih⟩
    case drainRun i t rest hi hq => exact ⟨hrun t (by simp [hq]), ih⟩
    case waitRun i t rest hi hq => exact ⟨hrun t (by simp [hq]), ih⟩
    all_goals exact ⟨trivial, ih⟩

theorem startedOne_cons {w : ℕ} {x : Event Prio} {l : List (Event Prio)} (hx : x ≠ .acquired w) (h : StartedOne w l) :
    StartedOne w (x :: l) := by
  obtain ⟨l₁, l₂, t, e, rfl, hn, hm⟩ := h
  exact ⟨x :: l₁, l₂, t, e, rfl, by simp [hn, hx.symm], List.mem_cons_of_mem _ hm⟩

/-- The worker has locked the queue. -/
def Acq (w : ℕ) (l : List (Event Prio)) : Prop := ∃ l₁ l₂, l = l₁ ++ .acquired w :: l₂ ∧ .acquired w ∉ l₁

theorem acq_cons {w : ℕ} {x : Event Prio} {l : List (Event Prio)} (h : Acq w l) : Acq w (x :: l) := by
  obtain ⟨l₁, l₂, rfl, hn⟩ := h
  by_cases hx : x = .acquired w
  · exact ⟨[], _, by rw [hx]; rfl, by simp⟩
  · exact ⟨x :: l₁, l₂, rfl, by simp [hn, Ne.symm hx]⟩

theorem acq_self {w : ℕ} {l : List (Event Prio)} : Acq w (.acquired w :: l) := ⟨[], l, rfl, by simp⟩

theorem startedOne_self {w t : ℕ} {e : Entry Prio} {l : List (Event Prio)} (h : Acq w l) :
    StartedOne w (.started t (some (w, e)) :: l) := by
  obtain ⟨l₁, l₂, rfl, hn⟩ := h
  exact ⟨_ :: l₁, l₂, t, e, rfl, by simp [hn], List.mem_cons_self⟩

theorem afterCall_eq_release' {t t' : ℕ} {b b' : Bool} {e : Option (Entry Prio)}
    (h : afterCall t b e = .release t' b') : b = b' ∧ ∃ x, e = some x := by
  cases e <;> simp_all [afterCall]

theorem afterCall_ne_unlock {t : ℕ} {b : Bool} {e : Option (Entry Prio)} : afterCall t b e ≠ .unlock := by
  cases e <;> simp [afterCall]

/-- A worker unlocks the queue after it has started a task. -/
structure OneInv (s : St Prio) : Prop where
  acq : ∀ i k, budget (s.thread i) = some k → Acq i s.log
  sent : ∀ i t e, s.thread i = .call t .sent (some e) → StartedOne i s.log
  release : ∀ i t, s.thread i = .release t true → StartedOne i s.log
  unlock : ∀ i, s.thread i = .unlock → StartedOne i s.log

theorem oneInv [LinearOrder Prio] {workers : ℕ} {s : St Prio} (h : Reachable workers s) : OneInv s := by
  induction h with
  | refl =>
    have h : ∀ i, (init workers : St Prio).thread i = .drain ∨ (init workers : St Prio).thread i = .client := by
      intro i
      simp only [init]
      split <;> simp
    constructor <;> intro i <;> rcases h i with h | h <;> simp [h, budget]
  | @tail s s' hr hs ih =>
    clear hr
    obtain ⟨h1, h2, h3, h4⟩ := ih
    constructor
    · clear h2 h3 h4
      cases hs
      all_goals try dsimp only [St.goto, St.emit, St.setSlot, St.dropTo] at *
      all_goals first | assumption | grind [budget, budget_afterCall, acq_cons, acq_self]
    · clear h3 h4
      cases hs
      all_goals try dsimp only [St.goto, St.emit, St.setSlot, St.dropTo] at *
      case send i t e hi =>
        intro j t' x hj
        cases e with
        | none => grind [startedOne_cons]
        | some e =>
          rw [Option.map_some]
          by_cases hji : j = i
          · subst hji
            exact startedOne_self (h1 j 0 (by simp [hi, budget]))
          · rw [Function.update_of_ne hji] at hj
            exact startedOne_cons (by simp) (h2 j t' x hj)
      all_goals first | assumption | grind [startedOne_cons, afterCall_ne_call]
    · clear h1 h4
      cases hs
      all_goals try dsimp only [St.goto, St.emit, St.setSlot, St.dropTo] at *
      case returnTrue i t e hi =>
        intro j t' hj
        refine startedOne_cons (by simp) ?_
        by_cases hji : j = i
        · subst hji
          rw [Function.update_self] at hj
          obtain ⟨-, x, rfl⟩ := afterCall_eq_release' hj
          exact h2 j t x hi
        · rw [Function.update_of_ne hji] at hj
          exact h3 j t' hj
      case returnFalse i t e hi =>
        intro j t' hj
        refine startedOne_cons (by simp) ?_
        by_cases hji : j = i
        · subst hji
          rw [Function.update_self] at hj
          exact absurd (afterCall_eq_release' hj).1 (by simp)
        · rw [Function.update_of_ne hji] at hj
          exact h3 j t' hj
      all_goals first | assumption | grind [startedOne_cons]
    · clear h1 h2
      cases hs
      all_goals try dsimp only [St.goto, St.emit, St.setSlot, St.dropTo] at *
      all_goals first | assumption | grind [startedOne_cons, afterCall_ne_unlock]

theorem inOrder [LinearOrder Prio] {workers : ℕ} {s : St Prio} (h : Reachable workers s) :
    Always InOrder s.log := by
  induction h with
  | refl => trivial
  | @tail s s' hr hs ih =>
    have hb := baseInv hr
    have hslot := slotInv hr
    have hrecv := recvInv hr
    have hloss := lossInv hr
    have hid := idInv hr
    have hord := orderInv hr
    have hh := holderInv hr
    have hone := oneInv hr
    clear hr
    have hheld : ∀ i j e, inLock (s.thread i) = true → e ∈ held (s.thread j) → e ∈ held (s.thread i) := by
      intro i j e hi hj
      have h1 := (hh i).1 hi
      have h2 := (hh j).1 (inLock_of_held hj)
      rw [h1] at h2
      rw [Option.some.inj h2]
      exact hj
    have hdead : ∀ e, .added e ∈ s.log → ¬ s.Alive e.task → Gone e s.log := fun e he ha =>
      Or.inr ((hb.dead e.task (hb.added e he)).1 (by unfold St.Alive at ha; omega))
    cases hs
    all_goals try dsimp only [St.goto, St.emit, St.setSlot, St.dropTo] at *
    all_goals try exact ih
    case dropRef => split <;> first | exact ⟨trivial, ih⟩ | exact ⟨trivial, trivial, ih⟩
    case gcRelease => split <;> first | exact ih | exact ⟨trivial, ih⟩
    case release => split <;> first | exact ih | exact ⟨trivial, ih⟩
    case sendPending i e hi => exact ⟨⟨(hb.spawned _).1 (hb.adding i e hi), hid.fresh i e hi⟩, ih⟩
    case send i t e hi =>
      cases e with
      | none => exact ⟨trivial, ih⟩
      | some e =>
        refine ⟨⟨(hb.entry i _ _ _ hi).symm, hb.held i e (by simp [hi, held]), fun e' he' hlt => ?_⟩, ih⟩
        rcases hloss e' he'.mem with h | h | ⟨j, h⟩ | h
        · exact absurd h (hrecv i 0 (by simp [hi, budget]) e' he')
        · exact absurd (hord.front i e (by simp [hi, front]) e' h) (not_le.2 hlt)
        · have := hheld i j e' (by simp [hi, inLock]) h
          have : e' = e := by simpa [hi, held] using this
          exact absurd hlt (this ▸ lt_irrefl _)
        · exact h
    case unlock i hi => exact ⟨hone.unlock i hi, ih⟩
    case popNone i hi hq =>
      refine ⟨fun e' he' => ?_, ih⟩
      rcases hloss e' he'.mem with h | h | ⟨j, h⟩ | h
      · exact absurd h (hrecv i 0 (by simp [hi, budget]) e' he')
      · simp [hq] at h
      · have := hheld i j e' (by simp [hi, inLock]) h
        simp [hi, held] at this
      · exact h
    case gcDead i _ _ _ x _ _ hi ha => exact ⟨hdead x (hb.held i x (by simp [hi, held])) ha, ih⟩
    case gcCollect i _ _ _ x _ _ hi hw ht =>
      refine ⟨Or.inl (not_not.1 fun hn => ?_), ih⟩
      have := (hslot.free x.task hw).1.2 hn
      dsimp only [abs] at this
      simp [ht] at this
    all_goals exact ⟨trivial, ih⟩

theorem Always.countP_start {l : List (Event Prio)} (h : Always StartsOnce l) (t : ℕ) :
    l.countP (isStart t) = 0 ∧ ¬ Started t l ∨ l.countP (isStart t) = 1 ∧ Started t l := by
  induction l with
  | nil => exact Or.inl ⟨rfl, by simp [Started]⟩
  | cons x l ih =>
    obtain ⟨hx, hl⟩ := h
    have ih := ih hl
    rw [List.countP_cons, started_cons]
    cases x with
    | started t' b =>
      by_cases ht : t' = t
      · subst ht
        have : l.countP (isStart t') = 0 := (ih.resolve_right fun h => hx.2 h.2).1
        exact Or.inr ⟨by simp [isStart, this], Or.inl ⟨b, rfl⟩⟩
      · simpa [isStart, ht] using ih
    | _ => simpa [isStart] using ih

theorem Always.countP_true {l : List (Event Prio)} (h : Always StartsOnce l) (t : ℕ) :
    l.countP (isTrue t) = 0 ∧ ¬ Returned t l ∨ l.countP (isTrue t) = 1 ∧ Returned t l := by
  induction l with
  | nil => exact Or.inl ⟨rfl, by simp [Returned]⟩
  | cons x l ih =>
    obtain ⟨hx, hl⟩ := h
    have ih := ih hl
    rw [List.countP_cons, returned_cons]
    cases x with
    | returned t' b =>
      by_cases ht : t' = t
      · subst ht
        refine Or.inr ⟨?_, Or.inl ⟨b, rfl⟩⟩
        cases b with
        | false =>
          have : Returned t' l := not_not.1 fun hn => by simpa using hx.2.2 hn
          simpa [isTrue] using (ih.resolve_left fun h => h.2 this).1
        | true => simpa [isTrue] using (ih.resolve_right fun h => hx.2.1 rfl h.2).1
      · simpa [isTrue, ht] using ih
    | _ => simpa [isTrue] using ih

theorem count_runQueue [LinearOrder Prio] {workers : ℕ} {s : St Prio} (h : Reachable workers s) (t : ℕ) :
    s.runQueue.count t + s.log.countP (isRun t) = s.log.countP (isStart t) + s.log.countP (isWake t) := by
  induction h with
  | refl => simp [init]
  | @tail s s' hr hs ih =>
    clear hr
    cases hs
    all_goals try dsimp only [St.goto, St.emit, St.setSlot, St.dropTo] at *
    all_goals try exact ih
    case dropRef => split <;> simpa [List.countP_cons, isRun, isStart, isWake] using ih
    case gcRelease => split <;> simpa [List.countP_cons, isRun, isStart, isWake] using ih
    case release => split <;> simpa [List.countP_cons, isRun, isStart, isWake] using ih
    case wake =>
      simp only [List.countP_cons, isRun, isStart, isWake, List.count_append, List.count_singleton]
      simp
      omega
    case send =>
      simp only [List.countP_cons, isRun, isStart, isWake, List.count_append, List.count_singleton]
      simp
      omega
    case drainRun hq =>
      rw [hq] at ih
      simp only [List.countP_cons, isRun, isStart, isWake, List.count_cons, beq_iff_eq] at ih ⊢
      simp
      omega
    case waitRun hq =>
      rw [hq] at ih
      simp only [List.countP_cons, isRun, isStart, isWake, List.count_cons, beq_iff_eq] at ih ⊢
      simp
      omega
    all_goals simpa [List.countP_cons, isRun, isStart, isWake] using ih

/-- The number of references clients have is the number of those that were created and not dropped. -/
theorem count_refs [LinearOrder Prio] {workers : ℕ} {s : St Prio} (h : Reachable workers s) (t : ℕ) :
    (s.slot t).refs + s.log.countP (isUnref t) = s.log.countP (isRef t) := by
  induction h with
  | refl => simp [init]
  | @tail s s' hr hs ih =>
    have hrefs := (baseInv hr).refs
    clear hr
    cases hs
    all_goals try dsimp only [St.goto, St.emit, St.setSlot, St.dropTo] at *
    all_goals try exact ih
    all_goals try simp only [List.countP_cons, isRef, isUnref, Function.update_apply]
    all_goals grind [isRef, isUnref]

theorem inLock_of_strong {pc : PC Prio} {t : ℕ} (h : strong pc = some t) : inLock pc = true := by
  cases pc with
  | call t p e => cases e <;> simp_all [strong, inLock]
  | _ => simp_all [strong, inLock]

theorem strong_afterCall {t : ℕ} {b : Bool} {e : Option (Entry Prio)} : strong (afterCall t b e) = e.map fun _ => t := by
  cases e <;> rfl

theorem strong_call {t : ℕ} {p : Phase} {e : Option (Entry Prio)} : strong (.call t p e) = e.map fun _ => t := by
  cases e <;> rfl

/-- The task the thread that has locked the queue has a strong reference to. -/
def cur (holder : Option ℕ) (thread : ℕ → PC Prio) : Option ℕ := holder.bind fun w => strong (thread w)

theorem cur_same {holder : Option ℕ} {thread : ℕ → PC Prio} {i : ℕ} {pc : PC Prio} (h : strong pc = strong (thread i)) :
    cur holder (Function.update thread i pc) = cur holder thread := by
  unfold cur
  cases holder with
  | none => rfl
  | some w =>
    by_cases hw : w = i
    · subst hw
      simp [h]
    · simp [Function.update_of_ne hw]

theorem temp_update {f : ℕ → Slot} {t t' : ℕ} {v : Slot} (h : v.temp = (f t').temp) :
    (Function.update f t' v t).temp = (f t).temp := by
  by_cases e : t = t'
  · subst e
    simp [h]
  · rw [Function.update_of_ne e]

theorem cur_some {thread : ℕ → PC Prio} {i : ℕ} : cur (some i) thread = strong (thread i) := rfl

/-- The strong references workers have. -/
theorem count_temp [LinearOrder Prio] {workers : ℕ} {s : St Prio} (h : Reachable workers s) (t : ℕ) :
    (s.slot t).temp = if cur s.holder s.thread = some t then 1 else 0 := by
  induction h with
  | refl => simp [init, cur]
  | @tail s s' hr hs ih =>
    have hh := holderInv hr
    unfold HolderInv at hh
    clear hr
    have same : ∀ {i pc}, strong pc = strong (s.thread i) →
        (s.slot t).temp = if cur s.holder (Function.update s.thread i pc) = some t then 1 else 0 := fun h => by
      rw [cur_same h]
      exact ih
    have hold : ∀ {i pc}, s.thread i = pc → inLock pc = true → s.holder = some i := fun h h' => (hh _).1 (h ▸ h')
    have up : ∀ {i t' pc}, s.holder = some i → strong (s.thread i) = none → strong pc = some t' →
        (Function.update s.slot t' { s.slot t' with temp := (s.slot t').temp + 1 } t).temp =
          if cur s.holder (Function.update s.thread i pc) = some t then 1 else 0 := fun {i t' pc} h1 h2 h3 => by
      rw [h1, cur_some, h2] at ih
      rw [h1, cur_some, Function.update_self, h3]
      by_cases e : t = t'
      · subst e
        simpa using ih
      · rw [Function.update_of_ne e, ih, if_neg (by simp), if_neg fun e' => e (Option.some.inj e').symm]
    have down : ∀ {i t' pc}, s.holder = some i → strong (s.thread i) = some t' → strong pc = none →
        (Function.update s.slot t' { s.slot t' with temp := (s.slot t').temp - 1 } t).temp =
          if cur s.holder (Function.update s.thread i pc) = some t then 1 else 0 := fun {i t' pc} h1 h2 h3 => by
      rw [h1, cur_some, h2] at ih
      rw [h1, cur_some, Function.update_self, h3, if_neg (by simp)]
      by_cases e : t = t'
      · subst e
        rw [if_pos rfl] at ih
        simp [ih]
      · rw [Function.update_of_ne e, ih, if_neg fun e' => e (Option.some.inj e').symm]
    cases hs with
    | spawn h =>
      refine (temp_update ?_).trans ih
      rfl
    | clone t' h hr =>
      refine (temp_update ?_).trans ih
      rfl
    | dropRef t' h hr =>
      refine (temp_update ?_).trans ih
      rfl
    | callSchedule t' h hr => exact same (by rw [h]; rfl)
    | isScheduled t' h hr hw => exact ih
    | addPending prio t' h hr => exact same (by rw [h]; rfl)
    | sendPending h => exact same (by rw [h]; rfl)
    | wake t' h => exact ih
    | lock h hw =>
      refine (temp_update ?_).trans (same ?_)
      · rfl
      · rw [h]; simp only [strong_call]
    | take h ht =>
      refine (temp_update ?_).trans (same ?_)
      · rfl
      · rw [h]; simp only [strong_call]
    | takeNone h ht => exact same (by rw [h]; simp only [strong_call])
    | send h => exact same (by rw [h]; simp only [strong_call])
    | returnTrue h =>
      refine (temp_update ?_).trans (same ?_)
      · rfl
      · rw [h]; simp only [strong_call, strong_afterCall]
    | returnFalse h =>
      refine (temp_update ?_).trans (same ?_)
      · rfl
      · rw [h]; simp only [strong_call, strong_afterCall]
    | drainRun h hq => exact ih
    | drainEmpty h hq => exact same (by rw [h]; rfl)
    | @lockPending i h hl =>
      refine Eq.trans (b := (s.slot t).temp) rfl ?_
      rw [ih, hl]
      change _ = if cur (some i) (Function.update s.thread i .limit) = some t then 1 else 0
      rw [cur_some, Function.update_self]
      rfl
    | limit h => exact same (by rw [h]; rfl)
    | recvNone h hc => exact same (by rw [h]; rfl)
    | recvSome h hc => exact same (by rw [h]; rfl)
    | gcNo h hg => exact same (by rw [h]; rfl)
    | gcYes h hg => exact same (by rw [h]; rfl)
    | @gcUpgrade i l c e x todo kept h ha =>
      exact up (hold h rfl) (by rw [h]; rfl) rfl
    | gcDead h ha => exact same (by rw [h]; rfl)
    | gcKeep h hw ht => exact same (by rw [h]; rfl)
    | gcCollect h hw ht => exact same (by rw [h]; rfl)
    | gcRelease h => exact down (hold h rfl) (by rw [h]; rfl) rfl
    | gcEnd h => exact same (by rw [h]; rfl)
    | insert h => exact same (by rw [h]; split <;> rfl)
    | popSome h hq => exact same (by rw [h]; rfl)
    | popNone h hq =>
      refine Eq.trans (b := (s.slot t).temp) rfl ?_
      rw [ih, hold h rfl, cur_some, h]
      rfl
    | @upgradeSome i e h ha =>
      exact up (hold h rfl) (by rw [h]; rfl) rfl
    | upgradeNone h ha => exact same (by rw [h]; rfl)
    | release h => exact down (hold h rfl) (by rw [h]; rfl) (by split <;> rfl)
    | unlock h =>
      refine Eq.trans (b := (s.slot t).temp) rfl ?_
      rw [ih, hold h rfl, cur_some, h]
      rfl
    | waitRun h hq => exact same (by rw [h]; rfl)
    | waitTimeout h => exact same (by rw [h]; rfl)
    | waitExit h => exact same (by rw [h]; rfl)

end Pool

end Sortnet
