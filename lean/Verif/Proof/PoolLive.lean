import Verif.Proof.PoolLog

/-!
# Progress of the thread pool
-/

namespace Sortnet

namespace Pool

variable {Prio : Type}

theorem Exec.reachable [LinearOrder Prio] {workers : ℕ} {f : ℕ → St Prio} (h : Exec workers f) (n : ℕ) :
    Reachable workers (f n) := by
  induction n with
  | zero => rw [h.start]; exact .refl
  | succ n ih =>
    rcases h.step n with e | e
    · rw [e]; exact ih
    · exact ih.tail e

/-- A thread leaves every section in which it makes progress with each of its steps and is not blocked forever. -/
theorem leaves [LinearOrder Prio] {workers : ℕ} {f : ℕ → St Prio} (h : Exec workers f) (hf : Fair f) {i : ℕ}
    {P : St Prio → Prop} {α : Type} (r : St Prio → α) (lt : α → α → Prop) (hwf : WellFounded lt)
    (hr : ∀ s s', Reachable workers s → Step s s' → P s → ¬ P s' ∨ (s'.thread i = s.thread i ∧ r s' = r s) ∨ lt (r s') (r s))
    (hm : ∀ n, (∀ m, n ≤ m → P (f m)) → ∃ m, n ≤ m ∧ CanMove (f m) i ∧ (f m).thread i ≠ .client) (n : ℕ) : ∃ m, n ≤ m ∧ ¬ P (f m) := by
  by_contra hcon
  push Not at hcon
  have hmove := hf i (by
    intro k
    obtain ⟨m, hm1, hm2⟩ := hm (max n k) (fun m hm => hcon m (le_trans (le_max_left _ _) hm))
    exact ⟨m, le_trans (le_max_right _ _) hm1, hm2⟩)
  have key : ∀ a : α, ∀ k, n ≤ k → r (f k) = a → False := by
    intro a
    induction a using hwf.induction with
    | _ a ih =>
      intro k hk ha
      obtain ⟨m, hm1, hm2⟩ := hmove k
      obtain ⟨d, rfl⟩ := Nat.exists_eq_add_of_le hm1
      clear hm1
      induction d generalizing k with
      | zero =>
        rcases h.step k with e | e
        · exact hm2 (by simp [e])
        · rcases hr _ _ (h.reachable k) e (hcon k hk) with h1 | h1 | h1
          · exact h1 (hcon _ (by omega))
          · exact hm2 h1.1
          · exact ih _ (ha ▸ h1) (k + 1) (by omega) rfl
      | succ d ihd =>
        have hsame : r (f (k + 1)) = a → False := fun e =>
          ihd (k + 1) (by omega) e (by rw [show k + 1 + d = k + (d + 1) by omega]; exact hm2)
        rcases h.step k with e | e
        · exact hsame (by rw [e]; exact ha)
        · rcases hr _ _ (h.reachable k) e (hcon k hk) with h1 | h1 | h1
          · exact h1 (hcon _ (by omega))
          · exact hsame (h1.2.trans ha)
          · exact ih _ (ha ▸ h1) (k + 1) (by omega) rfl
  exact key _ n le_rfl rfl

/-- The steps left in a call of `schedule`. -/
def Phase.left : Phase → ℕ
  | .lock => 4
  | .locked => 3
  | .taken => 2
  | .sent => 1
  | .empty => 1

/-- Where a thread is in a call of `schedule`. -/
def callLeft (pc : PC Prio) : ℕ :=
  match callOf pc with
  | some (_, p) => p.left
  | none => 0

theorem canMove_call [LinearOrder Prio] {s : St Prio} {i t : ℕ} {p : Phase} (h : callOf (s.thread i) = some (t, p))
    (hp : p = .lock → (s.slot t).writer = none) : CanMove s i := by
  obtain ⟨e, he⟩ : ∃ e, s.thread i = .call t p e := by
    cases hpc : s.thread i <;> rw [hpc] at h <;> simp_all [callOf]
  cases p with
  | lock => exact ⟨_, .lock he (hp rfl), by simp [St.goto, St.setSlot, he]⟩
  | locked =>
    cases ht : (s.slot t).task with
    | true => exact ⟨_, .take he ht, by simp [St.goto, St.setSlot, he]⟩
    | false => exact ⟨_, .takeNone he ht, by simp [St.goto, he]⟩
  | taken => exact ⟨_, .send he, by simp [St.goto, St.emit, he]⟩
  | sent => exact ⟨_, .returnTrue he, by simpa [St.goto, St.emit, he] using afterCall_ne_call⟩
  | empty => exact ⟨_, .returnFalse he, by simpa [St.goto, St.emit, he] using afterCall_ne_call⟩

theorem ne_client_of_call {pc : PC Prio} {x : ℕ × Phase} (h : callOf pc = some x) : pc ≠ .client := by
  rintro rfl
  simp [callOf] at h

theorem ne_client_of_inLock {pc : PC Prio} (h : inLock pc = true) : pc ≠ .client := by
  rintro rfl
  simp [inLock] at h

/-- The call of a thread changes by its own steps only, and then it is closer to the end. -/
theorem callOf_step [LinearOrder Prio] {s s' : St Prio} (hs : Step s s') {i t : ℕ} {p : Phase}
    (h : callOf (s.thread i) = some (t, p)) :
    s'.thread i = s.thread i ∨ callOf (s'.thread i) = none ∨
      ∃ q, callOf (s'.thread i) = some (t, q) ∧ q.left < p.left := by
  cases hs
  all_goals try dsimp only [St.goto, St.emit, St.setSlot, St.dropTo] at *
  all_goals try exact Or.inl rfl
  all_goals grind [callOf, callOf_afterCall, Phase.left]

theorem callLeft_of {pc : PC Prio} {t : ℕ} {p : Phase} (h : callOf pc = some (t, p)) : callLeft pc = p.left := by
  simp [callLeft, h]

/-- The write lock of a task does not go from one thread to another. -/
theorem writer_step [LinearOrder Prio] {s s' : St Prio} (hs : Step s s') {t j : ℕ} (h : (s.slot t).writer = some j)
    (h' : ¬ (s'.slot t).writer = some j) : (s'.slot t).writer = none := by
  cases hs
  all_goals try dsimp only [St.goto, St.emit, St.setSlot, St.dropTo] at *
  all_goals first | exact absurd h h' | grind

/-- At a later time a thread is where it is now, unless it can make a step in between. -/
theorem moves_or_same [LinearOrder Prio] {workers : ℕ} {f : ℕ → St Prio} (h : Exec workers f) {i k m : ℕ} (hm : k ≤ m)
    (hk : (f k).thread i ≠ .client) (hc : (f m).thread i = (f k).thread i → CanMove (f m) i) :
    ∃ m', k ≤ m' ∧ CanMove (f m') i ∧ (f m').thread i ≠ .client := by
  by_cases he : (f m).thread i = (f k).thread i
  · exact ⟨m, hm, hc he, he ▸ hk⟩
  · clear hc
    obtain ⟨d, rfl⟩ := Nat.exists_eq_add_of_le hm
    clear hm
    induction d generalizing k with
    | zero => exact absurd rfl he
    | succ d ih =>
      by_cases h1 : (f (k + 1)).thread i = (f k).thread i
      · obtain ⟨m', hm', hc⟩ := ih (k := k + 1) (h1 ▸ hk) (by
          rw [show k + 1 + d = k + (d + 1) by omega, h1]; exact he)
        exact ⟨m', by omega, hc⟩
      · rcases h.step k with e | e
        · exact absurd (by rw [e]) h1
        · exact ⟨k, le_rfl, ⟨_, e, h1⟩, hk⟩

/-- A thread that has locked a task unlocks it. -/
theorem writer_leaves [LinearOrder Prio] {workers : ℕ} {f : ℕ → St Prio} (h : Exec workers f) (hf : Fair f) (t n : ℕ) :
    ∃ m, n ≤ m ∧ ((f m).slot t).writer = none := by
  rcases hw : ((f n).slot t).writer with _ | j
  · exact ⟨n, le_rfl, hw⟩
  have hl : ∃ m, n ≤ m ∧ ¬ ((f m).slot t).writer = some j := by
    refine leaves h hf (i := j) (P := fun s => (s.slot t).writer = some j) (fun s => callLeft (s.thread j)) (· < ·)
      wellFounded_lt ?_ ?_ n
    · intro s s' hr hs hP
      obtain ⟨p, hp, hc⟩ := ((slotInv hr).own t j).1 hP
      by_cases hP' : (s'.slot t).writer = some j
      · obtain ⟨q, hq, hc'⟩ := ((slotInv (hr.tail hs)).own t j).1 hP'
        dsimp only [abs] at hc hc'
        rcases callOf_step hs hc with e | e | ⟨q', e, hlt⟩
        · exact Or.inr (Or.inl ⟨e, by rw [e]⟩)
        · rw [e] at hc'; simp at hc'
        · exact Or.inr (Or.inr (by rw [callLeft_of e, callLeft_of hc]; exact hlt))
      · exact Or.inl hP'
    · intro k hk
      obtain ⟨p, hp, hc⟩ := ((slotInv (h.reachable k)).own t j).1 (hk k le_rfl)
      exact ⟨k, le_rfl, canMove_call hc (fun e => absurd e hp), ne_client_of_call hc⟩
  obtain ⟨m, hm, hne⟩ := hl
  obtain ⟨d, rfl⟩ := Nat.exists_eq_add_of_le hm
  clear hm
  induction d generalizing n with
  | zero => exact absurd hw hne
  | succ d ih =>
    by_cases hw' : ((f (n + 1)).slot t).writer = some j
    · obtain ⟨m, hm, h'⟩ := ih (n + 1) hw' (by rw [show n + 1 + d = n + (d + 1) by omega]; exact hne)
      exact ⟨m, by omega, h'⟩
    · refine ⟨n + 1, by omega, ?_⟩
      rcases h.step n with e | e
      · rw [e] at hw'; exact absurd hw hw'
      · exact writer_step e hw hw'

/-- A call of `schedule` returns. -/
theorem call_leaves [LinearOrder Prio] {workers : ℕ} {f : ℕ → St Prio} (h : Exec workers f) (hf : Fair f) (i n : ℕ) :
    ∃ m, n ≤ m ∧ callOf ((f m).thread i) = none := by
  have := leaves h hf (i := i) (P := fun s => callOf (s.thread i) ≠ none) (fun s => callLeft (s.thread i)) (· < ·)
    wellFounded_lt ?_ ?_ n
  · obtain ⟨m, hm, h'⟩ := this
    exact ⟨m, hm, not_not.1 h'⟩
  · intro s s' hr hs hP
    obtain ⟨⟨t, p⟩, hc⟩ := Option.ne_none_iff_exists'.1 hP
    rcases callOf_step hs hc with e | e | ⟨q', e, hlt⟩
    · exact Or.inr (Or.inl ⟨e, by rw [e]⟩)
    · exact Or.inl (not_not.2 e)
    · exact Or.inr (Or.inr (by rw [callLeft_of e, callLeft_of hc]; exact hlt))
  · intro k hk
    obtain ⟨⟨t, p⟩, hc⟩ := Option.ne_none_iff_exists'.1 (hk k le_rfl)
    by_cases hp : p = .lock
    · subst hp
      obtain ⟨m, hm, hw⟩ := writer_leaves h hf t k
      exact moves_or_same h hm (ne_client_of_call hc) fun e => canMove_call (by rw [e]; exact hc) (fun _ => hw)
    · exact ⟨k, le_rfl, canMove_call hc (fun e => absurd e hp), ne_client_of_call hc⟩

/-- How far a thread is in its pass through the pending queue. -/
def rank (pc : PC Prio) (q : ℕ) : ℕ × ℕ × ℕ :=
  match pc with
  | .limit => (3, 0, 0)
  | .recv l c => (2, l - c, 3 * q + 10)
  | .gcCheck l c _ => (2, l - c, 3 * q + 9)
  | .gc l c _ todo _ => (2, l - c, 3 * todo.length + 2)
  | .gcTest l c _ _ todo _ => (2, l - c, 3 * todo.length + 4)
  | .gcRelease l c _ _ todo _ => (2, l - c, 3 * todo.length + 3)
  | .insert l c _ => (2, l - c, 1)
  | .pop => (1, q, 0)
  | .upgrade _ => (1, q, 10)
  | .call _ p _ => (1, q, p.left + 2)
  | .release _ _ => (1, q, 1)
  | .unlock | .client | .adding _ | .drain | .lockPending | .wait | .exited => (0, 0, 0)

/-- The lexicographic order. -/
def rankLt (a b : ℕ × ℕ × ℕ) : Prop := a.1 < b.1 ∨ a.1 = b.1 ∧ (a.2.1 < b.2.1 ∨ a.2.1 = b.2.1 ∧ a.2.2 < b.2.2)

theorem rankLt_wf : WellFounded rankLt := by
  have := (Prod.lex (IsWellFounded.toWellFoundedRelation (α := ℕ) (r := (· < ·)))
    (Prod.lex (IsWellFounded.toWellFoundedRelation (α := ℕ) (r := (· < ·)))
      (IsWellFounded.toWellFoundedRelation (α := ℕ) (r := (· < ·))))).wf
  refine Subrelation.wf ?_ this
  rintro ⟨a, b, c⟩ ⟨a', b', c'⟩ h
  rcases h with h | ⟨h1, h | ⟨h2, h⟩⟩
  · exact Prod.Lex.left _ _ h
  · dsimp only at h1; subst h1
    exact Prod.Lex.right _ (Prod.Lex.left _ _ h)
  · dsimp only at h1 h2; subst h1; subst h2
    exact Prod.Lex.right _ (Prod.Lex.right _ h)

/-- What a step does to the thread that has locked the pending queue. -/
theorem rank_step [LinearOrder Prio] {s s' : St Prio} (hh : HolderInv s) (hs : Step s s') {w : ℕ}
    (h : s.holder = some w) : ¬ s'.holder = some w ∨
      (s'.thread w = s.thread w ∧ s'.queue = s.queue) ∨
      rankLt (rank (s'.thread w) s'.queue.length) (rank (s.thread w) s.queue.length) := by
  have hw : ∀ i, inLock (s.thread i) = true → i = w := fun i hi => by
    have := (hh i).1 hi
    rw [h] at this
    exact (Option.some.inj this).symm
  have hl := (hh w).2 h
  cases hs
  all_goals try dsimp only [St.goto, St.emit, St.setSlot, St.dropTo] at *
  all_goals try exact Or.inr (Or.inl ⟨rfl, rfl⟩)
  case returnTrue i t e hi =>
    by_cases hiw : w = i
    · subst hiw
      cases e with
      | none => simp [hi, inLock] at hl
      | some e =>
        right; right
        rw [Function.update_self, hi]
        exact Or.inr ⟨rfl, Or.inr ⟨rfl, by simp [afterCall, rank, Phase.left]⟩⟩
    · exact Or.inr (Or.inl ⟨Function.update_of_ne hiw _ _, rfl⟩)
  case returnFalse i t e hi =>
    by_cases hiw : w = i
    · subst hiw
      cases e with
      | none => simp [hi, inLock] at hl
      | some e =>
        right; right
        rw [Function.update_self, hi]
        exact Or.inr ⟨rfl, Or.inr ⟨rfl, by simp [afterCall, rank, Phase.left]⟩⟩
    · exact Or.inr (Or.inl ⟨Function.update_of_ne hiw _ _, rfl⟩)
  all_goals grind [rank, rankLt, inLock, Phase.left]

theorem canMove_inLock [LinearOrder Prio] {s : St Prio} {w : ℕ} (h : inLock (s.thread w) = true)
    (h1 : ∀ t e, s.thread w = .call t .lock e → (s.slot t).writer = none)
    (h2 : ∀ l c e x todo kept, s.thread w = .gcTest l c e x todo kept → (s.slot x.task).writer = none) : CanMove s w := by
  cases hpc : s.thread w with
  | call t p e => exact canMove_call (by rw [hpc]; rfl) (fun hp => h1 t e (hp ▸ hpc))
  | limit => exact ⟨_, .limit hpc, by simp [St.goto, St.emit, hpc]⟩
  | recv l c =>
    cases hc : s.chan with
    | nil => exact ⟨_, .recvNone hpc hc, by simp [St.goto, hpc]⟩
    | cons e rest => exact ⟨_, .recvSome hpc hc, by simp [St.goto, hpc]⟩
  | gcCheck l c e =>
    by_cases hg : s.queue.length < s.nextGc
    · exact ⟨_, .gcNo hpc hg, by simp [St.goto, hpc]⟩
    · exact ⟨_, .gcYes hpc (by omega), by simp [St.goto, hpc]⟩
  | gc l c e todo kept =>
    cases todo with
    | nil => exact ⟨_, .gcEnd hpc, by simp [St.goto, hpc]⟩
    | cons x todo =>
      by_cases ha : s.Alive x.task
      · exact ⟨_, .gcUpgrade hpc ha, by simp [St.goto, St.setSlot, hpc]⟩
      · exact ⟨_, .gcDead hpc ha, by simp [St.goto, St.emit, hpc]⟩
  | gcTest l c e x todo kept =>
    cases ht : (s.slot x.task).task with
    | true => exact ⟨_, .gcKeep hpc (h2 _ _ _ _ _ _ hpc) ht, by simp [St.goto, hpc]⟩
    | false => exact ⟨_, .gcCollect hpc (h2 _ _ _ _ _ _ hpc) ht, by simp [St.goto, St.emit, hpc]⟩
  | gcRelease l c e t todo kept => exact ⟨_, .gcRelease hpc, by simp [St.goto, St.dropTo, hpc]⟩
  | insert l c e => exact ⟨_, .insert hpc, by simp only [St.goto, Function.update_self, hpc]; split <;> simp⟩
  | pop =>
    cases hq : s.queue with
    | nil => exact ⟨_, .popNone hpc hq, by simp [St.goto, St.emit, hpc]⟩
    | cons e rest => exact ⟨_, .popSome hpc hq, by simp [St.goto, hpc]⟩
  | upgrade e =>
    by_cases ha : s.Alive e.task
    · exact ⟨_, .upgradeSome hpc ha, by simp [St.goto, St.setSlot, hpc]⟩
    · exact ⟨_, .upgradeNone hpc ha, by simp [St.goto, hpc]⟩
  | release t b => exact ⟨_, .release hpc, by simp only [St.goto, Function.update_self, St.dropTo, hpc]; split <;> simp⟩
  | unlock => exact ⟨_, .unlock hpc, by simp [St.goto, St.emit, hpc]⟩
  | _ => simp [hpc, inLock] at h

/-- A worker that has locked the pending queue unlocks it. -/
theorem holder_leaves [LinearOrder Prio] {workers : ℕ} {f : ℕ → St Prio} (h : Exec workers f) (hf : Fair f) (w n : ℕ) :
    ∃ m, n ≤ m ∧ ¬ (f m).holder = some w := by
  refine leaves h hf (i := w) (P := fun s => s.holder = some w) (fun s => rank (s.thread w) s.queue.length) rankLt
    rankLt_wf ?_ ?_ n
  · intro s s' hr hs hP
    rcases rank_step (holderInv hr) hs hP with h1 | h1 | h1
    · exact Or.inl h1
    · exact Or.inr (Or.inl ⟨h1.1, by rw [h1.1, h1.2]⟩)
    · exact Or.inr (Or.inr h1)
  · intro k hk
    have hin := (holderInv (h.reachable k) w).2 (hk k le_rfl)
    by_cases hc : ∃ t e, (f k).thread w = .call t .lock e
    · obtain ⟨t, e, hc⟩ := hc
      obtain ⟨m, hm, hw⟩ := writer_leaves h hf t k
      exact moves_or_same h hm (ne_client_of_inLock hin) fun e => canMove_inLock (by rw [e]; exact hin)
        (fun t' e' h' => by rw [e, hc] at h'; cases h'; exact hw) (fun _ _ _ _ _ _ h' => by rw [e, hc] at h'; cases h')
    · by_cases hg : ∃ l c e x todo kept, (f k).thread w = .gcTest l c e x todo kept
      · obtain ⟨l, c, e, x, todo, kept, hg⟩ := hg
        obtain ⟨m, hm, hw⟩ := writer_leaves h hf x.task k
        exact moves_or_same h hm (ne_client_of_inLock hin) fun e => canMove_inLock (by rw [e]; exact hin)
          (fun t' e' h' => by rw [e, hg] at h'; cases h') (fun _ _ _ _ _ _ h' => by rw [e, hg] at h'; cases h'; exact hw)
      · exact ⟨k, le_rfl, canMove_inLock hin (fun t e h' => absurd ⟨t, e, h'⟩ hc)
          (fun l c e x todo kept h' => absurd ⟨l, c, e, x, todo, kept, h'⟩ hg), ne_client_of_inLock hin⟩

theorem holder_step [LinearOrder Prio] {s s' : St Prio} (hs : Step s s') {w : ℕ} (h : s.holder = some w)
    (h' : ¬ s'.holder = some w) : s'.holder = none := by
  cases hs
  all_goals try dsimp only [St.goto, St.emit, St.setSlot, St.dropTo] at *
  all_goals first | exact absurd h h' | rfl | grind

/-- The pending queue is unlocked again and again. -/
theorem holder_none [LinearOrder Prio] {workers : ℕ} {f : ℕ → St Prio} (h : Exec workers f) (hf : Fair f) (n : ℕ) :
    ∃ m, n ≤ m ∧ (f m).holder = none := by
  rcases hw : (f n).holder with _ | w
  · exact ⟨n, le_rfl, hw⟩
  obtain ⟨m, hm, hne⟩ := holder_leaves h hf w n
  obtain ⟨d, rfl⟩ := Nat.exists_eq_add_of_le hm
  clear hm
  induction d generalizing n with
  | zero => exact absurd hw hne
  | succ d ih =>
    by_cases hw' : (f (n + 1)).holder = some w
    · obtain ⟨m, hm, h'⟩ := ih (n + 1) hw' (by rw [show n + 1 + d = n + (d + 1) by omega]; exact hne)
      exact ⟨m, by omega, h'⟩
    · refine ⟨n + 1, by omega, ?_⟩
      rcases h.step n with e | e
      · rw [e] at hw'; exact absurd hw hw'
      · exact holder_step e hw hw'

theorem lockPending_step [LinearOrder Prio] {s s' : St Prio} (hs : Step s s') {i : ℕ} (h : s.thread i = .lockPending) :
    s'.thread i = .lockPending ∨ s'.holder = some i := by
  cases hs
  all_goals try dsimp only [St.goto, St.emit, St.setSlot, St.dropTo] at *
  all_goals grind

/-- A worker that waits for the pending queue gets it. -/
theorem lockPending_leaves [LinearOrder Prio] {workers : ℕ} {f : ℕ → St Prio} (h : Exec workers f) (hf : Fair f) {i n : ℕ}
    (hi : (f n).thread i = .lockPending) : ∃ m, n ≤ m ∧ (f m).holder = some i := by
  have hl : ∃ m, n ≤ m ∧ ¬ (f m).thread i = .lockPending := by
    refine leaves h hf (i := i) (P := fun s => s.thread i = .lockPending) (fun _ => 0) (· < ·) wellFounded_lt ?_ ?_ n
    · intro s s' _ hs hP
      by_cases hP' : s'.thread i = .lockPending
      · exact Or.inr (Or.inl ⟨hP'.trans hP.symm, rfl⟩)
      · exact Or.inl hP'
    · intro k hk
      obtain ⟨m, hm, hn⟩ := holder_none h hf k
      exact ⟨m, hm, ⟨_, .lockPending (hk m hm) hn, by simp [St.goto, hk m hm]⟩, by simp [hk m hm]⟩
  obtain ⟨m, hm, hne⟩ := hl
  obtain ⟨d, rfl⟩ := Nat.exists_eq_add_of_le hm
  clear hm
  induction d generalizing n with
  | zero => exact absurd hi hne
  | succ d ih =>
    by_cases hw' : (f (n + 1)).thread i = .lockPending
    · obtain ⟨m, hm, h'⟩ := ih hw' (by rw [show n + 1 + d = n + (d + 1) by omega]; exact hne)
      exact ⟨m, by omega, h'⟩
    · refine ⟨n + 1, by omega, ?_⟩
      rcases h.step n with e | e
      · rw [e] at hw'; exact absurd hi hw'
      · exact (lockPending_step e hi).resolve_left hw'

theorem writer_canMove [LinearOrder Prio] {workers : ℕ} {s : St Prio} (h : Reachable workers s) {t j : ℕ}
    (hw : (s.slot t).writer = some j) : CanMove s j := by
  obtain ⟨p, hp, hc⟩ := ((slotInv h).own t j).1 hw
  exact canMove_call hc (fun e => absurd e hp)

theorem inLock_canMove [LinearOrder Prio] {workers : ℕ} {s : St Prio} (h : Reachable workers s) {w : ℕ}
    (hw : inLock (s.thread w) = true) : CanMove s w ∨ ∃ j, WaitsFor s w j ∧ CanMove s j := by
  by_cases hb : ∃ j, WaitsFor s w j
  · obtain ⟨j, hj⟩ := hb
    rcases hj with ⟨t, e, h1, h2⟩ | ⟨l, c, e, x, todo, kept, h1, h2⟩ | ⟨h1, -⟩
    · exact Or.inr ⟨j, Or.inl ⟨t, e, h1, h2⟩, writer_canMove h h2⟩
    · exact Or.inr ⟨j, Or.inr (Or.inl ⟨l, c, e, x, todo, kept, h1, h2⟩), writer_canMove h h2⟩
    · rw [h1] at hw; simp [inLock] at hw
  · refine Or.inl (canMove_inLock hw (fun t e h1 => ?_) (fun l c e x todo kept h1 => ?_))
    · rcases h2 : (s.slot t).writer with _ | j
      · rfl
      · exact absurd ⟨j, Or.inl ⟨t, e, h1, h2⟩⟩ hb
    · rcases h2 : (s.slot x.task).writer with _ | j
      · rfl
      · exact absurd ⟨j, Or.inr (Or.inl ⟨l, c, e, x, todo, kept, h1, h2⟩)⟩ hb

end Pool

end Sortnet
