import Verif.Proof.SearchWait

/-!
# The search terminates when tasks are scheduled fairly

Every step uses up some budget or is a `FreeStep` (Proof/SearchStep.lean).  So from some time on there are only
free steps.  Then no lock changes its holder, no task is created, finished, cancelled or dropped, and no result
is taken.  Here it is shown that this is not possible while the main task has not finished.
-/

namespace Sortnet

namespace Search

variable {hash : List ℕ → ℕ}

/-! ## Tokens -/

/-- The channel of a lock that is held has no message. -/
structure TokOK (G : Global) : Prop where
  unsent : ∀ A tok, G.locks A = some tok → G.sent tok = false
  lt : ∀ tok, G.sent tok = true → tok < G.nextToken
  lockLt : ∀ A tok, G.locks A = some tok → tok < G.nextToken
  inj : ∀ A B tok, G.locks A = some tok → G.locks B = some tok → A = B

theorem TokOK.same {G G' : Global} (h : TokOK G) (h1 : G'.locks = G.locks) (h2 : G'.sent = G.sent)
    (h3 : G'.nextToken = G.nextToken) : TokOK G' := by
  obtain ⟨a, b, c, d⟩ := h
  constructor
  · rw [h1, h2]; exact a
  · rw [h2, h3]; exact b
  · rw [h1, h3]; exact c
  · rw [h1]; exact d

theorem TokOK.release {G G' : Global} (h : TokOK G) {r : Res} (hr : G.receiver r)
    (h1 : G'.locks = (G.release r).locks) (h2 : G'.sent = (G.release r).sent)
    (h3 : G'.nextToken = G.nextToken) : TokOK G' := by
  cases r with
  | handle hd => exact h.same h1 h2 h3
  | lock A tok =>
    have hA : G.locks A = some tok := hr
    have l : ∀ B, G'.locks B = if B = A then none else G.locks B := fun B => by rw [h1]; rfl
    have s : ∀ tk, G'.sent tk = if tk = tok then true else G.sent tk := by
      intro tk
      rw [h2]
      by_cases e : tk = tok
      · subst e; simp [Global.release]
      · simp [Global.release, e]
    constructor
    · intro B tk hB
      rw [l] at hB
      split at hB
      · simp at hB
      · next hne =>
        rw [s, if_neg]
        · exact h.unsent B tk hB
        · rintro rfl
          exact hne (h.inj B A tk hB hA)
    · intro tk htk
      rw [s] at htk
      rw [h3]
      split at htk
      · next e => subst e; exact h.lockLt A tk hA
      · exact h.lt tk htk
    · intro B tk hB
      rw [l] at hB
      rw [h3]
      split at hB
      · simp at hB
      · exact h.lockLt B tk hB
    · intro B C tk hB hC
      rw [l] at hB hC
      split at hB
      · simp at hB
      · split at hC
        · simp at hC
        · exact h.inj B C tk hB hC

theorem TokOK.step {G G' : Global} (h : TokOK G) (hs : Step hash G G') : TokOK G' := by
  obtain ⟨i, hs⟩ := hs
  cases hs with
  | @lockFree t A k owned stack ht hs hm hf =>
    have l : ∀ B, (if B = A then some G.nextToken else G.locks B) = some G.nextToken → B = A := by
      intro B hB
      split at hB
      · next e => exact e
      · exact absurd (h.lockLt B _ hB) (lt_irrefl _)
    constructor
    · intro B tok hB
      dsimp only at hB
      show G.sent tok = false
      split at hB
      · cases hB
        cases e : G.sent G.nextToken with
        | false => rfl
        | true => exact absurd (h.lt _ e) (lt_irrefl _)
      · exact h.unsent B tok hB
    · exact fun tok htok => Nat.lt_succ_of_lt (h.lt tok htok)
    · intro B tok hB
      dsimp only at hB
      show tok < G.nextToken + 1
      split at hB
      · cases hB; omega
      · have := h.lockLt B tok hB; omega
    · intro B C tok hB hC
      dsimp only at hB hC
      by_cases e : tok = G.nextToken
      · subst e
        rw [l B hB, l C hC]
      · split at hB
        · cases hB; exact absurd rfl e
        · split at hC
          · cases hC; exact absurd rfl e
          · exact h.inj B C tok hB hC
  | dropHandle ht hs => exact h.same rfl rfl rfl
  | @unwind t v r owned stack ht hs hr hrec => exact h.release hrec (by cases r <;> rfl) (by cases r <;> rfl) (by cases r <;> rfl)
  | @drop t r owned ht hs hr hrec => exact h.release hrec (by cases r <;> rfl) (by cases r <;> rfl) (by cases r <;> rfl)
  | _ => exact h.same rfl rfl rfl

theorem TokOK.reach {limit : Option ℕ} {A : OSet} {G : Global} (h : Reach hash limit A G) : TokOK G := by
  induction h with
  | init => constructor <;> simp [Search.init]
  | step _ hs ih => exact ih.step hs

/-! ## Executions -/

/-- The end of an execution, with free steps only. -/
structure Tail (hash : List ℕ → ℕ) (limit : Option ℕ) (A : OSet) (H : ℕ → Global) (who : ℕ → Option ℕ) : Prop where
  inv : ∀ k, ∃ β : ℕ →₀ ℕ, GInv hash limit A β (H k)
  wait : ∀ k, WaitOK (H k)
  tok : ∀ k, TokOK (H k)
  free : ∀ k i, who k = some i → FreeStep hash i (H k) (H (k + 1))
  idle : ∀ k, who k = none → H (k + 1) = H k

/-- The program, the variables and the callers of a task that runs or is suspended. -/
def Status.view : Status → Option (Prog Exit × List Res × List Frame)
  | .run p owned stack => some (p, owned, stack)
  | .sleep p owned stack => some (p, owned, stack)
  | .wait _ _ p owned stack => some (p, owned, stack)
  | _ => none

theorem FreeMove.view {G : Global} {s s' : Status} (h : FreeMove hash G s s') :
    ∃ p p' owned stack, s.view = some (p, owned, stack) ∧ s'.view = some (p', owned, stack) := by
  cases h <;> exact ⟨_, _, _, _, rfl, rfl⟩

theorem Status.view_res {s : Status} {p : Prog Exit} {owned : List Res} {stack : List Frame}
    (h : s.view = some (p, owned, stack)) : s.res = owned ++ stack.flatMap Frame.owned := by
  cases s <;> simp only [Status.view, Option.some.injEq, Prod.mk.injEq, reduceCtorEq] at h <;>
    obtain ⟨rfl, rfl, rfl⟩ := h <;> rfl

/-- Task `i` has been started and runs or is suspended. -/
def Live (G : Global) (i : ℕ) (owned : List Res) (stack : List Frame) : Prop :=
  ∃ t p, G.tasks i = some t ∧ t.scheduled = true ∧ t.status.view = some (p, owned, stack)

theorem Live.unfinished {G : Global} {i : ℕ} {owned : List Res} {stack : List Frame} (h : Live G i owned stack) :
    Unfinished G i := by
  obtain ⟨t, p, ht, hs, hv⟩ := h
  refine ⟨t, ht, hs, ?_, ?_, ?_, ?_⟩ <;> intros <;> intro e <;> rw [e] at hv <;> simp [Status.view] at hv

namespace Tail

variable {limit : Option ℕ} {A : OSet} {H : ℕ → Global} {who : ℕ → Option ℕ}

theorem locks_succ (T : Tail hash limit A H who) (k : ℕ) : (H (k + 1)).locks = (H k).locks := by
  cases e : who k with
  | none => rw [T.idle k e]
  | some i => exact (T.free k i e).locks

theorem task_succ (T : Tail hash limit A H who) {k j : ℕ} {t : Task} (ht : (H k).tasks j = some t) :
    ∃ t', (H (k + 1)).tasks j = some t' ∧ t'.root = t.root ∧ (t.scheduled = true → t'.scheduled = true) ∧
      (t'.status = t.status ∨ FreeMove hash (H k) t.status t'.status ∧ who k = some j) := by
  cases e : who k with
  | none => exact ⟨t, by rw [T.idle k e]; exact ht, rfl, fun h => h, Or.inl rfl⟩
  | some i =>
    obtain ⟨t', ht', h1, _, h2, h3, h4⟩ := (T.free k i e).task j t ht
    refine ⟨t', ht', h1, h2, ?_⟩
    by_cases hj : j = i
    · subst hj
      rcases h4 rfl with h | h
      · exact Or.inr ⟨h, rfl⟩
      · exact Or.inl h.1
    · exact Or.inl (h3 hj)

theorem status_succ (T : Tail hash limit A H who) {k i : ℕ} {s : Status} (h : statusOf (H k) i = some s) :
    statusOf (H (k + 1)) i = some s ∨
      ∃ s', FreeMove hash (H k) s s' ∧ statusOf (H (k + 1)) i = some s' ∧ who k = some i := by
  unfold statusOf at *
  rw [Option.map_eq_some_iff] at h
  obtain ⟨t, ht, rfl⟩ := h
  obtain ⟨t', ht', _, _, h⟩ := T.task_succ ht
  rw [ht']
  rcases h with h | h
  · left; simp [h]
  · right; exact ⟨_, h.1, by simp, h.2⟩

/-- A status that cannot be left by a free step stays. -/
theorem status_stays (T : Tail hash limit A H who) {k i : ℕ} {s : Status} (h : statusOf (H k) i = some s)
    (hs : ∀ k', k ≤ k' → ∀ s', ¬ FreeMove hash (H k') s s') (k' : ℕ) (hk : k ≤ k') :
    statusOf (H k') i = some s := by
  induction k', hk using Nat.le_induction with
  | base => exact h
  | succ n hn ih =>
    rcases T.status_succ ih with h | ⟨s', h, _⟩
    · exact h
    · exact absurd h (hs n hn s')

theorem scheduled_mono (T : Tail hash limit A H who) {k i : ℕ} {t : Task} (ht : (H k).tasks i = some t)
    (hs : t.scheduled = true) {k' : ℕ} (hk : k ≤ k') : ∃ t', (H k').tasks i = some t' ∧ t'.scheduled = true := by
  induction k', hk using Nat.le_induction with
  | base => exact ⟨t, ht, hs⟩
  | succ n hn ih =>
    obtain ⟨t', ht', hs'⟩ := ih
    obtain ⟨t'', ht'', _, h, _⟩ := T.task_succ ht'
    exact ⟨t'', ht'', h hs'⟩

/-- Task `i` makes a step whenever it can continue. -/
def Acts (H : ℕ → Global) (who : ℕ → Option ℕ) (k i : ℕ) : Prop :=
  ∀ k', k ≤ k' → ∃ l, k' ≤ l ∧ who l = some i

theorem Acts.mono {k k' i : ℕ} (h : Acts H who k i) (hk : k ≤ k') : Acts H who k' i :=
  fun l hl => h l (Nat.le_trans hk hl)

/-- The next move of a task. -/
theorem move (T : Tail hash limit A H who) {k i : ℕ} {s : Status} (h : statusOf (H k) i = some s)
    (hsc : ∃ t, (H k).tasks i = some t ∧ t.scheduled = true) (hact : ∃ l, k ≤ l ∧ who l = some i) :
    ∃ k', k ≤ k' ∧ ∃ s', statusOf (H k') i = some s ∧ FreeMove hash (H k') s s' ∧
      statusOf (H (k' + 1)) i = some s' ∧ who k' = some i := by
  by_contra hcon
  have stay : ∀ k', k ≤ k' → statusOf (H k') i = some s := by
    intro k' hk
    induction k', hk using Nat.le_induction with
    | base => exact h
    | succ n hn ih =>
      rcases T.status_succ ih with h | ⟨s', h1, h2, h3⟩
      · exact h
      · exact absurd ⟨n, hn, s', ih, h1, h2, h3⟩ hcon
  obtain ⟨l, hl, hw⟩ := hact
  obtain ⟨t, ht, hs⟩ := hsc
  obtain ⟨t', ht', hs'⟩ := T.scheduled_mono ht hs hl
  have e := stay l hl
  unfold statusOf at e
  rw [ht'] at e
  have e : t'.status = s := by simpa using e
  obtain ⟨t'', ht'', _, _, _, _, hm⟩ := (T.free l i hw).task i t' ht'
  rcases hm rfl with hm | ⟨_, hm, _⟩
  · rw [e] at hm
    exact hcon ⟨l, hl, _, stay l hl, hm, by unfold statusOf; rw [ht'']; rfl, hw⟩
  · rw [hs'] at hm
    simp at hm

theorem live_succ (T : Tail hash limit A H who) {k i : ℕ} {owned : List Res} {stack : List Frame}
    (h : Live (H k) i owned stack) : Live (H (k + 1)) i owned stack := by
  obtain ⟨t, p, ht, hs, hv⟩ := h
  obtain ⟨t', ht', _, hsch, h⟩ := T.task_succ ht
  rcases h with h | ⟨h, _⟩
  · exact ⟨t', p, ht', hsch hs, by rw [h]; exact hv⟩
  · obtain ⟨p1, p2, o, st, h1, h2⟩ := h.view
    rw [hv] at h1
    cases h1
    exact ⟨t', p2, ht', hsch hs, h2⟩

theorem live_mono (T : Tail hash limit A H who) {k i : ℕ} {owned : List Res} {stack : List Frame}
    (h : Live (H k) i owned stack) {k' : ℕ} (hk : k ≤ k') : Live (H k') i owned stack := by
  induction k', hk using Nat.le_induction with
  | base => exact h
  | succ n hn ih => exact T.live_succ ih

/-- Unfinished tasks run or are suspended. -/
theorem live (T : Tail hash limit A H who) (hf : Fair H who) {k i : ℕ} (h : Unfinished (H k) i) :
    ∃ owned stack, Live (H k) i owned stack := by
  obtain ⟨t, ht, hs, h1, h2, h3, h4⟩ := h
  cases hv : t.status.view with
  | some v => exact ⟨v.2.1, v.2.2, t, v.1, ht, hs, hv⟩
  | none =>
    exfalso
    have hst : statusOf (H k) i = some t.status := by unfold statusOf; rw [ht]; rfl
    have nomove : ∀ k', k ≤ k' → ∀ s', ¬ FreeMove hash (H k') t.status s' := by
      intro k' _ s' hm
      obtain ⟨_, _, _, _, h, _⟩ := hm.view
      rw [hv] at h
      simp at h
    obtain ⟨k', _, s', _, hm, _⟩ := T.move hst ⟨t, ht, hs⟩ (hf i k (by
      intro k' hk
      have hst' := T.status_stays hst nomove k' hk
      obtain ⟨t', ht', hs'⟩ := T.scheduled_mono ht hs hk
      have e : t'.status = t.status := by
        unfold statusOf at hst'
        rw [ht'] at hst'
        simpa using hst'
      refine ⟨⟨t', ht', hs', by rw [e]; exact h1, by rw [e]; exact h2, by rw [e]; exact h3, by rw [e]; exact h4⟩, ?_⟩
      rintro ⟨t'', ht'', h⟩
      rw [ht'] at ht''
      cases ht''
      rw [e] at h
      rcases h with ⟨_, _, _, _, _, h, _⟩ | ⟨_, _, _, h, _⟩ <;> rw [h] at hv <;> simp [Status.view] at hv))
    obtain ⟨_, _, _, _, h, _⟩ := hm.view
    rw [hv] at h
    simp at h

end Tail

/-! ## Stuck tasks -/

/-- Task `i` waits for a lock that has not been released. -/
def Stuck (G : Global) (i : ℕ) (B : OSet) : Prop :=
  ∃ t tok p owned stack, G.tasks i = some t ∧ t.status = .wait B tok p owned stack ∧ G.sent tok = false

/-- The current call of task `i` has an unfinished child task. -/
def Kid (hash : List ℕ → ℕ) (G : Global) (i : ℕ) (h : Handle) : Prop :=
  ∃ t K c b s p owned stack, G.tasks i = some t ∧ Active hash G t.root.rootKind K c b s p owned stack ∧
    t.res = owned ++ stack.flatMap Frame.owned ∧ Res.handle h ∈ owned ∧ Unfinished G h.tid

theorem Blocked.cases {limit : Option ℕ} {A : OSet} {β : ℕ → ℕ} {G : Global} (hG : GInv hash limit A β G) {i : ℕ}
    (h : Blocked G i) : (∃ B, Stuck G i B) ∨ ∃ h, Kid hash G i h := by
  obtain ⟨t, ht, ⟨B, tok, p, owned, stack, hs, hsent⟩ | ⟨p, owned, stack, hs, ⟨h0, hh0⟩, hnd⟩⟩ := h
  · exact Or.inl ⟨B, t, tok, p, owned, stack, ht, hs, hsent⟩
  · right
    have hok := hG.task i t ht
    rw [hs] at hok
    obtain ⟨K, c, b, s, ha, _, h1⟩ := hok
    rcases h1 with ⟨rfl, _⟩ | ⟨h, ho, hh, hsd⟩
    · simp at hh0
    · have hm : Res.handle h ∈ owned := (ha.1.own h).1 ho
      have hres : t.res = owned ++ stack.flatMap Frame.owned := by unfold Task.res; rw [hs]; rfl
      obtain ⟨_, _, ch, hch, hroot, hcan⟩ := hG.own.child i t h ht
        (by rw [hres]; exact List.mem_append.2 (Or.inl hm))
      refine ⟨h, t, K, c, b, s, p, owned, stack, ht, ha, hres, hm, ch, hch, ha.1.sched h ho hsd ch hch,
        hnd h hm ch hch, ha.1.hs h ho hh ch hch, ?_, ?_⟩
      · intro e
        have := hG.task _ ch hch
        rw [e] at this
        exact this
      · intro e
        have := hG.own.dropped _ ch _ hch e
        rw [hcan] at this
        simp at this

/-- The program looks whether the task of `h` has finished before it does anything else but looking at
tasks. -/
def Polls (h : Handle) {α : Type} : Prog α → Prop
  | .poll h' k => h' = h ∨ Polls h (k none)
  | .isScheduled _ k => ∀ b, Polls h (k b)
  | .panic => True
  | _ => False

theorem Polls.bind {h : Handle} {α β : Type} {p : Prog α} (f : α → Prog β) (hp : Polls h p) : Polls h (p.bind f) := by
  induction p with
  | poll h' k ih =>
    rcases hp with rfl | hp
    · exact Or.inl rfl
    · exact Or.inr (ih none hp)
  | isScheduled h' k ih => exact fun b => ih b (hp b)
  | panic => trivial
  | _ => exact absurd hp id

theorem polls_pollLoop {h : Handle} (ids : List ℕ) (E : Edges) (fin : Bool) (num : ℕ)
    (hr : ∃ id ∈ ids, ∃ t, E.targets[id]? = some t ∧ t.running = some h) :
    Polls h (Edges.pollLoop ids E fin num) := by
  induction ids generalizing num with
  | nil => simp at hr
  | cons id ids ih =>
    obtain ⟨id', hid, t, ht, hrun⟩ := hr
    rw [Edges.pollLoop]
    rcases List.mem_cons.1 hid with rfl | hid
    · simp only [ht, hrun]
      exact Or.inl rfl
    · cases ht2 : E.targets[id]? with
      | none => trivial
      | some t2 =>
        dsimp only
        cases hrun2 : t2.running with
        | none => exact ih num ⟨id', hid, t, ht, hrun⟩
        | some h2 => exact Or.inr fun b => ih _ ⟨id', hid, t, ht, hrun⟩

namespace Tail

variable {limit : Option ℕ} {A : OSet} {H : ℕ → Global} {who : ℕ → Option ℕ}

/-- A finished task stays finished. -/
theorem done_mono (T : Tail hash limit A H who) {k i : ℕ} {v : State} (h : statusOf (H k) i = some (.done v)) {k' : ℕ}
    (hk : k ≤ k') : statusOf (H k') i = some (.done v) :=
  T.status_stays h (fun _ _ s' hm => by cases hm) k' hk

/-- Task `i` has been started and makes infinitely many steps. -/
def Going (H : ℕ → Global) (who : ℕ → Option ℕ) (k i : ℕ) : Prop :=
  (∃ owned stack, Live (H k) i owned stack) ∧ Acts H who k i

theorem going_mono (T : Tail hash limit A H who) {k k' i : ℕ} (h : Going H who k i) (hk : k ≤ k') :
    Going H who k' i := by
  obtain ⟨⟨o, st, hl⟩, ha⟩ := h
  exact ⟨⟨o, st, T.live_mono hl hk⟩, ha.mono hk⟩

theorem move' (T : Tail hash limit A H who) {k i : ℕ} {s : Status} (hu : Going H who k i)
    (h : statusOf (H k) i = some s) :
    ∃ k', k ≤ k' ∧ ∃ s', statusOf (H k') i = some s ∧ FreeMove hash (H k') s s' ∧
      statusOf (H (k' + 1)) i = some s' ∧ who k' = some i ∧ Going H who (k' + 1) i := by
  obtain ⟨⟨o, st, t, p, ht, hs, _⟩, ha⟩ := id hu
  obtain ⟨k', hk, s', h1, h2, h3, h4⟩ := T.move h ⟨t, ht, hs⟩ (ha k (Nat.le_refl _))
  exact ⟨k', hk, s', h1, h2, h3, h4, T.going_mono hu (by omega)⟩

/-- A task that goes on and that looks whether a finished task has finished takes its result. -/
theorem polls_absurd (T : Tail hash limit A H who) {i : ℕ} {h : Handle} {v : State} {owned : List Res}
    {stack : List Frame} (p : Prog Exit) {k : ℕ} (hu : Going H who k i)
    (hs : statusOf (H k) i = some (.run p owned stack)) (hd : statusOf (H k) h.tid = some (.done v))
    (hp : Polls h p) : False := by
  induction p generalizing k with
  | poll h' f ih =>
    obtain ⟨k', hk, s', _, hm, hs', _, hu'⟩ := T.move' hu hs
    cases hm with
    | pollPending hc hnd =>
      rcases hp with rfl | hp
      · have := T.done_mono hd hk
        unfold statusOf at this
        rw [hc] at this
        simp only [Option.map_some, Option.some.injEq] at this
        exact hnd v this
      · exact ih none hu' hs' (T.done_mono hd (by omega)) hp
  | isScheduled h' f ih =>
    obtain ⟨k', hk, s', _, hm, hs', _, hu'⟩ := T.move' hu hs
    cases hm with
    | isScheduled => exact ih _ hu' hs' (T.done_mono hd (by omega)) (hp _)
  | panic =>
    obtain ⟨k', hk, s', _, hm, hs', _⟩ := T.move' hu hs
    cases hm
  | _ => exact hp

/-- A task that goes on comes to a program point where it may wait. -/
theorem reach_goto (T : Tail hash limit A H who) {i : ℕ} {owned : List Res} {stack : List Frame} (p : Prog Exit)
    {k : ℕ} (hu : Going H who k i) (hs : statusOf (H k) i = some (.run p owned stack)) :
    (∃ k', k ≤ k' ∧ ∃ B, Stuck (H k') i B) ∨
    ∃ k' pc, k ≤ k' ∧ pc.free = true ∧ statusOf (H k') i = some (.run (.ret (.goto pc)) owned stack) ∧
      statusOf (H (k' + 1)) i = some (.run (code hash pc) owned stack) ∧ Going H who (k' + 1) i := by
  have lift : ∀ {k k' : ℕ}, k ≤ k' → ((∃ l, k' ≤ l ∧ ∃ B, Stuck (H l) i B) ∨
      ∃ l pc, k' ≤ l ∧ pc.free = true ∧ statusOf (H l) i = some (.run (.ret (.goto pc)) owned stack) ∧
        statusOf (H (l + 1)) i = some (.run (code hash pc) owned stack) ∧ Going H who (l + 1) i) →
      ((∃ l, k ≤ l ∧ ∃ B, Stuck (H l) i B) ∨
      ∃ l pc, k ≤ l ∧ pc.free = true ∧ statusOf (H l) i = some (.run (.ret (.goto pc)) owned stack) ∧
        statusOf (H (l + 1)) i = some (.run (code hash pc) owned stack) ∧ Going H who (l + 1) i) := by
    rintro k k' hk (⟨l, hl, h⟩ | ⟨l, pc, hl, h⟩)
    · exact Or.inl ⟨l, by omega, h⟩
    · exact Or.inr ⟨l, pc, by omega, h⟩
  induction p generalizing k with
  | ret e =>
    obtain ⟨k', hk, s', hs0, hm, hs', _, hu'⟩ := T.move' hu hs
    cases hm with
    | goto hf => exact Or.inr ⟨k', _, hk, hf, hs0, hs', hu'⟩
  | panic =>
    obtain ⟨k', hk, s', _, hm, hs', _⟩ := T.move' hu hs
    cases hm
  | get B f ih =>
    obtain ⟨k', hk, s', _, hm, hs', _, hu'⟩ := T.move' hu hs
    cases hm with
    | get => exact lift (by omega) (ih _ hu' hs')
  | set B v f ih =>
    obtain ⟨k', hk, s', _, hm, hs', _, hu'⟩ := T.move' hu hs
    cases hm with
    | set => exact lift (by omega) (ih hu' hs')
  | lock B f ih =>
    obtain ⟨k', hk, s', _, hm, hs', _, hu'⟩ := T.move' hu hs
    cases hm with
    | lockBusy hl =>
      left
      unfold statusOf at hs'
      rw [Option.map_eq_some_iff] at hs'
      obtain ⟨t, ht, hst⟩ := hs'
      refine ⟨k' + 1, by omega, B, t, _, _, _, _, ht, hst, (T.tok (k' + 1)).unsent B _ ?_⟩
      rw [T.locks_succ]
      exact hl
  | spawn l pr B f ih =>
    obtain ⟨k', hk, s', _, hm, hs', _⟩ := T.move' hu hs
    cases hm
  | addPending pr h f ih =>
    obtain ⟨k', hk, s', _, hm, hs', _, hu'⟩ := T.move' hu hs
    cases hm with
    | addPending => exact lift (by omega) (ih hu' hs')
  | schedule h f ih =>
    obtain ⟨k', hk, s', _, hm, hs', _, hu'⟩ := T.move' hu hs
    cases hm with
    | schedule => exact lift (by omega) (ih hu' hs')
  | isScheduled h f ih =>
    obtain ⟨k', hk, s', _, hm, hs', _, hu'⟩ := T.move' hu hs
    cases hm with
    | isScheduled => exact lift (by omega) (ih _ hu' hs')
  | poll h f ih =>
    obtain ⟨k', hk, s', _, hm, hs', _, hu'⟩ := T.move' hu hs
    cases hm with
    | pollPending => exact lift (by omega) (ih _ hu' hs')
  | dropHandle h f ih =>
    obtain ⟨k', hk, s', _, hm, hs', _⟩ := T.move' hu hs
    cases hm
  | pending f ih =>
    obtain ⟨k', hk, s', _, hm, hs', _, hu'⟩ := T.move' hu hs
    cases hm with
    | pending =>
      obtain ⟨k2, hk2, s2, _, hm2, hs2, _, hu2⟩ := T.move' hu' hs'
      cases hm2 with
      | wake => exact lift (by omega) (ih hu2 hs2)

theorem statusOf_eq {G : Global} {i : ℕ} {s : Status} (h : statusOf G i = some s) :
    ∃ t, G.tasks i = some t ∧ t.status = s := Option.map_eq_some_iff.1 h

/-- A task that goes on waits for a lock at some time, or polls a child task in `improve_next` after it was
suspended. -/
theorem stuck_or_loop (T : Tail hash limit A H who) {k i : ℕ} {owned : List Res} {stack : List Frame}
    (hl : Live (H k) i owned stack) (hu : Going H who k i) :
    (∃ k', k ≤ k' ∧ ∃ B, Stuck (H k') i B) ∨
    ∃ k' level order E r h K c b s t ch, k ≤ k' ∧ (H k').tasks i = some t ∧
      t.status = .run (.ret (.goto (.nextLoop level order E true r))) owned stack ∧
      statusOf (H (k' + 1)) i = some (.run (code hash (.nextLoop level order E true r)) owned stack) ∧
      Going H who (k' + 1) i ∧
      Active hash (H k') t.root.rootKind K c b s (.ret (.goto (.nextLoop level order E true r))) owned stack ∧
      OwnRun c E ∧ Res.handle h ∈ owned ∧ (H k').tasks h.tid = some ch ∧ ch.scheduled = true ∧ ch.status ≠ .taken ∧
      ch.cancelled = false := by
  -- the task runs at some time
  have hrun : ∃ k' p, k ≤ k' ∧ statusOf (H k') i = some (.run p owned stack) := by
    obtain ⟨t, p, ht, hs, hv⟩ := hl
    have hst : statusOf (H k) i = some t.status := by unfold statusOf; rw [ht]; rfl
    cases e : t.status with
    | run p' o st =>
      rw [e] at hv
      cases hv
      exact ⟨k, p, Nat.le_refl _, hst.trans (by rw [e])⟩
    | sleep p' o st =>
      rw [e] at hv hst
      cases hv
      obtain ⟨k', hk, s', _, hm, hs', _⟩ := T.move' hu hst
      cases hm with
      | wake => exact ⟨k' + 1, p, by omega, hs'⟩
    | wait B tok p' o st =>
      rw [e] at hv hst
      cases hv
      obtain ⟨k', hk, s', _, hm, hs', _⟩ := T.move' hu hst
      cases hm with
      | lockWake => exact ⟨k' + 1, p, by omega, hs'⟩
    | _ => rw [e] at hv; simp [Status.view] at hv
  obtain ⟨k1, p, hk1, hs1⟩ := hrun
  rcases T.reach_goto p (T.going_mono hu hk1) hs1 with ⟨k2, hk2, B, hB⟩ | ⟨k2, pc, hk2, hf, hs2, hs3, hu3⟩
  · exact Or.inl ⟨k2, by omega, B, hB⟩
  cases pc with
  | improve level prev B =>
    left
    rw [code, bind_get] at hs3
    obtain ⟨k4, hk4, s4, _, hm4, hs4, _, hu4⟩ := T.move' hu3 hs3
    cases hm4
    dsimp only at hs4
    split at hs4
    · obtain ⟨k5, hk5, s5, _, hm5, hs5, _⟩ := T.move' hu4 hs4
      cases hm5
    · split at hs4
      · obtain ⟨k5, hk5, s5, _, hm5, hs5, _⟩ := T.move' hu4 hs4
        cases hm5
      · obtain ⟨k5, hk5, s5, _, hm5, hs5, _⟩ := T.move' hu4 hs4
        cases hm5 with
        | lockBusy hl =>
          obtain ⟨t, ht, hst⟩ := statusOf_eq hs5
          refine ⟨k5 + 1, by omega, B, t, _, _, _, _, ht, hst, (T.tok (k5 + 1)).unsent B _ ?_⟩
          rw [T.locks_succ]
          exact hl
  | nextLoop level order E block r =>
    right
    have hb : block = true := hf
    subst hb
    obtain ⟨β, hG⟩ := T.inv k2
    obtain ⟨t, ht, hst⟩ := statusOf_eq hs2
    have hok := hG.task i t ht
    rw [hst] at hok
    obtain ⟨K, c, b, s, ⟨hctx, hwp, hstk⟩, _⟩ := hok
    obtain ⟨_, hL, _, hblock⟩ := hwp (H k2).store (Rely.refl _ _) hG.sinv
    obtain ⟨h, ho, hh, hsd⟩ := hblock rfl
    have hres : t.res = owned ++ stack.flatMap Frame.owned := by unfold Task.res; rw [hst]; rfl
    have hm : Res.handle h ∈ owned := (hctx.own h).1 ho
    obtain ⟨_, _, ch, hch, _, hcan⟩ := hG.own.child i t h ht (by rw [hres]; exact List.mem_append.2 (Or.inl hm))
    exact ⟨k2, level, order, E, r, h, K, c, b, s, t, ch, by omega, ht, hst, hs3, hu3, ⟨hctx, hwp, hstk⟩, hL.own, hm,
      hch, hctx.sched h ho hsd ch hch, hctx.hs h ho hh ch hch, hcan⟩
  | _ => simp [PC.free] at hf

/-- Every unfinished task gets to a point where it waits for a lock forever or has an unfinished child task. -/
theorem stuck_or_kid (T : Tail hash limit A H who) (hf : Fair H who) {k i : ℕ} (h : Unfinished (H k) i) :
    ∃ k', k ≤ k' ∧ ((∃ B, Stuck (H k') i B) ∨ ∃ h, Kid hash (H k') i h) := by
  by_contra hcon
  push Not at hcon
  obtain ⟨owned, stack, hl⟩ := T.live hf h
  have hu : Going H who k i := by
    refine ⟨⟨owned, stack, hl⟩, fun k1 hk1 => hf i k1 fun k' hk => ⟨(T.live_mono hl (by omega)).unfinished, ?_⟩⟩
    intro hb
    obtain ⟨β, hG⟩ := T.inv k'
    obtain ⟨h1, h2⟩ := hcon k' (by omega)
    rcases hb.cases hG with ⟨B, h⟩ | ⟨h, hh⟩
    · exact h1 B h
    · exact h2 h hh
  rcases T.stuck_or_loop hl hu with ⟨k2, hk2, B, hB⟩ |
    ⟨k2, level, order, E, r, h, K, c, b, s, t, ch, hk2, ht, hst, hs3, hu3, ha, hown, hm, hch, hsd, htk, hcan⟩
  · exact (hcon k2 hk2).1 B hB
  have hres : t.res = owned ++ stack.flatMap Frame.owned := by unfold Task.res; rw [hst]; rfl
  obtain ⟨β, hG⟩ := T.inv k2
  by_cases hd : ∃ v, ch.status = .done v
  · obtain ⟨v, hd⟩ := hd
    have hd2 : statusOf (H k2) h.tid = some (.done v) := by unfold statusOf; rw [hch, ← hd]; rfl
    refine T.polls_absurd _ hu3 hs3 (T.done_mono hd2 (by omega)) ?_
    rw [code]
    exact Polls.bind _ (polls_pollLoop _ _ _ _ (hown h ((ha.1.own h).2 hm)))
  · refine (hcon k2 (by omega)).2 h ⟨t, K, c, b, s, _, owned, stack, ht, ha, hres, hm, ch, hch,
      hsd, fun v e => hd ⟨v, e⟩, htk, ?_, ?_⟩
    · intro e
      have := hG.task _ ch hch
      rw [e] at this
      exact this
    · intro e
      have := hG.own.dropped _ ch _ hch e
      rw [hcan] at this
      simp at this

theorem root_const (T : Tail hash limit A H who) {k i : ℕ} {t : Task} (ht : (H k).tasks i = some t) {k' : ℕ}
    (hk : k ≤ k') : ∃ t', (H k').tasks i = some t' ∧ t'.root = t.root := by
  induction k', hk using Nat.le_induction with
  | base => exact ⟨t, ht, rfl⟩
  | succ n hn ih =>
    obtain ⟨t', ht', hr'⟩ := ih
    obtain ⟨t'', ht'', hr, _⟩ := T.task_succ ht'
    exact ⟨t'', ht'', hr.trans hr'⟩

theorem rootKind_cur (pc : PC) : pc.rootKind.cur = pc.cur := by cases pc <;> rfl

theorem impossible (T : Tail hash limit A H who) (hf : Fair H who) (ρ : ℕ ×ₗ ℕ ×ₗ ℕ) :
    (∀ k i B, Stuck (H k) i B → rank B ≠ ρ) ∧
    (∀ k i t, (H k).tasks i = some t → Unfinished (H k) i → rank t.root.cur ≠ ρ) := by
  induction ρ using WellFoundedLT.induction with
  | _ ρ ih =>
    -- a child task of a smaller rank is not unfinished
    have kid : ∀ k i t K c b s p owned stack h, (H k).tasks i = some t →
        Active hash (H k) t.root.rootKind K c b s p owned stack → t.res = owned ++ stack.flatMap Frame.owned →
        Res.handle h ∈ owned → Unfinished (H k) h.tid → rank K.cur ≤ ρ → False := by
      intro k i t K c b s p owned stack h ht ha hres hm hu hle
      obtain ⟨β, hG⟩ := T.inv k
      obtain ⟨_, _, ch, hch, ⟨lev, hroot⟩, _⟩ := hG.own.child i t h ht
        (by rw [hres]; exact List.mem_append.2 (Or.inl hm))
      have hlt : rank ch.root.cur < ρ := by
        rw [hroot]
        exact lt_of_lt_of_le (ha.1.handle h hm) hle
      exact (ih _ hlt).2 k h.tid ch hch hu rfl
    have stuck : ∀ k i B, Stuck (H k) i B → rank B ≠ ρ := by
      rintro k i B ⟨t, tok, p, owned, stack, ht, hs, hsent⟩ rfl
      obtain ⟨β, hG⟩ := T.inv k
      rcases T.wait k i t B tok p owned stack ht hs with hl | hl
      · obtain ⟨j, u, hu, hm⟩ := hG.own.lockHas B tok hl
        have hunf : Unfinished (H k) j := by
          refine ⟨u, hu, ?_, ?_, ?_, ?_, ?_⟩
          · refine hG.own.started hu ?_ ?_
            · intro p' e; unfold Task.res at hm; rw [e] at hm; simp [Status.res] at hm
            · intro e; unfold Task.res at hm; rw [e] at hm; simp [Status.res] at hm
          all_goals
            intros
            intro e
            unfold Task.res at hm
            rw [e] at hm
            simp [Status.res] at hm
        obtain ⟨o, st, hlive⟩ := T.live hf hunf
        have hmo : Res.lock B tok ∈ o ++ st.flatMap Frame.owned := by
          obtain ⟨u', p', hu', _, hv⟩ := hlive
          rw [hu] at hu'
          cases hu'
          rw [← Status.view_res hv]
          exact hm
        obtain ⟨k', hk, h⟩ := T.stuck_or_kid hf hunf
        obtain ⟨β', hG'⟩ := T.inv k'
        obtain ⟨u', p', hu', _, hv⟩ := T.live_mono hlive hk
        have hmu : Res.lock B tok ∈ u'.res := by
          unfold Task.res
          rw [Status.view_res hv]
          exact hmo
        rcases h with ⟨C, hC⟩ | ⟨h, u2, K, c, b, s, p2, o2, st2, hu2, ha, hres, hmem, hun⟩
        · have hC' := hC
          obtain ⟨u2, tok2, p2, o2, st2, hu2, hs2, _⟩ := hC'
          rw [hu'] at hu2
          cases hu2
          have hok := hG'.task j u' hu'
          rw [hs2] at hok
          obtain ⟨m, c, b, s, ha, _, hb⟩ := hok
          have hlt : rank C < rank B := by
            apply hb
            rw [ha.1.locks]
            refine ⟨tok, ?_⟩
            unfold Task.res at hmu
            rw [hs2] at hmu
            exact hmu
          exact (ih _ hlt).1 k' j C hC rfl
        · rw [hu'] at hu2
          cases hu2
          refine kid k' j u' K c b s p2 o2 st2 h hu' ha hres hmem hun (ha.rank_lock ⟨tok, ?_⟩)
          rw [← hres]
          exact hmu
      · rw [hsent] at hl
        simp at hl
    refine ⟨stuck, ?_⟩
    rintro k i t ht hu rfl
    obtain ⟨k', hk, h⟩ := T.stuck_or_kid hf hu
    obtain ⟨β', hG'⟩ := T.inv k'
    obtain ⟨t', ht', hr'⟩ := T.root_const ht hk
    rcases h with ⟨C, hC⟩ | ⟨h, u2, K, c, b, s, p2, o2, st2, hu2, ha, hres, hmem, hun⟩
    · have hC' := hC
      obtain ⟨u2, tok2, p2, o2, st2, hu2, hs2, _⟩ := hC'
      rw [ht'] at hu2
      cases hu2
      have hok := hG'.task i t' ht'
      rw [hs2] at hok
      obtain ⟨m, c, b, s, ha, _, hb⟩ := hok
      have hle : rank C ≤ rank t.root.cur := by
        have := ha.2.2.rank_root
        rw [rootKind_cur, hr'] at this
        exact this
      rcases lt_or_eq_of_le hle with hlt | heq
      · exact (ih _ hlt).1 k' i C hC rfl
      · exact stuck k' i C hC heq
    · rw [ht'] at hu2
      cases hu2
      refine kid k' i t' K c b s p2 o2 st2 h ht' ha hres hmem hun ?_
      have := ha.2.2.rank_root
      rw [rootKind_cur, hr'] at this
      exact this

/-- There is no unfinished task. -/
theorem finished (T : Tail hash limit A H who) (hf : Fair H who) (k i : ℕ) : ¬ Unfinished (H k) i := by
  intro h
  obtain ⟨t, ht, _⟩ := id h
  exact (T.impossible hf _).2 k i t ht h rfl

end Tail

/-! ## The theorem -/

theorem antitone_const (f : ℕ → ℕ) (h : ∀ k, f (k + 1) ≤ f k) : ∃ K, ∀ k, K ≤ k → f (k + 1) = f k := by
  induction hn : f 0 using Nat.strong_induction_on generalizing f with
  | _ n ih =>
    by_cases hc : ∀ k, f (k + 1) = f k
    · exact ⟨0, fun k _ => hc k⟩
    · push Not at hc
      obtain ⟨k, hk⟩ := hc
      have hle : ∀ m, f m ≤ f 0 := by
        intro m
        induction m with
        | zero => exact Nat.le_refl _
        | succ m ihm => exact Nat.le_trans (h m) ihm
      have hlt : f (k + 1) < n := by
        have h1 := h k
        have h2 := hle k
        omega
      obtain ⟨K, hK⟩ := ih (f (k + 1)) hlt (fun m => f (k + 1 + m)) (fun m => h (k + 1 + m)) rfl
      refine ⟨k + 1 + K, fun m hm => ?_⟩
      have := hK (m - (k + 1)) (by omega)
      rw [show k + 1 + (m - (k + 1) + 1) = m + 1 by omega, show k + 1 + (m - (k + 1)) = m by omega] at this
      exact this

theorem Execution.step {limit : Option ℕ} {A : OSet} {G : ℕ → Global} {who : ℕ → Option ℕ}
    (h : Execution hash limit A G who) (k : ℕ) : Step hash (G k) (G (k + 1)) ∨ G (k + 1) = G k := by
  cases e : who k with
  | none => exact Or.inr (h.idle k e)
  | some i => exact Or.inl ⟨i, h.act k i e⟩

theorem Execution.reach {limit : Option ℕ} {A : OSet} {G : ℕ → Global} {who : ℕ → Option ℕ}
    (h : Execution hash limit A G who) (k : ℕ) : Reach hash limit A (G k) := by
  induction k with
  | zero => rw [h.start]; exact .init
  | succ k ih =>
    rcases h.step k with h | h
    · exact .step ih h
    · rw [h]; exact ih

/-- From some time on there are only free steps. -/
theorem Execution.free {limit : Option ℕ} {A : OSet} (hA : OK A) {G : ℕ → Global} {who : ℕ → Option ℕ}
    (h : Execution hash limit A G who) : ∃ K, ∀ k, K ≤ k → ∀ i, who k = some i → FreeStep hash i (G k) (G (k + 1)) := by
  classical
  have hex : ∀ k, ∃ d, ∃ β : ℕ →₀ ℕ, GInv hash limit A β (G k) ∧ β.degree = d := by
    intro k
    obtain ⟨β, hG, _⟩ := GInv.reach hA (h.reach k)
    exact ⟨_, β, hG, rfl⟩
  have hstep : ∀ k, Nat.find (hex (k + 1)) ≤ Nat.find (hex k) ∧
      (Nat.find (hex (k + 1)) = Nat.find (hex k) → ∀ i, who k = some i → FreeStep hash i (G k) (G (k + 1))) := by
    intro k
    obtain ⟨β, hG, hd⟩ := Nat.find_spec (hex k)
    cases hw : who k with
    | some i =>
      obtain ⟨β', hG', hd'⟩ := hG.act (h.act k i hw)
      have hle : Nat.find (hex (k + 1)) ≤ β'.degree := Nat.find_min' _ ⟨β', hG', rfl⟩
      rcases hd' with hd' | ⟨hd', hf⟩
      · exact ⟨by omega, fun e => by omega⟩
      · exact ⟨by omega, fun _ j hj => by cases hj; exact hf⟩
    | none =>
      have hle : Nat.find (hex (k + 1)) ≤ β.degree := Nat.find_min' _ ⟨β, by rw [h.idle k hw]; exact hG, rfl⟩
      exact ⟨by omega, fun _ j hj => by cases hj⟩
  obtain ⟨K, hK⟩ := antitone_const (fun k => Nat.find (hex k)) fun k => (hstep k).1
  exact ⟨K, fun k hk => (hstep k).2 (hK k hk)⟩

theorem Execution.tail {limit : Option ℕ} {A : OSet} (hA : OK A) {G : ℕ → Global} {who : ℕ → Option ℕ}
    (h : Execution hash limit A G who) : ∃ K, Tail hash limit A (fun k => G (K + k)) fun k => who (K + k) := by
  obtain ⟨K, hK⟩ := h.free hA
  refine ⟨K, ?_, ?_, ?_, ?_, ?_⟩
  · intro k
    obtain ⟨β, hG, _⟩ := GInv.reach hA (h.reach (K + k))
    exact ⟨β, hG⟩
  · exact fun k => WaitOK.reach (h.reach _)
  · exact fun k => TokOK.reach (h.reach _)
  · exact fun k i hi => hK (K + k) (by omega) i hi
  · exact fun k hk => h.idle (K + k) hk

theorem Fair.tail {G : ℕ → Global} {who : ℕ → Option ℕ} (hf : Fair G who) (K : ℕ) :
    Fair (fun k => G (K + k)) fun k => who (K + k) := by
  intro i k hu
  obtain ⟨k', hk', hw⟩ := hf i (K + k) fun k' hk' => by
    have := hu (k' - K) (by omega)
    dsimp only at this
    rwa [show K + (k' - K) = k' by omega] at this
  exact ⟨k' - K, by omega, by dsimp only; rwa [show K + (k' - K) = k' by omega]⟩

/-- Every fair execution returns. -/
theorem Execution.terminates {limit : Option ℕ} {A : OSet} (hA : OK A) {G : ℕ → Global} {who : ℕ → Option ℕ}
    (h : Execution hash limit A G who) (hf : Fair G who) : ∃ k r, Returned (G k) r := by
  by_contra hcon
  push Not at hcon
  obtain ⟨K, T⟩ := h.tail hA
  obtain ⟨β, hG, _⟩ := GInv.reach hA (h.reach (K + 0))
  exact T.finished (hf.tail K) 0 0 (main_unfinished hG fun ⟨r, hr⟩ => hcon _ r hr)

end Search

end Sortnet
