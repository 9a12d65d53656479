import Verif.Proof.SearchTerm

/-!
# Without spurious wakeups the search terminates under every schedule

No fairness is assumed here.  A task that makes infinitely many free steps would have to be resumed while
all the child tasks it waits for are unfinished.
-/

namespace Sortnet

namespace Search

open Prog

variable {hash : List ℕ → ℕ}

/-- As long as the task of `h`, which has been scheduled, does not finish and no other task finishes, the program
does nothing but looking at tasks until it is suspended or ends with `P`. -/
def Quiet (h : Handle) {α : Type} (P : α → Prop) : Prog α → Prop
  | .ret a => P a
  | .poll _ k => Quiet h P (k none)
  | .isScheduled h' k => ∀ b, (h' = h → b = true) → Quiet h P (k b)
  | .pending _ => True
  | .panic => True
  | _ => False

theorem Quiet.bind {h : Handle} {α β : Type} {P : α → Prop} {Q : β → Prop} {p : Prog α} {f : α → Prog β}
    (hp : Quiet h P p) (hf : ∀ a, P a → Quiet h Q (f a)) : Quiet h Q (p.bind f) := by
  induction p with
  | ret a => exact hf a hp
  | poll h' k ih => exact ih none hp
  | isScheduled h' k ih => exact fun b hb => ih b (hp b hb)
  | panic => trivial
  | pending k ih => trivial
  | _ => exact absurd hp id

theorem quiet_pollLoop {h : Handle} (ids : List ℕ) (E : Edges) (fin : Bool) (num : ℕ)
    (hr : 0 < num ∨ ∃ id ∈ ids, ∃ t, E.targets[id]? = some t ∧ t.running = some h) :
    Quiet h (fun r => 0 < r.2.2) (Edges.pollLoop ids E fin num) := by
  induction ids generalizing num with
  | nil => simpa [Edges.pollLoop, Quiet] using hr
  | cons id ids ih =>
    rw [Edges.pollLoop]
    cases ht2 : E.targets[id]? with
    | none => trivial
    | some t2 =>
      dsimp only
      cases hrun2 : t2.running with
      | none =>
        refine ih num (hr.imp_right ?_)
        rintro ⟨id', hid, t, ht, hrun⟩
        rcases List.mem_cons.1 hid with rfl | hid
        · rw [ht2] at ht
          cases ht
          rw [hrun2] at hrun
          simp at hrun
        · exact ⟨id', hid, t, ht, hrun⟩
      | some h2 =>
        intro b hb
        refine ih _ ?_
        rcases hr with hr | ⟨id', hid, t, ht, hrun⟩
        · left; split <;> omega
        · rcases List.mem_cons.1 hid with rfl | hid
          · rw [ht2] at ht
            cases ht
            rw [hrun2] at hrun
            cases hrun
            left
            rw [hb rfl]
            simp
          · exact Or.inr ⟨id', hid, t, ht, hrun⟩

theorem quiet_assert {h : Handle} (b : Bool) : Quiet h (fun _ => True) (assert b) := by
  cases b <;> trivial

theorem quiet_nextLoop {h : Handle} (level : ℕ) (order : Option ℕ) (E : Edges) (r : Ret)
    (hr : ∃ id ∈ E.active, ∃ t, E.targets[id]? = some t ∧ t.running = some h) :
    Quiet h (fun e => ∀ pc, e = .goto pc → pc.free = false) (code hash (.nextLoop level order E true r)) := by
  rw [code]
  refine Quiet.bind (quiet_pollLoop _ _ _ _ (Or.inr hr)) ?_
  intro p hp
  refine Quiet.bind (quiet_assert _) ?_
  intro _ _
  dsimp only
  split
  · intro pc hpc
    cases hpc
    cases r <;> rfl
  · rw [if_pos ⟨rfl, hp⟩]
    trivial

namespace Tail

variable {limit : Option ℕ} {A : OSet} {H : ℕ → Global} {who : ℕ → Option ℕ}

theorem sent_succ (T : Tail hash limit A H who) (k : ℕ) : (H (k + 1)).sent = (H k).sent := by
  cases e : who k with
  | none => rw [T.idle k e]
  | some i => exact (T.free k i e).sent

theorem sent_mono (T : Tail hash limit A H who) {k k' : ℕ} (hk : k ≤ k') : (H k').sent = (H k).sent := by
  induction k', hk using Nat.le_induction with
  | base => rfl
  | succ n hn ih => rw [T.sent_succ, ih]

/-- An unfinished task stays unfinished. -/
theorem notDone_mono (T : Tail hash limit A H who) {k i : ℕ} {c : Task} (hc : (H k).tasks i = some c)
    (hd : ∀ v, c.status ≠ .done v) {k' : ℕ} (hk : k ≤ k') :
    ∃ c', (H k').tasks i = some c' ∧ ∀ v, c'.status ≠ .done v := by
  induction k', hk using Nat.le_induction with
  | base => exact ⟨c, hc, hd⟩
  | succ n hn ih =>
    obtain ⟨c1, hc1, hd1⟩ := ih
    obtain ⟨c2, hc2, _, _, h⟩ := T.task_succ hc1
    refine ⟨c2, hc2, ?_⟩
    rcases h with h | ⟨h, _⟩
    · rw [h]; exact hd1
    · intro v e
      obtain ⟨_, _, _, _, _, hv⟩ := h.view
      rw [e] at hv
      simp [Status.view] at hv

theorem quiet_sleeps (T : Tail hash limit A H who) {i : ℕ} {h : Handle} {owned : List Res} {stack : List Frame}
    (p : Prog Exit) {k : ℕ} (hu : Going H who k i) (hs : statusOf (H k) i = some (.run p owned stack))
    (hsc : ∃ c, (H k).tasks h.tid = some c ∧ c.scheduled = true)
    (hq : Quiet h (fun e => ∀ pc, e = .goto pc → pc.free = false) p) :
    ∃ k' q, k ≤ k' ∧ statusOf (H k') i = some (.sleep q owned stack) ∧ Going H who k' i := by
  induction p generalizing k with
  | ret e =>
    obtain ⟨k', hk, s', hs0, hm, hs', _, hu'⟩ := T.move' hu hs
    cases hm with
    | goto hf =>
      rw [hq _ rfl] at hf
      simp at hf
  | panic =>
    obtain ⟨k', hk, s', _, hm, hs', _⟩ := T.move' hu hs
    cases hm
  | poll h' f ih =>
    obtain ⟨k', hk, s', _, hm, hs', _, hu'⟩ := T.move' hu hs
    obtain ⟨c, hc, hcs⟩ := hsc
    cases hm with
    | pollPending =>
      obtain ⟨k2, q, hk2, h2⟩ := ih none hu' hs' (T.scheduled_mono hc hcs (by omega)) hq
      exact ⟨k2, q, by omega, h2⟩
  | isScheduled h' f ih =>
    obtain ⟨k', hk, s', _, hm, hs', _, hu'⟩ := T.move' hu hs
    obtain ⟨c, hc, hcs⟩ := hsc
    cases hm with
    | isScheduled hc' =>
      obtain ⟨k2, q, hk2, h2⟩ := ih _ hu' hs' (T.scheduled_mono hc hcs (by omega)) (hq _ (by
        rintro rfl
        obtain ⟨c2, hc2, hs2⟩ := T.scheduled_mono hc hcs hk
        rw [hc'] at hc2
        cases hc2
        exact hs2))
      exact ⟨k2, q, by omega, h2⟩
  | pending f ih =>
    obtain ⟨k', hk, s', _, hm, hs', _, hu'⟩ := T.move' hu hs
    cases hm with
    | pending => exact ⟨k' + 1, _, by omega, hs', hu'⟩
  | _ => exact absurd hq id

/-- No task makes infinitely many free steps unless it is resumed again and again while it cannot continue. -/
theorem not_going (T : Tail hash limit A H who) (hsp : ∀ k, ¬ Spurious H who k) {k i : ℕ}
    (hu : Going H who k i) : False := by
  obtain ⟨owned, stack, hl⟩ := hu.1
  rcases T.stuck_or_loop hl hu with ⟨k2, hk2, B, t, tok, p, o, st, ht, hs, hsent⟩ |
    ⟨k2, level, order, E, r, h, K, c, b, s, t, ch, hk2, ht, hst, hs3, hu3, ha, hown, hm, hch, hsd, htk, hcan⟩
  · obtain ⟨k3, hk3, s', _, hm, _⟩ := T.move' (T.going_mono hu hk2)
      (s := .wait B tok p o st) (by unfold statusOf; rw [ht, ← hs]; rfl)
    cases hm with
    | lockWake h =>
      rw [T.sent_mono hk3, hsent] at h
      simp at h
  · obtain ⟨k4, q, hk4, hs4, hu4⟩ := T.quiet_sleeps (h := h) _ hu3 hs3 (T.scheduled_mono hch hsd (by omega))
      (quiet_nextLoop level order E r (hown h ((ha.1.own h).2 hm)))
    obtain ⟨k5, hk5, s', hs5, hm5, hs6, hw, _⟩ := T.move' hu4 hs4
    obtain ⟨t5, ht5, hst5⟩ := statusOf_eq hs5
    obtain ⟨β, hG⟩ := T.inv k2
    have hres : t.res = owned ++ stack.flatMap Frame.owned := by unfold Task.res; rw [hst]; rfl
    refine hsp k5 ⟨i, hw, ⟨t5, ht5, Or.inr ⟨q, owned, stack, hst5, ⟨h, hm⟩, ?_⟩⟩, ?_⟩
    · intro h' hm' c' hc' v hd
      obtain ⟨_, _, c2, hc2, _⟩ := hG.own.child i t h' ht (by rw [hres]; exact List.mem_append.2 (Or.inl hm'))
      by_cases hd2 : ∃ v, c2.status = .done v
      · obtain ⟨v2, hd2⟩ := hd2
        have hd3 : statusOf (H k2) h'.tid = some (.done v2) := by unfold statusOf; rw [hc2, ← hd2]; rfl
        refine T.polls_absurd (h := h') _ hu3 hs3 (T.done_mono hd3 (by omega)) ?_
        rw [code]
        exact Polls.bind _ (polls_pollLoop _ _ _ _ (hown h' ((ha.1.own h').2 hm')))
      · obtain ⟨c3, hc3, hd3⟩ := T.notDone_mono hc2 (fun v e => hd2 ⟨v, e⟩) (k' := k5) (by omega)
        rw [hc'] at hc3
        cases hc3
        exact hd3 v hd
    · rintro ⟨l, hl⟩
      rw [hs6] at hl
      cases hl
      cases hm5

/-- A task that makes infinitely many steps has been started. -/
theorem acts_going (T : Tail hash limit A H who) {i : ℕ} (ha : Acts H who 0 i) : ∃ k, Going H who k i := by
  have first : ∀ k, ∃ l, k ≤ l ∧ who l = some i := fun k => ha k (Nat.zero_le _)
  obtain ⟨l, _, hw⟩ := first 0
  have live : ∀ l t p o st, (H l).tasks i = some t → t.status.view = some (p, o, st) → t.scheduled = true →
      ∃ k, Going H who k i := fun l t p o st ht hv hs =>
    ⟨l, ⟨o, st, t, p, ht, hs, hv⟩, ha.mono (Nat.zero_le _)⟩
  have key : ∀ l t t', (H l).tasks i = some t → (H (l + 1)).tasks i = some t' →
      (t.scheduled = true → t'.scheduled = true) →
      FreeMove hash (H l) t.status t'.status → ∃ k, Going H who k i := by
    intro l t t' ht ht' hsch hm
    obtain ⟨β, hG⟩ := T.inv l
    obtain ⟨β', hG'⟩ := T.inv (l + 1)
    obtain ⟨p, p', o, st, hv, hv'⟩ := hm.view
    have hsc : t'.scheduled = true := by
      by_cases hsl : ∃ p, t.status = .sleep p [] []
      · obtain ⟨p0, e⟩ := hsl
        rw [e] at hm
        have hr : ∃ p, t'.status = .run p [] [] := by
          generalize hx : t'.status = x at hm
          cases hm
          exact ⟨_, rfl⟩
        obtain ⟨p1, e1⟩ := hr
        exact hG'.own.started ht' (by intro p2 e2; rw [e1] at e2; cases e2) (by rw [e1]; simp)
      · refine hsch (hG.own.started ht (fun p e => hsl ⟨p, e⟩) ?_)
        intro e
        rw [e] at hv
        simp [Status.view] at hv
    exact live (l + 1) t' p' o st ht' hv' hsc
  obtain ⟨t, ht⟩ := (T.free l i hw).actor
  obtain ⟨t', ht', _, _, hsch, _, hm⟩ := (T.free l i hw).task i t ht
  rcases hm rfl with hm | ⟨_, _, hs⟩
  · exact key l t t' ht ht' hsch hm
  · obtain ⟨l2, hl2, hw2⟩ := first (l + 1)
    obtain ⟨t2, ht2, hs2⟩ := T.scheduled_mono ht' hs hl2
    obtain ⟨t3, ht3, _, _, hsch3, _, hm3⟩ := (T.free l2 i hw2).task i t2 ht2
    rcases hm3 rfl with hm3 | ⟨_, h, _⟩
    · exact key l2 t2 t3 ht2 ht3 hsch3 hm3
    · rw [hs2] at h
      simp at h

theorem none_mono (T : Tail hash limit A H who) {j : ℕ} (h : (H 0).tasks j = none) (k : ℕ) :
    (H k).tasks j = none := by
  induction k with
  | zero => exact h
  | succ k ih =>
    cases e : who k with
    | none => rw [T.idle k e]; exact ih
    | some i => exact (T.free k i e).none j ih

/-- Without spurious wakeups there are finitely many steps. -/
theorem stops (T : Tail hash limit A H who) (hF : Fin' (H 0)) (hsp : ∀ k, ¬ Spurious H who k) :
    ∃ K, ∀ k, K ≤ k → who k = none := by
  classical
  have hno : ∀ i, ∃ k, ∀ l, k ≤ l → who l ≠ some i := by
    intro i
    by_contra hcon
    push Not at hcon
    have ha : Acts H who 0 i := fun k _ => hcon k
    obtain ⟨k, hu⟩ := T.acts_going ha
    exact T.not_going hsp hu
  choose f hf using hno
  obtain ⟨N, hN⟩ := hF
  refine ⟨(Finset.range N).sup f, ?_⟩
  intro k hk
  cases e : who k with
  | none => rfl
  | some i =>
    exfalso
    have hi : i < N := by
      by_contra hge
      obtain ⟨t, ht⟩ := (T.free k i e).actor
      rw [T.none_mono (hN i (by omega)) k] at ht
      simp at ht
    exact hf i k (Nat.le_trans (Finset.le_sup (Finset.mem_range.2 hi)) hk) e

end Tail

/-- Every execution with finitely many spurious wakeups is finite. -/
theorem Execution.stops {limit : Option ℕ} {A : OSet} (hA : OK A) {G : ℕ → Global} {who : ℕ → Option ℕ}
    (h : Execution hash limit A G who) (hsp : ∃ K, ∀ k, K ≤ k → ¬ Spurious G who k) :
    ∃ K, ∀ k, K ≤ k → who k = none := by
  obtain ⟨K1, T⟩ := h.tail hA
  obtain ⟨K2, hsp⟩ := hsp
  have T' : Tail hash limit A (fun k => G (K1 + (K2 + k))) fun k => who (K1 + (K2 + k)) :=
    ⟨fun k => T.inv (K2 + k), fun k => T.wait (K2 + k), fun k => T.tok (K2 + k), fun k => T.free (K2 + k),
      fun k => T.idle (K2 + k)⟩
  obtain ⟨K, hK⟩ := T'.stops (Fin'.reach (h.reach _)) fun k => hsp (K1 + (K2 + k)) (by omega)
  refine ⟨K1 + (K2 + K), fun k hk => ?_⟩
  have := hK (k - (K1 + K2)) (by omega)
  rwa [show K1 + (K2 + (k - (K1 + K2))) = k by omega] at this

/-! ## The number of tasks -/

/-- A step creates at most one task. -/
theorem act_tasks {G G' : Global} {i : ℕ} (h : Act hash i G G') : ∃ j0, ∀ j, j ≠ j0 → G.tasks j = none → G'.tasks j = none := by
  cases h with
  | @spawn t level prev A k owned stack j ht hs hj =>
    refine ⟨j, fun l hl hn => ?_⟩
    dsimp only
    rw [Function.update_of_ne hl]
    exact upd_none ht hn
  | get ht hs => exact ⟨i, fun j _ hj => upd_none ht hj⟩
  | set ht hs => exact ⟨i, fun j _ hj => upd_none ht hj⟩
  | setPanic ht hs => exact ⟨i, fun j _ hj => upd_none ht hj⟩
  | lockFree ht hs => exact ⟨i, fun j _ hj => upd_none ht hj⟩
  | lockBusy ht hs => exact ⟨i, fun j _ hj => upd_none ht hj⟩
  | lockPanic ht hs => exact ⟨i, fun j _ hj => upd_none ht hj⟩
  | lockWake ht hs => exact ⟨i, fun j _ hj => upd_none ht hj⟩
  | addPending ht hs hc =>
    refine ⟨i, fun j _ hj => ?_⟩
    dsimp only
    rw [Function.update_of_ne (by rintro rfl; rw [hc] at hj; simp at hj)]
    exact upd_none ht hj
  | schedule ht hs hc =>
    refine ⟨i, fun j _ hj => ?_⟩
    dsimp only
    rw [Function.update_of_ne (by rintro rfl; rw [hc] at hj; simp at hj)]
    exact upd_none ht hj
  | isScheduled ht hs => exact ⟨i, fun j _ hj => upd_none ht hj⟩
  | pollReady ht hs hc =>
    refine ⟨i, fun j _ hj => ?_⟩
    dsimp only
    rw [Function.update_of_ne (by rintro rfl; rw [hc] at hj; simp at hj)]
    exact upd_none ht hj
  | pollPending ht hs => exact ⟨i, fun j _ hj => upd_none ht hj⟩
  | pollPanic ht hs => exact ⟨i, fun j _ hj => upd_none ht hj⟩
  | dropHandle ht hs => exact ⟨i, fun j _ hj => release_none ht _ _ j hj⟩
  | pending ht hs => exact ⟨i, fun j _ hj => upd_none ht hj⟩
  | wake ht hs => exact ⟨i, fun j _ hj => upd_none ht hj⟩
  | worker ht hs => exact ⟨i, fun j _ hj => upd_none ht hj⟩
  | panic ht hs => exact ⟨i, fun j _ hj => upd_none ht hj⟩
  | goto ht hs => exact ⟨i, fun j _ hj => upd_none ht hj⟩
  | call ht hs => exact ⟨i, fun j _ hj => upd_none ht hj⟩
  | ret ht hs => exact ⟨i, fun j _ hj => upd_none ht hj⟩
  | unwind ht hs => exact ⟨i, fun j _ hj => release_none ht _ _ j hj⟩
  | unwindPanic ht hs => exact ⟨i, fun j _ hj => upd_none ht hj⟩
  | «return» ht hs => exact ⟨i, fun j _ hj => upd_none ht hj⟩
  | finish ht hs => exact ⟨i, fun j _ hj => upd_none ht hj⟩
  | dropSleep ht hs => exact ⟨i, fun j _ hj => upd_none ht hj⟩
  | dropWait ht hs => exact ⟨i, fun j _ hj => upd_none ht hj⟩
  | drop ht hs => exact ⟨i, fun j _ hj => release_none ht _ _ j hj⟩
  | dropPanic ht hs => exact ⟨i, fun j _ hj => upd_none ht hj⟩

/-- The budget bounds the number of tasks that are created. -/
theorem GInv.tasks_le {limit : Option ℕ} {A : OSet} (hA : OK A) {G : Global} (h : Reach hash limit A G) :
    ∃ (s : Finset ℕ) (β : ℕ →₀ ℕ), (∀ j, G.tasks j ≠ none → j ∈ s) ∧ GInv hash limit A β G ∧
      s.card + β.degree ≤ (budget limit A).degree + 1 := by
  induction h with
  | init =>
    refine ⟨{0}, budget limit A, ?_, GInv.start limit hA, by simp; omega⟩
    intro j hj
    by_contra hne
    exact hj (by simp only [Search.init]; rw [if_neg (by simpa using hne)])
  | @step G G' _ hs ih =>
    obtain ⟨s, β, hsub, hG, hle⟩ := ih
    obtain ⟨i, hs⟩ := hs
    obtain ⟨β', hG', hd⟩ := hG.act hs
    rcases hd with hd | ⟨hd, hf⟩
    · obtain ⟨j0, hj0⟩ := act_tasks hs
      refine ⟨insert j0 s, β', ?_, hG', ?_⟩
      · intro j hj
        rw [Finset.mem_insert]
        by_contra hcon
        push Not at hcon
        exact hj (hj0 j hcon.1 (by by_contra h; exact hcon.2 (hsub j h)))
      · have := Finset.card_insert_le j0 s
        omega
    · refine ⟨s, β', ?_, hG', by omega⟩
      intro j hj
      apply hsub
      intro h
      exact hj (hf.none j h)

/-! ## There are fair executions -/

/-- A task that can make a step now. -/
def CanMove (G : Global) (i : ℕ) : Prop := Unfinished G i ∧ ¬ Blocked G i

open Classical in
/-- The task that makes the next step. -/
noncomputable def pick (G : Global) : Option ℕ :=
  if h : ∃ i, CanMove G i then some h.choose else none

open Classical in
/-- The state after the next step. -/
noncomputable def after (hash : List ℕ → ℕ) (G : Global) : Global :=
  if h : ∃ i G', pick G = some i ∧ Act hash i G G' then h.choose_spec.choose else G

/-- An execution. -/
noncomputable def greedy (hash : List ℕ → ℕ) (limit : Option ℕ) (A : OSet) : ℕ → Global
  | 0 => init hash limit A
  | k + 1 => after hash (greedy hash limit A k)

theorem pick_some {G : Global} {i : ℕ} (h : pick G = some i) : CanMove G i := by
  unfold pick at h
  split at h
  · next hex =>
    rw [← Option.some.inj h]
    exact hex.choose_spec
  · simp at h

theorem pick_none {G : Global} (h : pick G = none) (i : ℕ) : ¬ CanMove G i := by
  unfold pick at h
  split at h
  · simp at h
  · next hex => exact fun hc => hex ⟨i, hc⟩

theorem greedy_execution {limit : Option ℕ} {A : OSet} (hA : OK A) :
    Execution hash limit A (greedy hash limit A) fun k => pick (greedy hash limit A k) := by
  have reach : ∀ k, Reach hash limit A (greedy hash limit A k) ∧
      (∀ i, pick (greedy hash limit A k) = some i → Act hash i (greedy hash limit A k) (greedy hash limit A (k + 1))) ∧
      (pick (greedy hash limit A k) = none → greedy hash limit A (k + 1) = greedy hash limit A k) := by
    have one : ∀ k, Reach hash limit A (greedy hash limit A k) →
        (∀ i, pick (greedy hash limit A k) = some i → Act hash i (greedy hash limit A k) (greedy hash limit A (k + 1))) ∧
        (pick (greedy hash limit A k) = none → greedy hash limit A (k + 1) = greedy hash limit A k) := by
      intro k hr
      constructor
      · intro i hi
        obtain ⟨β, hG, _⟩ := GInv.reach hA hr
        obtain ⟨G', hG'⟩ := unblocked_acts hG (Fin'.reach hr) (pick_some hi).1 (pick_some hi).2
        have hex : ∃ i G', pick (greedy hash limit A k) = some i ∧ Act hash i (greedy hash limit A k) G' :=
          ⟨i, G', hi, hG'⟩
        have h := hex.choose_spec.choose_spec
        have e : i = hex.choose := Option.some.inj (hi.symm.trans h.1)
        rw [greedy, after, dif_pos hex]
        have key : ∀ j G', i = j → Act hash j (greedy hash limit A k) G' → Act hash i (greedy hash limit A k) G' := by
          rintro j G' rfl h
          exact h
        exact key _ _ e h.2
      · intro hn
        rw [greedy, after, dif_neg]
        rintro ⟨i, G', hi, _⟩
        rw [hn] at hi
        simp at hi
    intro k
    induction k with
    | zero => exact ⟨.init, one 0 .init⟩
    | succ k ih =>
      have hr : Reach hash limit A (greedy hash limit A (k + 1)) := by
        cases e : pick (greedy hash limit A k) with
        | none => rw [ih.2.2 e]; exact ih.1
        | some i => exact .step ih.1 ⟨i, ih.2.1 i e⟩
      exact ⟨hr, one _ hr⟩
  exact ⟨rfl, fun k => (reach k).2.1, fun k => (reach k).2.2⟩

theorem greedy_spurious (limit : Option ℕ) (A : OSet) (k : ℕ) :
    ¬ Spurious (greedy hash limit A) (fun k => pick (greedy hash limit A k)) k := by
  rintro ⟨i, hi, hb, _⟩
  exact (pick_some hi).2 hb

theorem greedy_fair {limit : Option ℕ} {A : OSet} (hA : OK A) :
    Fair (greedy hash limit A) fun k => pick (greedy hash limit A k) := by
  obtain ⟨K, hK⟩ := (greedy_execution (hash := hash) (limit := limit) hA).stops hA
    ⟨0, fun k _ => greedy_spurious limit A k⟩
  intro i k hu
  exact absurd (hu (max k K) (le_max_left _ _)) (pick_none (hK (max k K) (le_max_right _ _)) i)

end Search

end Sortnet
