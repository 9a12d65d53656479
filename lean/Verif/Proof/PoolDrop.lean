import Verif.Proof.Adopt
import Verif.Proof.SearchFast
import Verif.Model.PoolDrop
import Verif.Spec.PoolDrop

/-!
# The end of `ThreadPool::scope`: proofs
-/

namespace Sortnet

namespace Search

variable {hash : List ℕ → ℕ}

theorem SReach.wreach {limit : Option ℕ} {A : OSet} {S : Scope} (h : SReach hash limit A S) : WReach hash limit A S.W := by
  induction h with
  | init => exact .init
  | step _ hs ih =>
    cases hs with
    | act h _ => exact ih.step h
    | repoll h => exact ih.step h
    | drop _ => exact ih

/-! ## Descendants -/

/-- The task is a descendant of the main task, or doomed. -/
inductive Line (G : Global) : ℕ → Prop
  | main : Line G 0
  | cancelled {i : ℕ} {t : Task} : G.tasks i = some t → t.cancelled = true → Line G i
  | child {i j : ℕ} {u : Task} {h : Handle} : Line G j → G.tasks j = some u → Res.handle h ∈ u.res → h.tid = i → Line G i

theorem Act.fresh_res {G G' : Global} {i : ℕ} (h : Act hash i G G') {j : ℕ} {t' : Task} (hn : G.tasks j = none)
    (ht' : G'.tasks j = some t') : t'.res = [] := by
  have one : ∀ {f : ℕ → Option Task} {i : ℕ} {t t1 : Task}, G.tasks i = some t → f j = none →
      Function.update f i (some t1) j = some t' → False := by
    intro f i t t1 hi hf h
    have : j ≠ i := by rintro rfl; rw [hn] at hi; cases hi
    rw [Function.update_of_ne this, hf] at h
    cases h
  have upd : ∀ {f : ℕ → Option Task} {i : ℕ} {t t1 : Task}, G.tasks i = some t → f j = none →
      Function.update f i (some t1) j = none := by
    intro f i t t1 hi hf
    have : j ≠ i := by rintro rfl; rw [hn] at hi; cases hi
    rw [Function.update_of_ne this, hf]
  have rel : ∀ {H : Global} (r : Res), H.tasks j = none → (H.release r).tasks j = none := by
    intro H r hH
    cases r with
    | lock A tok => exact hH
    | handle hd =>
      unfold Global.release Global.cancel
      dsimp only
      by_cases e : j = hd.tid
      · subst e; rw [Function.update_self, hH]; rfl
      · rw [Function.update_of_ne e]; exact hH
  cases h with
  | @spawn t level prev A k owned stack j' ht hs hj =>
    dsimp only at ht'
    by_cases e : j = j'
    · subst e
      rw [Function.update_self] at ht'
      cases ht'
      rfl
    · rw [Function.update_of_ne e] at ht'
      exact (one ht hn ht').elim
  | addPending ht _ hc _ => exact (one hc (upd ht hn) ht').elim
  | schedule ht _ hc _ => exact (one hc (upd ht hn) ht').elim
  | pollReady ht _ hc _ _ => exact (one hc (upd ht hn) ht').elim
  | worker ht _ _ => exact (one ht hn ht').elim
  | dropHandle ht _ => rw [rel _ (upd ht hn)] at ht'; cases ht'
  | unwind ht _ _ _ => rw [rel _ (upd ht hn)] at ht'; cases ht'
  | drop ht _ _ _ => rw [rel _ (upd ht hn)] at ht'; cases ht'
  | get ht _ => exact (one ht hn ht').elim
  | set ht _ _ => exact (one ht hn ht').elim
  | setPanic ht _ _ => exact (one ht hn ht').elim
  | lockFree ht _ _ _ => exact (one ht hn ht').elim
  | lockBusy ht _ _ _ => exact (one ht hn ht').elim
  | lockPanic ht _ _ => exact (one ht hn ht').elim
  | lockWake ht _ _ => exact (one ht hn ht').elim
  | isScheduled ht _ _ => exact (one ht hn ht').elim
  | pollPending ht _ _ _ _ _ => exact (one ht hn ht').elim
  | pollPanic ht _ _ _ _ => exact (one ht hn ht').elim
  | pending ht _ => exact (one ht hn ht').elim
  | wake ht _ _ => exact (one ht hn ht').elim
  | panic ht _ => exact (one ht hn ht').elim
  | goto ht _ => exact (one ht hn ht').elim
  | call ht _ => exact (one ht hn ht').elim
  | ret ht _ => exact (one ht hn ht').elim
  | unwindPanic ht _ _ _ => exact (one ht hn ht').elim
  | «return» ht _ => exact (one ht hn ht').elim
  | finish ht _ => exact (one ht hn ht').elim
  | dropSleep ht _ _ => exact (one ht hn ht').elim
  | dropWait ht _ _ => exact (one ht hn ht').elim
  | dropPanic ht _ _ _ => exact (one ht hn ht').elim

theorem Line.step {limit : Option ℕ} {A : OSet} (hA : OK A) {G G' : Global} (hr : Reach hash limit A G) {i : ℕ}
    (hs : Act hash i G G') {j : ℕ} {t : Task} (ht : G.tasks j = some t) (h : Line G j) : Line G' j := by
  obtain ⟨β', hG', _⟩ := GInv.reach hA (.step hr ⟨i, hs⟩)
  have hk := hs.keeps
  induction h generalizing t with
  | main => exact .main
  | cancelled ht1 hc =>
    obtain ⟨t', ht', _, hc'⟩ := hk.task _ _ ht1
    exact .cancelled ht' (hc' hc)
  | @child j k u hd hl hu hm e ih =>
    obtain ⟨u', hu', h1 | h1 | h1⟩ := hk.owned _ _ _ hu hm
    · exact .child (ih hu) hu' h1 e
    · have := hG'.task _ u' hu'
      rw [h1] at this
      exact this.elim
    · obtain ⟨t', ht', _⟩ := hk.task _ _ ht
      exact .cancelled ht' (h1 t' (by rw [e]; exact ht'))

theorem Line.reach {limit : Option ℕ} {A : OSet} (hA : OK A) {G : Global} (h : Reach hash limit A G) {j : ℕ} {t : Task}
    (ht : G.tasks j = some t) : Line G j := by
  induction h generalizing j t with
  | init =>
    unfold Search.init at ht
    dsimp only at ht
    split at ht
    · next e => subst e; exact .main
    · cases ht
  | @step G G' hr hs ih =>
    obtain ⟨i, hs⟩ := hs
    cases e : G.tasks j with
    | some t0 => exact (ih e).step hA hr hs e
    | none =>
      rcases hs.keeps.fresh j t ht with ⟨t0, ht0⟩ | ⟨k, u, hd, hu, hm, rfl⟩
      · rw [e] at ht0; cases ht0
      · cases e' : G.tasks k with
        | some u0 => exact .child ((ih e').step hA hr hs e') hu hm rfl
        | none => rw [hs.fresh_res e' hu] at hm; cases hm

/-- When the main task has finished, all other tasks are doomed. -/
theorem doomed_of_returned {limit : Option ℕ} {A : OSet} (hA : OK A) {G : Global} (h : Reach hash limit A G) {r : ℕ}
    (hr : Returned G r) {j : ℕ} {t : Task} (ht : G.tasks j = some t) (hj : j ≠ 0) : Doomed G j := by
  have hl := Line.reach hA h ht
  obtain ⟨t0, v, ht0, hs0, _⟩ := hr
  clear ht
  have : j = 0 ∨ Doomed G j := by
    clear hj
    induction hl with
    | main => exact Or.inl rfl
    | cancelled ht hc => exact Or.inr (.cancelled ht hc)
    | child hl hu hm e ih =>
      rcases ih with rfl | ih
      · rw [ht0] at hu
        cases hu
        unfold Task.res at hm
        rw [hs0] at hm
        simp [Status.res] at hm
      · exact Or.inr (.child ih hu hm e)
  exact this.resolve_left hj

/-! ## The result -/

/-- A finished task stays finished, until its result is taken. -/
theorem Act.done {G G' : Global} {i : ℕ} (h : Act hash i G G') {j : ℕ} {v : State}
    (hd : statusOf G j = some (.done v)) : statusOf G' j = some (.done v) ∨ statusOf G' j = some .taken := by
  obtain ⟨t0, ht0, hs0⟩ := Tail.statusOf_eq hd
  have ne : ∀ {i : ℕ} {t : Task}, G.tasks i = some t → (∀ v, t.status ≠ .done v) → j ≠ i := by
    rintro i t hi hnd rfl
    rw [ht0] at hi
    cases hi
    exact hnd v hs0
  have one : ∀ {i : ℕ} {t t1 : Task}, G.tasks i = some t → (∀ v, t.status ≠ .done v) →
      (Function.update G.tasks i (some t1) j).map Task.status = some (.done v) ∨
        (Function.update G.tasks i (some t1) j).map Task.status = some .taken := by
    intro i t t1 hi hnd
    rw [Function.update_of_ne (ne hi hnd), ht0]
    exact Or.inl (by simp [hs0])
  have two : ∀ {i c : ℕ} {t t1 u u1 : Task}, G.tasks i = some t → (∀ v, t.status ≠ .done v) → G.tasks c = some u →
      u1.status = u.status →
      (Function.update (Function.update G.tasks i (some t1)) c (some u1) j).map Task.status = some (.done v) ∨
        (Function.update (Function.update G.tasks i (some t1)) c (some u1) j).map Task.status = some .taken := by
    intro i c t t1 u u1 hi hnd hc he
    by_cases e : j = c
    · subst e
      rw [Function.update_self]
      rw [ht0] at hc
      cases hc
      exact Or.inl (by simp [he, hs0])
    · rw [Function.update_of_ne e, Function.update_of_ne (ne hi hnd), ht0]
      exact Or.inl (by simp [hs0])
  have rel : ∀ {i : ℕ} {t : Task} {st : Status} (r : Res), G.tasks i = some t → (∀ v, t.status ≠ .done v) →
      statusOf ((G.setStatus i t st).release r) j = some (.done v) := by
    intro i t st r hi hnd
    have : (G.setStatus i t st).tasks j = some t0 := by
      unfold Global.setStatus
      dsimp only
      rw [Function.update_of_ne (ne hi hnd), ht0]
    unfold statusOf
    cases r with
    | lock A tok => unfold Global.release; dsimp only; rw [this]; simp [hs0]
    | handle hd =>
      unfold Global.release Global.cancel
      dsimp only
      by_cases e : j = hd.tid
      · subst e; rw [Function.update_self, this]; simp [hs0]
      · rw [Function.update_of_ne e, this]; simp [hs0]
  cases h with
  | @spawn t level prev A k owned stack j' ht hs hj =>
    have : j ≠ j' := by rintro rfl; rw [ht0] at hj; cases hj
    unfold statusOf
    dsimp only
    rw [Function.update_of_ne this, Function.update_of_ne (ne ht (by rw [hs]; simp)), ht0]
    exact Or.inl (by simp [hs0])
  | addPending ht hs hc _ => exact two ht (by rw [hs]; simp) hc rfl
  | schedule ht hs hc _ => exact two ht (by rw [hs]; simp) hc rfl
  | @pollReady t hd k owned stack c w ht hs hc hv _ =>
    unfold statusOf
    dsimp only
    by_cases e : j = hd.tid
    · subst e; rw [Function.update_self]; exact Or.inr rfl
    · rw [Function.update_of_ne e, Function.update_of_ne (ne ht (by rw [hs]; simp)), ht0]
      exact Or.inl (by simp [hs0])
  | @worker t ht _ _ =>
    unfold statusOf
    dsimp only
    by_cases e : j = i
    · subst e
      rw [ht0] at ht
      cases ht
      rw [Function.update_self]
      exact Or.inl (by simp [hs0])
    · rw [Function.update_of_ne e, ht0]
      exact Or.inl (by simp [hs0])
  | dropHandle ht hs => exact Or.inl (rel _ ht (by rw [hs]; simp))
  | unwind ht hs _ _ => exact Or.inl (rel _ ht (by rw [hs]; simp))
  | drop ht hs _ _ => exact Or.inl (rel _ ht (by rw [hs]; simp))
  | get ht hs => exact one ht (by rw [hs]; simp)
  | set ht hs _ => exact one ht (by rw [hs]; simp)
  | setPanic ht hs _ => exact one ht (by rw [hs]; simp)
  | lockFree ht hs _ _ => exact one ht (by rw [hs]; simp)
  | lockBusy ht hs _ _ => exact one ht (by rw [hs]; simp)
  | lockPanic ht hs _ => exact one ht (by rw [hs]; simp)
  | lockWake ht hs _ => exact one ht (by rw [hs]; simp)
  | isScheduled ht hs _ => exact one ht (by rw [hs]; simp)
  | pollPending ht hs _ _ _ _ => exact one ht (by rw [hs]; simp)
  | pollPanic ht hs _ _ _ => exact one ht (by rw [hs]; simp)
  | pending ht hs => exact one ht (by rw [hs]; simp)
  | wake ht hs _ => exact one ht (by rw [hs]; simp)
  | panic ht hs => exact one ht (by rw [hs]; simp)
  | goto ht hs => exact one ht (by rw [hs]; simp)
  | call ht hs => exact one ht (by rw [hs]; simp)
  | ret ht hs => exact one ht (by rw [hs]; simp)
  | unwindPanic ht hs _ _ => exact one ht (by rw [hs]; simp)
  | «return» ht hs => exact one ht (by rw [hs]; simp)
  | finish ht hs => exact one ht (by rw [hs]; simp)
  | dropSleep ht hs _ => exact one ht (by rw [hs]; simp)
  | dropWait ht hs _ => exact one ht (by rw [hs]; simp)
  | dropPanic ht hs _ _ => exact one ht (by rw [hs]; simp)

/-- The result of the search does not change. -/
theorem Returned.step {limit : Option ℕ} {A : OSet} (hA : OK A) {G G' : Global} (hG : Reach hash limit A G) {i : ℕ}
    (hs : Act hash i G G') {r : ℕ} (hr : Returned G r) : Returned G' r := by
  obtain ⟨β', hG', _⟩ := GInv.reach hA (.step hG ⟨i, hs⟩)
  obtain ⟨t, v, ht, hv, hlo⟩ := hr
  rcases hs.done (statusOf_some ht hv) with h | h
  · obtain ⟨t', ht', hs'⟩ := Tail.statusOf_eq h
    exact ⟨t', v, ht', hs', hlo⟩
  · obtain ⟨t', ht', hs'⟩ := Tail.statusOf_eq h
    obtain ⟨t1, ht1, _, _, _, hnt⟩ := hG'.main
    rw [ht'] at ht1
    cases ht1
    exact (hnt hs').elim

/-- After the pool has been dropped the main task has finished. -/
theorem SReach.returned {limit : Option ℕ} {A : OSet} (hA : OK A) {S : Scope} (h : SReach hash limit A S)
    (hd : S.dropped = true) : ∃ r, Returned S.W.G r := by
  induction h with
  | init => cases hd
  | step h hs ih =>
    cases hs with
    | act hw _ =>
      obtain ⟨r, hr⟩ := ih hd
      cases hw with
      | act ha _ => exact ⟨r, hr.step hA h.wreach.reach ha⟩
    | repoll hw =>
      cases hw
      exact ih hd
    | drop hr => exact ⟨_, hr⟩

/-! ## Executing the model -/

theorem statusOf_of_suspended {G : Global} {i : ℕ} (h : Suspended G i) : ∃ t, G.tasks i = some t ∧
    ((∃ p owned stack, t.status = .sleep p owned stack) ∨ ∃ B tok p owned stack, t.status = .wait B tok p owned stack) := by
  rcases h with ⟨p, owned, stack, h⟩ | ⟨B, tok, p, owned, stack, h⟩
  · obtain ⟨t, ht, hs⟩ := Tail.statusOf_eq h
    exact ⟨t, ht, Or.inl ⟨p, owned, stack, hs⟩⟩
  · obtain ⟨t, ht, hs⟩ := Tail.statusOf_eq h
    exact ⟨t, ht, Or.inr ⟨B, tok, p, owned, stack, hs⟩⟩

theorem anyDone_spec {G : Global} {owned : List Res} (h : anyDone G owned = true) :
    ∃ hd, Res.handle hd ∈ owned ∧ ∃ c, G.tasks hd.tid = some c ∧ ∃ v, c.status = .done v := by
  unfold anyDone at h
  rw [List.any_eq_true] at h
  obtain ⟨r, hr, h2⟩ := h
  split at h2
  · next hd =>
    split at h2
    · next c hc =>
      cases hv : c.status with
      | done v => exact ⟨hd, hr, c, hc, v, hv⟩
      | _ => rw [hv] at h2; simp [Status.isDone] at h2
    · simp at h2
  · simp at h2

/-- A task that is resumed by `act` is not cancelled and not blocked. -/
theorem act_resumes {N i : ℕ} {G G' : Global} (h : act hash N i G = some G') (hr : Resumes G G' i) :
    ∃ t, G.tasks i = some t ∧ t.cancelled = false ∧ ¬ Blocked G i := by
  obtain ⟨hsus, hrun⟩ := hr
  obtain ⟨p', owned', stack', hrun⟩ := hrun
  obtain ⟨t, ht, hs⟩ := statusOf_of_suspended hsus
  unfold act at h
  rw [ht] at h
  dsimp only at h
  have hdrop : ∀ l, G.setStatus i t (.dropping l) = G' → False := by
    rintro l rfl
    unfold statusOf Global.setStatus at hrun
    simp at hrun
  rcases hs with ⟨p, owned, stack, hs⟩ | ⟨B, tok, p, owned, stack, hs⟩
  · rw [hs] at h
    dsimp only at h
    split at h
    · exact (hdrop _ (Option.some.inj h)).elim
    · next hc =>
      refine ⟨t, ht, by simpa using hc, ?_⟩
      rintro ⟨t', ht', hb⟩
      rw [ht] at ht'
      cases ht'
      split at h
      · next hq =>
        rcases hb with ⟨_, _, _, _, _, hs', _⟩ | ⟨_, _, _, hs', ⟨hd, hm⟩, hb⟩
        · rw [hs] at hs'; cases hs'
        · rw [hs] at hs'
          cases hs'
          rcases hq.2 with rfl | hq
          · cases hm
          · obtain ⟨hd, hm, c, hc, v, hv⟩ := anyDone_spec hq
            exact hb hd hm c hc v hv
      · cases h
  · rw [hs] at h
    dsimp only at h
    split at h
    · exact (hdrop _ (Option.some.inj h)).elim
    · next hc =>
      refine ⟨t, ht, by simpa using hc, ?_⟩
      rintro ⟨t', ht', hb⟩
      rw [ht] at ht'
      cases ht'
      split at h
      · next hq =>
        rcases hb with ⟨_, _, _, _, _, hs', hq'⟩ | ⟨_, _, _, hs', _⟩
        · rw [hs] at hs'
          cases hs'
          rw [hq] at hq'
          cases hq'
        · rw [hs] at hs'; cases hs'
      · cases h

theorem workerC_not_resumes {i : ℕ} {G G' : Global} (h : workerC i G = some G') : ¬ Resumes G G' i := by
  rintro ⟨hsus, p, owned, stack, hrun⟩
  obtain ⟨t, ht, hs⟩ := statusOf_of_suspended hsus
  unfold workerC at h
  rw [ht] at h
  dsimp only at h
  split at h
  · cases h
    unfold statusOf at hrun
    simp at hrun
    rcases hs with ⟨_, _, _, hs⟩ | ⟨_, _, _, _, _, hs⟩ <;>
    · rw [hs] at hrun; cases hrun
  · cases h

/-- Whether the task has been scheduled. -/
def isSched (i : ℕ) (G : Global) : Bool :=
  match G.tasks i with
  | some t => t.scheduled
  | none => false

/-- `follow`, where only tasks that have been scheduled act. -/
def followS (hash : List ℕ → ℕ) (cd : PC → Prog Exit) : List (Bool × ℕ) → ℕ → Global → Option Global
  | [], _, G => some G
  | (b, i) :: l, N, G =>
    match (if b then if isSched i G then actC hash cd N i G else none else workerC i G) with
    | none => none
    | some G' => followS hash cd l (if (G'.tasks N).isSome then N + 1 else N) G'

theorem followS_reach {limit : Option ℕ} {A : OSet} (hA : OK A) {l : List (Bool × ℕ)} {N : ℕ} {W : World} {G' : Global}
    (hW : SReach hash limit A ⟨W, false⟩) (h : followS hash (code hash) l N W.G = some G') :
    ∃ W', SReach hash limit A ⟨W', false⟩ ∧ W'.G = G' := by
  induction l generalizing W N with
  | nil => cases h; exact ⟨W, hW, rfl⟩
  | cons x l ih =>
    obtain ⟨b, i⟩ := x
    rw [followS] at h
    split at h
    · cases h
    · next G1 h1 =>
      refine ih (W := W.after i G1) ?_ h
      cases b with
      | false =>
        have hn := workerC_not_resumes h1
        exact hW.step (.act (.act (workerC_sound h1) fun h => (hn h).elim) fun _ _ _ => hn)
      | true =>
        rw [if_pos rfl] at h1
        split at h1
        · next hsch =>
          have ha := actC_sound h1
          refine hW.step (.act (.act (act_sound ha) fun hr => ?_) fun t ht hc hr => ?_)
          · obtain ⟨t, ht, _, hb⟩ := act_resumes ha hr
            have hsch' : t.scheduled = true := by unfold isSched at hsch; rw [ht] at hsch; exact hsch
            obtain ⟨t', ht', hs'⟩ := statusOf_of_suspended hr.1
            rw [ht] at ht'
            cases ht'
            have hu : Unfinished W.G i := by
              refine ⟨t, ht, hsch', ?_, ?_, ?_, ?_⟩
              all_goals
                rcases hs' with ⟨_, _, _, hs'⟩ | ⟨_, _, _, _, _, hs'⟩ <;> simp [hs']
            exact ((hW.wreach.ok hA).runnable hu hb).2 hr.1
          · obtain ⟨t', ht', hc', _⟩ := act_resumes ha hr
            rw [ht] at ht'
            cases ht'
            rw [hc] at hc'
            cases hc'
        · cases h1

/-- Whether the next action of the cancelled task `i` uses the pool. -/
def usesPool (i : ℕ) (G : Global) : Bool :=
  match G.tasks i with
  | some t => t.cancelled &&
    match t.status with
    | .run (.spawn ..) _ _ => true
    | .run (.addPending ..) _ _ => true
    | _ => false
  | none => false

theorem usesPool_spec {i : ℕ} {G : Global} (h : usesPool i G = true) : UsesPool G i := by
  unfold usesPool at h
  split at h
  · next t ht =>
    rw [Bool.and_eq_true] at h
    have h := h.2
    split at h
    · next hs => exact ⟨t, _, _, ht, Or.inl ⟨_, _, _, _, hs⟩⟩
    · next hs => exact ⟨t, _, _, ht, Or.inr ⟨_, _, _, hs⟩⟩
    · cases h
  · cases h

/-- States after the pool has been dropped, obtained by executing the model. -/
theorem sreach_of_followS {limit : Option ℕ} {initial : OSet} (hi : OK initial) {l : List (Bool × ℕ)} {i r : ℕ}
    (h : ((canonM hash initial).bind fun A => (followS hash (codeC (canonM hash)) l 1 (init hash limit A)).bind fun G =>
      if usesPool i G then result G else none) = some r) :
    ∃ A W, canon hash initial = some A ∧ SReach hash limit A ⟨W, true⟩ ∧ Returned W.G r ∧ UsesPool W.G i := by
  rw [canonM_eq, codeC_eq] at h
  obtain ⟨A, hA, h⟩ := Option.bind_eq_some_iff.1 h
  obtain ⟨G, hG, h⟩ := Option.bind_eq_some_iff.1 h
  obtain ⟨W, hW, rfl⟩ := followS_reach (canon_of_eq hi hA).1 (W := winit hash limit A) .init hG
  split at h
  · next hu =>
    have hr := result_returned h
    exact ⟨A, W, hA, hW.step (.drop hr), hr, usesPool_spec hu⟩
  · cases h

end Search

end Sortnet
