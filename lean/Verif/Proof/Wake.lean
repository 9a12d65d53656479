import Verif.Proof.WakeCode
import Verif.Proof.SearchFinite

/-!
# No wakeup is lost
-/

namespace Sortnet

namespace Search

open Prog

variable {hash : List ℕ → ℕ}

/-- Task `j` is registered in the handle `h` of an unfinished task. -/
def Reg (W : World) (j : ℕ) (h : Handle) : Prop :=
  W.awaiter h.tid j ∧ ∀ v, statusOf W.G h.tid ≠ some (.done v)

/-- The task has been scheduled. -/
def Sched (G : Global) (i : ℕ) : Prop := ∃ t, G.tasks i = some t ∧ t.scheduled = true

/-- Calls do not return to the loop of `improve_next`. -/
def PlainStack (stack : List Frame) : Prop := ∀ f ∈ stack, ∀ v, (f.k v).plain

/-- Invariant of a task. -/
def StOK (W : World) (i : ℕ) : Status → Prop
  | .run p owned stack => Tame PlainExit p ∧ PlainStack stack ∧
      ∀ h, Res.handle h ∈ owned → Safe h p ∨ W.notified i ∨ Reg W i h
  | .sleep p owned stack => Calm PlainExit p ∧ PlainStack stack ∧
      (Sched W.G i → W.notified i ∨ ((∃ h, Res.handle h ∈ owned) ∧ ∀ h, Res.handle h ∈ owned → Reg W i h))
  | .wait _ tok p _ stack => Calm PlainExit p ∧ PlainStack stack ∧ (W.notified i ∨ W.G.sent tok = false)
  | .unwind _ _ stack => PlainStack stack
  | _ => True

/-- The invariant. -/
def WOK (W : World) : Prop := ∀ i s, statusOf W.G i = some s → StOK W i s

theorem StOK.mono {W W' : World} {i : ℕ} {s : Status} (h : StOK W i s) (hn : W.notified i → W'.notified i)
    (hr : ∀ h, Res.handle h ∈ s.res → Reg W i h → W'.notified i ∨ Reg W' i h)
    (hs : Sched W'.G i → Sched W.G i ∨ W'.notified i)
    (hsent : ∀ A tok p owned stack, s = .wait A tok p owned stack → W.G.sent tok = false →
      W'.notified i ∨ W'.G.sent tok = false) : StOK W' i s := by
  cases s with
  | run p owned stack =>
    refine ⟨h.1, h.2.1, fun hd hm => ?_⟩
    rcases h.2.2 hd hm with h | h | h
    · exact Or.inl h
    · exact Or.inr (Or.inl (hn h))
    · exact Or.inr (hr hd (List.mem_append_left _ hm) h)
  | sleep p owned stack =>
    refine ⟨h.1, h.2.1, fun hsc => ?_⟩
    by_cases hN : W'.notified i
    · exact Or.inl hN
    · rcases h.2.2 ((hs hsc).resolve_right hN) with h | ⟨hex, h⟩
      · exact absurd (hn h) hN
      · exact Or.inr ⟨hex, fun hd hm => (hr hd (List.mem_append_left _ hm) (h hd hm)).resolve_left hN⟩
  | wait A tok p owned stack =>
    refine ⟨h.1, h.2.1, ?_⟩
    rcases h.2.2 with h | h
    · exact Or.inl (hn h)
    · exact hsent _ _ _ _ _ rfl h
  | unwind v owned stack => exact h
  | _ => trivial

theorem mem_res_of_status {G : Global} {i : ℕ} {t : Task} {s : Status} (ht : G.tasks i = some t) (hs : t.status = s) :
    t.res = s.res := by
  unfold Task.res; rw [hs]

/-- Only the owner of a handle polls it. -/
theorem GInv.registers {limit : Option ℕ} {A : OSet} {β : ℕ → ℕ} {G : Global} (hG : GInv hash limit A β G) {i j : ℕ}
    {t : Task} {h : Handle} (ht : G.tasks j = some t) (hm : Res.handle h ∈ t.res) (hr : Registers G i h.tid) :
    i = j := by
  obtain ⟨h', k, owned, stack, hs, htid, _⟩ := hr
  obtain ⟨u, hu, hus⟩ := Tail.statusOf_eq hs
  have hok := hG.task i u hu
  rw [hus] at hok
  obtain ⟨K, c, b, s, ⟨hctx, hwp, _⟩, _⟩ := hok
  have hm' : Res.handle h' ∈ u.res := by
    unfold Task.res; rw [hus]; exact List.mem_append_left _ ((hctx.own _).1 hwp.1.1)
  have e : h' = h := by
    obtain ⟨_, _, c1, hc1, ⟨l1, hr1⟩, _⟩ := hG.own.child _ _ _ ht hm
    obtain ⟨_, _, c2, hc2, ⟨l2, hr2⟩, _⟩ := hG.own.child _ _ _ hu hm'
    rw [htid, hc1] at hc2
    cases hc2
    rw [hr1] at hr2
    cases h; cases h'
    simp_all
  subst e
  exact hG.own.disj _ _ _ _ _ hu ht hm' hm

/-- A registered waker is called or stays registered. -/
theorem Reg.after {limit : Option ℕ} {A : OSet} {β : ℕ → ℕ} {W : World} (hG : GInv hash limit A β W.G) {i j : ℕ}
    {t : Task} {h : Handle} (ht : W.G.tasks j = some t) (hm : Res.handle h ∈ t.res) (hr : Reg W j h) (G' : Global) :
    (W.after i G').notified j ∨ Reg (W.after i G') j h := by
  by_cases h1 : ∃ v, statusOf G' h.tid = some (.done v)
  · exact Or.inl (Or.inl (Or.inr (Or.inr (Or.inl ⟨h.tid, Or.inl ⟨hr.2, h1⟩, hr.1⟩))))
  · by_cases h2 : Cancels W.G G' h.tid
    · exact Or.inl (Or.inl (Or.inr (Or.inr (Or.inl ⟨h.tid, Or.inr h2, hr.1⟩))))
    · right
      refine ⟨?_, fun v hv => h1 ⟨v, hv⟩⟩
      by_cases h3 : Registers W.G i h.tid
      · exact Or.inl ⟨h3, (hG.registers ht hm h3).symm⟩
      · exact Or.inr ⟨h3, fun hf => h1 hf.2, h2, hr.1⟩

theorem Sched.after {W : World} {i j : ℕ} {G' : Global} {t : Task} (ht : W.G.tasks j = some t) (h : Sched G' j) :
    Sched W.G j ∨ (W.after i G').notified j := by
  obtain ⟨t', ht', hs'⟩ := h
  cases hs : t.scheduled with
  | true => exact Or.inl ⟨t, ht, hs⟩
  | false => exact Or.inr (Or.inl (Or.inl ⟨t, t', ht, hs, ht', hs'⟩))

theorem statusOf_some {G : Global} {i : ℕ} {t : Task} {s : Status} (ht : G.tasks i = some t) (hs : t.status = s) :
    statusOf G i = some s := by
  unfold statusOf; rw [ht, ← hs]; rfl

theorem statusOf_setStatus {G : Global} {i j : ℕ} {t : Task} {s : Status} :
    statusOf (G.setStatus i t s) j = if j = i then some s else statusOf G j := by
  unfold statusOf Global.setStatus
  by_cases e : j = i
  · subst e; simp
  · simp [e]

theorem statusOf_cancel {G : Global} {i j : ℕ} : statusOf (G.cancel i) j = statusOf G j := by
  unfold statusOf Global.cancel
  by_cases e : j = i
  · subst e
    cases G.tasks j <;> simp
  · simp [e]

theorem statusOf_release {G : Global} {r : Res} {j : ℕ} : statusOf (G.release r) j = statusOf G j := by
  cases r with
  | lock A tok => rfl
  | handle h => exact statusOf_cancel

theorem statusOf_update {f : ℕ → Option Task} {i j : ℕ} {t : Task} :
    (Function.update f i (some t) j).map Task.status = if j = i then some t.status else (f j).map Task.status := by
  by_cases e : j = i
  · subst e; simp
  · simp [e]

/-- How a step changes the status of the tasks other than the one that makes the step. -/
theorem act_others {G G' : Global} {i : ℕ} (h : Act hash i G G') {j : ℕ} (hj : j ≠ i) {s : Status}
    (hs : statusOf G' j = some s) : statusOf G j = some s ∨ s = .taken ∨
      ∃ pc : PC, pc.plain ∧ s = .sleep (code hash pc) [] [] ∧ ¬ Sched G' j := by
  have st : ∀ (G : Global) f, statusOf { G with tasks := f } j = (f j).map Task.status := fun _ _ => rfl
  cases h with
  | @spawn t level prev A k owned stack j' ht hs' hj' =>
    rw [st, statusOf_update, statusOf_update] at hs
    split at hs
    · next e =>
      subst e
      refine Or.inr (Or.inr ⟨.improve level prev A, trivial, (Option.some.inj hs).symm, ?_⟩)
      rintro ⟨u, hu, hu'⟩
      simp at hu
      subst hu
      simp at hu'
    · exact Or.inl hs
  | @pollReady t h k owned stack c v ht hs' hc hd hne =>
    rw [st, statusOf_update, statusOf_update] at hs
    split at hs
    · exact Or.inr (Or.inl (Option.some.inj hs).symm)
    · exact Or.inl hs
  | @addPending t prio h k owned stack c ht hs' hc hne =>
    rw [st, statusOf_update, statusOf_update] at hs
    split at hs
    · next e => subst e; exact Or.inl (statusOf_some hc (Option.some.inj hs))
    · exact Or.inl hs
  | @schedule t h k owned stack c ht hs' hc hne =>
    rw [st, statusOf_update, statusOf_update] at hs
    split at hs
    · next e => subst e; exact Or.inl (statusOf_some hc (Option.some.inj hs))
    · exact Or.inl hs
  | @worker t ht hq hsc =>
    rw [st, statusOf_update, if_neg hj] at hs
    exact Or.inl hs
  | dropHandle ht hs' => rw [statusOf_release, statusOf_setStatus, if_neg hj] at hs; exact Or.inl hs
  | unwind ht hs' hr hrec => rw [statusOf_release, statusOf_setStatus, if_neg hj] at hs; exact Or.inl hs
  | drop ht hs' hr hrec => rw [statusOf_release, statusOf_setStatus, if_neg hj] at hs; exact Or.inl hs
  | @lockFree t A k owned stack ht hs' hm hf =>
    have e := statusOf_setStatus (G := G) (i := i) (j := j) (t := t)
      (s := .run (k true) (.lock A G.nextToken :: owned) stack)
    rw [if_neg hj] at e
    exact Or.inl (e.symm.trans hs)
  | @set t A v k owned stack ht hs' hm =>
    have e := statusOf_setStatus (G := G) (i := i) (j := j) (t := t) (s := .run k owned stack)
    rw [if_neg hj] at e
    exact Or.inl (e.symm.trans hs)
  | _ => rw [statusOf_setStatus, if_neg hj] at hs; exact Or.inl hs

theorem Resumes.not_running {G G' : Global} {i : ℕ} (h : Running G i) : ¬ Resumes G G' i := by
  rintro ⟨hs, _⟩
  obtain ⟨p, o, st, h⟩ := h
  rcases hs with ⟨_, _, _, hs⟩ | ⟨_, _, _, _, _, hs⟩ <;> rw [h] at hs <;> simp at hs

/-- The handles of a running task stay registered or the program takes care of them. -/
theorem run_step {limit : Option ℕ} {A : OSet} {β : ℕ → ℕ} {W : World} (hG : GInv hash limit A β W.G) {i : ℕ}
    {t : Task} {p p' : Prog Exit} {owned : List Res} {stack : List Frame} (ht : W.G.tasks i = some t)
    (hs : t.status = .run p owned stack) (hW : WOK W) {G' : Global} {h : Handle} (hm : Res.handle h ∈ owned)
    (hp : Safe h p → Safe h p') :
    Safe h p' ∨ (W.after i G').notified i ∨ Reg (W.after i G') i h := by
  have hst := hW i _ (statusOf_some ht hs)
  rcases hst.2.2 h hm with h1 | h1 | h1
  · exact Or.inl (hp h1)
  · exact Or.inr (Or.inl (Or.inr ⟨h1, fun hr => Resumes.not_running ⟨_, _, _, statusOf_some ht hs⟩ hr.2⟩))
  · refine Or.inr (h1.after hG ht ?_ G')
    unfold Task.res; rw [hs]; exact List.mem_append_left _ hm

theorem WOK.act {limit : Option ℕ} {A : OSet} {β : ℕ → ℕ} {W : World} (hW : WOK W) (hG : GInv hash limit A β W.G)
    (hT : TokOK W.G) {i : ℕ} {G' : Global} (h : Act hash i W.G G') : WOK (W.after i G') := by
  intro j s hj
  -- a task with the same status
  have same : statusOf W.G j = some s → StOK (W.after i G') j s := by
    intro hs
    obtain ⟨t, ht, hts⟩ := Tail.statusOf_eq hs
    refine (hW j s hs).mono ?_ ?_ ?_ ?_
    · intro hn
      refine Or.inr ⟨hn, ?_⟩
      rintro ⟨rfl, hr1, p, o, st, hr2⟩
      rw [show (W.after j G').G = G' from rfl] at hj
      rw [hj] at hr2
      cases hr2
      exact Resumes.not_running (G' := G') ⟨_, _, _, hs⟩ ⟨hr1, _, _, _, hj⟩
    · intro hd hm hr
      exact hr.after hG ht (by unfold Task.res; rw [hts]; exact hm) G'
    · exact fun hsc => Sched.after ht hsc
    · rintro B tok p o st rfl hsent
      cases e : G'.sent tok with
      | false => exact Or.inr e
      | true => exact Or.inl (Or.inl (Or.inr (Or.inr (Or.inr ⟨_, _, _, _, _, hs, hsent, e⟩))))
  by_cases hji : j = i
  swap
  · rcases act_others h hji hj with hs | rfl | ⟨pc, hpc, rfl, hsc⟩
    · exact same hs
    · trivial
    · exact ⟨calm_code hpc, by simp [PlainStack], fun h => absurd h hsc⟩
  subst hji
  have st : ∀ (G : Global) f, statusOf { G with tasks := f } j = (f j).map Task.status := fun _ _ => rfl
  replace hj : statusOf G' j = some s := hj
  cases h with
  | @get t B k owned stack ht hs =>
    have hst := hW j _ (statusOf_some ht hs)
    rw [statusOf_setStatus, if_pos rfl] at hj
    cases hj
    exact ⟨hst.1 _, hst.2.1, fun hd hm => run_step hG ht hs hW hm fun h => h _⟩
  | @set t B v k owned stack ht hs hmap =>
    have hst := hW j _ (statusOf_some ht hs)
    have e := hj.symm.trans (statusOf_setStatus (G := W.G) (i := j) (j := j) (t := t) (s := .run k owned stack))
    rw [if_pos rfl] at e
    cases e
    exact ⟨hst.1, hst.2.1, fun hd hm => run_step hG ht hs hW hm fun h => h⟩
  | setPanic => rw [statusOf_setStatus, if_pos rfl] at hj; cases hj; trivial
  | @lockFree t B k owned stack ht hs hmap hfree =>
    have hst := hW j _ (statusOf_some ht hs)
    have e := hj.symm.trans (statusOf_setStatus (G := W.G) (i := j) (j := j) (t := t)
      (s := .run (k true) (.lock B W.G.nextToken :: owned) stack))
    rw [if_pos rfl] at e
    cases e
    exact ⟨(hst.1 _).tame, hst.2.1, fun hd hm => Or.inl ((hst.1 _).safe _)⟩
  | @lockBusy t B k owned stack tok ht hs hmap htok =>
    have hst := hW j _ (statusOf_some ht hs)
    rw [statusOf_setStatus, if_pos rfl] at hj
    cases hj
    exact ⟨hst.1 _, hst.2.1, Or.inr (hT.unsent _ _ htok)⟩
  | lockPanic => rw [statusOf_setStatus, if_pos rfl] at hj; cases hj; trivial
  | @lockWake t B tok p owned stack ht hs hsent =>
    have hst := hW j _ (statusOf_some ht hs)
    rw [statusOf_setStatus, if_pos rfl] at hj
    cases hj
    exact ⟨hst.1.tame, hst.2.1, fun hd hm => Or.inl (hst.1.safe _)⟩
  | @spawn t level prev B k owned stack j' ht hs hj' =>
    have hst := hW j _ (statusOf_some ht hs)
    have hne : j ≠ j' := by rintro rfl; rw [ht] at hj'; cases hj'
    rw [st, statusOf_update, if_neg hne, statusOf_update, if_pos rfl] at hj
    cases hj
    exact ⟨(hst.1 _).tame, hst.2.1, fun hd hm => Or.inl ((hst.1 _).safe _)⟩
  | @addPending t prio h k owned stack c ht hs hc hne =>
    have hst := hW j _ (statusOf_some ht hs)
    rw [st, statusOf_update, if_neg (Ne.symm hne), statusOf_update, if_pos rfl] at hj
    cases hj
    exact ⟨hst.1, hst.2.1, fun hd hm => run_step hG ht hs hW hm fun h => h⟩
  | @schedule t h k owned stack c ht hs hc hne =>
    have hst := hW j _ (statusOf_some ht hs)
    rw [st, statusOf_update, if_neg (Ne.symm hne), statusOf_update, if_pos rfl] at hj
    cases hj
    exact ⟨hst.1, hst.2.1, fun hd hm => run_step hG ht hs hW hm fun h => h⟩
  | @isScheduled t h k owned stack c ht hs hc =>
    have hst := hW j _ (statusOf_some ht hs)
    rw [statusOf_setStatus, if_pos rfl] at hj
    cases hj
    exact ⟨hst.1 _, hst.2.1, fun hd hm => run_step hG ht hs hW hm fun h => h _⟩
  | @pollReady t h k owned stack c v ht hs hc hd hne =>
    have hst := hW j _ (statusOf_some ht hs)
    rw [st, statusOf_update, if_neg (Ne.symm hne), statusOf_update, if_pos rfl] at hj
    cases hj
    exact ⟨hst.1 _, hst.2.1, fun hd hm => run_step hG ht hs hW hm fun h => h.2 _⟩
  | @pollPending t h k owned stack c ht hs hc hnd hnt hcan =>
    have hst := hW j _ (statusOf_some ht hs)
    rw [statusOf_setStatus, if_pos rfl] at hj
    cases hj
    refine ⟨hst.1 _, hst.2.1, fun hd hm => ?_⟩
    by_cases e : h = hd
    · subst e
      have hne : h.tid ≠ j := (hG.own.child j t h ht (by
        unfold Task.res; rw [hs]; exact List.mem_append_left _ hm)).1
      have hnd' : ∀ v, statusOf W.G h.tid ≠ some (.done v) := by
        intro v hv
        rw [statusOf_some hc rfl] at hv
        exact hnd v (Option.some.inj hv)
      refine Or.inr (Or.inr ⟨Or.inl ⟨⟨h, k, owned, stack, statusOf_some ht hs, rfl, hnd'⟩, rfl⟩, ?_⟩)
      intro v hv
      rw [show (W.after j (W.G.setStatus j t (.run (k none) owned stack))).G =
        W.G.setStatus j t (.run (k none) owned stack) from rfl, statusOf_setStatus, if_neg hne] at hv
      exact hnd' v hv
    · exact run_step hG ht hs hW hm fun h => h.1.resolve_left e
  | pollPanic => rw [statusOf_setStatus, if_pos rfl] at hj; cases hj; trivial
  | @dropHandle t h k owned stack ht hs =>
    have hst := hW j _ (statusOf_some ht hs)
    rw [statusOf_release, statusOf_setStatus, if_pos rfl] at hj
    cases hj
    have hnd : owned.Nodup := by
      have := hG.own.nodup j t ht
      unfold Task.res at this
      rw [hs] at this
      exact (List.nodup_append.1 this).1
    refine ⟨hst.1, hst.2.1, fun hd hm => ?_⟩
    have hne : h ≠ hd := by
      rintro rfl
      exact (List.Nodup.mem_erase_iff hnd).1 hm |>.1 rfl
    exact run_step hG ht hs hW (List.mem_of_mem_erase hm) fun h => h.resolve_left hne
  | @pending t k owned stack ht hs =>
    have hst := hW j _ (statusOf_some ht hs)
    rw [statusOf_setStatus, if_pos rfl] at hj
    cases hj
    refine ⟨hst.1, hst.2.1, fun _ => ?_⟩
    have hok := hG.task j t ht
    rw [hs] at hok
    obtain ⟨K, c, b, s, ⟨hctx, hwp, _⟩, _⟩ := hok
    obtain ⟨⟨h0, h0', _⟩, _⟩ := hwp
    by_cases hN : (W.after j (W.G.setStatus j t (.sleep k owned stack))).notified j
    · exact Or.inl hN
    · refine Or.inr ⟨⟨h0, (hctx.own _).1 h0'⟩, fun hd hm => ?_⟩
      rcases run_step (p' := .pending k) hG ht hs hW hm id with h1 | h1 | h1
      · exact h1.elim
      · exact absurd h1 hN
      · exact h1
  | @wake t p owned stack ht hs hsc =>
    have hst := hW j _ (statusOf_some ht hs)
    rw [statusOf_setStatus, if_pos rfl] at hj
    cases hj
    exact ⟨hst.1.tame, hst.2.1, fun hd hm => Or.inl (hst.1.safe _)⟩
  | @worker t ht hq hsc =>
    rw [st, statusOf_update, if_pos rfl] at hj
    cases hj
    exact same (statusOf_some ht rfl)
  | panic => rw [statusOf_setStatus, if_pos rfl] at hj; cases hj; trivial
  | @goto t pc owned stack ht hs =>
    have hst := hW j _ (statusOf_some ht hs)
    rw [statusOf_setStatus, if_pos rfl] at hj
    cases hj
    refine ⟨tame_code pc, hst.2.1, fun hd hm => Or.inl ?_⟩
    have hok := hG.task j t ht
    rw [hs] at hok
    obtain ⟨K, c, b, s, ⟨hctx, hwp, _⟩, _⟩ := hok
    have hpc := (hwp W.G.store (Rely.refl _ _) hG.sinv).2
    cases pc with
    | nextLoop level order E block r => exact safe_nextLoop level order E block r (hpc.1.own hd ((hctx.own hd).2 hm))
    | _ => exact (calm_code (by trivial)).safe _
  | @call t pc k owned stack ht hs =>
    have hst := hW j _ (statusOf_some ht hs)
    rw [statusOf_setStatus, if_pos rfl] at hj
    cases hj
    refine ⟨tame_code pc, ?_, fun hd hm => by simp at hm⟩
    intro f hf
    rcases List.mem_cons.1 hf with rfl | hf
    · exact hst.1.2
    · exact hst.2.1 f hf
  | @ret t v owned stack ht hs =>
    have hst := hW j _ (statusOf_some ht hs)
    rw [statusOf_setStatus, if_pos rfl] at hj
    cases hj
    exact hst.2.1
  | @unwind t v r owned stack ht hs hr hrec =>
    have hst := hW j _ (statusOf_some ht hs)
    rw [statusOf_release, statusOf_setStatus, if_pos rfl] at hj
    cases hj
    exact hst
  | unwindPanic => rw [statusOf_setStatus, if_pos rfl] at hj; cases hj; trivial
  | @«return» t v f stack ht hs =>
    have hst := hW j _ (statusOf_some ht hs)
    rw [statusOf_setStatus, if_pos rfl] at hj
    cases hj
    have hp := hst f List.mem_cons_self v
    exact ⟨tame_code _, fun f' hf' => hst f' (List.mem_cons_of_mem _ hf'), fun hd hm => Or.inl ((calm_code hp).safe _)⟩
  | finish => rw [statusOf_setStatus, if_pos rfl] at hj; cases hj; trivial
  | dropSleep => rw [statusOf_setStatus, if_pos rfl] at hj; cases hj; trivial
  | dropWait => rw [statusOf_setStatus, if_pos rfl] at hj; cases hj; trivial
  | drop => rw [statusOf_release, statusOf_setStatus, if_pos rfl] at hj; cases hj; trivial
  | dropPanic => rw [statusOf_setStatus, if_pos rfl] at hj; cases hj; trivial

/-! ## Reachable states -/

theorem WStep.reach {limit : Option ℕ} {A : OSet} {W W' : World} {e : Event} (h : WStep hash e W W')
    (hr : Reach hash limit A W.G) : Reach hash limit A W'.G := by
  cases h with
  | act h _ => exact .step hr ⟨_, h⟩
  | repoll => exact hr
  | extra => exact hr

theorem WReach.reach {limit : Option ℕ} {A : OSet} {W : World} (h : WReach hash limit A W) :
    Reach hash limit A W.G := by
  induction h with
  | init => exact .init
  | step _ hs ih => exact hs.reach ih

theorem WReach.ok {limit : Option ℕ} {A : OSet} (hA : OK A) {W : World} (h : WReach hash limit A W) : WOK W := by
  induction h with
  | init =>
    intro i s hs
    unfold statusOf winit Search.init at hs
    dsimp only at hs
    split at hs
    · next e =>
      cases hs
      exact ⟨calm_code trivial, by simp [PlainStack], fun _ => Or.inl e⟩
    · simp at hs
  | @step W W' e hr hs ih =>
    obtain ⟨β, hG, _⟩ := GInv.reach hA hr.reach
    cases hs with
    | act h _ => exact ih.act hG (TokOK.reach hr.reach) h
    | @repoll i _ B tok p owned stack hs hsent hn =>
      intro j s hj
      by_cases e : j = i
      · subst e
        have hst := ih j s hj
        rw [show statusOf W.G j = some s from hj] at hs
        cases hs
        exact ⟨hst.1, hst.2.1, Or.inr hsent⟩
      · exact (ih j s hj).mono (fun h => ⟨h, e⟩) (fun h _ hr => Or.inr hr) (fun h => Or.inl h) fun _ _ _ _ _ _ h => Or.inr h
    | extra =>
      intro j s hj
      exact (ih j s hj).mono (fun h => Or.inl h) (fun h _ hr => Or.inr hr) (fun h => Or.inl h) fun _ _ _ _ _ _ h => Or.inr h

/-- A task that can continue is running or in the queue. -/
theorem WOK.runnable {W : World} (h : WOK W) {i : ℕ} (hu : Unfinished W.G i) (hb : ¬ Blocked W.G i) : Runnable W i := by
  refine ⟨hu, ?_⟩
  obtain ⟨t, ht, hsc, _⟩ := hu
  rintro (⟨p, owned, stack, hs⟩ | ⟨B, tok, p, owned, stack, hs⟩)
  · have hst := h i _ hs
    obtain ⟨t', ht', hs'⟩ := Tail.statusOf_eq hs
    rcases hst.2.2 ⟨t, ht, hsc⟩ with h1 | ⟨hex, h1⟩
    · exact h1
    · refine absurd ⟨t', ht', Or.inr ⟨p, owned, stack, hs', hex, ?_⟩⟩ hb
      intro hd hm c hc v hv
      exact (h1 hd hm).2 v (statusOf_some hc hv)
  · have hst := h i _ hs
    obtain ⟨t', ht', hs'⟩ := Tail.statusOf_eq hs
    rcases hst.2.2 with h1 | h1
    · exact h1
    · exact absurd ⟨t', ht', Or.inl ⟨B, tok, p, owned, stack, hs', h1⟩⟩ hb

theorem Blocked.suspended {G : Global} {i : ℕ} (h : Blocked G i) : Suspended G i := by
  obtain ⟨t, ht, ⟨B, tok, p, owned, stack, hs, _⟩ | ⟨p, owned, stack, hs, _⟩⟩ := h
  · exact Or.inr ⟨B, tok, p, owned, stack, statusOf_some ht hs⟩
  · exact Or.inl ⟨p, owned, stack, statusOf_some ht hs⟩

/-- A worker can make a step for every task that is running or in the queue. -/
theorem Runnable.step {limit : Option ℕ} {A : OSet} (hA : OK A) {W : World} (hr : Reach hash limit A W.G) {i : ℕ}
    (h : Runnable W i) : ∃ W', WStep hash (.act i) W W' ∨ WStep hash (.repoll i) W W' := by
  obtain ⟨hu, hn⟩ := h
  by_cases hsus : Suspended W.G i
  · have hu' := hu
    obtain ⟨t, ht, hsc, _⟩ := hu'
    rcases hsus with ⟨p, owned, stack, hs⟩ | ⟨B, tok, p, owned, stack, hs⟩
    · obtain ⟨t', ht', hs'⟩ := Tail.statusOf_eq hs
      rw [ht] at ht'
      cases ht'
      exact ⟨_, Or.inl (.act (.wake ht hs' hsc) fun _ => hn (Or.inl ⟨p, owned, stack, hs⟩))⟩
    · obtain ⟨t', ht', hs'⟩ := Tail.statusOf_eq hs
      cases e : W.G.sent tok with
      | true => exact ⟨_, Or.inl (.act (.lockWake ht' hs' e) fun _ => hn (Or.inr ⟨B, tok, p, owned, stack, hs⟩))⟩
      | false => exact ⟨_, Or.inr (.repoll hs e (hn (Or.inr ⟨B, tok, p, owned, stack, hs⟩)))⟩
  · obtain ⟨β, hG, _⟩ := GInv.reach hA hr
    obtain ⟨G', hG'⟩ := unblocked_acts hG (Fin'.reach hr) hu fun hb => hsus hb.suspended
    exact ⟨_, Or.inl (.act hG' fun h => absurd h.1 hsus)⟩

/-! ## Executions -/

/-- The task that makes an atomic step. -/
def actor : Option Event → Option ℕ
  | some (.act i) => some i
  | _ => none

theorem WExecution.execution {limit : Option ℕ} {A : OSet} {W : ℕ → World} {ev : ℕ → Option Event}
    (h : WExecution hash limit A W ev) : Execution hash limit A (fun k => (W k).G) fun k => actor (ev k) := by
  refine ⟨by rw [h.start]; rfl, ?_, ?_⟩
  · intro k i hi
    cases e : ev k with
    | none => simp [e, actor] at hi
    | some a =>
      have hs := h.step k a e
      rw [e] at hi
      cases a with
      | act j =>
        cases hi
        generalize W (k + 1) = W' at hs
        cases hs with
        | act h _ => exact h
      | _ => simp [actor] at hi
  · intro k hi
    cases e : ev k with
    | none => rw [h.idle k e]
    | some a =>
      have hs := h.step k a e
      rw [e] at hi
      generalize W (k + 1) = W' at hs
      cases hs with
      | act h _ => simp [actor] at hi
      | repoll => rfl
      | extra => rfl

theorem WExecution.wreach {limit : Option ℕ} {A : OSet} {W : ℕ → World} {ev : ℕ → Option Event}
    (h : WExecution hash limit A W ev) (k : ℕ) : WReach hash limit A (W k) := by
  induction k with
  | zero => rw [h.start]; exact .init
  | succ k ih =>
    cases e : ev k with
    | none => rw [h.idle k e]; exact ih
    | some a => exact .step ih (h.step k a e)

/-! ## Only finitely many tasks are resumed in vain -/

open Classical in
/-- How often a task may still be resumed when there are only free steps. -/
noncomputable def Wakeups (W : World) (j : ℕ) : ℕ :=
  (if Sched W.G j then 0 else 2) + if W.notified j then 1 else 0

theorem FreeStep.not_finishes {i : ℕ} {G G' : Global} (h : FreeStep hash i G G') (c : ℕ) : ¬ Finishes G G' c := by
  rintro ⟨h1, v, h2⟩
  obtain ⟨t', ht', hs'⟩ := Tail.statusOf_eq h2
  cases ht : G.tasks c with
  | none => rw [h.none c ht] at ht'; cases ht'
  | some t =>
    obtain ⟨t2, ht2, _, _, _, h3, h4⟩ := h.task c t ht
    rw [ht'] at ht2
    cases ht2
    by_cases e : c = i
    · rcases h4 e with h4 | ⟨h4, _⟩
      · rw [hs'] at h4
        generalize t.status = s0 at h4
        cases h4
      · exact h1 v (statusOf_some ht (h4 ▸ hs'))
    · exact h1 v (statusOf_some ht (h3 e ▸ hs'))

theorem FreeStep.not_cancels {i : ℕ} {G G' : Global} (h : FreeStep hash i G G') (c : ℕ) : ¬ Cancels G G' c := by
  rintro ⟨t, t', ht, hc, ht', hc'⟩
  obtain ⟨t2, ht2, _, h2, _⟩ := h.task c t ht
  rw [ht'] at ht2
  cases ht2
  rw [h2, hc] at hc'
  cases hc'

theorem FreeStep.wakes {i : ℕ} {W : World} {G' : Global} (h : FreeStep hash i W.G G') {j : ℕ} (hw : W.Wakes G' j) :
    Schedules W.G G' j := by
  rcases hw with hw | hw | ⟨c, hw | hw, _⟩ | ⟨_, _, _, _, _, _, h1, h2⟩
  · exact hw
  · exact absurd hw (h.not_cancels j)
  · exact absurd hw (h.not_finishes c)
  · exact absurd hw (h.not_cancels c)
  · rw [h.sent, h1] at h2; cases h2

theorem FreeStep.wakeups {i : ℕ} {W : World} {G' : Global} (h : FreeStep hash i W.G G') (j : ℕ) :
    Wakeups (W.after i G') j ≤ Wakeups W j := by
  unfold Wakeups
  have hmono : Sched W.G j → Sched (W.after i G').G j := by
    rintro ⟨t, ht, hs⟩
    obtain ⟨t', ht', _, _, h3, _⟩ := h.task j t ht
    exact ⟨t', ht', h3 hs⟩
  have hs : Schedules W.G G' j → ¬ Sched W.G j ∧ Sched (W.after i G').G j := by
    rintro ⟨t, t', ht, hs, ht', hs'⟩
    refine ⟨?_, t', ht', hs'⟩
    rintro ⟨t2, ht2, hs2⟩
    rw [ht] at ht2
    cases ht2
    rw [hs] at hs2
    cases hs2
  have hn : (W.after i G').notified j → W.notified j ∨ (¬ Sched W.G j ∧ Sched (W.after i G').G j) := by
    rintro (h1 | h1)
    · exact Or.inr (hs (h.wakes h1))
    · exact Or.inl h1.1
  by_cases a : Sched W.G j
  · rw [if_pos (hmono a), if_pos a]
    by_cases b : (W.after i G').notified j
    · rw [if_pos b, if_pos ((hn b).resolve_right fun h => h.1 a)]
    · rw [if_neg b]; omega
  · rw [if_neg a]
    by_cases b : Sched (W.after i G').G j
    · rw [if_pos b]; split <;> split <;> omega
    · rw [if_neg b]
      by_cases c : (W.after i G').notified j
      · rw [if_pos c, if_pos ((hn c).resolve_right fun h => b h.2)]
      · rw [if_neg c]; omega

theorem FreeStep.wakeups_lt {i : ℕ} {W : World} {G' : Global} (h : FreeStep hash i W.G G') (hr : Resumes W.G G' i)
    (hn : W.notified i) (hsc : Sched W.G i) : Wakeups (W.after i G') i < Wakeups W i := by
  unfold Wakeups
  have hmono : Sched (W.after i G').G i := by
    obtain ⟨t, ht, hs⟩ := hsc
    obtain ⟨t', ht', _, _, h3, _⟩ := h.task i t ht
    exact ⟨t', ht', h3 hs⟩
  have hnn : ¬ (W.after i G').notified i := by
    rintro (h1 | h1)
    · obtain ⟨t, t', ht, hs, _⟩ := h.wakes h1
      obtain ⟨t2, ht2, hs2⟩ := hsc
      rw [ht] at ht2
      cases ht2
      rw [hs] at hs2
      cases hs2
    · exact h1.2 ⟨rfl, hr⟩
  rw [if_pos hmono, if_pos hsc, if_neg hnn, if_pos hn]
  omega

theorem Act.sched_of_resumes {G G' : Global} {limit : Option ℕ} {A : OSet} {β : ℕ → ℕ} (hG : GInv hash limit A β G) {i : ℕ}
    (h : Act hash i G G') (hr : Resumes G G' i) : Sched G i := by
  rcases hr with ⟨⟨p, owned, stack, hs⟩ | ⟨B, tok, p, owned, stack, hs⟩, p', o', st', hs'⟩
  · obtain ⟨t, ht, hts⟩ := Tail.statusOf_eq hs
    cases h with
    | @wake u _ _ _ hu _ hsc => exact ⟨u, hu, hsc⟩
    | @dropSleep u q o st hu hus _ => rw [statusOf_setStatus, if_pos rfl] at hs'; cases hs'
    | @worker u hu hq hsc =>
      have : statusOf G i = some (.run p' o' st') := by
        unfold statusOf at hs' ⊢
        simpa [hu] using hs'
      rw [this] at hs
      cases hs
    | _ => simp_all
  · obtain ⟨t, ht, hts⟩ := Tail.statusOf_eq hs
    cases hsc : t.scheduled with
    | true => exact ⟨t, ht, hsc⟩
    | false =>
      rcases hG.own.unsched i t ht hsc with ⟨q, hq⟩ | hq
      · rw [hts] at hq; cases hq
      · rw [hts] at hq; cases hq

theorem WExecution.decreases {limit : Option ℕ} {A : OSet} (hA : OK A) {W : ℕ → World} {ev : ℕ → Option Event}
    (h : WExecution hash limit A W ev) {k : ℕ} (hx : ∀ i, ev k ≠ some (.extra i))
    (hf : ∀ i, actor (ev k) = some i → FreeStep hash i (W k).G (W (k + 1)).G) :
    (∀ j, Wakeups (W (k + 1)) j ≤ Wakeups (W k) j) ∧
    (∀ i, ev k = some (.act i) → Resumes (W k).G (W (k + 1)).G i → Wakeups (W (k + 1)) i < Wakeups (W k) i) ∧
    ∀ i, ev k = some (.repoll i) → Wakeups (W (k + 1)) i < Wakeups (W k) i := by
  cases e : ev k with
  | none => simp [h.idle k e]
  | some a =>
    have hs := h.step k a e
    have hr := (h.wreach k).reach
    rw [e] at hf hx
    generalize W (k + 1) = W' at hs hf ⊢
    generalize W k = W0 at hs hf hr ⊢
    cases hs with
    | @act i _ G' hact hn =>
      have hf := hf i rfl
      refine ⟨hf.wakeups, ?_, by simp⟩
      intro i' hi' hres
      cases hi'
      obtain ⟨β, hG, _⟩ := GInv.reach hA hr
      exact hf.wakeups_lt hres (hn hres) (hact.sched_of_resumes hG hres)
    | @repoll i _ B tok p owned stack hs hsent hn =>
      refine ⟨fun j => ?_, by simp, ?_⟩
      · unfold Wakeups
        apply Nat.add_le_add_left
        split
        · next h => rw [if_pos h.1]
        · omega
      · intro i' hi'
        cases hi'
        unfold Wakeups
        apply Nat.add_lt_add_left
        rw [if_neg (fun h => h.2 rfl), if_pos hn]
        omega
    | @extra i => exact absurd rfl (hx i)

/-- A task that cannot continue makes a step only if it is resumed or dropped. -/
theorem FreeStep.spurious {G G' : Global} {limit : Option ℕ} {A : OSet} {β : ℕ → ℕ} (hG : GInv hash limit A β G) {i : ℕ}
    (h : FreeStep hash i G G') (hb : Blocked G i) : Resumes G G' i := by
  refine ⟨hb.suspended, ?_⟩
  obtain ⟨t, ht, hcase⟩ := hb
  obtain ⟨t', ht', _, _, _, _, h4⟩ := h.task i t ht
  rcases h4 rfl with h4 | ⟨_, hsc, _⟩
  · have hst := statusOf_some ht' rfl
    generalize t'.status = s' at h4 hst
    rcases hcase with ⟨B, tok, p, owned, stack, hs, _⟩ | ⟨p, owned, stack, hs, _⟩
    · rw [hs] at h4
      cases h4
      exact ⟨_, _, _, hst⟩
    · rw [hs] at h4
      cases h4
      exact ⟨_, _, _, hst⟩
  · exfalso
    rcases hG.own.unsched i t ht hsc with ⟨q, hq⟩ | hq <;>
      rcases hcase with ⟨B, tok, p, owned, stack, hs, _⟩ | ⟨p, owned, stack, hs, ⟨hd, hm⟩, _⟩ <;>
      rw [hs] at hq <;> cases hq
    simp at hm

/-- Every execution with finitely many unnecessary calls of wakers is finite. -/
theorem WExecution.stops {limit : Option ℕ} {A : OSet} (hA : OK A) {W : ℕ → World} {ev : ℕ → Option Event}
    (h : WExecution hash limit A W ev) (hx : ∃ K, ∀ k, K ≤ k → ∀ i, ev k ≠ some (.extra i)) :
    ∃ K, ∀ k, K ≤ k → ev k = none := by
  obtain ⟨K1, hfree⟩ := h.execution.free hA
  obtain ⟨K2, hx⟩ := hx
  let K := max K1 K2
  obtain ⟨N, hN⟩ := Fin'.reach (h.wreach K).reach
  have hnone : ∀ m j, N ≤ j → (W (K + m)).G.tasks j = none := by
    intro m j hj
    induction m with
    | zero => exact hN j hj
    | succ m ih =>
      cases e : actor (ev (K + m)) with
      | none => exact (congrArg (fun G : Global => G.tasks j) (h.execution.idle (K + m) e)).trans ih
      | some i => exact (hfree (K + m) (by omega) i e).none j ih
  have hdec : ∀ m, _ := fun m => h.decreases hA (k := K + m) (hx (K + m) (by omega)) (hfree (K + m) (by omega))
  have hlt : ∀ m i, (∃ t, (W (K + m)).G.tasks i = some t) → i ∈ Finset.range N := by
    rintro m i ⟨t, ht⟩
    rw [Finset.mem_range]
    by_contra hge
    rw [hnone m i (by omega)] at ht
    cases ht
  obtain ⟨K3, hK3⟩ := antitone_const (fun m => ∑ j ∈ Finset.range N, Wakeups (W (K + m)) j)
    fun m => Finset.sum_le_sum fun j _ => (hdec m).1 j
  have hstop : ∀ m, K3 ≤ m → (∀ i, ev (K + m) = some (.act i) → ¬ Resumes (W (K + m)).G (W (K + m + 1)).G i) ∧
      ∀ i, ev (K + m) ≠ some (.repoll i) := by
    intro m hm
    have hc := hK3 m hm
    have key : ∀ i, (∃ t, (W (K + m)).G.tasks i = some t) → ¬ Wakeups (W (K + m + 1)) i < Wakeups (W (K + m)) i := by
      intro i hi hw
      have : ∑ j ∈ Finset.range N, Wakeups (W (K + m + 1)) j < ∑ j ∈ Finset.range N, Wakeups (W (K + m)) j :=
        Finset.sum_lt_sum (fun j _ => (hdec m).1 j) ⟨i, hlt m i hi, hw⟩
      rw [show K + (m + 1) = K + m + 1 by omega] at hc
      omega
    constructor
    · intro i hi hr
      refine key i ?_ ((hdec m).2.1 i hi hr)
      rcases hr.1 with ⟨_, _, _, hs⟩ | ⟨_, _, _, _, _, hs⟩
      · obtain ⟨t, ht, _⟩ := Tail.statusOf_eq hs; exact ⟨t, ht⟩
      · obtain ⟨t, ht, _⟩ := Tail.statusOf_eq hs; exact ⟨t, ht⟩
    · intro i hi
      refine key i ?_ ((hdec m).2.2 i hi)
      have hs := h.step (K + m) _ hi
      generalize W (K + m) = W0 at hs ⊢
      generalize W (K + m + 1) = W1 at hs
      cases hs with
      | repoll hs _ _ => obtain ⟨t, ht, _⟩ := Tail.statusOf_eq hs; exact ⟨t, ht⟩
  obtain ⟨K4, hK4⟩ := h.execution.stops hA ⟨K + K3, fun k hk => by
    rintro ⟨i, hi, hb, _⟩
    obtain ⟨β, hG, _⟩ := GInv.reach hA (h.wreach k).reach
    have hact : ev k = some (.act i) := by
      cases e : ev k with
      | none => simp [e, actor] at hi
      | some a =>
        cases a with
        | act j => simp [e, actor] at hi; rw [hi]
        | _ => simp [e, actor] at hi
    have := (hstop (k - K) (by omega)).1 i
    rw [show K + (k - K) = k by omega] at this
    exact this hact ((hfree k (by omega) i hi).spurious hG hb)⟩
  refine ⟨max K4 (K + K3), fun k hk => ?_⟩
  have h1 := hK4 k (by omega)
  have h2 := (hstop (k - K) (by omega)).2
  rw [show K + (k - K) = k by omega] at h2
  have h3 := hx k (by omega)
  cases e : ev k with
  | none => rfl
  | some a =>
    rw [e] at h1 h2 h3
    cases a with
    | act i => simp [actor] at h1
    | repoll i => exact absurd rfl (h2 i)
    | extra i => exact absurd rfl (h3 i)

/-! ## Existence -/

open Classical in
/-- The next event and state: a step for some task that is running or in the queue. -/
noncomputable def wnext (hash : List ℕ → ℕ) (W : World) : Option Event × World :=
  if h : ∃ r : Event × World, WStep hash r.1 W r.2 ∧ ∃ i, Runnable W i ∧ (r.1 = .act i ∨ r.1 = .repoll i) then
    (some h.choose.1, h.choose.2)
  else (none, W)

/-- An execution. -/
noncomputable def wgreedy (hash : List ℕ → ℕ) (limit : Option ℕ) (A : OSet) : ℕ → World
  | 0 => winit hash limit A
  | k + 1 => (wnext hash (wgreedy hash limit A k)).2

theorem wgreedy_execution (limit : Option ℕ) (A : OSet) :
    WExecution hash limit A (wgreedy hash limit A) fun k => (wnext hash (wgreedy hash limit A k)).1 := by
  refine ⟨rfl, ?_, ?_⟩
  · intro k e he
    rw [wgreedy]
    unfold wnext at he ⊢
    split at he
    · next hex =>
      rw [dif_pos hex]
      have := hex.choose_spec.1
      rw [← Option.some.inj he]
      exact this
    · cases he
  · intro k he
    rw [wgreedy]
    unfold wnext at he ⊢
    split at he
    · cases he
    · next hex => rw [dif_neg hex]

theorem wnext_extra (W : World) (i : ℕ) : (wnext hash W).1 ≠ some (.extra i) := by
  unfold wnext
  split
  · next hex =>
    obtain ⟨_, j, _, h | h⟩ := hex.choose_spec
    · simp [h]
    · simp [h]
  · simp

theorem wnext_none {limit : Option ℕ} {A : OSet} (hA : OK A) {W : World} (hr : Reach hash limit A W.G)
    (h : (wnext hash W).1 = none) (i : ℕ) : ¬ Runnable W i := by
  intro hi
  obtain ⟨W', hW'⟩ := hi.step hA hr
  have hex : ∃ r : Event × World, WStep hash r.1 W r.2 ∧ ∃ i, Runnable W i ∧ (r.1 = .act i ∨ r.1 = .repoll i) := by
    rcases hW' with h | h
    · exact ⟨(_, _), h, i, hi, Or.inl rfl⟩
    · exact ⟨(_, _), h, i, hi, Or.inr rfl⟩
  unfold wnext at h
  rw [dif_pos hex] at h
  cases h

end Search

end Sortnet
