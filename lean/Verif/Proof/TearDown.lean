import Verif.Proof.Adopt
import Verif.Spec.TearDown

/-!
# The end of the search: proofs
-/

namespace Sortnet

namespace Search

variable {hash : List ℕ → ℕ}

theorem Blocked.unfinished_other {G : Global} {limit : Option ℕ} {A : OSet} {β : ℕ → ℕ} (hG : GInv hash limit A β G)
    (hW : WaitOK G) {i : ℕ} (hu : Unfinished G i) : ∃ j, Unfinished G j ∧ ¬ Blocked G j := by
  by_cases hb : Blocked G i
  · obtain ⟨j, _, h2, h3⟩ := blocked_progress hG hW hb
    exact ⟨j, h2, h3⟩
  · exact ⟨i, hu, hb⟩

/-- If a task has not ended, a worker has something to do. -/
theorem not_ended_runnable {limit : Option ℕ} {A : OSet} (hA : OK A) {W : World} (h : WReach hash limit A W) {i : ℕ}
    {t : Task} (ht : W.G.tasks i = some t) (he : ¬ Ended W.G i) : ∃ j, Runnable W j ∨ Orphan W.G j := by
  obtain ⟨β, hG, hW⟩ := GInv.reach hA h.reach
  have hWait := WaitOK.reach h.reach
  have main : ∀ {i t}, W.G.tasks i = some t → ¬ Ended W.G i → t.scheduled = true → ∃ j, Runnable W j ∨ Orphan W.G j := by
    intro i t ht he hs
    have hu : Unfinished W.G i := by
      refine ⟨t, ht, hs, ?_, ?_, ?_, ?_⟩
      · intro v hv; exact he ⟨t, ht, Or.inl ⟨v, hv⟩⟩
      · intro hv; exact he ⟨t, ht, Or.inr (Or.inl hv)⟩
      · intro hv
        have := hG.task i t ht
        rw [hv] at this
        exact this
      · intro hv; exact he ⟨t, ht, Or.inr (Or.inr hv)⟩
    obtain ⟨j, hj, hb⟩ := Blocked.unfinished_other hG hWait hu
    exact ⟨j, Or.inl ((h.ok hA).runnable hj hb)⟩
  cases hs : t.scheduled with
  | true => exact main ht he hs
  | false =>
    rcases hG.own.unsched i t ht hs with ⟨p, hp⟩ | hp
    · cases hc : t.cancelled with
      | true => exact ⟨i, Or.inr ⟨t, ht, hs, hc, p, _, _, hp⟩⟩
      | false =>
        have h0 : i ≠ 0 := by
          rintro rfl
          obtain ⟨t0, ht0, _, hs0, _⟩ := hG.main
          rw [ht] at ht0
          cases ht0
          rw [hs] at hs0
          cases hs0
        obtain ⟨k, u, hd, hu, hm, _⟩ := Adopted.reach hA h.reach i t ht h0 hc
        refine main hu ?_ (hG.own.started hu ?_ ?_)
        · rintro ⟨u', hu', h1⟩
          rw [hu] at hu'
          cases hu'
          unfold Task.res at hm
          rcases h1 with ⟨v, e⟩ | e | e <;> rw [e] at hm <;> simp [Status.res] at hm
        · intro p e; unfold Task.res at hm; rw [e] at hm; simp [Status.res] at hm
        · intro e; unfold Task.res at hm; rw [e] at hm; simp [Status.res] at hm
    · exact absurd ⟨t, ht, Or.inr (Or.inr hp)⟩ he

/-! ## References -/

/-- A waker in the handle of a task is the one of a task with a larger set. -/
def AwaitersLarger (W : World) : Prop :=
  ∀ c j, W.awaiter c j → ∃ t u, W.G.tasks c = some t ∧ W.G.tasks j = some u ∧ rank t.root.cur < rank u.root.cur

theorem AwaitersLarger.reach {limit : Option ℕ} {A : OSet} (hA : OK A) {W : World} (h : WReach hash limit A W) :
    AwaitersLarger W := by
  induction h with
  | init => intro c j h; exact h.elim
  | @step W W' e hr hs ih =>
    cases hs with
    | @act i _ G' ha _ =>
      obtain ⟨β, hG, _⟩ := GInv.reach hA hr.reach
      have hk := ha.keeps
      have lift : ∀ c j, (∃ t u, W.G.tasks c = some t ∧ W.G.tasks j = some u ∧ rank t.root.cur < rank u.root.cur) →
          ∃ t u, G'.tasks c = some t ∧ G'.tasks j = some u ∧ rank t.root.cur < rank u.root.cur := by
        rintro c j ⟨t, u, ht, hu, hlt⟩
        obtain ⟨t', ht', e1, _⟩ := hk.task c t ht
        obtain ⟨u', hu', e2, _⟩ := hk.task j u hu
        exact ⟨t', u', ht', hu', by rw [e1, e2]; exact hlt⟩
      rintro c j (⟨hreg, rfl⟩ | ⟨_, _, _, hw⟩)
      · apply lift
        obtain ⟨h', k, owned, stack, hs, rfl, _⟩ := hreg
        obtain ⟨u, hu, hus⟩ := Tail.statusOf_eq hs
        have hok := hG.task j u hu
        rw [hus] at hok
        obtain ⟨K, c, b, s, ⟨hctx, hwp, hst⟩, _⟩ := hok
        have hm : Res.handle h' ∈ owned := (hctx.own _).1 hwp.1.1
        have hm' : Res.handle h' ∈ u.res := by
          unfold Task.res; rw [hus]; exact List.mem_append_left _ hm
        obtain ⟨_, _, t, ht, ⟨level, hroot⟩, _⟩ := hG.own.child _ _ _ hu hm'
        have e : u.root.rootKind.cur = u.root.cur := by cases u.root <;> rfl
        refine ⟨t, u, ht, hu, ?_⟩
        rw [hroot]
        exact lt_of_lt_of_le (hctx.handle h' hm) (e ▸ hst.rank_root)
      · exact lift c j (ih c j hw)
    | repoll => exact ih
    | extra => exact ih

/-- If all tasks have ended, no task object is kept by references. -/
theorem freed_of_ended {limit : Option ℕ} {A : OSet} (hA : OK A) {W : World} (h : WReach hash limit A W)
    (hE : ∀ i t, W.G.tasks i = some t → Ended W.G i) (S : ℕ → Prop) (hS : NotFreed W S) (c : ℕ) : ¬ S c := by
  have hL := AwaitersLarger.reach hA h
  have key : ∀ B : OSet, ∀ c t, W.G.tasks c = some t → t.root.cur = B → ¬ S c := by
    intro B
    induction B using rank_wf.induction with
    | _ B ih =>
      rintro c t ht rfl hc
      rcases (hS c hc).2 with h1 | ⟨d, hd, ⟨u, hh, hu, hm, _⟩ | hw⟩
      · exact h1 (hE c t ht)
      · obtain ⟨u', hu', h1⟩ := hE d u hu
        rw [hu] at hu'
        cases hu'
        unfold Task.res at hm
        rcases h1 with ⟨v, e⟩ | e | e <;> rw [e] at hm <;> simp [Status.res] at hm
      · obtain ⟨t', u', ht', hu', hlt⟩ := hL d c hw
        rw [ht] at hu'
        cases hu'
        exact ih t'.root.cur hlt d t' ht' rfl hd
  intro hc
  obtain ⟨t, ht⟩ := (hS c hc).1
  exact key _ c t ht rfl hc

/-! ## Existence -/

theorem Orphan.step {W : World} {i : ℕ} (h : Orphan W.G i) : ∃ W', WStep hash (.act i) W W' := by
  obtain ⟨t, ht, _, hc, p, owned, stack, hs⟩ := h
  refine ⟨_, .act (.dropSleep ht hs hc) ?_⟩
  rintro ⟨_, p', owned', stack', h⟩
  rw [statusOf_setStatus, if_pos rfl] at h
  cases h

open Classical in
/-- The next event and state: a step for some task that is running, in the queue or about to be dropped. -/
noncomputable def tnext (hash : List ℕ → ℕ) (W : World) : Option Event × World :=
  if h : ∃ r : Event × World, WStep hash r.1 W r.2 ∧ ∃ i, r.1 = .act i ∨ r.1 = .repoll i then
    (some h.choose.1, h.choose.2)
  else (none, W)

/-- An execution. -/
noncomputable def tgreedy (hash : List ℕ → ℕ) (limit : Option ℕ) (A : OSet) : ℕ → World
  | 0 => winit hash limit A
  | k + 1 => (tnext hash (tgreedy hash limit A k)).2

theorem tgreedy_execution (limit : Option ℕ) (A : OSet) :
    WExecution hash limit A (tgreedy hash limit A) fun k => (tnext hash (tgreedy hash limit A k)).1 := by
  refine ⟨rfl, ?_, ?_⟩
  · intro k e he
    rw [tgreedy]
    unfold tnext at he ⊢
    split at he
    · next hex =>
      rw [dif_pos hex]
      have := hex.choose_spec.1
      rw [← Option.some.inj he]
      exact this
    · cases he
  · intro k he
    rw [tgreedy]
    unfold tnext at he ⊢
    split at he
    · cases he
    · next hex => rw [dif_neg hex]

theorem tnext_extra (W : World) (i : ℕ) : (tnext hash W).1 ≠ some (.extra i) := by
  unfold tnext
  split
  · next hex =>
    obtain ⟨_, j, h | h⟩ := hex.choose_spec
    · simp [h]
    · simp [h]
  · simp

theorem tnext_none {limit : Option ℕ} {A : OSet} (hA : OK A) {W : World} (hr : Reach hash limit A W.G)
    (h : (tnext hash W).1 = none) (i : ℕ) : ¬ (Runnable W i ∨ Orphan W.G i) := by
  intro hi
  have hex : ∃ r : Event × World, WStep hash r.1 W r.2 ∧ ∃ i, r.1 = .act i ∨ r.1 = .repoll i := by
    rcases hi with hi | hi
    · obtain ⟨W', h | h⟩ := hi.step hA hr
      · exact ⟨(_, _), h, i, Or.inl rfl⟩
      · exact ⟨(_, _), h, i, Or.inr rfl⟩
    · obtain ⟨W', h⟩ := hi.step
      exact ⟨(_, _), h, i, Or.inl rfl⟩
  unfold tnext at h
  rw [dif_pos hex] at h
  cases h

end Search

end Sortnet
