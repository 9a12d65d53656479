import Verif.Proof.TearDown
import Verif.Props.C53

/-!
# C55: the search is torn down

`Ended`, `Orphan`, `References` and `NotFreed` are defined in Spec/TearDown.lean.
-/

namespace Sortnet

open Search

variable (hash : List ℕ → ℕ) (limit : Option ℕ) (initial : OSet) (h0 : Chained initial.s.toSet)
  (hn : initial.n ≤ 11) (A : OSet) (hA : canon hash initial = some A)

include h0 hn hA

/-- As long as some task has not ended, also after the main task has returned, a worker has something to do: a
task is running, in the queue or about to be dropped. -/
theorem C55_not_idle (W : World) (h : WReach hash limit A W) (i : ℕ) (t : Task) (ht : W.G.tasks i = some t)
    (he : ¬ Ended W.G i) : ∃ j, Runnable W j ∨ Orphan W.G j :=
  not_ended_runnable (canon_of_eq ⟨h0, hn⟩ hA).1 h ht he

/-- Every task but the main task is owned by exactly one other task or has been cancelled: none is left running without
anybody to cancel it. -/
theorem C55_owner (G : Global) (h : Reach hash limit A G) (j : ℕ) (t : Task) (ht : G.tasks j = some t) (hj : j ≠ 0)
    (hc : t.cancelled = false) : ∃! i, ∃ u h, G.tasks i = some u ∧ Res.handle h ∈ u.res ∧ h.tid = j := by
  have hok := (canon_of_eq ⟨h0, hn⟩ hA).1
  obtain ⟨β, hG, _⟩ := GInv.reach hok h
  obtain ⟨i, u, hd, hu, hm, e⟩ := Adopted.reach hok h j t ht hj hc
  refine ⟨i, ⟨u, hd, hu, hm, e⟩, ?_⟩
  rintro i' ⟨u', hd', hu', hm', e'⟩
  have : hd' = hd := by
    obtain ⟨_, _, c1, hc1, ⟨l1, hr1⟩, _⟩ := hG.own.child _ _ _ hu hm
    obtain ⟨_, _, c2, hc2, ⟨l2, hr2⟩, _⟩ := hG.own.child _ _ _ hu' hm'
    rw [e', ← e, hc1] at hc2
    cases hc2
    rw [hr1] at hr2
    cases hd; cases hd'
    simp_all
  subst this
  exact hG.own.disj _ _ _ _ _ hu' hu hm' hm

variable (W : ℕ → World) (ev : ℕ → Option Event) (h : WExecution hash limit A W ev)
  (hx : ∃ K, ∀ k, K ≤ k → ∀ i, ev k ≠ some (.extra i))
  (hwork : ∀ k, (∃ i, Runnable (W k) i ∨ Orphan (W k).G i) → ∃ k', k ≤ k' ∧ ev k' ≠ none)

include h hx hwork

/-- C55.  If the workers eventually go on whenever they have something to do, then eventually nothing happens any more, the
search has returned, all tasks have ended, no lock is held, and all task objects are freed: there are no cycles of
references.  Then the queue is disconnected, all workers end and `scope` returns. -/
theorem C55_teardown : ∃ K, ∀ k, K ≤ k → ev k = none ∧ (∃ r, Returned (W k).G r) ∧
    (∀ i t, (W k).G.tasks i = some t → Ended (W k).G i) ∧ (∀ B, (W k).G.locks B = none) ∧
    ∀ S, NotFreed (W k) S → ∀ c, ¬ S c := by
  have hok := (canon_of_eq ⟨h0, hn⟩ hA).1
  obtain ⟨K, hK⟩ := C53_finite hash limit initial h0 hn A hA W ev h hx
  refine ⟨K, fun k hk => ?_⟩
  have hnone : ¬ ∃ i, Runnable (W k) i ∨ Orphan (W k).G i := fun hi => by
    obtain ⟨k', hk', hne⟩ := hwork k hi
    exact hne (hK k' (Nat.le_trans hk hk'))
  have hE : ∀ i t, (W k).G.tasks i = some t → Ended (W k).G i := by
    intro i t ht
    by_contra he
    exact hnone (C55_not_idle hash limit initial h0 hn A hA (W k) (h.wreach k) i t ht he)
  obtain ⟨β, hG, _⟩ := GInv.reach hok (h.wreach k).reach
  refine ⟨hK k hk, ?_, hE, ?_, fun S hS c => freed_of_ended hok (h.wreach k) hE S hS c⟩
  · by_contra hr
    obtain ⟨t, ht, hs, h1, h2, h3, h4⟩ := main_unfinished hG hr
    obtain ⟨t', ht', ⟨v, e⟩ | e | e⟩ := hE 0 t ht
    all_goals
      rw [ht] at ht'
      cases ht'
    · exact h1 v e
    · exact h2 e
    · exact h4 e
  · intro B
    cases e : (W k).G.locks B with
    | none => rfl
    | some tok =>
      obtain ⟨i, t, ht, hm⟩ := hG.own.lockHas B tok e
      obtain ⟨t', ht', h1⟩ := hE i t ht
      rw [ht] at ht'
      cases ht'
      unfold Task.res at hm
      rcases h1 with ⟨v, e⟩ | e | e <;> rw [e] at hm <;> simp [Status.res] at hm

/-- What is dumped after the tear-down is the final state: once `scope` returns nothing changes any more, and the
result of the search is the number of comparators needed. -/
theorem C55_result (hl : limit = none) : ∃ K r, IsOpt initial.s.toSet r ∧ ∀ k, K ≤ k → W k = W K ∧ Returned (W k).G r := by
  subst hl
  obtain ⟨K, hK⟩ := C55_teardown hash none initial h0 hn A hA W ev h hx hwork
  have hconst : ∀ k, K ≤ k → W k = W K := by
    intro k hk
    induction k, hk using Nat.le_induction with
    | base => rfl
    | succ k hk ih => rw [h.idle k (hK k hk).1, ih]
  obtain ⟨r, hr⟩ := (hK K (Nat.le_refl _)).2.1
  refine ⟨K, r, C29_exact hash initial h0 hn (W K).G ⟨A, hA, (h.wreach K).reach⟩ r hr, fun k hk => ⟨hconst k hk, ?_⟩⟩
  rw [hconst k hk]
  exact hr

omit hA h hx hwork in
/-- Non-vacuity, for all inputs: there is such an execution, without any unnecessary call of a waker. -/
theorem C55_exists : ∃ A W ev, canon hash initial = some A ∧ WExecution hash limit A W ev ∧
    (∀ k i, ev k ≠ some (.extra i)) ∧ (∀ k, (∃ i, Runnable (W k) i ∨ Orphan (W k).G i) → ev k ≠ none) ∧
    ∃ k, (∃ r, Returned (W k).G r) ∧ ∀ i t, (W k).G.tasks i = some t → Ended (W k).G i := by
  obtain ⟨A, hA, hok, _⟩ := canon_spec (hash := hash) (A := initial) ⟨h0, hn⟩
  have hwork : ∀ k, (∃ i, Runnable (tgreedy hash limit A k) i ∨ Orphan (tgreedy hash limit A k).G i) →
      (tnext hash (tgreedy hash limit A k)).1 ≠ none := by
    rintro k ⟨i, hi⟩ hnone
    exact tnext_none hok ((tgreedy_execution limit A).wreach k).reach hnone i hi
  obtain ⟨K, hK⟩ := C55_teardown hash limit initial h0 hn A hA _ _ (tgreedy_execution limit A)
    ⟨0, fun k _ i => tnext_extra _ i⟩ fun k hk => ⟨k, Nat.le_refl k, hwork k hk⟩
  exact ⟨A, _, _, hA, tgreedy_execution limit A, fun k i => tnext_extra _ i, hwork, K,
    (hK K (Nat.le_refl _)).2.1, (hK K (Nat.le_refl _)).2.2.1⟩

omit h0 hn hA h hx hwork in
/-- Non-vacuity: while the main task waits for a child task, the two are not freed. -/
example : ∃ A W c, canon (fun _ => 0) ⟨4, allValues 4⟩ = some A ∧ WReach (fun _ => 0) none A W ∧
    ¬ Ended W.G 0 ∧ c ≠ 0 ∧ References W 0 c ∧ NotFreed W fun i => i = 0 ∨ i = c := by
  obtain ⟨G, ⟨A, hA, h1⟩, h2⟩ := run_of_exec_test (hash := fun _ => 0) (limit := none) (initial := ⟨4, allValues 4⟩)
    (l := List.replicate 29 (1, 0) ++ List.replicate 9 (2, 0)) (test := suspended 0) (by decide +kernel)
  obtain ⟨W, hW, rfl⟩ := C53_all_states (fun _ => 0) none A G h1
  have h0 : Chained (allValues 4).toSet := by rw [toSet_allValues]; exact chained_univ
  obtain ⟨β, hG, hW2⟩ := GInv.reach (canon_of_eq (A := ⟨4, allValues 4⟩) ⟨h0, by decide⟩ hA).1 h1
  obtain ⟨t, ht, p, owned, stack, hs, ⟨hd, hm⟩, _⟩ := suspended_spec h2
  have hm' : Res.handle hd ∈ t.res := by unfold Task.res; rw [hs]; exact List.mem_append_left _ hm
  obtain ⟨_, hne, c, hc, _⟩ := hG.own.child _ _ _ ht hm'
  have he : ¬ Ended W.G 0 := by
    rintro ⟨t', ht', h1⟩
    rw [ht] at ht'
    cases ht'
    rw [hs] at h1
    simp at h1
  have hr : References W 0 hd.tid := Or.inl ⟨t, hd, ht, hm', rfl⟩
  refine ⟨A, W, hd.tid, hA, hW, he, hne, hr, ?_⟩
  rintro i (rfl | rfl)
  · exact ⟨⟨t, ht⟩, Or.inl he⟩
  · exact ⟨⟨c, hc⟩, Or.inr ⟨0, Or.inl rfl, hr⟩⟩

end Sortnet
