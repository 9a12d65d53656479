import Verif.Props.C28

/-!
# C31: the lock of an output set
-/

namespace Sortnet

open Search

variable (hash : List ℕ → ℕ) (limit : Option ℕ) (initial : OSet) (h0 : Chained initial.s.toSet)
  (hn : initial.n ≤ 11) (G : Global) (h : Run hash limit initial G)

include h0 hn h

/-- Mutual exclusion: at most one task holds a lock of a set, and it holds only one. -/
theorem C31_mutual_exclusion (A : OSet) (i j : ℕ) (t u : Task) (tok tok' : ℕ) (ht : G.tasks i = some t)
    (hu : G.tasks j = some u) (hi : Res.lock A tok ∈ t.res) (hj : Res.lock A tok' ∈ u.res) :
    i = j ∧ tok = tok' ∧ t.res.count (Res.lock A tok) = 1 := by
  obtain ⟨_, _, _, β, hG, _⟩ := h.inv h0 hn
  have h1 := hG.own.lockOwned i t A tok ht hi
  have h2 := hG.own.lockOwned j u A tok' hu hj
  rw [h1] at h2
  cases h2
  exact ⟨hG.own.disj i j t u _ ht hu hi hj, rfl, List.count_eq_one_of_mem (hG.own.nodup i t ht) hi⟩

/-- Only the holder of the lock writes the state of a set. -/
theorem C31_write_needs_lock (G' : Global) (hs : Step hash G G') (A : OSet) (hA : G'.store A ≠ G.store A) :
    ∃ i t tok, G.tasks i = some t ∧ Res.lock A tok ∈ t.res ∧ Act hash i G G' := by
  obtain ⟨_, _, _, β, hG, _⟩ := h.inv h0 hn
  obtain ⟨i, ha⟩ := hs
  have ha' := ha
  cases ha with
  | @set t B v k owned stack ht hs hm =>
    have hok := hG.task _ _ ht
    rw [hs] at hok
    obtain ⟨K, c, b, s, ⟨hctx, hwp, hst⟩, _⟩ := hok
    have hheld := (hwp G.store (Rely.refl _ _) hG.sinv).1
    have e : A = B := by
      by_contra hne
      apply hA
      simp [Store.set, hne]
    subst e
    obtain ⟨tok, hm⟩ := hctx.locks.1 hheld
    exact ⟨i, t, tok, ht, by unfold Task.res; rw [hs]; exact hm, ha'⟩
  | @unwind t v r owned stack ht hs hr hrec => cases r <;> exact absurd rfl hA
  | @drop t r owned ht hs hr hrec => cases r <;> exact absurd rfl hA
  | _ => exact absurd rfl hA

/-- The lock map has an entry for a set exactly if some task holds the lock: releasing removes it. -/
theorem C31_entry_iff_held (A : OSet) (tok : ℕ) :
    G.locks A = some tok ↔ ∃ i t, G.tasks i = some t ∧ Res.lock A tok ∈ t.res := by
  obtain ⟨_, _, _, β, hG, _⟩ := h.inv h0 hn
  constructor
  · exact hG.own.lockHas A tok
  · rintro ⟨i, t, ht, hm⟩
    exact hG.own.lockOwned i t A tok ht hm

/-- The lock of a set whose variable is dropped, on return or on cancellation, is removed from the map, the
message is sent, and every task that waits for it can continue right away. -/
theorem C31_release_wakes (A : OSet) (tok : ℕ) (i : ℕ) (t : Task) (s : Status)
    (j : ℕ) (u : Task) (p : Prog Exit) (owned : List Res) (stack : List Frame)
    (hu : ((G.setStatus i t s).release (.lock A tok)).tasks j = some u) (hw : u.status = .wait A tok p owned stack) :
    ((G.setStatus i t s).release (.lock A tok)).locks A = none ∧
    ∃ G', Act hash j ((G.setStatus i t s).release (.lock A tok)) G' ∧
      ∃ u', G'.tasks j = some u' ∧ u'.status = .run p owned stack := by
  refine ⟨by simp [Global.release], _, .lockWake hu hw (by simp [Global.release]), { u with status := .run p owned stack },
    by simp [Global.setStatus], rfl⟩

/-- No lost wakeup: a waiting task waits for a lock that some other task holds, or it can continue. -/
theorem C31_no_lost_wakeup (i : ℕ) (t : Task) (A : OSet) (tok : ℕ) (p : Prog Exit) (owned : List Res)
    (stack : List Frame) (ht : G.tasks i = some t) (hw : t.status = .wait A tok p owned stack) :
    (∃ j u, j ≠ i ∧ G.tasks j = some u ∧ Res.lock A tok ∈ u.res) ∨
    (∃ G', Act hash i G G' ∧ ∃ t', G'.tasks i = some t' ∧ t'.status = .run p owned stack) := by
  obtain ⟨_, _, _, β, hG, hW, _⟩ := h.inv h0 hn
  rcases hW i t A tok p owned stack ht hw with hl | hl
  · left
    obtain ⟨j, u, hu, hm⟩ := hG.own.lockHas A tok hl
    refine ⟨j, u, ?_, hu, hm⟩
    rintro rfl
    rw [ht] at hu
    cases hu
    have hok := hG.task _ _ ht
    rw [hw] at hok
    obtain ⟨m, c, b, s, ha, _, hb⟩ := hok
    have := hb A (ha.1.locks.2 ⟨tok, by unfold Task.res at hm; rw [hw] at hm; exact hm⟩)
    exact lt_irrefl _ this
  · right
    exact ⟨_, .lockWake ht hw hl, { t with status := .run p owned stack }, by simp [Global.setStatus], rfl⟩

/-- No task ever panics: neither while taking or dropping a lock nor anywhere else. -/
theorem C31_no_panic (i : ℕ) (t : Task) (ht : G.tasks i = some t) : t.status ≠ .panicked := by
  obtain ⟨_, _, _, β, hG, _⟩ := h.inv h0 hn
  intro e
  have hok := hG.task _ _ ht
  rw [e] at hok
  exact hok

/-- A finished task holds no locks, and neither does a task that has not been started. -/
theorem C31_finished_holds_nothing (i : ℕ) (t : Task) (ht : G.tasks i = some t)
    (hs : (∃ v, t.status = .done v) ∨ t.status = .taken ∨ t.scheduled = false) (A : OSet) (tok : ℕ) :
    Res.lock A tok ∉ t.res := by
  obtain ⟨_, _, _, β, hG, _⟩ := h.inv h0 hn
  intro hm
  unfold Task.res at hm
  rcases hs with ⟨v, hs⟩ | hs | hs
  · rw [hs] at hm; simp [Status.res] at hm
  · rw [hs] at hm; simp [Status.res] at hm
  · rcases hG.own.unsched i t ht hs with ⟨p, e⟩ | e <;> rw [e] at hm <;> simp [Status.res] at hm

omit h0 hn h in
/-- Non-vacuity: there is a run in which task 0 holds a lock. -/
example : ∃ G, Run (fun _ => 0) none ⟨4, allValues 4⟩ G ∧
    ∃ t A tok, G.tasks 0 = some t ∧ Res.lock A tok ∈ t.res ∧ G.locks A = some tok := by
  obtain ⟨G, h1, h2⟩ := run_of_exec_test (hash := fun _ => 0) (limit := none) (initial := ⟨4, allValues 4⟩)
    (l := exampleSchedule.take 30) (test := holdsLock 0) (by decide +kernel)
  obtain ⟨t, A, tok, ht, hm⟩ := holdsLock_spec h2
  exact ⟨G, h1, t, A, tok, ht, hm, (C31_entry_iff_held (fun _ => 0) none ⟨4, allValues 4⟩
    (by dsimp only; rw [toSet_allValues]; exact chained_univ) (by decide) G h1 A tok).2 ⟨0, t, ht, hm⟩⟩

end Sortnet
