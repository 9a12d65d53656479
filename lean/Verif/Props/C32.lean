import Verif.Props.C28

/-!
# C32: waiting is acyclic, and there is always somebody who can continue

`WaitsFor`, `Blocked` and `Unfinished` are defined in Spec/Schedule.lean, `rank` in Spec/Rank.lean: a task waits for the holder of
a lock or, when it is suspended, for the child tasks whose handles the current call owns.
-/

namespace Sortnet

open Search

variable (hash : List ℕ → ℕ) (limit : Option ℕ) (initial : OSet) (h0 : Chained initial.s.toSet)
  (hn : initial.n ≤ 11) (G : Global) (h : Run hash limit initial G)

include h0 hn h

/-- C32.  Tasks never wait for each other in a cycle. -/
theorem C32_acyclic (i : ℕ) : ¬ Relation.TransGen (WaitsFor G) i i := by
  obtain ⟨_, _, _, β, hG, _⟩ := h.inv h0 hn
  exact WaitsFor.acyclic hG i

/-- A suspended task waits for child tasks that work on strictly smaller sets in the well-founded order
`rank`. -/
theorem C32_children_smaller (i : ℕ) (t : Task) (p : Prog Exit) (owned : List Res) (stack : List Frame)
    (hd : Handle) (ht : G.tasks i = some t) (hs : t.status = .sleep p owned stack) (hm : Res.handle hd ∈ owned) :
    ∃ u level, G.tasks hd.tid = some u ∧ u.root = .improve level hd.prev hd.target ∧
      rank hd.target < rank t.root.cur := by
  obtain ⟨_, _, _, β, hG, _⟩ := h.inv h0 hn
  have hmt : Res.handle hd ∈ t.res := by unfold Task.res; rw [hs]; exact List.mem_append.2 (Or.inl hm)
  obtain ⟨_, _, u, hu, ⟨level, hr⟩, _⟩ := hG.own.child i t hd ht hmt
  have hok := hG.task _ _ ht
  rw [hs] at hok
  obtain ⟨K, c, b, s, ha, _⟩ := hok
  have e : t.root.rootKind.cur = t.root.cur := by cases t.root <;> rfl
  exact ⟨u, level, hu, hr, lt_of_lt_of_le (ha.1.handle hd hm) (e ▸ ha.2.2.rank_root)⟩

/-- No deadlock: following the tasks a blocked task waits for leads to a task that has been started, is not
blocked, and can take a step. -/
theorem C32_progress (i : ℕ) (hb : Blocked G i) :
    ∃ j, Relation.TransGen (WaitsFor G) i j ∧ Unfinished G j ∧ ¬ Blocked G j ∧ ∃ G', Act hash j G G' := by
  obtain ⟨_, _, _, β, hG, hW, hF⟩ := h.inv h0 hn
  obtain ⟨j, h1, h2, h3⟩ := blocked_progress hG hW hb
  exact ⟨j, h1, h2, h3, unblocked_acts hG hF h2 h3⟩

/-- The search is never stuck: as long as it has not returned, the main task can take a step or waits for a
task that can. -/
theorem C32_never_stuck (hr : ¬ ∃ r, Returned G r) :
    ∃ j, Relation.ReflTransGen (WaitsFor G) 0 j ∧ Unfinished G j ∧ ¬ Blocked G j ∧ ∃ G', Act hash j G G' := by
  obtain ⟨A, _, _, β, hG, hW, hF⟩ := h.inv h0 hn
  by_cases hb : Blocked G 0
  · obtain ⟨j, h1, h2, h3⟩ := blocked_progress hG hW hb
    exact ⟨j, h1.to_reflTransGen, h2, h3, unblocked_acts hG hF h2 h3⟩
  · exact ⟨0, .refl, main_unfinished hG hr, hb, unblocked_acts hG hF (main_unfinished hG hr) hb⟩

omit h0 hn h in
/-- The order on the sets is well founded. -/
theorem C32_rank_wellFounded : WellFounded fun A B : OSet => rank A < rank B := rank_wf

omit h0 hn h in
/-- Non-vacuity: there is a run in which the main task is blocked because it waits for another task. -/
example : ∃ G, Run (fun _ => 0) none ⟨4, allValues 4⟩ G ∧ Blocked G 0 ∧ ∃ j, WaitsFor G 0 j := by
  obtain ⟨G, h1, h2⟩ := run_of_exec_test (hash := fun _ => 0) (limit := none) (initial := ⟨4, allValues 4⟩)
    (l := List.replicate 29 (1, 0) ++ List.replicate 9 (2, 0)) (test := suspended 0) (by decide +kernel)
  obtain ⟨t, ht, h3⟩ := suspended_spec h2
  have hb : Blocked G 0 := ⟨t, ht, .inr h3⟩
  obtain ⟨j, hj, _⟩ := C32_progress (fun _ => 0) none ⟨4, allValues 4⟩
    (by dsimp only; rw [toSet_allValues]; exact chained_univ) (by decide) G h1 0 hb
  exact ⟨G, h1, hb, Relation.TransGen.head'_iff.1 hj |>.imp fun _ h => h.1⟩

end Sortnet
