import Verif.Props.C28
import Verif.Props.C04

/-!
# C29: the result of the search
-/

namespace Sortnet

open Search

/-- The main task knows bounds of the initial set when it returns. -/
theorem Search.Run.returned {hash : List ℕ → ℕ} {limit : Option ℕ} {initial : OSet} (h0 : Chained initial.s.toSet)
    (hn : initial.n ≤ 11) {G : Global} (h : Run hash limit initial G) {r : ℕ} (hr : Returned G r) :
    LB initial.s.toSet r ∧ (UB initial.s.toSet r ∨ ∃ l ∈ limit, l ≤ r) := by
  obtain ⟨A, hA, hok, β, hG, _⟩ := h.inv h0 hn
  obtain ⟨_, _, hl, hu⟩ := canon_of_eq ⟨h0, hn⟩ hA
  obtain ⟨t, v, ht, hs, rfl⟩ := hr
  obtain ⟨t', ht', hroot, _⟩ := hG.main
  rw [ht] at ht'
  cases ht'
  have hd := hG.task 0 t ht
  rw [hs, hroot] at hd
  obtain ⟨hk, hlim⟩ := hd.1 G.store (Rely.refl _ _) hG.sinv
  refine ⟨(hl _).1 (hk.lb hG.sinv hok), ?_⟩
  rcases hlim with e | h
  · left
    rw [e]
    exact (hu _).1 hk.ub
  · exact Or.inr h

/-- C29, without a limit: the result is the minimum number of comparators. -/
theorem C29_exact (hash : List ℕ → ℕ) (initial : OSet) (h0 : Chained initial.s.toSet) (hn : initial.n ≤ 11)
    (G : Global) (h : Run hash none initial G) (r : ℕ) (hr : Returned G r) : IsOpt initial.s.toSet r := by
  obtain ⟨h1, h2 | ⟨l, hl, _⟩⟩ := h.returned h0 hn hr
  · exact ⟨h1, h2⟩
  · simp at hl

/-- C29, with a limit: the result is a lower bound, and exact if it is below the limit. -/
theorem C29_limit (hash : List ℕ → ℕ) (limit : ℕ) (initial : OSet) (h0 : Chained initial.s.toSet)
    (hn : initial.n ≤ 11) (G : Global) (h : Run hash (some limit) initial G) (r : ℕ) (hr : Returned G r) :
    LB initial.s.toSet r ∧ (IsOpt initial.s.toSet r ∨ limit ≤ r) := by
  obtain ⟨h1, h2 | ⟨l, hl, h2⟩⟩ := h.returned h0 hn hr
  · exact ⟨h1, Or.inl ⟨h1, h2⟩⟩
  · cases hl
    exact ⟨h1, Or.inr h2⟩

/-- C29 for all vectors on `n` channels: the result is the minimum size of a sorting network. -/
theorem C29_sorting_network (hash : List ℕ → ℕ) (n : ℕ) (hn : n ≤ 11) (G : Global)
    (h : Run hash none ⟨n, allValues n⟩ G) (r : ℕ) (hr : Returned G r) : MinSize n r := by
  have h1 := C29_exact hash ⟨n, allValues n⟩ (by dsimp only; rw [toSet_allValues]; exact chained_univ) hn G h r hr
  dsimp only at h1
  rw [toSet_allValues] at h1
  exact isOpt_univ_iff.1 h1

/-- Non-vacuity: the search for all vectors on three channels can return 3.  With the limit 2 the search on
four channels can return the lower bound 3, which is not exact. -/
example : (∃ G, Run (fun _ => 0) none ⟨3, allValues 3⟩ G ∧ Returned G 3) ∧
    (∃ G, Run (fun _ => 0) (some 2) ⟨4, allValues 4⟩ G ∧ Returned G 3) :=
  ⟨run_of_exec (l := List.replicate 20 (1, 0)) (by decide +kernel),
   run_of_exec (l := List.replicate 20 (1, 0)) (by decide +kernel)⟩

/-- Consequence: three comparators are needed on three channels, five on four. -/
theorem C29_three_four : MinSize 3 3 ∧ MinSize 4 5 := by
  obtain ⟨G, h1, h2⟩ : ∃ G, Run (fun _ => 0) none ⟨3, allValues 3⟩ G ∧ Returned G 3 :=
    run_of_exec (l := List.replicate 20 (1, 0)) (by decide +kernel)
  obtain ⟨G', h1', h2'⟩ := C28_example
  exact ⟨C29_sorting_network _ 3 (by omega) G h1 3 h2, C29_sorting_network _ 4 (by omega) G' h1' 5 h2'⟩

end Sortnet
