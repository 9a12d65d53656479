import Verif.Proof.SearchFinite
import Verif.Props.C29
import Verif.Props.C32

/-!
# C52: the search ends

`Execution`, `Fair`, `Spurious`, `Unfinished` and `Blocked` are defined in Spec/Schedule.lean.  An execution is an infinite
sequence of states; at each time one task makes an atomic step or nothing happens.
-/

namespace Sortnet

open Search

variable (hash : List ℕ → ℕ) (limit : Option ℕ) (initial : OSet) (h0 : Chained initial.s.toSet)
  (hn : initial.n ≤ 11) (A : OSet) (hA : canon hash initial = some A) (G : ℕ → Global) (who : ℕ → Option ℕ)
  (h : Execution hash limit A G who)

include h0 hn hA h

/-- C52.  For every interleaving, with any number of spurious wakeups: if every task that can continue eventually does,
the search returns. -/
theorem C52_terminates (hf : Fair G who) : ∃ k r, Returned (G k) r :=
  h.terminates (canon_of_eq ⟨h0, hn⟩ hA).1 hf

/-- Without fairness: if tasks are resumed only finitely often while they cannot continue, every execution is
finite. -/
theorem C52_finite (hsp : ∃ K, ∀ k, K ≤ k → ¬ Spurious G who k) : ∃ K, ∀ k, K ≤ k → who k = none :=
  h.stops (canon_of_eq ⟨h0, hn⟩ hA).1 hsp

/-- Therefore the search returns with every scheduler that does not stop while some task can continue, no matter
which of the tasks that can continue it prefers. -/
theorem C52_every_scheduler (hsp : ∃ K, ∀ k, K ≤ k → ¬ Spurious G who k)
    (hwork : ∀ k, (∃ i, Unfinished (G k) i ∧ ¬ Blocked (G k) i) → who k ≠ none) : ∃ k r, Returned (G k) r := by
  obtain ⟨K, hK⟩ := C52_finite hash limit initial h0 hn A hA G who h hsp
  by_contra hcon
  push Not at hcon
  obtain ⟨j, _, hj, hb, _⟩ := C32_never_stuck hash limit initial h0 hn (G K) ⟨A, hA, h.reach K⟩
    fun ⟨r, hr⟩ => hcon K r hr
  exact hwork K ⟨j, hj, hb⟩ (hK K (Nat.le_refl _))

/-- Total correctness: without a limit the search returns the number of comparators needed. -/
theorem C52_total (hl : limit = none) (hf : Fair G who) : ∃ k r, Returned (G k) r ∧ IsOpt initial.s.toSet r := by
  subst hl
  obtain ⟨k, r, hr⟩ := C52_terminates hash none initial h0 hn A hA G who h hf
  exact ⟨k, r, hr, C29_exact hash initial h0 hn (G k) ⟨A, hA, h.reach k⟩ r hr⟩

omit hA h in
/-- The number of tasks ever created is bounded, for all interleavings, by a number that only depends on the
input. -/
theorem C52_tasks_bounded : ∃ N, ∀ G, Run hash limit initial G →
    ∃ s : Finset ℕ, s.card ≤ N ∧ ∀ j, G.tasks j ≠ none → j ∈ s := by
  obtain ⟨A, hA, hok, _⟩ := canon_spec (hash := hash) (A := initial) ⟨h0, hn⟩
  refine ⟨(budget limit A).degree + 1, ?_⟩
  rintro G ⟨A', hA', hr⟩
  rw [hA] at hA'
  cases hA'
  obtain ⟨s, β, hs, _, hle⟩ := GInv.tasks_le hok hr
  exact ⟨s, by omega, hs⟩

omit hA h in
/-- Non-vacuity, for all inputs: there is a fair execution in which no task is resumed while it cannot continue and
nothing stops while some task can continue.  In particular every search can return. -/
theorem C52_exists : ∃ A G who, canon hash initial = some A ∧ Execution hash limit A G who ∧ Fair G who ∧
    (∀ k, ¬ Spurious G who k) ∧ (∀ k, (∃ i, Unfinished (G k) i ∧ ¬ Blocked (G k) i) → who k ≠ none) ∧
    ∃ k r, Returned (G k) r := by
  obtain ⟨A, hA, hok, _⟩ := canon_spec (hash := hash) (A := initial) ⟨h0, hn⟩
  refine ⟨A, _, _, hA, greedy_execution hok, greedy_fair hok, greedy_spurious limit A, ?_,
    C52_terminates hash limit initial h0 hn A hA _ _ (greedy_execution hok) (greedy_fair hok)⟩
  rintro k ⟨i, hi⟩ hnone
  exact pick_none hnone i hi

omit h0 hn hA h in
/-- For all vectors on `n` channels: every fair execution returns the minimum size of a sorting network. -/
theorem C52_sorting_network (n : ℕ) (hn : n ≤ 11) (A : OSet) (hA : canon hash ⟨n, allValues n⟩ = some A)
    (G : ℕ → Global) (who : ℕ → Option ℕ) (h : Execution hash none A G who) (hf : Fair G who) :
    ∃ k r, Returned (G k) r ∧ MinSize n r := by
  obtain ⟨k, r, hr⟩ := C52_terminates hash none ⟨n, allValues n⟩
    (by dsimp only; rw [toSet_allValues]; exact chained_univ) hn A hA G who h hf
  exact ⟨k, r, hr, C29_sorting_network hash n hn (G k) ⟨A, hA, h.reach k⟩ r hr⟩

/-- For example on four channels, where tasks wait for each other (see C32), there is such an execution. -/
example : ∃ A G who, canon (fun _ => 0) ⟨4, allValues 4⟩ = some A ∧ Execution (fun _ => 0) none A G who ∧ Fair G who ∧
    ∃ k, Returned (G k) 5 := by
  have h4 : Chained (⟨4, allValues 4⟩ : OSet).s.toSet := by dsimp only; rw [toSet_allValues]; exact chained_univ
  obtain ⟨A, G, who, hA, h, hf, _⟩ := C52_exists (fun _ => 0) none ⟨4, allValues 4⟩ h4 (by decide)
  obtain ⟨k, r, hr, hm⟩ := C52_sorting_network (fun _ => 0) 4 (by omega) A hA G who h hf
  obtain ⟨G', h', hr'⟩ := C28_example
  have e : r = 5 := by
    have h1 := C29_exact _ _ h4 (by decide) _ h' 5 hr'
    have h2 := C29_exact _ _ h4 (by decide) (G k) ⟨A, hA, h.reach k⟩ r hr
    exact h2.unique h1
  exact ⟨A, G, who, hA, h, hf, k, e ▸ hr⟩

end Sortnet
