import Verif.Proof.SearchWait
import Verif.Proof.SearchExec

/-!
# C28: the stored bounds are always correct

`Run hash limit initial G` (Model/Search.lean) says that the state `G` can be reached in a run of the
search from `initial`, with any number of tasks interleaved in any way, and with tasks cancelled at any
suspension point.
-/

namespace Sortnet

open Search

theorem Search.Run.inv {hash : List ℕ → ℕ} {limit : Option ℕ} {initial : OSet} (h0 : Chained initial.s.toSet)
    (hn : initial.n ≤ 11) {G : Global} (h : Run hash limit initial G) :
    ∃ A, canon hash initial = some A ∧ OK A ∧ ∃ β : ℕ →₀ ℕ, GInv hash limit A β G ∧ WaitOK G ∧ Fin' G := by
  obtain ⟨A, hA, hr⟩ := h
  have hok := (canon_of_eq ⟨h0, hn⟩ hA).1
  obtain ⟨β, hG, _⟩ := GInv.reach hok hr
  exact ⟨A, hA, hok, β, hG, WaitOK.reach hr, Fin'.reach hr⟩

/-- C28.  In every reachable state, for every well-formed set with at most 11 channels, the lower bound
returned by `StateMap::get` is a lower bound and the upper bound is an upper bound for the number of
comparators needed. -/
theorem C28_stored_bounds (hash : List ℕ → ℕ) (limit : Option ℕ) (initial : OSet)
    (h0 : Chained initial.s.toSet) (hn : initial.n ≤ 11) (G : Global) (h : Run hash limit initial G)
    (A : OSet) (hA : Chained A.s.toSet) (hAn : A.n ≤ 11) :
    LB A.s.toSet (G.store.get A).lo ∧ UB A.s.toSet (G.store.get A).hi := by
  obtain ⟨_, _, _, β, hG, _⟩ := h.inv h0 hn
  exact ⟨hG.sinv.lb A ⟨hA, hAn⟩, hG.sinv.ub A ⟨hA, hAn⟩⟩

/-- The same for the entries of the map: they all belong to well-formed unsorted sets with 3 to 11
channels. -/
theorem C28_entries (hash : List ℕ → ℕ) (limit : Option ℕ) (initial : OSet)
    (h0 : Chained initial.s.toSet) (hn : initial.n ≤ 11) (G : Global) (h : Run hash limit initial G)
    (A : OSet) (v : State) (hA : G.store A = some v) :
    (3 ≤ A.n ∧ A.n ≤ 11) ∧ Chained A.s.toSet ∧ ¬ IsChain (· ≤ ·) A.s.toSet ∧
      LB A.s.toSet v.lo ∧ UB A.s.toSet v.hi ∧ v.lo ≤ v.hi ∧ v.hi ≤ 35 := by
  obtain ⟨_, _, _, β, hG, _⟩ := h.inv h0 hn
  obtain ⟨hok, h3, hs⟩ := hG.sinv.dom A v hA
  have e : G.store.get A = v := by simp [Store.get, hA]
  have h1 := hG.sinv.lb A hok
  have h2 := hG.sinv.ub A hok
  have h4 := hG.sinv.top A hok
  rw [e] at h1 h2 h4
  exact ⟨⟨h3, hok.2⟩, hok.1, not_chain hok hs, h1, h2, h1.le_UB h2, h4⟩

/-- The schedule of an execution for all vectors on four channels: task 0 spawns task 1 for a set on three
channels and waits for it. -/
def exampleSchedule : List (ℕ × ℕ) :=
  List.replicate 29 (1, 0) ++ [(2, 0)] ++ List.replicate 15 (2, 1) ++ List.replicate 12 (2, 0)

/-- Non-vacuity: there is a run for all vectors on four channels that returns 5. -/
theorem C28_example : ∃ G, Run (fun _ => 0) none ⟨4, allValues 4⟩ G ∧ Returned G 5 :=
  run_of_exec (l := exampleSchedule) (by decide +kernel)

example : Chained (allValues 4).toSet := by rw [toSet_allValues]; exact chained_univ

end Sortnet
