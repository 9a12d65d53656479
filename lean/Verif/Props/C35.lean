import Verif.Proof.SearchSpec
import Verif.Theory.Standard

/-!
# C35: the default upper bounds are achieved by sorting networks
-/

namespace Sortnet

open Search

instance {n : ℕ} (cn : List (Fin n × Fin n)) : Decidable (Standard cn) :=
  inferInstanceAs (Decidable (∀ c ∈ cn, c.1 < c.2))

/-- C35.  For every unsorted set with at most 11 channels, the upper bound `StateMap::get` returns for a
set that has not been stored is the size of a standard sorting network on that many channels. -/
theorem C35_known_bounds (A : OSet) (hA : A.s.isSorted = false) (h2 : 2 ≤ A.n) (hn : A.n ≤ 11) :
    ∃ cn : List (Fin A.n × Fin A.n), Standard cn ∧ SortingNetwork A.n cn ∧ cn.length = (defaultState A).hi := by
  obtain ⟨n, s⟩ := A
  dsimp only at hA h2 hn ⊢
  unfold defaultState
  simp only [hA, Bool.false_eq_true, if_false]
  open KnownBounds in
  interval_cases n
  · exact ⟨[(0, 1)], by decide +kernel, sorting2, by decide⟩
  · exact ⟨net3, by decide +kernel, sorting3, by decide +kernel⟩
  · exact ⟨net4, by decide +kernel, sorting4, by decide +kernel⟩
  · exact ⟨net5, by decide +kernel, sorting5, by decide +kernel⟩
  · exact ⟨net6, by decide +kernel, sorting6, by decide +kernel⟩
  · exact ⟨net7, by decide +kernel, sorting7, by decide +kernel⟩
  · exact ⟨net8, by decide +kernel, sorting8, by decide +kernel⟩
  · exact ⟨net9, by decide +kernel, sorting9, by decide +kernel⟩
  · exact ⟨net10, by decide +kernel, sorting10, by decide +kernel⟩
  · exact ⟨net11, by decide +kernel, sorting11, by decide +kernel⟩

/-- The defaults of every well-formed set with at most 11 channels, sorted or not, enclose its minimum
number of comparators. -/
theorem C35_default_bounds (A : OSet) (hA : Chained A.s.toSet) (hn : A.n ≤ 11) :
    LB A.s.toSet (defaultState A).lo ∧ UB A.s.toSet (defaultState A).hi ∧
    LB A.s.toSet (defaultState A).hlo ∧ UB A.s.toSet (defaultState A).hhi := by
  have h := SInv_empty (fun _ => 0)
  have h1 := h.lb A ⟨hA, hn⟩
  have h2 := h.ub A ⟨hA, hn⟩
  have e : Store.get (fun _ => none) A = defaultState A := rfl
  rw [e] at h1 h2
  have e1 : (defaultState A).hlo = (defaultState A).lo := by unfold defaultState; split <;> [rfl; (split <;> rfl)]
  have e2 : (defaultState A).hhi = (defaultState A).hi := by unfold defaultState; split <;> [rfl; (split <;> rfl)]
  rw [e1, e2]
  exact ⟨h1, h2, h1, h2⟩

/-- Non-vacuity: all vectors on 11 channels are an unsorted set, and its default upper bound is 35. -/
example : (allValues 11).isSorted = false ∧ (defaultState ⟨11, allValues 11⟩).hi = 35 := by decide +kernel

end Sortnet
