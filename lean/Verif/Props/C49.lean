import Verif.Theory.Standard

/-! # C49: generalised, standard and 0/1 sorting agree -/

namespace Sortnet

/-- A network sorts all 0/1 inputs iff it sorts all inputs from every linear order. -/
theorem C49_zero_one {n : ℕ} (cn : List (Fin n × Fin n)) :
    SortingNetwork n cn ↔ ∀ (α : Type) (_ : LinearOrder α) (x : Fin n → α), Monotone (run cn x) :=
  ⟨fun h _ _ x => zero_one h x, fun h x => h Bool _ x⟩

/-- If a network with comparators of arbitrary orientation maps all 0/1 inputs to a totally ordered
set, then there is a standard sorting network of at most the same size, and conversely. -/
theorem C49_standard (n k : ℕ) :
    (∃ cn : List (Fin n × Fin n), Sorts cn Set.univ ∧ cn.length ≤ k) ↔
      ∃ cn : List (Fin n × Fin n), Standard cn ∧ SortingNetwork n cn ∧ cn.length ≤ k := by
  constructor
  · rintro ⟨cn, h1, h2⟩
    obtain ⟨cn', h3, h4, h5⟩ := exists_standard_of_sorts h1
    exact ⟨cn', h3, h4, h5.trans h2⟩
  · rintro ⟨cn, -, h1, h2⟩
    exact ⟨cn, h1.sorts _, h2⟩

/-- The optimum the search computes for the set of all vectors is the minimum size of a standard
sorting network. -/
theorem C49_optimum (n k : ℕ) : IsOpt (Set.univ : Set (Fin n → Bool)) k ↔ MinSize n k :=
  isOpt_univ_iff

/-- Lower bounds in the sense of the Isabelle development (networks over all natural numbers) and
over `n` channels agree. -/
theorem C49_lower_bound (n k : ℕ) : LB (Set.univ : Set (Fin n → Bool)) k ↔ LowerSizeBound n k :=
  LB_univ_iff

/-- A reversed comparator sorts two channels up to relabelling but is not a sorting network. -/
example : Sorts [((1 : Fin 2), (0 : Fin 2))] Set.univ ∧ ¬ SortingNetwork 2 [(1, 0)] := by
  constructor
  · rw [Sorts_iff]
    have : ∀ x y : Fin 2 → Bool, run [((1 : Fin 2), (0 : Fin 2))] x ≤ run [(1, 0)] y ∨
        run [((1 : Fin 2), (0 : Fin 2))] y ≤ run [(1, 0)] x := by
      simp only [Pi.le_def]
      decide +kernel
    exact fun x _ y _ => this x y
  · intro h
    have := h ![true, false] (show (0 : Fin 2) ≤ 1 by decide)
    exact absurd this (by decide)

end Sortnet
