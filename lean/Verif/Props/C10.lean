import Verif.Proof.OutputSet

/-!
# C10: `apply_comparator` computes the image and reports redundancy
-/

namespace Sortnet

/-- `apply_comparator([a, b])`: the new set is the image under the comparator that writes the smaller
value to `b` and the larger one to `a`; the result is true iff the two channels occurred in both
orders. -/
theorem C10_apply_comparator {n : ℕ} (s : Bitmap n) (a b : Fin n) (hab : a ≠ b) :
    (s.applyComparator a b).1.toSet = applyCmp (b, a) '' s.toSet ∧
    ((s.applyComparator a b).2 = true ↔
      (∃ v ∈ s.toSet, v a = false ∧ v b = true) ∧ (∃ v ∈ s.toSet, v a = true ∧ v b = false)) :=
  ⟨applyComparator_toSet s hab, applyComparator_flag s hab⟩

/-- If `apply_comparator` reports a redundant comparator, the new set differs from the old one at
most by exchanging the two channels, so that the comparator was useless. -/
theorem C10_redundant {n : ℕ} (s : Bitmap n) (a b : Fin n) (hab : a ≠ b)
    (h : (s.applyComparator a b).2 = false) : PermEquiv s.toSet (s.applyComparator a b).1.toSet := by
  rw [applyComparator_toSet s hab]
  have hr : Redundant (b, a) s.toSet := by
    by_contra hcon
    simp only [Redundant, not_or, not_forall, not_not] at hcon
    obtain ⟨⟨v, hv, h1, h2⟩, w, hw, h3, h4⟩ := hcon
    have := (applyComparator_flag s hab).2 ⟨⟨v, hv, h2, h1⟩, w, hw, h4, h3⟩
    rw [h] at this; simp at this
  rcases hr with hr | hr
  · refine ⟨Equiv.refl _, ?_⟩
    refine Set.image_congr ?_
    intro x hx
    rw [applyCmp_id (hr x hx)]; rfl
  · refine ⟨Equiv.swap b a, ?_⟩
    refine Set.image_congr ?_
    intro x hx
    rw [applyCmp_swap (hr x hx)]

/-- Non-vacuity: on all vectors of three channels the comparator is not redundant and removes two of
the eight vectors, a second application is redundant. -/
example : ((allValues 3).applyComparator 1 0).2 = true ∧
    ((allValues 3).applyComparator 1 0).1.len = 6 ∧
    (((allValues 3).applyComparator 1 0).1.applyComparator 1 0).2 = false := by decide +kernel

end Sortnet
