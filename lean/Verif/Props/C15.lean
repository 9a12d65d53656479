import Verif.Proof.Subsume

/-!
# C15: `subsumes_permuted` is sound

If `a.subsumes_permuted(b)` returns `Some(perm)` then `perm` is a permutation of the channels and
permuting `a` by it gives a subset of `b`.
-/

namespace Sortnet

/-- C15. -/
theorem C15_sound {n : ℕ} (s t : Bitmap n) (p : Fin n → Fin n)
    (h : s.subsumesPermuted t = some (some p)) :
    ∃ π : Equiv.Perm (Fin n), (∀ i, π i = p i) ∧ permSet π s.toSet ⊆ t.toSet := by
  by_cases hn : n ≤ maxChannels
  · obtain ⟨r, hr, h1, _⟩ := subsumesPermuted_spec hn s t
    rw [h] at hr
    obtain ⟨π, hπ, hsub⟩ := h1 p (Option.some.inj hr).symm
    exact ⟨π, fun i => by rw [hπ], hsub⟩
  · rw [Bitmap.subsumesPermuted, if_neg hn] at h
    simp at h

/-- The set `{000, 001}` (channel 0 may be set). -/
def C15_a : Bitmap 3 := fun x => x = 0#3 || x = 1#3

/-- The set `{000, 100, 111}` (channel 2 may be set). -/
def C15_b : Bitmap 3 := fun x => x = 0#3 || x = 4#3 || x = 7#3

theorem C15_a_subsumes : Subsumes C15_a.toSet C15_b.toSet :=
  ⟨Equiv.swap 0 2, (permSet_subset_iff _ _ _).2 (by decide +kernel)⟩

/-- The search does return a permutation for these two sets, and the first set is not included in the
second one without permuting. -/
example : (∃ p, C15_a.subsumesPermuted C15_b = some (some p)) ∧ ¬ C15_a.toSet ⊆ C15_b.toSet := by
  refine ⟨?_, ?_⟩
  · obtain ⟨r, hr, _, h2⟩ := subsumesPermuted_spec (by decide) C15_a C15_b
    cases r with
    | none => exact absurd C15_a_subsumes (h2 rfl)
    | some p => exact ⟨p, hr⟩
  · rw [← subsumesUnpermuted_iff]
    decide +kernel

end Sortnet
