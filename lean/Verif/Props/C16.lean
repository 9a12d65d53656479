import Verif.Props.C15

/-!
# C16: `subsumes_permuted` is complete

If some channel permutation maps `a` into `b` then `a.subsumes_permuted(b)` does not return `None`;
the search always terminates without panicking.
-/

namespace Sortnet

/-- C16.  For up to `MAX_CHANNELS` channels the search terminates without panicking (the outer
`Option` is `some`), and its answer is `Some` exactly if `a` subsumes `b`. -/
theorem C16_complete {n : ℕ} (hn : n ≤ 11) (s t : Bitmap n) :
    ∃ r, s.subsumesPermuted t = some r ∧ (r.isSome = true ↔ ∃ π : Equiv.Perm (Fin n), permSet π s.toSet ⊆ t.toSet) := by
  obtain ⟨r, hr, h1, h2⟩ := subsumesPermuted_spec hn s t
  refine ⟨r, hr, ?_⟩
  cases r with
  | none => simpa [Subsumes] using h2 rfl
  | some p =>
    obtain ⟨π, _, h⟩ := h1 p rfl
    exact ⟨fun _ => ⟨π, h⟩, fun _ => rfl⟩

/-- With more than `MAX_CHANNELS` channels the fixed-capacity vectors overflow and the call panics. -/
theorem C16_too_many_channels {n : ℕ} (hn : 11 < n) (s t : Bitmap n) : s.subsumesPermuted t = none :=
  if_neg (by simpa [maxChannels] using hn)

/-- Both answers occur. -/
theorem C16_example : (∃ p, C15_a.subsumesPermuted C15_b = some (some p)) ∧ C15_b.subsumesPermuted C15_a = some none := by
  constructor
  · obtain ⟨r, hr, h⟩ := C16_complete (by decide) C15_a C15_b
    have := h.2 C15_a_subsumes
    cases r with
    | none => simp at this
    | some p => exact ⟨p, hr⟩
  · obtain ⟨r, hr, h⟩ := C16_complete (by decide) C15_b C15_a
    cases r with
    | none => exact hr
    | some p =>
      obtain ⟨π, hπ⟩ := h.1 rfl
      rw [permSet_subset_iff] at hπ
      have h7 := hπ 7#3 (by decide)
      have e : permIdx π 7#3 = 7#3 := by
        apply vec_ext
        intro i
        have : ∀ j : Fin 3, vecOf 7#3 j = true := by decide
        rw [vecOf_permIdx, Function.comp_apply, this, this]
      rw [e] at h7
      exact absurd h7 (by decide)

end Sortnet
