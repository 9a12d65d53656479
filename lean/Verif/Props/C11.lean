import Verif.Proof.OutputSet

/-!
# C11: `swap_channels` and `invert`
-/

namespace Sortnet

variable {n : ℕ}

/-- `swap_channels` exchanges two coordinates of all vectors. -/
theorem C11_swap_channels (s : Bitmap n) (a b : Fin n) :
    (s.swapChannels a b).toSet = (fun v => v ∘ Equiv.swap a b) '' s.toSet ∧
    (s.swapChannels a b).swapChannels a b = s :=
  ⟨swapChannels_toSet s, swapChannels_swapChannels s⟩

/-- `invert` complements all vectors. -/
theorem C11_invert (s : Bitmap n) :
    s.invert.toSet = (fun v i => !(v i)) '' s.toSet ∧ s.invert.invert = s ∧
    s.invert.toList = s.toList.reverse :=
  ⟨invert_toSet s, invert_invert s, invert_toList s⟩

/-- Neither changes the number of comparators that is needed. -/
theorem C11_bounds (s : Bitmap n) (a b : Fin n) (k : ℕ) :
    (LB (s.swapChannels a b).toSet k ↔ LB s.toSet k) ∧ (UB (s.swapChannels a b).toSet k ↔ UB s.toSet k) ∧
    (LB s.invert.toSet k ↔ LB s.toSet k) ∧ (UB s.invert.toSet k ↔ UB s.toSet k) := by
  rw [swapChannels_toSet, invert_toSet]
  exact ⟨LB_permSet _, UB_permSet _, LB_complSet, UB_complSet⟩

/-- Non-vacuity: a set that is changed by both operations. -/
example : ∃ s : Bitmap 3, s.swapChannels 0 2 ≠ s ∧ s.invert ≠ s :=
  ⟨fun x => x == 1#3, by
    constructor
    · intro h; exact absurd (congrFun h 1#3) (by decide +kernel)
    · intro h; exact absurd (congrFun h 1#3) (by decide +kernel)⟩

end Sortnet
