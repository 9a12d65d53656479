import Verif.Proof.OutputSet

/-!
# C50: `is_channel_unconstrained`
-/

namespace Sortnet

/-- `is_channel_unconstrained(c)` holds iff flipping channel `c` maps the set to itself. -/
theorem C50_is_channel_unconstrained {n : ℕ} (s : Bitmap n) (c : Fin n) :
    s.isChannelUnconstrained c = true ↔
      (fun v => Function.update v c (!(v c))) '' s.toSet = s.toSet := by
  rw [isChannelUnconstrained_toSet]
  have hinv : ∀ v : Fin n → Bool, Function.update (Function.update v c (!(v c))) c
      (!(Function.update v c (!(v c)) c)) = v := by
    intro v; funext i; by_cases e : i = c
    · subst e; simp
    · simp [e]
  constructor
  · intro h
    ext v
    constructor
    · rintro ⟨w, hw, rfl⟩; exact (h w).1 hw
    · intro hv; exact ⟨_, (h v).1 hv, hinv v⟩
  · intro h v
    constructor
    · intro hv; rw [← h]; exact ⟨v, hv, rfl⟩
    · intro hv; rw [← h]; exact ⟨_, hv, hinv v⟩

example : (allValues 3).isChannelUnconstrained 1 = true ∧
    ((allValues 3).applyComparator 1 0).1.isChannelUnconstrained 1 = false ∧
    ((allValues 3).applyComparator 1 0).1.isChannelUnconstrained 2 = true := by decide +kernel

end Sortnet
