import Verif.Proof.Chained

/-!
# C20: `prune_extremal_channel_into`
-/

namespace Sortnet

variable {n : ℕ}

/-- `channel_is_extremal(polarity, c)` asks for the vector in which `c` has the value `!polarity` and
every other channel the value `polarity`. -/
theorem C20_channel_is_extremal (s : Bitmap (n + 1)) (p : Bool) (c : Fin (n + 1)) :
    s.channelIsExtremal p c = true ↔ (fun i => if i = c then !p else p) ∈ s.toSet :=
  channelIsExtremal_iff s p c

/-- The call panics exactly for channels that are not extremal; otherwise it returns the vectors
reachable inside the set from the extremal vector by changing channels to `!polarity`, without channel
`c`. -/
theorem C20_prune (s : Bitmap (n + 1)) (p : Bool) (c : Fin (n + 1)) :
    (s.channelIsExtremal p c = false → s.pruneExtremalChannel p c = none) ∧
    (s.channelIsExtremal p c = true → ∃ t, s.pruneExtremalChannel p c = some t ∧
      t.toSet = removeChannel c '' {v | ReachIn s.toSet (!p) (fun i => if i = c then !p else p) v}) := by
  have h := pruneExtremalChannel_isSome (s := s) (p := p) (c := c)
  constructor
  · intro he
    rw [he] at h
    simpa using h
  · intro he
    obtain ⟨t, ht⟩ := Option.isSome_iff_exists.1 (h.2 he)
    exact ⟨t, ht, pruneExtremalChannel_toSet ht⟩

/-- The result only contains vectors of the set with channel `c` fixed to `!polarity`. -/
theorem C20_prune_subset (s : Bitmap (n + 1)) (p : Bool) (c : Fin (n + 1)) (t : Bitmap n)
    (h : s.pruneExtremalChannel p c = some t) :
    t.toSet ⊆ removeChannel c '' {v ∈ s.toSet | v c = !p} := by
  rw [pruneExtremalChannel_toSet h]
  exact prunedSet_subset p c s.toSet

/-- The queue of fixed capacity never overflows (a capacity of `2^n` suffices, the code has `2^11`),
the loop ends after at most `2^n` iterations, and the computed target index is in bounds. -/
theorem C20_prune_no_overflow (s : Bitmap (n + 1)) (p : Bool) (c : Fin (n + 1)) (cap : ℕ)
    (hcap : 2 ^ n ≤ cap) (hext : s.channelIsExtremal p c = true) :
    pruneLoopCap cap s p c (2 ^ n) (Function.update (fun _ => false) (flipMask n p) true) [bit c] =
      s.pruneExtremalChannel p c ∧ ∀ y, (pruneTarget c y).toNat < 2 ^ n := by
  have h1 := falseCount_start (flipMask n p)
  refine ⟨?_, pruneTarget_lt c⟩
  rw [pruneLoopCap_eq]
  · unfold Bitmap.pruneExtremalChannel
    dsimp only
    rw [if_pos]
    exact hext
  · simp only [List.length_singleton]; omega
  · simp only [List.length_singleton]; omega

/-- Non-vacuity: channel 1 of all vectors on three channels is extremal and the result has four
vectors; in a chain it may not be extremal. -/
example : (allValues 3).channelIsExtremal false 1 = true ∧
    ((allValues 3).pruneExtremalChannel false 1).map Bitmap.len = some 4 ∧
    ((allValues 3).applyComparator 1 0).1.channelIsExtremal false 0 = false := by decide +kernel

end Sortnet
