import Verif.Proof.Chained

/-!
# C21: a single extremal channel can be removed without loss
-/

namespace Sortnet

variable {n : ℕ}

/-- If a reachable (`Chained`) set has exactly one extremal channel of some polarity, then the set
obtained by `prune_extremal_channel_into` has the same lower and upper bounds, hence the same minimum
number of comparators. -/
theorem C21_single_extremal (s : Bitmap (n + 1)) (hs : Chained s.toSet) (p : Bool) (c : Fin (n + 1))
    (hc : ∀ c', s.channelIsExtremal p c' = true ↔ c' = c) (t : Bitmap n)
    (ht : s.pruneExtremalChannel p c = some t) :
    (∀ k, LB s.toSet k ↔ LB t.toSet k) ∧ (∀ k, UB s.toSet k ↔ UB t.toSet k) ∧
    (∀ k, IsOpt s.toSet k ↔ IsOpt t.toSet k) := by
  rw [pruneExtremalChannel_toSet ht]
  have h := prunedSet_single (p := p) (c := c) hs ((channelIsExtremal_iff s p c).1 ((hc c).2 rfl))
    (fun c' h' => (hc c').1 ((channelIsExtremal_iff s p c').2 h'))
  exact ⟨h.1, h.2, fun k => and_congr (h.1 k) (h.2 k)⟩

/-- Non-vacuity: after comparing channel 0 with 1 and 1 with 2, only channel 2 is extremal. -/
example : let s := (((allValues 3).applyComparator 1 0).1.applyComparator 2 1).1
    (∀ c', s.channelIsExtremal false c' = true ↔ c' = 2) ∧
    (s.pruneExtremalChannel false 2).isSome ∧ Chained s.toSet := by
  refine ⟨by decide +kernel, by decide +kernel, ?_⟩
  rw [applyComparator_toSet _ (by decide), applyComparator_toSet _ (by decide), toSet_allValues]
  exact (chained_univ.applyCmp _).applyCmp _

end Sortnet
