import Verif.Proof.Chained
import Verif.Props.C17

/-!
# C22: reachable output sets stay well formed
-/

namespace Sortnet

/-- The output sets obtained from `all_values` by any sequence of operations. -/
inductive Reachable : (n : ℕ) → Bitmap n → Prop
  | allValues (n : ℕ) : Reachable n (allValues n)
  | applyComparator {n : ℕ} {s : Bitmap n} (a b : Fin n) (hab : a ≠ b) :
      Reachable n s → Reachable n (s.applyComparator a b).1
  | swapChannels {n : ℕ} {s : Bitmap n} (a b : Fin n) : Reachable n s → Reachable n (s.swapChannels a b)
  | invert {n : ℕ} {s : Bitmap n} : Reachable n s → Reachable n s.invert
  | prune {n : ℕ} {s : Bitmap (n + 1)} {t : Bitmap n} (p : Bool) (c : Fin (n + 1)) :
      Reachable (n + 1) s → s.pruneExtremalChannel p c = some t → Reachable n t
  | canonicalize {n : ℕ} {s t : Bitmap n} (hash : List ℕ → ℕ) (inversion : Bool) (q : Perm n) :
      Reachable n s → s.canonicalize hash inversion = some (t, q) → Reachable n t

/-- In every reachable output set every vector lies on a saturated chain from all-zero to all-one
inside the set. -/
theorem C22_reachable_chained {n : ℕ} {s : Bitmap n} (h : Reachable n s) : Chained s.toSet := by
  induction h with
  | allValues n => rw [toSet_allValues]; exact chained_univ
  | applyComparator a b hab _ ih => rw [applyComparator_toSet _ hab]; exact ih.applyCmp _
  | swapChannels a b _ ih => rw [swapChannels_toSet]; exact ih.permSet _
  | invert _ ih => rw [invert_toSet]; exact ih.complSet
  | prune p c _ ht ih => rw [pruneExtremalChannel_toSet ht]; exact ih.prunedSet p c
  | @canonicalize n s t hash inversion q _ ht ih =>
    have hn : n ≤ 11 := by
      by_contra h
      rw [C17_too_many_channels (by omega)] at ht
      exact absurd ht (by simp)
    obtain ⟨t', q', e, ⟨π, _, hset⟩, _⟩ := C17_witness hn hash s inversion
    rw [ht] at e
    obtain ⟨rfl, rfl⟩ := Prod.mk.inj (Option.some.inj e)
    rw [hset]
    split
    · exact ih.complSet.permSet π
    · exact ih.permSet π

/-- The same for single steps starting from any well-formed set. -/
theorem C22_preserved {n : ℕ} (s : Bitmap (n + 1)) (hs : Chained s.toSet) (a b : Fin (n + 1)) (hab : a ≠ b)
    (p : Bool) (t : Bitmap n) (ht : s.pruneExtremalChannel p a = some t) :
    Chained (s.applyComparator a b).1.toSet ∧ Chained (s.swapChannels a b).toSet ∧
    Chained s.invert.toSet ∧ Chained t.toSet := by
  rw [applyComparator_toSet _ hab, swapChannels_toSet, invert_toSet, pruneExtremalChannel_toSet ht]
  exact ⟨hs.applyCmp _, hs.permSet _, hs.complSet, hs.prunedSet p a⟩

/-- Non-vacuity: a reachable set with six vectors, obtained by pruning one of four channels. -/
example : ∃ t : Bitmap 3, Reachable 3 t ∧ t.len = 6 := by
  let s := ((allValues 4).applyComparator 1 0).1
  have hs : Reachable 4 s := .applyComparator 1 0 (by decide) (.allValues 4)
  have h : s.channelIsExtremal false 3 = true := by decide +kernel
  obtain ⟨t, ht⟩ := Option.isSome_iff_exists.1 (pruneExtremalChannel_isSome.2 h)
  refine ⟨t, .prune false 3 hs ht, ?_⟩
  have : (s.pruneExtremalChannel false 3).map Bitmap.len = some 6 := by decide +kernel
  rw [ht] at this; simpa using this

end Sortnet
