import Verif.Proof.SliceSubsumeSearch
import Verif.Proof.SliceHolds
import Verif.Props.C16

/-!
# C62: `subsumes_permuted` with its vectors and its buffer

`Subsume` on slices, vectors of fixed capacity, 16-bit masks and one buffer that is used again and again without being cleared
as a whole (`Model/SliceSubsume.lean`).  `Holds s n A` (`Spec/SliceSet.lean`) says that `s` has `n` channels and stores
the set `A`.
-/

namespace Sortnet

open Slice SliceSubsume

variable {n : ℕ} {A B : Set (Fin n → Bool)} {s t : OutputSet}

/-- C62.  For up to 11 channels the search ends, without a panic and without an access out of bounds; its answer is `None`
exactly if no permutation of the channels maps the first set into the second, and otherwise the vector of such a
permutation. -/
theorem C62_subsumes_permuted (hn : n ≤ 11) (hs : Holds s n A) (ht : Holds t n B) :
    ∃ r, subsumesPermuted s t = some r ∧
      (r = none ↔ ¬ ∃ π : Equiv.Perm (Fin n), permSet π A ⊆ B) ∧
      ∀ l, r = some l → l.length = n ∧
        ∃ π : Equiv.Perm (Fin n), (∀ i : Fin n, l[i.val]? = some (π i).val) ∧ permSet π A ⊆ B := by
  obtain ⟨a, rfl, rfl⟩ := holds_iff.1 hs
  obtain ⟨b, rfl, rfl⟩ := holds_iff.1 ht
  obtain ⟨r, hr, h1⟩ := C16_complete hn a b
  refine ⟨_, by rw [subsumesPermuted_eq hn, hr]; rfl, ?_, ?_⟩
  · rw [← h1]
    cases r <;> simp
  · intro l hl
    rw [Option.map_eq_some_iff] at hl
    obtain ⟨p, rfl, rfl⟩ := hl
    obtain ⟨π, e, h2⟩ := C15_sound a b p hr
    exact ⟨vec_length _, π, fun i => by rw [getElem?_vec, e], h2⟩

/-- Sets with different numbers of channels: the call panics. -/
theorem C62_mismatch (h : s.channels ≠ t.channels) : subsumesPermuted s t = none := by
  unfold subsumesPermuted new
  rw [if_pos h]
  rfl

private theorem fillSide_capacity (s : OutputSet) (fixed len : ℕ) (L : List ℕ) (buffers : List (List ℕ)) (buffer : List ℕ)
    (hb : buffers.length ≤ 11) (hl : 11 < buffers.length + L.length) : fillSide s fixed len L buffers buffer = none := by
  induction L generalizing buffers buffer with
  | nil => simp at hl; omega
  | cons c L ih =>
    rw [fillSide]
    cases splitAt buffer len with
    | none => rfl
    | some p =>
      simp only [Option.bind_eq_bind, Option.bind_some]
      cases s.lowChannelsChannelAbstraction fixed c p.1 with
      | none => rfl
      | some v =>
        simp only [Option.bind_some, push]
        split
        · next h =>
          simp only [Option.bind_some]
          unfold capC at h
          exact ih _ _ (by simp; omega) (by simp at hl ⊢; omega)
        · rfl

/-- More than 11 channels: the call panics, it does not return a wrong answer. -/
theorem C62_above (h : 11 < s.channels) : subsumesPermuted s t = none := by
  unfold subsumesPermuted new
  split
  · rfl
  · cases hb : shl16 s.channels with
    | none => simp only [hb]; rfl
    | some b =>
      simp only [hb, Option.bind_eq_bind, Option.bind_some]
      cases sub b 1 with
      | none => rfl
      | some m =>
        simp only [Option.bind_some]
        rw [search, if_neg (by simp only; omega), filterMatching]
        cases ((fun side => if side = true then t else s) false).lowChannelsChannelAbstractionLen 0 with
        | none => rfl
        | some len =>
          simp only [Option.bind_eq_bind, Option.bind_some]
          cases sub s.channels 0 with
          | none => rfl
          | some k =>
            simp only [Option.bind_some]
            rw [fillSide_capacity _ _ _ _ _ _ (by simp) (by simp [range]; omega)]
            rfl

/-- The sets of C15 in slices: a permutation is found in one direction, in the other there is none. -/
example : ∃ l, Holds ⟨3, [true, true, false, false, false, false, false, false]⟩ 3 C15_a.toSet ∧
    subsumesPermuted ⟨3, [true, true, false, false, false, false, false, false]⟩
      ⟨3, [true, false, false, false, true, false, false, true]⟩ = some (some l) ∧
    subsumesPermuted ⟨3, [true, false, false, false, true, false, false, true]⟩
      ⟨3, [true, true, false, false, false, false, false, false]⟩ = some none := by
  have ha : (⟨3, [true, true, false, false, false, false, false, false]⟩ : OutputSet) = ofBitmap C15_a := by
    decide +kernel
  have hb : (⟨3, [true, false, false, false, true, false, false, true]⟩ : OutputSet) = ofBitmap C15_b := by
    decide +kernel
  rw [ha, hb, subsumesPermuted_eq (by omega), subsumesPermuted_eq (by omega)]
  obtain ⟨⟨p, h1⟩, h2⟩ := C16_example
  rw [h1, h2]
  exact ⟨_, holds_ofBitmap _, rfl, rfl⟩

end Sortnet
