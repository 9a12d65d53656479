import Verif.Spec.SliceSet
import Verif.Proof.SlicePack
import Verif.Proof.SlicePrune
import Verif.Proof.Sorted
import Mathlib.Data.Set.Card

/-! # Slices and the sets they hold -/

namespace Sortnet.Slice

variable {n : ℕ} {A : Set (Fin n → Bool)}

theorem holds_ofBitmap (b : Bitmap n) : Holds (ofBitmap b) n b.toSet := by
  refine ⟨rfl, toList_length b, ?_⟩
  intro i hi
  change b.toList[i]? = _ ↔ _
  rw [getElem?_toList b hi, Option.some.injEq, ← Bitmap.vecOf_mem]
  have : vecOf (BitVec.ofNat n i) = fun k : Fin n => i.testBit k := by
    funext k
    rw [vecOf, BitVec.getLsbD_ofNat]
    simp
  rw [this]

theorem holds_iff {s : OutputSet} : Holds s n A ↔ ∃ b : Bitmap n, s = ofBitmap b ∧ b.toSet = A := by
  constructor
  · rintro ⟨h1, h2, h3⟩
    refine ⟨Bitmap.ofList n s.bitmap h2, ?_, ?_⟩
    · cases s
      simp only at h1 h2
      subst h1
      unfold ofBitmap
      rw [toList_ofList]
    · ext v
      obtain ⟨x, rfl⟩ := vecOf_surjective v
      rw [Bitmap.vecOf_mem]
      have h := h3 x.toNat x.isLt
      have e : (fun k : Fin n => x.toNat.testBit k) = vecOf x := by
        funext k
        simp [vecOf, BitVec.testBit_toNat]
      rw [e] at h
      rw [← h, Bitmap.ofList, List.getElem?_eq_getElem (by rw [h2]; exact x.isLt), Option.some.injEq]
  · rintro ⟨b, rfl, rfl⟩
    exact holds_ofBitmap b

theorem exists_holds (s : OutputSet) (h : s.bitmap.length = 2 ^ s.channels) : ∃ A, Holds s s.channels A := by
  refine ⟨(Bitmap.ofList s.channels s.bitmap h).toSet, holds_iff.2 ⟨Bitmap.ofList s.channels s.bitmap h, ?_, rfl⟩⟩
  unfold ofBitmap
  rw [toList_ofList]

/-! ## Numbers of vectors -/

theorem length_filter_ncard (p : BitVec n → Bool) : ((indices n).filter p).length = (vecOf '' {x | p x = true}).ncard := by
  rw [Set.ncard_image_of_injective _ vecOf_injective]
  have h : {x | p x = true} = ((indices n).filter p).toFinset := by
    ext x
    simp [mem_indices x]
  rw [h, Set.ncard_coe_finset, List.toFinset_card_of_nodup ((indices_nodup n).filter _)]

theorem len_ncard (b : Bitmap n) : b.len = b.toSet.ncard := by
  rw [Bitmap.toSet_eq_image, ← length_filter_ncard]
  unfold Bitmap.len
  generalize indices n = L
  induction L with
  | nil => rfl
  | cons x L ih =>
    rw [List.map_cons, List.sum_cons, ih]
    cases h : b x <;> simp [h, Nat.add_comm]

theorem ones_vecOf (x : BitVec n) : ones (vecOf x) = countOnes x := rfl

theorem weightHistogram_ncard (b : Bitmap n) (w : ℕ) :
    b.weightHistogram w = {v ∈ b.toSet | ones v = w}.ncard := by
  have h : {v ∈ b.toSet | ones v = w} = vecOf '' {x | (b x && decide (countOnes x = w)) = true} := by
    ext v
    obtain ⟨x, rfl⟩ := vecOf_surjective v
    rw [vecOf_injective.mem_set_image]
    simp [Bitmap.vecOf_mem, ones_vecOf]
  rw [h, ← length_filter_ncard]
  unfold Bitmap.weightHistogram
  have key : ∀ (L : List (BitVec n)) (f : ℕ → ℕ),
      L.foldl (fun h x => Function.update h (countOnes x) (h (countOnes x) + (b x).toNat)) f w =
        f w + (L.filter fun x => b x && decide (countOnes x = w)).length := by
    intro L
    induction L with
    | nil => intro f; rfl
    | cons x L ih =>
      intro f
      rw [List.foldl_cons, ih]
      by_cases hx : countOnes x = w
      · subst hx
        cases hb : b x <;> simp [hb]
        omega
      · simp [hx, Function.update_of_ne (fun e => hx e.symm)]
  rw [key, Nat.zero_add]

end Sortnet.Slice
