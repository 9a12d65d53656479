import Verif.Spec.RefCert
import Verif.Model.Decode
import Verif.Props.C04

/-!
# The sets of the reference checker and the tries of the verified checker
-/

namespace Sortnet.Ref

set_option linter.unusedSimpArgs false

open Checker (VectTrie isMemberVt vtList)

/-- The list of bits of a vector. -/
def boolVect (n : ℕ) (v : BitVec 64) : List Bool := (List.range n).map (testBit v)

@[simp] theorem boolVect_length (n : ℕ) (v : BitVec 64) : (boolVect n v).length = n := by
  simp [boolVect]

theorem boolVect_getElem? (n : ℕ) (v : BitVec 64) (i : ℕ) :
    (boolVect n v)[i]? = if i < n then some (v.getLsbD i) else none := by
  unfold boolVect testBit
  split_ifs with h
  · simp [h]
  · simp [h]

theorem fits_of_lt {n : ℕ} {v : BitVec 64} (h : v.toNat < 2 ^ n) : Fits n v := by
  intro i hi
  exact Nat.testBit_lt_two_pow (lt_of_lt_of_le h (Nat.pow_le_pow_right (by norm_num) hi))

theorem lt_of_fits {n : ℕ} {v : BitVec 64} (h : Fits n v) : v.toNat < 2 ^ n := by
  apply Nat.lt_pow_two_of_testBit
  intro i hi
  exact h i hi

theorem boolVect_inj {n : ℕ} {u v : BitVec 64} (hu : Fits n u) (hv : Fits n v)
    (h : boolVect n u = boolVect n v) : u = v := by
  apply BitVec.eq_of_getLsbD_eq
  intro i _
  by_cases hin : i < n
  · have := congrArg (·[i]?) h
    simp only [boolVect_getElem?, hin, if_true, Option.some.injEq] at this
    exact this
  · rw [hu i (by omega), hv i (by omega)]

/-! ## `IntSet` -/

theorem mem_isInsert {v w : BitVec 64} {s} : w ∈ isInsert v s ↔ w = v ∨ w ∈ s := by
  unfold isInsert
  split_ifs with h
  · constructor
    · exact Or.inr
    · rintro (rfl | h')
      · exact h
      · exact h'
  · simp

theorem nodup_isInsert {v : BitVec 64} {s} (h : s.Nodup) : (isInsert v s).Nodup := by
  unfold isInsert
  split_ifs with h'
  · exact h
  · exact List.nodup_cons.2 ⟨h', h⟩

theorem mem_isFromList {l : List (BitVec 64)} {w} : w ∈ isFromList l ↔ w ∈ l := by
  induction l with
  | nil => simp [isFromList]
  | cons x l ih =>
    have : isFromList (x :: l) = isInsert x (isFromList l) := rfl
    rw [this, mem_isInsert, ih, List.mem_cons]

theorem nodup_isFromList {l : List (BitVec 64)} : (isFromList l).Nodup := by
  induction l with
  | nil => simp [isFromList]
  | cons x l ih => exact nodup_isInsert ih

theorem mem_isMap {f} {s : List (BitVec 64)} {w} : w ∈ isMap f s ↔ ∃ v ∈ s, f v = w := by
  simp [isMap, mem_isFromList]

theorem nodup_isMap {f} {s : List (BitVec 64)} : (isMap f s).Nodup := nodup_isFromList

/-! ## Representation -/

/-- A set of the reference checker and a trie with the same vectors. -/
structure Rep (n : ℕ) (s : List (BitVec 64)) (t : VectTrie) : Prop where
  fits : ∀ v ∈ s, Fits n v
  nodup : s.Nodup
  mem : ∀ xs, isMemberVt xs t = true ↔ ∃ v ∈ s, boolVect n v = xs

theorem rep_vtList {n : ℕ} {s : List (BitVec 64)} (hf : ∀ v ∈ s, Fits n v) (hn : s.Nodup) :
    Rep n s (vtList (s.map (boolVect n))) :=
  ⟨hf, hn, fun xs => by rw [Checker.isMemberVt_vtList]; simp⟩

theorem Rep.size {n : ℕ} {s : List (BitVec 64)} {t : VectTrie} (h : Rep n s t) :
    Checker.lengthVt t = s.length := by
  rw [Checker.lengthVt_eq]
  have : (Checker.listVt t).Perm (s.map (boolVect n)) := by
    rw [List.perm_ext_iff_of_nodup (Checker.listVt_nodup t)]
    · intro xs
      rw [Checker.mem_listVt, h.mem]
      simp
    · exact (List.nodup_map_iff_inj_on h.nodup).2
        fun a ha b hb hab => boolVect_inj (h.fits a ha) (h.fits b hb) hab
  simpa using this.length_eq

theorem Rep.isSubset {n : ℕ} {s s' : List (BitVec 64)} {t t' : VectTrie} (h : Rep n s t)
    (h' : Rep n s' t') : Checker.isSubsetVt t t' = isSubsetOf s s' := by
  rw [Bool.eq_iff_iff, Checker.isSubsetVt_iff]
  unfold isSubsetOf
  rw [List.all_eq_true]
  constructor
  · intro hs v hv
    obtain ⟨w, hw, hvw⟩ := (h'.mem _).1 (hs _ ((h.mem _).2 ⟨v, hv, rfl⟩))
    have := boolVect_inj (h'.fits w hw) (h.fits v hv) hvw
    subst this
    simpa using hw
  · intro hs xs hx
    obtain ⟨v, hv, rfl⟩ := (h.mem _).1 hx
    exact (h'.mem _).2 ⟨v, by simpa using hs v hv, rfl⟩

theorem Rep.map {n m : ℕ} {s : List (BitVec 64)} {t t' : VectTrie} (h : Rep n s t)
    (f : BitVec 64 → BitVec 64) (g : List Bool → List Bool)
    (hf : ∀ v ∈ s, Fits m (f v)) (hg : ∀ v ∈ s, boolVect m (f v) = g (boolVect n v))
    (ht : ∀ xs, isMemberVt xs t' = true ↔ ∃ ys, isMemberVt ys t = true ∧ g ys = xs) :
    Rep m (isMap f s) t' := by
  refine ⟨?_, nodup_isMap, ?_⟩
  · intro v hv
    obtain ⟨w, hw, rfl⟩ := mem_isMap.1 hv
    exact hf w hw
  · intro xs
    rw [ht]
    constructor
    · rintro ⟨ys, hys, rfl⟩
      obtain ⟨v, hv, rfl⟩ := (h.mem _).1 hys
      exact ⟨f v, mem_isMap.2 ⟨v, hv, rfl⟩, hg v hv⟩
    · rintro ⟨w, hw, rfl⟩
      obtain ⟨v, hv, rfl⟩ := mem_isMap.1 hw
      exact ⟨boolVect n v, (h.mem _).2 ⟨v, hv, rfl⟩, (hg v hv).symm⟩

/-! ## Bit patterns -/

theorem getLsbD_bit (i k : ℕ) : (bit i).getLsbD k = (decide (k = i) && decide (i < 64)) := by
  have : bit i = BitVec.twoPow 64 i := by simp [bit, BitVec.twoPow_eq]
  rw [this, BitVec.getLsbD_twoPow]
  by_cases h : i = k
  · subst h; simp
  · simp [h, Ne.symm h]

theorem getLsbD_bit_sub_one (n k : ℕ) (hn : n < 64) : (bit n - 1).getLsbD k = decide (k < n) := by
  have h1 : (bit n - 1).toNat = 2 ^ n - 1 := by
    have h2 : (bit n).toNat = 2 ^ n := by
      unfold bit
      rw [BitVec.toNat_shiftLeft]
      simp only [BitVec.toNat_ofNat, Nat.shiftLeft_eq]
      rw [Nat.mod_eq_of_lt]
      · norm_num
      · norm_num
        calc 2 ^ n < 2 ^ 64 := Nat.pow_lt_pow_right (by norm_num) hn
          _ = _ := by norm_num
    rw [BitVec.toNat_sub_of_le]
    · rw [h2]; rfl
    · rw [BitVec.le_def, h2]
      exact Nat.one_le_two_pow
  unfold BitVec.getLsbD
  rw [h1, Nat.testBit_two_pow_sub_one]

/-- Inverting. -/
theorem fits_invert {n : ℕ} (hn : n < 64) {v : BitVec 64} (hv : Fits n v) :
    Fits n ((bit n - 1) ^^^ v) := by
  intro i hi
  rw [BitVec.getLsbD_xor, getLsbD_bit_sub_one n i hn, hv i hi]
  simp [hi]

theorem boolVect_invert {n : ℕ} (hn : n < 64) (v : BitVec 64) :
    boolVect n ((bit n - 1) ^^^ v) = (boolVect n v).map not := by
  apply List.ext_getElem?
  intro i
  rw [List.getElem?_map, boolVect_getElem?, boolVect_getElem?]
  split_ifs with h
  · rw [BitVec.getLsbD_xor, getLsbD_bit_sub_one n i hn]
    simp [h]
  · rfl

/-- Permuting. -/
theorem getLsbD_permVect (ps : List ℕ) (v : BitVec 64) (i : ℕ) (hl : ps.length ≤ 64) :
    (permVect ps v).getLsbD i = ((ps[i]?).map (testBit v)).getD false := by
  induction ps generalizing i with
  | nil => simp [permVect]
  | cons p ps ih =>
    have h0 : permVect (p :: ps) v = (permVect ps v <<< 1) ||| BitVec.ofNat 64 (testBit v p).toNat := rfl
    simp only [List.length_cons] at hl
    rw [h0, BitVec.getLsbD_or, BitVec.getLsbD_shiftLeft]
    have hbit : ∀ (b : Bool) (i : ℕ), (BitVec.ofNat 64 b.toNat).getLsbD i = (decide (i = 0) && b) := by
      intro b i
      cases b
      · simp
      · simp only [Bool.toNat_true]
        rw [show (BitVec.ofNat 64 1) = bit 0 by decide, getLsbD_bit]
        simp
    rw [hbit]
    cases i with
    | zero => simp
    | succ i =>
      have := ih i (by omega)
      simp only [List.getElem?_cons_succ, Nat.add_sub_cancel, this]
      by_cases hi : i + 1 < 64
      · simp [hi]
      · simp [hi]
        rw [List.getElem?_eq_none (by omega)]
        rfl

theorem fits_permVect {ps : List ℕ} {v : BitVec 64} (hl : ps.length ≤ 64) :
    Fits ps.length (permVect ps v) := by
  intro i hi
  rw [getLsbD_permVect ps v i hl, List.getElem?_eq_none (by omega)]
  rfl

theorem boolVect_permVect (u : Checker.Undef) {n : ℕ} {ps : List ℕ} {v : BitVec 64} (hn : n < 64)
    (hl : ps.length = n) (hp : ∀ p ∈ ps, p < n) :
    boolVect n (permVect ps v) = Checker.permuteListVect u ps (boolVect n v) := by
  apply List.ext_getElem?
  intro i
  unfold Checker.permuteListVect
  rw [boolVect_getElem?, List.getElem?_map, getLsbD_permVect _ _ _ (by omega)]
  split_ifs with h
  · have hi : i < ps.length := by omega
    simp only [List.getElem?_eq_getElem hi, Option.map_some, Option.getD_some]
    rw [Checker.nth_eq_getD, List.getD_eq_getElem?_getD, boolVect_getElem?,
      if_pos (hp _ (List.getElem_mem hi))]
    rfl
  · rw [List.getElem?_eq_none (by omega)]; rfl

/-- The test of two bits. -/
theorem and_mask_eq {a b : ℕ} (ha : a < 64) (hb : b < 64) (hab : a ≠ b) (v : BitVec 64) :
    v &&& (bit a ||| bit b) = bit a ↔ v.getLsbD a = true ∧ v.getLsbD b = false := by
  constructor
  · intro h
    have h1 := congrArg (·.getLsbD a) h
    have h2 := congrArg (·.getLsbD b) h
    simp only [BitVec.getLsbD_and, BitVec.getLsbD_or, getLsbD_bit, ha, hb, hab, Ne.symm hab, decide_true,
      decide_false, Bool.and_true, Bool.and_false, Bool.or_true, Bool.or_false, Bool.true_and] at h1 h2
    exact ⟨h1, h2⟩
  · rintro ⟨h1, h2⟩
    apply BitVec.eq_of_getLsbD_eq
    intro i _
    simp only [BitVec.getLsbD_and, BitVec.getLsbD_or, getLsbD_bit, ha, hb]
    by_cases hia : i = a
    · subst hia; simp [h1]
    · by_cases hib : i = b
      · subst hib; simp [h2, hia]
      · simp [hia, hib]

/-- The function mapped by `applyComp`. -/
def compVect (a b : ℕ) (v : BitVec 64) : BitVec 64 :=
  if v &&& (bit a ||| bit b) = bit b then v ^^^ (bit a ||| bit b) else v

theorem getLsbD_compVect {a b : ℕ} (ha : a < 64) (hb : b < 64) (hab : a ≠ b) (v : BitVec 64) (i : ℕ) :
    (compVect a b v).getLsbD i =
      if i = a then v.getLsbD a || v.getLsbD b
      else if i = b then v.getLsbD a && v.getLsbD b else v.getLsbD i := by
  unfold compVect
  have hm : bit a ||| bit b = bit b ||| bit a := BitVec.or_comm _ _
  rw [hm]
  by_cases h : v &&& (bit b ||| bit a) = bit b
  · rw [if_pos h]
    obtain ⟨h1, h2⟩ := (and_mask_eq hb ha hab.symm v).1 h
    simp only [BitVec.getLsbD_xor, BitVec.getLsbD_or, getLsbD_bit, ha, hb]
    by_cases hia : i = a
    · subst hia; simp [h1, h2]
    · by_cases hib : i = b
      · subst hib; simp [h1, h2, hia]
      · simp [hia, hib]
  · rw [if_neg h, and_mask_eq hb ha hab.symm] at *
    by_cases hia : i = a
    · subst hia
      cases h1 : v.getLsbD i <;> cases h2 : v.getLsbD b <;> simp_all
    · by_cases hib : i = b
      · subst hib
        cases h1 : v.getLsbD i <;> cases h2 : v.getLsbD a <;> simp_all
      · simp [hia, hib]

theorem fits_compVect {n a b : ℕ} (ha : a < n) (hb : b < n) (hn : n < 64) (hab : a ≠ b) {v : BitVec 64}
    (hv : Fits n v) : Fits n (compVect a b v) := by
  intro i hi
  rw [getLsbD_compVect (by omega) (by omega) hab, if_neg (by omega), if_neg (by omega), hv i hi]

theorem boolVect_compVect (u : Checker.Undef) {n a b : ℕ} (ha : a < n) (hb : b < n) (hn : n < 64)
    (hab : a ≠ b) (v : BitVec 64) :
    boolVect n (compVect a b v) = Checker.applyCmpList u (b, a) (boolVect n v) := by
  unfold Checker.applyCmpList
  simp only [Checker.listUpdate_eq_set, Checker.nth_eq_getD, List.getD_eq_getElem?_getD,
    boolVect_getElem?, ha, hb, if_true, Option.getD_some]
  apply List.ext_getElem?
  intro i
  rw [List.getElem?_set, List.getElem?_set, boolVect_getElem?, boolVect_getElem?,
    getLsbD_compVect (by omega) (by omega) hab]
  simp only [List.length_set, boolVect_length]
  by_cases hia : i = a
  · subst hia; simp [ha, Bool.or_comm]
  · by_cases hib : i = b
    · subst hib; simp [hb, Ne.symm hia, hia, hab, Bool.and_comm]
    · simp [hia, hib, Ne.symm hia, Ne.symm hib]

/-- The function mapped by `pruneExtremal`. -/
def pruneVect (a : ℕ) (v : BitVec 64) : BitVec 64 :=
  (v &&& (bit a - 1)) ||| ((v.sshiftRight 1) &&& ~~~ (bit a - 1))

theorem getLsbD_pruneVect {n a : ℕ} (ha : a < n) (hn : n < 64) {v : BitVec 64} (hv : Fits n v) (i : ℕ) :
    (pruneVect a v).getLsbD i = if i < a then v.getLsbD i else v.getLsbD (i + 1) := by
  unfold pruneVect
  have h63 : v.getLsbD 63 = false := hv 63 (by omega)
  have hmsb : v.msb = false := by rw [BitVec.msb_eq_getLsbD_last]; simpa using h63
  rw [BitVec.getLsbD_or, BitVec.getLsbD_and, BitVec.getLsbD_and, getLsbD_bit_sub_one _ _ (by omega),
    BitVec.getLsbD_not, getLsbD_bit_sub_one _ _ (by omega), BitVec.getLsbD_sshiftRight, hmsb]
  by_cases hi : i < a
  · simp [hi]
  · simp only [hi, decide_false, Bool.and_false, Bool.not_false, Bool.and_true, Bool.false_or, if_false]
    by_cases h64 : i < 64
    · have : ¬ (64 ≤ i) := by omega
      simp only [h64, this, decide_true, decide_false, Bool.not_false, Bool.true_and, Bool.and_true]
      split_ifs with h
      · rw [Nat.add_comm]
      · exact (hv _ (by omega)).symm
    · simp only [h64, decide_false, Bool.and_false]
      exact (hv _ (by omega)).symm

theorem fits_pruneVect {n a : ℕ} (ha : a < n) (hn : n < 64) {v : BitVec 64} (hv : Fits n v) :
    Fits (n - 1) (pruneVect a v) := by
  intro i hi
  rw [getLsbD_pruneVect ha hn hv]
  split_ifs
  · omega
  · exact hv _ (by omega)

theorem boolVect_pruneVect {n a : ℕ} (ha : a < n) (hn : n < 64) {v : BitVec 64} (hv : Fits n v) :
    boolVect (n - 1) (pruneVect a v) = (boolVect n v).eraseIdx a := by
  apply List.ext_getElem?
  intro i
  rw [List.getElem?_eraseIdx, boolVect_getElem?, boolVect_getElem?, boolVect_getElem?,
    getLsbD_pruneVect ha hn hv]
  by_cases hi : i < a
  · simp only [hi, if_true]
    rw [if_pos (by omega), if_pos (by omega)]
  · simp only [hi, if_false]
    by_cases h : i < n - 1
    · rw [if_pos h, if_pos (by omega)]
    · rw [if_neg h, if_neg (by omega)]

theorem and_bit_eq {a : ℕ} (ha : a < 64) (pol : Bool) (v : BitVec 64) :
    v &&& bit a = (if pol then 0 else bit a) ↔ v.getLsbD a = !pol := by
  have hk : ∀ k, (v &&& bit a).getLsbD k = (decide (k = a) && v.getLsbD a) := by
    intro k
    rw [BitVec.getLsbD_and, getLsbD_bit]
    by_cases h : k = a
    · subst h; simp [ha]
    · simp [h]
  constructor
  · intro h
    have h1 : (v &&& bit a).getLsbD a = (if pol then 0 else bit a).getLsbD a := by rw [h]
    rw [hk] at h1
    cases pol
    · simpa only [decide_true, Bool.true_and, Bool.false_eq_true, if_false, getLsbD_bit, ha, Bool.not_false] using h1
    · simpa only [decide_true, Bool.true_and, if_true, BitVec.ofNat_eq_ofNat, BitVec.getLsbD_zero, Bool.not_true] using h1
  · intro h
    apply BitVec.eq_of_getLsbD_eq
    intro i _
    rw [hk, h]
    cases pol
    · simp [getLsbD_bit, ha]
    · simp

end Sortnet.Ref
