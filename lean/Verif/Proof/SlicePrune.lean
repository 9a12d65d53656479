import Verif.Proof.SliceAbs
import Verif.Proof.Prune

/-! # Removing an extremal channel on slices -/

namespace Sortnet.Slice

variable {n : ℕ}

theorem sub_mask (c : Fin (n + 1)) : sub (bit c).toNat 1 = some (bit c - 1#(n + 1)).toNat := by
  have h1 : 1 ≤ (bit c).toNat := by rw [← shift_eq, Nat.one_shiftLeft]; exact Nat.one_le_two_pow
  unfold sub
  rw [if_pos h1, BitVec.toNat_sub_of_le]
  · simp
  · rw [BitVec.le_def]; simpa using h1

theorem target_toNat (p : Bool) (c : Fin (n + 1)) (next : BitVec (n + 1)) :
    ((next.toNat &&& (bit c - 1#(n + 1)).toNat) |||
      ((next.toNat >>> 1) &&& ((BitVec.allOnes (n + 1)).toNat >>> 1 ^^^ (bit c - 1#(n + 1)).toNat))) ^^^
        OutputSet.flip ((BitVec.allOnes (n + 1)).toNat >>> 1) p =
      ((pruneTarget c next).setWidth n ^^^ flipMask n p).toNat := by
  have h1 : (BitVec.allOnes (n + 1)).toNat >>> 1 = (BitVec.allOnes n).toNat := by
    rw [BitVec.toNat_allOnes, BitVec.toNat_allOnes, Nat.shiftRight_one, Nat.pow_succ]
    have := Nat.two_pow_pos n
    omega
  have h2 : (next.toNat &&& (bit c - 1#(n + 1)).toNat) |||
      ((next.toNat >>> 1) &&& ((BitVec.allOnes (n + 1)).toNat >>> 1 ^^^ (bit c - 1#(n + 1)).toNat)) =
      (pruneTarget c next).toNat := by
    unfold pruneTarget
    simp only [BitVec.toNat_or, BitVec.toNat_and, BitVec.toNat_xor, BitVec.toNat_ushiftRight]
  rw [h2, h1, flip_eq, BitVec.toNat_xor, BitVec.toNat_setWidth, Nat.mod_eq_of_lt (pruneTarget_lt c next)]

/-- The state of the loop in memory. -/
def encQ (st : Bitmap n × List (BitVec (n + 1))) : List Bool × List ℕ := (st.1.toList, st.2.map BitVec.toNat)

variable {s : Bitmap (n + 1)} {p : Bool} {c : Fin (n + 1)}

theorem pruneInner_eq (hn : n + 1 ≤ 11) (index : BitVec (n + 1)) (st : Bitmap n × List (BitVec (n + 1))) (i : Fin (n + 1))
    (h : falseCount st.1 + st.2.length ≤ capB) :
    OutputSet.pruneInner s.toList (flipMask (n + 1) p).toNat (OutputSet.flip ((BitVec.allOnes (n + 1)).toNat >>> 1) p)
      (bit c - 1#(n + 1)).toNat ((BitVec.allOnes (n + 1)).toNat >>> 1 ^^^ (bit c - 1#(n + 1)).toNat) index.toNat
      (encQ st) (1 <<< i.val) = some (encQ (Sortnet.pruneInner s p c index st i)) := by
  unfold OutputSet.pruneInner Sortnet.pruneInner encQ
  dsimp only
  rw [shift_eq, or_toNat, target_toNat, get_xor s (BitVec.isLt _), ofNat_toNat_self, getElem?_toList _ (BitVec.isLt _),
    ofNat_toNat_self]
  dsimp only [Option.bind_eq_bind, Option.bind_some]
  by_cases hc : (s ((index ||| bit i) ^^^ flipMask (n + 1) p) &&
      !(st.1 ((pruneTarget c (index ||| bit i)).setWidth n ^^^ flipMask n p))) = true
  · rw [if_pos hc, if_pos hc, put_toList _ (BitVec.isLt _), ofNat_toNat_self]
    dsimp only [Option.bind_some]
    have hf : st.1 ((pruneTarget c (index ||| bit i)).setWidth n ^^^ flipMask n p) = false := by
      rw [Bool.and_eq_true, Bool.not_eq_true'] at hc
      exact hc.2
    have := falseCount_update st.1 _ hf
    rw [if_pos (by rw [List.length_map]; omega), Nat.mod_eq_of_lt]
    · rfl
    · exact lt_of_lt_of_le (BitVec.isLt _) (Nat.pow_le_pow_right (by norm_num) (by omega))
  · rw [if_neg hc, if_neg hc]

theorem pruneInner_foldlM (hn : n + 1 ≤ 11) (index : BitVec (n + 1)) (L : List (Fin (n + 1)))
    (st : Bitmap n × List (BitVec (n + 1))) (h : falseCount st.1 + st.2.length ≤ capB) :
    (L.map Fin.val).foldlM (fun st i => OutputSet.pruneInner s.toList (flipMask (n + 1) p).toNat
      (OutputSet.flip ((BitVec.allOnes (n + 1)).toNat >>> 1) p) (bit c - 1#(n + 1)).toNat
      ((BitVec.allOnes (n + 1)).toNat >>> 1 ^^^ (bit c - 1#(n + 1)).toNat) index.toNat st (1 <<< i)) (encQ st) =
      some (encQ (L.foldl (Sortnet.pruneInner s p c index) st)) := by
  induction L generalizing st with
  | nil => rfl
  | cons i L ih =>
    rw [List.map_cons, List.foldlM_cons, pruneInner_eq hn index st i h, List.foldl_cons]
    refine ih _ ?_
    rw [pruneInner_measure]; exact h

theorem pruneLoop_eq (hn : n + 1 ≤ 11) (target : Bitmap n) (queue : List (BitVec (n + 1)))
    (h : falseCount target + queue.length ≤ capB) :
    OutputSet.pruneLoop s.toList (n + 1) (flipMask (n + 1) p).toNat
      (OutputSet.flip ((BitVec.allOnes (n + 1)).toNat >>> 1) p) (bit c - 1#(n + 1)).toNat
      ((BitVec.allOnes (n + 1)).toNat >>> 1 ^^^ (bit c - 1#(n + 1)).toNat) target.toList (queue.map BitVec.toNat) =
      some (Sortnet.pruneLoop s p c target queue).toList := by
  induction target, queue using Sortnet.pruneLoop.induct s p c with
  | case1 target => rw [OutputSet.pruneLoop.eq_def, Sortnet.pruneLoop]; rfl
  | case2 target index queue st ih =>
    rw [OutputSet.pruneLoop.eq_def, Sortnet.pruneLoop, List.map_cons]
    dsimp only
    rw [List.length_cons] at h
    have hf := pruneInner_foldlM (s := s) (p := p) (c := c) hn index (List.finRange (n + 1)) (target, queue)
      (by simp only; omega)
    rw [List.map_coe_finRange_eq_range] at hf
    unfold encQ at hf
    dsimp only at hf
    rw [hf]
    have := pruneInner_foldl_measure s p c index (List.finRange (n + 1)) (target, queue)
    simp only at this
    refine ih ?_
    change falseCount ((List.finRange (n + 1)).foldl (Sortnet.pruneInner s p c index) (target, queue)).1 +
      ((List.finRange (n + 1)).foldl (Sortnet.pruneInner s p c index) (target, queue)).2.length ≤ capB
    omega

theorem pruneExtremalChannelInto_eq (hn : n + 1 ≤ 11) (s : Bitmap (n + 1)) (p : Bool) (c : Fin (n + 1)) (t : Bitmap n) :
    (ofBitmap s).pruneExtremalChannelInto p c (ofBitmap t) = (s.pruneExtremalChannel p c).map ofBitmap := by
  unfold OutputSet.pruneExtremalChannelInto Bitmap.pruneExtremalChannel ofBitmap
  dsimp only
  rw [if_neg (by simp), sub_allMask, shift_eq]
  dsimp only [Option.bind_eq_bind, Option.bind_some]
  rw [flip_eq, get_xor s (bit_lt c), ofNat_toNat_self]
  dsimp only [Option.bind_some]
  by_cases hs : s (bit c ^^^ flipMask (n + 1) p) = true
  · rw [if_pos hs, if_neg (by simp [hs]), sub_mask, Option.bind_some]
    have hz : t.toList.map (fun _ => false) = Bitmap.toList (n := n) fun _ => false := by
      simp [Bitmap.toList]
    have h1 : (BitVec.allOnes (n + 1)).toNat >>> 1 = (BitVec.allOnes n).toNat := by
      rw [BitVec.toNat_allOnes, BitVec.toNat_allOnes, Nat.shiftRight_one, Nat.pow_succ]
      have := Nat.two_pow_pos n
      omega
    have hflip : OutputSet.flip ((BitVec.allOnes (n + 1)).toNat >>> 1) p = (flipMask n p).toNat := by rw [h1, flip_eq]
    have hput : put (t.toList.map fun _ => false) (OutputSet.flip ((BitVec.allOnes (n + 1)).toNat >>> 1) p) true =
        some (Bitmap.toList (Function.update (fun _ => false) (flipMask n p) true)) := by
      rw [hz, hflip, put_toList _ (BitVec.isLt _), ofNat_toNat_self]
    rw [hput, Option.bind_some]
    have hm : [(bit c).toNat % 2 ^ 16] = [bit c].map BitVec.toNat := by
      rw [List.map_cons, List.map_nil, Nat.mod_eq_of_lt]
      exact lt_of_lt_of_le (BitVec.isLt _) (Nat.pow_le_pow_right (by norm_num) (by omega))
    rw [hm, pruneLoop_eq hn]
    · rfl
    · have := falseCount_start (flipMask n p)
      have h3 := pow_le_capB (n := n) (by omega)
      rw [List.length_singleton]
      omega
  · rw [if_neg hs, if_pos (by simpa using hs)]
    rfl

end Sortnet.Slice
