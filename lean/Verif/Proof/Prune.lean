import Verif.Proof.Sorted

/-!
# `prune_extremal_channel_into`
-/

namespace Sortnet

set_option linter.unusedSimpArgs false

variable {n : ℕ}

/-- The index computation removes bit `c`. -/
theorem getLsbD_pruneTarget (c : Fin (n + 1)) (y : BitVec (n + 1)) (i : ℕ) :
    (pruneTarget c y).getLsbD i =
      (decide (i < n) && if i < c.val then y.getLsbD i else y.getLsbD (i + 1)) := by
  have hmask : (bit c - 1#(n + 1)).getLsbD i = (decide (i < c.val)) := by
    have : (bit c - 1#(n+1)) = BitVec.ofNat (n + 1) (2 ^ c.val - 1) := by
      apply BitVec.eq_of_toNat_eq
      have h1 : 2 ^ c.val < 2 ^ (n + 1) := Nat.pow_lt_pow_right (by omega) c.isLt
      have h2 : 0 < 2 ^ c.val := Nat.two_pow_pos _
      have h3 : (1 : ℕ) < 2 ^ (n + 1) := Nat.one_lt_two_pow (by omega)
      rw [BitVec.toNat_sub, bit, BitVec.toNat_twoPow_of_lt c.isLt, BitVec.toNat_ofNat, BitVec.toNat_ofNat,
        Nat.mod_eq_of_lt h3, Nat.mod_eq_of_lt (a := 2 ^ c.val - 1) (by omega)]
      have : 2 ^ (n + 1) - 1 + 2 ^ c.val = (2 ^ c.val - 1) + 2 ^ (n + 1) := by omega
      rw [this, Nat.add_mod_right, Nat.mod_eq_of_lt (by omega)]
    rw [this, BitVec.getLsbD_ofNat, Nat.testBit_two_pow_sub_one]
    have := c.isLt
    by_cases h : i < c.val
    · simp [h]; omega
    · simp [h]
  have hall : (BitVec.allOnes (n + 1) >>> 1).getLsbD i = decide (i < n) := by
    rw [BitVec.getLsbD_ushiftRight, BitVec.getLsbD_allOnes]
    simp only [decide_eq_decide]; omega
  unfold pruneTarget
  simp only [BitVec.getLsbD_or, BitVec.getLsbD_and, BitVec.getLsbD_xor, hmask, hall,
    BitVec.getLsbD_ushiftRight]
  have hc := c.isLt
  have e : 1 + i = i + 1 := by omega
  rw [e]
  by_cases h1 : i < c.val
  · have : i < n := by omega
    simp [h1, this]
  · by_cases h2 : i < n
    · simp [h1, h2]
    · simp [h1, h2]

/-- The computed index is below `1 << n`: the access to the target bitmap is in bounds. -/
theorem pruneTarget_lt (c : Fin (n + 1)) (y : BitVec (n + 1)) : (pruneTarget c y).toNat < 2 ^ n := by
  apply Nat.lt_pow_two_of_testBit
  intro i hi
  rw [BitVec.testBit_toNat, getLsbD_pruneTarget]
  simp [show ¬ i < n by omega]

theorem vecOf_pruneTarget (c : Fin (n + 1)) (y : BitVec (n + 1)) :
    vecOf ((pruneTarget c y).setWidth n) = removeChannel c (vecOf y) := by
  funext i
  simp only [vecOf, removeChannel, BitVec.getLsbD_setWidth, getLsbD_pruneTarget]
  simp only [i.isLt, decide_true, Bool.true_and]
  by_cases h : i.val < c.val
  · rw [if_pos h, Fin.succAbove_of_castSucc_lt _ _ (by simpa [Fin.lt_def] using h)]; rfl
  · rw [if_neg h, Fin.succAbove_of_le_castSucc _ _ (by simp [Fin.le_def]; omega)]; rfl

/-- The target index of `y`. -/
def tgt (polarity : Bool) (c : Fin (n + 1)) (y : BitVec (n + 1)) : BitVec n :=
  (pruneTarget c y).setWidth n ^^^ flipMask n polarity

theorem tgt_inj (polarity : Bool) (c : Fin (n + 1)) {y z : BitVec (n + 1)} (hy : vecOf y c = true)
    (hz : vecOf z c = true) (h : tgt polarity c y = tgt polarity c z) : y = z := by
  unfold tgt at h
  have h1 := congrArg (· ^^^ flipMask n polarity) h
  simp only [BitVec.xor_assoc, BitVec.xor_self, BitVec.xor_zero] at h1
  have h2 := congrArg vecOf h1
  rw [vecOf_pruneTarget, vecOf_pruneTarget] at h2
  apply vec_ext
  intro i
  rcases Fin.eq_self_or_eq_succAbove c i with rfl | ⟨j, rfl⟩
  · rw [hy, hz]
  · exact congrFun h2 j

/-- Reachability in the (flipped) index space. -/
inductive IReach (s : Bitmap (n + 1)) (polarity : Bool) (c : Fin (n + 1)) : BitVec (n + 1) → Prop
  | base : s (bit c ^^^ flipMask (n + 1) polarity) = true → IReach s polarity c (bit c)
  | step {y} (i : Fin (n + 1)) : IReach s polarity c y →
      s ((y ||| bit i) ^^^ flipMask (n + 1) polarity) = true → IReach s polarity c (y ||| bit i)

variable {s : Bitmap (n + 1)} {p : Bool} {c : Fin (n + 1)}

theorem IReach.chan {y : BitVec (n + 1)} (h : IReach s p c y) : vecOf y c = true := by
  induction h with
  | base _ => simp
  | step i _ _ ih => simp [ih]

/-- Invariant of the loop, with `index` the entry being processed and `P` the channels done. -/
structure PInv (s : Bitmap (n + 1)) (p : Bool) (c : Fin (n + 1)) (ex : BitVec (n + 1) → Prop)
    (st : Bitmap n × List (BitVec (n + 1))) : Prop where
  queue : ∀ y ∈ st.2, IReach s p c y ∧ st.1 (tgt p c y) = true
  sound : ∀ z, st.1 z = true → ∃ y, IReach s p c y ∧ tgt p c y = z
  closed : ∀ y, vecOf y c = true → st.1 (tgt p c y) = true → y ∉ st.2 → ¬ ex y →
    ∀ i, s ((y ||| bit i) ^^^ flipMask (n + 1) p) = true → st.1 (tgt p c (y ||| bit i)) = true
  base : st.1 (tgt p c (bit c)) = true

theorem pruneInner_spec (index : BitVec (n + 1)) (hidx : IReach s p c index)
    (st : Bitmap n × List (BitVec (n + 1))) (h : PInv s p c (· = index) st) (i : Fin (n + 1)) :
    PInv s p c (· = index) (pruneInner s p c index st i) ∧
    (∀ z, st.1 z = true → (pruneInner s p c index st i).1 z = true) ∧
    (s ((index ||| bit i) ^^^ flipMask (n + 1) p) = true →
      (pruneInner s p c index st i).1 (tgt p c (index ||| bit i)) = true) := by
  have hdef : pruneInner s p c index st i =
    (if (s ((index ||| bit i) ^^^ flipMask (n + 1) p) && !st.1 (tgt p c (index ||| bit i))) = true
    then (Function.update st.1 (tgt p c (index ||| bit i)) true, (index ||| bit i) :: st.2) else st) := rfl
  rw [hdef]
  by_cases hcond : (s ((index ||| bit i) ^^^ flipMask (n + 1) p) && !st.1 (tgt p c (index ||| bit i))) = true
  · rw [if_pos hcond]
    rw [Bool.and_eq_true, Bool.not_eq_true'] at hcond
    obtain ⟨hs, hf⟩ := hcond
    have hreach := hidx.step i hs
    have hmono : ∀ z, st.1 z = true → Function.update st.1 (tgt p c (index ||| bit i)) true z = true := by
      intro z hz
      rw [Function.update_apply]; split_ifs <;> simp [hz]
    refine ⟨⟨?_, ?_, ?_, ?_⟩, hmono, fun _ => by simp⟩
    · intro y hy
      rcases List.mem_cons.1 hy with rfl | hy
      · exact ⟨hreach, by simp⟩
      · exact ⟨(h.queue y hy).1, hmono _ (h.queue y hy).2⟩
    · intro z hz
      simp only [Function.update_apply] at hz
      split_ifs at hz with e
      · exact ⟨_, hreach, e.symm⟩
      · exact h.sound z hz
    · intro y hyc hy hyq hyx j hj
      simp only [List.mem_cons, not_or] at hyq
      simp only [Function.update_apply] at hy
      split_ifs at hy with e
      · exact absurd (tgt_inj p c hyc hreach.chan e) hyq.1
      · exact hmono _ (h.closed y hyc hy hyq.2 hyx j hj)
    · exact hmono _ h.base
  · rw [if_neg hcond]
    refine ⟨h, fun _ hz => hz, ?_⟩
    intro hs
    simp only [hs, Bool.true_and, Bool.not_eq_true', Bool.not_eq_false] at hcond
    exact hcond

theorem pruneInner_foldl_spec (index : BitVec (n + 1)) (hidx : IReach s p c index) (L : List (Fin (n + 1)))
    (st : Bitmap n × List (BitVec (n + 1))) (h : PInv s p c (· = index) st) :
    PInv s p c (· = index) (L.foldl (pruneInner s p c index) st) ∧
    (∀ z, st.1 z = true → (L.foldl (pruneInner s p c index) st).1 z = true) ∧
    (∀ i ∈ L, s ((index ||| bit i) ^^^ flipMask (n + 1) p) = true →
      (L.foldl (pruneInner s p c index) st).1 (tgt p c (index ||| bit i)) = true) := by
  induction L generalizing st with
  | nil => exact ⟨h, fun _ hz => hz, by simp⟩
  | cons i L ih =>
    obtain ⟨h1, h2, h3⟩ := pruneInner_spec index hidx st h i
    obtain ⟨h4, h5, h6⟩ := ih _ h1
    refine ⟨h4, fun z hz => h5 z (h2 z hz), ?_⟩
    intro j hj hs
    rcases List.mem_cons.1 hj with rfl | hj
    · exact h5 _ (h3 hs)
    · exact h6 j hj hs

theorem pruneLoop_spec (target : Bitmap n) (queue : List (BitVec (n + 1)))
    (h : PInv s p c (fun _ => False) (target, queue)) :
    ∀ z, pruneLoop s p c target queue z = true ↔ ∃ y, IReach s p c y ∧ tgt p c y = z := by
  fun_induction pruneLoop s p c target queue with
  | case1 target =>
    intro z
    constructor
    · exact h.sound z
    · rintro ⟨y, hy, rfl⟩
      induction hy with
      | base _ => exact h.base
      | step i hy hs ih => exact h.closed _ hy.chan ih (by simp) (by simp) i hs
  | case2 target index queue st ih =>
    apply ih
    obtain ⟨hi1, hi2⟩ := h.queue index (by simp)
    have h0 : PInv s p c (· = index) (target, queue) := by
      refine ⟨fun y hy => h.queue y (by simp [hy]), h.sound, ?_, h.base⟩
      intro y hyc hy hyq hyx
      exact h.closed y hyc hy (by simp [hyx]; exact hyq) (by simp)
    obtain ⟨h1, h2, h3⟩ := pruneInner_foldl_spec index hi1 (List.finRange (n + 1)) (target, queue) h0
    refine ⟨h1.queue, h1.sound, ?_, h1.base⟩
    intro y hyc hy hyq _ i hs
    by_cases e : y = index
    · subst e; exact h3 i (by simp) hs
    · exact h1.closed y hyc hy hyq e i hs

theorem tgt_bit (p : Bool) (c : Fin (n + 1)) : tgt p c (bit c) = flipMask n p := by
  unfold tgt
  have : (pruneTarget c (bit c)).setWidth n = 0#n := by
    apply vecOf_injective
    rw [vecOf_pruneTarget]
    funext i
    simp [removeChannel, Fin.succAbove_ne]
  rw [this]; simp

theorem pruneLoop_start (hext : s (bit c ^^^ flipMask (n + 1) p) = true) (z : BitVec n) :
    pruneLoop s p c (Function.update (fun _ => false) (flipMask n p) true) [bit c] z = true ↔
      ∃ y, IReach s p c y ∧ tgt p c y = z := by
  apply pruneLoop_spec
  refine ⟨?_, ?_, ?_, ?_⟩
  · intro y hy
    simp only [List.mem_singleton] at hy
    subst hy
    exact ⟨.base hext, by simp [tgt_bit]⟩
  · intro z hz
    simp only [Function.update_apply] at hz
    split_ifs at hz with e
    exact ⟨_, .base hext, by rw [tgt_bit, e]⟩
  · intro y hyc hy hyq _
    simp only [Function.update_apply] at hy
    split_ifs at hy with e
    rw [← tgt_bit p c] at e
    exact absurd (tgt_inj p c hyc (by simp) e) (by simpa using hyq)
  · simp [tgt_bit]

/-! ## Relating the index space to vectors -/

theorem vecOf_flip (m : ℕ) (p : Bool) (y : BitVec m) :
    vecOf (y ^^^ flipMask m p) = fun i => (vecOf y i ^^ p) := by
  funext i
  cases p <;> simp [flipMask]

theorem flip_flip (m : ℕ) (p : Bool) (y : BitVec m) : (y ^^^ flipMask m p) ^^^ flipMask m p = y := by
  simp [BitVec.xor_assoc]

theorem vecOf_extremal : vecOf (bit c ^^^ flipMask (n + 1) p) = extremalVec p c := by
  rw [vecOf_flip]
  funext i
  by_cases h : i = c <;> cases p <;> simp [extremalVec, h]

theorem reach_of_iReach {y : BitVec (n + 1)} (h : IReach s p c y) :
    ReachIn s.toSet (!p) (extremalVec p c) (vecOf (y ^^^ flipMask (n + 1) p)) := by
  induction h with
  | base h =>
    rw [vecOf_extremal]
    apply ReachIn.refl
    rw [← vecOf_extremal]; exact (s.vecOf_mem _).2 h
  | @step y i _ hs ih =>
    by_cases hy : vecOf y i = true
    · have : y ||| bit i = y := by
        apply vec_ext
        intro j
        by_cases e : j = i
        · subst e; simp [hy]
        · simp [e]
      rw [this]; exact ih
    · have : vecOf ((y ||| bit i) ^^^ flipMask (n + 1) p) =
          Function.update (vecOf (y ^^^ flipMask (n + 1) p)) i (!p) := by
        rw [vecOf_flip, vecOf_flip]
        funext j
        by_cases e : j = i
        · subst e; simp
        · simp [e]
      have hmem := (s.vecOf_mem _).2 hs
      rw [this] at hmem ⊢
      refine ih.step i ?_ hmem
      rw [vecOf_flip]
      simp at hy
      simp [hy]

theorem iReach_of_reach {v : Fin (n + 1) → Bool} (h : ReachIn s.toSet (!p) (extremalVec p c) v) :
    IReach s p c (idxOf v ^^^ flipMask (n + 1) p) := by
  induction h with
  | refl h =>
    have : idxOf (extremalVec p c) ^^^ flipMask (n + 1) p = bit c := by
      rw [← vecOf_extremal, idxOf_vecOf, flip_flip]
    rw [this]
    apply IReach.base
    rw [← vecOf_extremal] at h
    exact (s.vecOf_mem _).1 h
  | step i h1 h2 h3 ih =>
    rename_i v
    have : idxOf (Function.update v i (!p)) ^^^ flipMask (n + 1) p =
        (idxOf v ^^^ flipMask (n + 1) p) ||| bit i := by
      apply vecOf_injective
      rw [vecOf_flip, vecOf_idxOf]
      funext j
      rw [vecOf_or, vecOf_flip, vecOf_idxOf]
      by_cases e : j = i
      · subst e; simp
      · simp [e]
    rw [this]
    apply ih.step i
    rw [← this, flip_flip]
    exact (s.mem_toSet _).1 h3

/-- Result of `prune_extremal_channel_into`. -/
theorem pruneExtremalChannel_toSet {t : Bitmap n} (h : s.pruneExtremalChannel p c = some t) :
    t.toSet = removeChannel c '' {v | ReachIn s.toSet (!p) (extremalVec p c) v} := by
  unfold Bitmap.pruneExtremalChannel at h
  dsimp only at h
  split_ifs at h with hext
  injection h with h
  subst h
  have hrem : ∀ y, vecOf (tgt p c y) = removeChannel c (vecOf (y ^^^ flipMask (n + 1) p)) := by
    intro y
    rw [tgt, vecOf_flip, vecOf_pruneTarget, vecOf_flip]
    rfl
  ext v
  obtain ⟨z, rfl⟩ := vecOf_surjective v
  rw [Bitmap.vecOf_mem, pruneLoop_start hext]
  constructor
  · rintro ⟨y, hy, rfl⟩
    exact ⟨_, reach_of_iReach hy, (hrem y).symm⟩
  · rintro ⟨w, hw, he⟩
    refine ⟨_, iReach_of_reach hw, ?_⟩
    apply vecOf_injective
    rw [hrem, flip_flip, vecOf_idxOf, he]

theorem pruneExtremalChannel_isSome :
    (s.pruneExtremalChannel p c).isSome ↔ s.channelIsExtremal p c = true := by
  unfold Bitmap.pruneExtremalChannel Bitmap.channelIsExtremal
  dsimp only
  split_ifs with h <;> simp [h]

theorem channelIsExtremal_iff (s : Bitmap (n + 1)) (p : Bool) (c : Fin (n + 1)) :
    s.channelIsExtremal p c = true ↔ extremalVec p c ∈ s.toSet := by
  rw [← vecOf_extremal, Bitmap.vecOf_mem]; rfl

theorem reachIn_chan {A : Set (Fin (n + 1) → Bool)} {v : Fin (n + 1) → Bool}
    (h : ReachIn A (!p) (extremalVec p c) v) : v c = !p := by
  induction h with
  | refl _ => simp [extremalVec]
  | step i _ _ _ ih =>
    by_cases e : c = i
    · subst e; simp
    · simp [e, ih]

/-! ## Queue capacity -/

theorem falseCount_le (t : Bitmap n) : falseCount t ≤ 2 ^ n := by
  unfold falseCount
  refine (List.length_filter_le _ _).trans ?_
  simp [indices]

theorem pruneInnerCap_eq (cap : ℕ) (index : BitVec (n + 1)) (st : Bitmap n × List (BitVec (n + 1)))
    (i : Fin (n + 1)) (h : falseCount st.1 + st.2.length ≤ cap) :
    pruneInnerCap cap s p c index st i = some (pruneInner s p c index st i) := by
  unfold pruneInnerCap
  have := pruneInner_measure s p c index st i
  dsimp only
  rw [if_pos (by omega)]

theorem pruneInnerCap_foldlM (cap : ℕ) (index : BitVec (n + 1)) (L : List (Fin (n + 1)))
    (st : Bitmap n × List (BitVec (n + 1))) (h : falseCount st.1 + st.2.length ≤ cap) :
    L.foldlM (pruneInnerCap cap s p c index) st = some (L.foldl (pruneInner s p c index) st) := by
  induction L generalizing st with
  | nil => rfl
  | cons i L ih =>
    rw [List.foldlM_cons, pruneInnerCap_eq cap index st i h, List.foldl_cons]
    refine ih _ ?_
    rw [pruneInner_measure]; exact h

/-- The queue never holds more than `2^n` entries, and there are at most that many iterations. -/
theorem pruneLoopCap_eq (cap fuel : ℕ) (target : Bitmap n) (queue : List (BitVec (n + 1)))
    (h : falseCount target + queue.length ≤ cap) (hf : falseCount target + queue.length ≤ fuel) :
    pruneLoopCap cap s p c fuel target queue = some (pruneLoop s p c target queue) := by
  induction fuel generalizing target queue with
  | zero =>
    have : queue = [] := List.length_eq_zero_iff.1 (by omega)
    subst this
    rw [pruneLoopCap, pruneLoop]
  | succ fuel ih =>
    cases queue with
    | nil => rw [pruneLoopCap, pruneLoop]
    | cons index queue =>
      rw [List.length_cons] at h hf
      rw [pruneLoopCap, pruneLoop, pruneInnerCap_foldlM cap index _ (target, queue) (by simp only; omega)]
      have := pruneInner_foldl_measure s p c index (List.finRange (n + 1)) (target, queue)
      simp only at this
      refine ih _ _ ?_ ?_ <;> omega

theorem falseCount_start (z : BitVec n) :
    falseCount (Function.update (fun _ => false) z true) + 1 ≤ 2 ^ n := by
  rw [falseCount_update _ _ rfl]
  exact falseCount_le _

end Sortnet
