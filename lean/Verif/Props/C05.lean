import Verif.Proof.RefNoSteps

/-!
# C05: answers of the reference checker

The full statement, "whatever the file, an answer `(w, b)` of `snocheck -r` is a true lower bound",
is false: the reference checker does not check that the permutation of a witness is one.  It holds for
certificates whose witnesses carry genuine permutations.

`C05_file_partial` is about files and the model with exceptions (Model/LazyRef.lean, C65).  Besides genuine
permutations it needs two hypotheses that exclude other false answers, and the counterexamples below show that none of them
can be omitted.
-/

namespace Sortnet.Decode

/-- A file with two steps.  The second step claims two comparators for two channels; its witness uses
the "permutation" `[0, 0]`, which maps every set to the set of the two constant vectors. -/
def badFile : List UInt8 :=
  [2, 0, 0, 0,
   28, 0, 0, 0, 0, 0, 0, 0, 5, 0, 0, 0,
   33, 0, 0, 0, 0, 0, 0, 0, 11, 0, 0, 0,
   2, 1, 0x0F, 2, 2,
   2, 2, 0x0F, 2, 0, 0, 0, 0, 0, 0, 0]

theorem index_undef (u u' : Undef) {bs : List UInt8} {i : ℕ} (h : i < bs.length) :
    index u bs i = index u' bs i := by
  simp [index, h]

theorem readLE_undef (u u' : Undef) {len : ℕ} {bs : List UInt8} (h : len ≤ bs.length) :
    readLE u len bs = readLE u' len bs := by
  have e : (List.range len).map (fun i => wrap64 ((index u bs i).toNat * 2 ^ (8 * i))) =
      (List.range len).map (fun i => wrap64 ((index u' bs i).toNat * 2 ^ (8 * i))) := by
    apply List.map_congr_left
    intro i hi
    rw [List.mem_range] at hi
    rw [index_undef u u' (by omega)]
  unfold readLE
  rw [e]

theorem badFile_count (u : Undef) : stepCount u badFile = 2 := by
  unfold stepCount read32LE
  rw [readLE_undef u ⟨0, false, []⟩ (by decide)]
  decide +kernel

theorem badFile_data (u : Undef) (i : ℤ) (hi : i = 0 ∨ i = 1) : stepData u badFile i =
    if i = 0 then [2, 1, 0x0F, 2, 2] else [2, 2, 0x0F, 2, 0, 0, 0, 0, 0, 0, 0] := by
  unfold stepData read32LE read64LE
  have hw : wrap64 (4 + 12 * i) = 4 + 12 * i := by
    rcases hi with rfl | rfl <;> decide +kernel
  simp only [hw]
  rw [readLE_undef u ⟨0, false, []⟩ (by rcases hi with rfl | rfl <;> decide +kernel),
    readLE_undef u ⟨0, false, []⟩ (by rcases hi with rfl | rfl <;> decide +kernel)]
  rcases hi with rfl | rfl <;> decide +kernel

theorem badFile_witness (u : Undef) : decodeWitnesses u 2 [0, 0, 0, 0, 0, 0, 0] = [some ⟨0, false, [0, 0]⟩] := by
  simp only [decodeWitnesses, true_or, if_true, read32LE, List.drop]
  rw [readLE_undef u ⟨0, false, []⟩ (by decide)]
  decide +kernel

/-- The property fails: the reference checker accepts a file (without reading outside the file or
any other exception, whence the quantification over `u`) that claims a wrong bound. -/
theorem C05_false : ∃ bytes : List UInt8, ∃ w b : ℕ, (∀ u, mainReference u bytes = .ok (w, b)) ∧
    ¬ LowerSizeBound w b := by
  refine ⟨badFile, 2, 2, ?_, ?_⟩
  · intro u
    unfold mainReference
    rw [badFile_count, show (2 : ℤ).toNat = 2 from rfl, Ref.checkProof_congr 2 (by omega) (stepFn u badFile)
      fun i => if i = 0 then ⟨⟨2, [3, 2, 1, 0]⟩, 1, .successors [none]⟩
        else ⟨⟨2, [3, 2, 1, 0]⟩, 2, .successors [some ⟨0, false, [0, 0]⟩]⟩]
    · decide +kernel
    · intro i h0 hi
      obtain rfl | rfl : i = 0 ∨ i = 1 := by omega
      · unfold stepFn
        rw [badFile_data u 0 (by simp)]
        simp only [decodeProofStep, if_true]
        have e : decodeWitnesses u 2 [2] = [none] := by simp [decodeWitnesses]
        have e1 : drop (bit 0 + 2) [2, 1, 0x0F, 2, 2] = [2, 2] := by decide +kernel
        have e2 : fromBytes 2 (take (bit 0) (drop 2 [2, 1, 0x0F, 2, 2])) = ⟨2, [3, 2, 1, 0]⟩ := by decide +kernel
        simp only [index, List.getD_cons_zero, List.getD_cons_succ, show (2 : UInt8).toNat = 2 from rfl,
          show (1 : UInt8).toNat = 1 from rfl, Nat.reduceSub, e1, e2]
        simp [drop, e]
      · unfold stepFn
        rw [badFile_data u 1 (by simp)]
        simp only [decodeProofStep, one_ne_zero, if_false]
        have e1 : drop (bit 0 + 2) [2, 2, 0x0F, 2, 0, 0, 0, 0, 0, 0, 0] = [2, 0, 0, 0, 0, 0, 0, 0] := by decide +kernel
        have e2 : fromBytes 2 (take (bit 0) (drop 2 [2, 2, 0x0F, 2, 0, 0, 0, 0, 0, 0, 0])) = ⟨2, [3, 2, 1, 0]⟩ := by
          decide +kernel
        simp only [index, List.getD_cons_zero, List.getD_cons_succ, show (2 : UInt8).toNat = 2 from rfl,
          Nat.reduceSub, e1, e2]
        simp [drop, badFile_witness]
  · intro h
    have : SortingNetwork 2 [(0, 1)] := by
      intro x i j hij
      revert x i j
      decide +kernel
    have := h [(0, 1)] this
    simp at this

/-- The verified checker rejects this file. -/
theorem C05_badFile_verified : mainVerified ⟨0, false, []⟩ ⟨false, 0⟩ badFile = none := by decide +kernel

end Sortnet.Decode

namespace Sortnet.Ref

/-- Soundness of the reference checker for certificates that satisfy `StepOk`: at least one step,
fewer than 64 channels, vectors without superfluous bits, genuine permutations of the right width, no
successor step with bound 0.  Missing with respect to the full statement: certificates with other
lists in place of permutations, for which the statement is false (`C05_false`). -/
theorem C05_sound_partial (count : ℕ) (hpos : 0 < count) (hc : (count : ℤ) < 2 ^ 63)
    (steps : ℤ → ProofStep) (hok : ∀ i, 0 ≤ i → i < (count : ℤ) → StepOk (steps i)) (w b : ℕ)
    (h : checkProof count steps = .ok (w, b)) : LowerSizeBound w b := by
  have := Checker.C01_checker_sound ⟨false, 0⟩ _ _ _ ((checkProof_iff ⟨false, 0⟩ hpos hc steps hok w b).1 h)
  simpa using this.1

/-- Non-vacuity: a certificate with a Huffman step and inverted and permuted witnesses. -/
example : LowerSizeBound 3 3 := by
  have hcount : Decode.stepCount ⟨0, false, []⟩ Decode.file3 = 2 := by decide +kernel
  have hok := file3_ok
  rw [hcount] at hok
  exact C05_sound_partial 2 (by omega) (by norm_num) _ hok 3 3 (by decide +kernel)

end Sortnet.Ref

namespace Sortnet

/-- An answer `(w, b)` of `snocheck -r` is a true lower bound, for every file of less than `2 ^ 60` bytes such that
* the witnesses carry genuine permutations,
* in steps with less than three channels, which fill only a part of a byte, no vector has a bit on a channel that does not
  exist, and
* there are steps, or the file has at most 4 GiB.
Without these hypotheses the statement is false (`C05_false_permutation`, `C05_false_bits` and `C05_false_no_steps`). -/
theorem C05_file_partial {bytes : List UInt8} (hlen : bytes.length < 2 ^ 60) {n : ℤ} (hn : Lazy.readLE 4 bytes = some n)
    (hperm : ∀ i s, 0 ≤ i → i < n → Lazy.stepFn bytes i = some s → Lazy.GenuinePerms s)
    (hbits : ∀ i s, 0 ≤ i → i < n → Lazy.stepFn bytes i = some s → s.vectSet.channels < 3 → Lazy.CleanBits s)
    (hsteps : n ≠ 0 ∨ bytes.length ≤ 2 ^ 32)
    {w b : ℕ} (h : Lazy.mainReference bytes = .ok (w, b)) : LowerSizeBound w b := by
  by_cases hn0 : n = 0
  · subst hn0
    obtain ⟨rfl, rfl⟩ := Lazy.mainReference_noSteps hn (by tauto) h
    intro c _
    exact Nat.zero_le _
  · exact Lazy.mainReference_sound hlen hn hn0 hperm hbits h

theorem not_lowerSizeBound_one {b : ℕ} (hb : b ≠ 0) : ¬ LowerSizeBound 1 b := by
  intro h
  have : SortingNetwork 1 [] := by
    intro x i j hij
    rw [Subsingleton.elim i j]
  have := h [] this
  simp at this
  omega

theorem not_lowerSizeBound_two : ¬ LowerSizeBound 2 2 := by
  intro h
  have : SortingNetwork 2 [(0, 1)] := by
    intro x i j hij
    revert x i j
    decide +kernel
  have := h [(0, 1)] this
  simp at this

/-- The file of `C05_false` with exceptions: no superfluous bits, two steps, and one witness without a permutation. -/
theorem C05_false_permutation : Lazy.mainReference Decode.badFile = .ok (2, 2) ∧ ¬ LowerSizeBound 2 2 :=
  ⟨by decide +kernel, not_lowerSizeBound_two⟩

/-- A file with one step for one channel, with 8 vectors of one bit. -/
def bitsFile : List UInt8 := [1, 0, 0, 0, 16, 0, 0, 0, 0, 0, 0, 0, 4, 0, 0, 0, 1, 5, 0xFF, 2]

/-- Superfluous bits.  There are more than two vectors, and no comparators, so that every bound is accepted. -/
theorem C05_false_bits : Lazy.mainReference bitsFile = .ok (1, 5) ∧ ¬ LowerSizeBound 1 5 :=
  ⟨by decide +kernel, not_lowerSizeBound_one (by norm_num)⟩

/-- The witnesses of this file carry genuine permutations, as there are none. -/
theorem bitsFile_perms (i : ℤ) (s : Lazy.RefStep) (h0 : 0 ≤ i) (h1 : i < 1) (h : Lazy.stepFn bitsFile i = some s) :
    Lazy.GenuinePerms s := by
  obtain rfl : i = 0 := by omega
  have e : Lazy.stepFn bitsFile 0 = some ⟨Decode.fromBytes 1 [0xFF], 5, .successors (some [])⟩ := by
    have e1 : Lazy.stepData bitsFile 0 = some [1, 5, 0xFF, 2] := by decide +kernel
    have e2 : Decode.drop (Decode.bit 0 + 2) [1, 5, 0xFF, 2] = [2] := by decide +kernel
    have e3 : Decode.take (Decode.bit 0) (Decode.drop 2 [1, 5, 0xFF, 2]) = [0xFF] := by decide +kernel
    have e4 : Lazy.decodeWitnesses 1 [] = some [] := by rw [Lazy.decodeWitnesses]
    have e5 : Decode.drop 1 [(2 : UInt8)] = [] := rfl
    unfold Lazy.stepFn Lazy.decodeProofStep
    rw [e1]
    simp only [Option.bind_eq_bind, Option.bind_some, List.getElem?_cons_zero, List.getElem?_cons_succ,
      show (1 : UInt8).toNat = 1 from rfl, show (5 : UInt8).toNat = 5 from rfl, Nat.reduceSub, e2, e3, e4, e5,
      show ¬ (2 : UInt8) = 0 by decide, show ¬ (2 : UInt8) = 1 by decide, if_false, if_true]
  rw [e] at h
  cases h
  intro l hl w hw
  cases hl
  cases hw

/-- No steps: the answer is read from a place after the first 4 GiB. -/
theorem C05_false_no_steps : ∃ bytes : List UInt8, bytes.length = 2 ^ 32 + 4 ∧ Lazy.readLE 4 bytes = some 0 ∧
    Lazy.mainReference bytes = .ok (1, 5) ∧ ¬ LowerSizeBound 1 5 := by
  have h := Lazy.hugeFile_accepted (pad := List.replicate (2 ^ 32 - 12) 0) List.length_replicate
  refine ⟨_, ?_, Lazy.hugeFile_count _, h, not_lowerSizeBound_one (by norm_num)⟩
  rw [Lazy.hugeFile, List.length_append, List.length_append, List.length_replicate]
  rfl

theorem wellFormed_of_stepOk {s : Lazy.RefStep} {t : Ref.ProofStep} (ha : Lazy.ApRef s t) (hfull : Lazy.FullStep (some s))
    (hok : Ref.StepOk t) : Lazy.GenuinePerms s ∧ Lazy.CleanBits s := by
  obtain ⟨s', e, hfull⟩ := hfull
  cases e
  refine ⟨?_, fun v hv => ?_⟩
  · have hp := hok.perms
    unfold Lazy.GenuinePerms
    rcases ha.witnesses with ⟨pol, ws, ws', e1, e2, hws⟩ | ⟨ws, ws', e1, e2, hws⟩
    · rw [e1] at hfull
      rw [e2] at hp
      rw [e1]
      intro l hl w hw
      rw [Lazy.fullList_map hfull hws] at hl
      cases hl
      rw [ha.vectSet]
      obtain ⟨w', hw', e⟩ := List.mem_map.1 hw
      cases e
      exact hp w hw'
    · rw [e1] at hfull
      rw [e2] at hp
      rw [e1]
      intro l hl w hw
      rw [Lazy.fullList_map hfull hws] at hl
      cases hl
      rw [ha.vectSet]
      obtain ⟨w', hw', e⟩ := List.mem_map.1 hw
      cases e
      exact hp.1 w hw'
  · rw [ha.vectSet] at hv ⊢
    exact Nat.lt_pow_two_of_testBit _ fun i hi => hok.set.fits v hv i hi

/-- Non-vacuity of `C05_file_partial`: the file of C02 meets all hypotheses. -/
theorem C05_example : Decode.file3.length < 2 ^ 60 ∧ Lazy.readLE 4 Decode.file3 = some 2 ∧
    (∀ i s, 0 ≤ i → i < 2 → Lazy.stepFn Decode.file3 i = some s → Lazy.GenuinePerms s ∧ Lazy.CleanBits s) ∧
    Lazy.mainReference Decode.file3 = .ok (3, 3) := by
  have h2 : Lazy.readLE 4 Decode.file3 = some 2 := by decide +kernel
  have h3 : Lazy.mainReference Decode.file3 = .ok (3, 3) := by decide +kernel
  refine ⟨by decide +kernel, h2, fun i s h0 hi hs => ?_, h3⟩
  have hok := Ref.file3_ok i h0 (by rw [show Decode.stepCount ⟨0, false, []⟩ Decode.file3 = 2 by decide +kernel]; exact hi)
  have hfull := Lazy.accepted_full h3 h2 i h0 hi
  rw [hs] at hfull
  exact wellFormed_of_stepOk (Lazy.ap_stepFn ⟨0, false, []⟩ Decode.file3 i s hs) hfull hok

end Sortnet
