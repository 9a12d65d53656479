import Verif.Proof.RefFile

/-! # Files without steps -/

namespace Sortnet.Lazy

theorem readLE_succ_add (u : Decode.Undef) (bs : List UInt8) (k : ℕ) (hk : k + 1 ≤ 7) :
    Decode.readLE u (k + 1) bs = Decode.readLE u k bs + ((Decode.index u bs k).toNat : ℤ) * 256 ^ k := by
  obtain ⟨h0, h1⟩ := Decode.readLE_range u bs k (by omega)
  have hb : ((Decode.index u bs k).toNat : ℤ) ≤ 255 := by have := (Decode.index u bs k).toNat_lt; omega
  have hp : (256 : ℤ) ^ (k + 1) ≤ 256 ^ 7 := pow_le_pow_right₀ (by norm_num) (by omega)
  have hk0 : (0 : ℤ) < 256 ^ k := by positivity
  have e : (256 : ℤ) ^ (k + 1) = 256 * 256 ^ k := by rw [pow_succ, mul_comm]
  have hm : ((Decode.index u bs k).toNat : ℤ) * 256 ^ k ≤ 255 * 256 ^ k := mul_le_mul_of_nonneg_right hb hk0.le
  have hm0 : (0 : ℤ) ≤ ((Decode.index u bs k).toNat : ℤ) * 256 ^ k := by positivity
  rw [Decode.readLE_succ, Decode.two_pow_eight, Nat.cast_pow, Nat.cast_ofNat, Decode.wrap64_of_lt hm0 (by omega),
    Decode.wrap64_of_lt (by omega) (by omega)]

theorem readLE_zero {u : Decode.Undef} {bs : List UInt8} {k : ℕ} (hk : k ≤ 7) (h : Decode.readLE u k bs = 0) :
    ∀ i < k, Decode.index u bs i = 0 := by
  induction k with
  | zero => intro i hi; omega
  | succ k ih =>
    obtain ⟨h0, h1⟩ := Decode.readLE_range u bs k (by omega)
    have hm0 : (0 : ℤ) ≤ ((Decode.index u bs k).toNat : ℤ) * 256 ^ k := by positivity
    rw [readLE_succ_add u bs k hk] at h
    have h2 : ((Decode.index u bs k).toNat : ℤ) * 256 ^ k = 0 := by omega
    intro i hi
    by_cases e : i = k
    · subst e
      rcases mul_eq_zero.1 h2 with h2 | h2
      · exact UInt8.toNat_inj.1 (by simpa using h2)
      · exact absurd h2 (by positivity)
    · exact ih (by omega) (by omega) i (by omega)

theorem dvd_wrap64 {x : ℤ} (h : (2 : ℤ) ^ 32 ∣ x) : (2 : ℤ) ^ 32 ∣ Decode.wrap64 x := by
  unfold Decode.wrap64
  rw [Int.bmod_def]
  have h1 : (2 : ℤ) ^ 32 ∣ x % ((2 ^ 64 : ℕ) : ℤ) := by omega
  split_ifs
  · exact h1
  · exact dvd_sub h1 (by norm_num)

theorem dvd_offset {u : Decode.Undef} {bs : List UInt8} (h : Decode.readLE u 4 bs = 0) (k : ℕ) :
    (2 : ℤ) ^ 32 ∣ Decode.readLE u (4 + k) bs := by
  induction k with
  | zero => rw [h]; exact dvd_zero _
  | succ k ih =>
    rw [show 4 + (k + 1) = (4 + k) + 1 by omega, Decode.readLE_succ]
    refine dvd_wrap64 (dvd_add ih (dvd_wrap64 (Dvd.dvd.mul_left (pow_dvd_pow _ (by omega)) _)))

/-- A file without steps and with at most 4 GiB: the only possible answer is 0 comparators for 0 channels. -/
theorem mainReference_noSteps {bytes : List UInt8} (hn : readLE 4 bytes = some 0) (hlen : bytes.length ≤ 2 ^ 32) {w b : ℕ}
    (h : mainReference bytes = .ok (w, b)) : w = 0 ∧ b = 0 := by
  let u : Decode.Undef := ⟨0, false, []⟩
  have h4 : Decode.readLE u 4 bytes = 0 := (ap_readLE u 4 bytes 0 hn).symm
  unfold mainReference at h
  rw [hn] at h
  have h' : refCheckProof 0 (stepFn bytes) = .ok (w, b) := h
  unfold refCheckProof at h'
  dsimp only at h'
  split at h'
  · cases h'
  obtain ⟨s, hs, h'⟩ := bind_ok h'
  have hs := demand_ok hs
  have he : w = s.vectSet.channels ∧ b = s.bound := by cases h'; exact ⟨rfl, rfl⟩
  unfold stepFn at hs
  rw [Option.bind_eq_bind, Option.bind_eq_some_iff] at hs
  obtain ⟨d, hd, hs⟩ := hs
  unfold stepData at hd
  have e0 : Decode.drop (Decode.wrap64 (4 + 12 * (((0 : ℕ) : ℤ) - 1))) bytes = bytes := by
    rw [show Decode.wrap64 (4 + 12 * (((0 : ℕ) : ℤ) - 1)) = -8 by decide +kernel]
    rfl
  rw [e0] at hd
  simp only [Option.bind_eq_bind, Option.bind_eq_some_iff, Option.some.injEq] at hd
  obtain ⟨len, hlen', off, hoff, rfl⟩ := hd
  have hdvd : (2 : ℤ) ^ 32 ∣ off := by
    rw [ap_readLE u 8 bytes off hoff]
    exact dvd_offset h4 4
  unfold decodeProofStep at hs
  simp only [Option.bind_eq_bind, Option.bind_eq_some_iff, Option.some.injEq] at hs
  obtain ⟨c, hc, bd, hb, _, _, _, _, rfl⟩ := hs
  by_cases ho : off ≤ 0
  · have e1 : Decode.drop off bytes = bytes := by
      unfold Decode.drop
      rw [Int.toNat_of_nonpos ho, List.drop_zero]
    rw [e1, Decode.take] at hc hb
    have key : ∀ i < 4, ∀ x, (bytes.take len.toNat)[i]? = some x → x = 0 := by
      intro i hi x hx
      have hx' : bytes[i]? = some x := by
        rw [List.getElem?_take] at hx
        split_ifs at hx
        exact hx
      have := readLE_zero (by norm_num) h4 i hi
      unfold Decode.index at this
      rw [List.getD_eq_getElem?_getD, hx', Option.getD_some] at this
      exact this
    rw [key 0 (by norm_num) c hc, key 1 (by norm_num) bd hb] at he
    exact he
  · obtain ⟨q, hq⟩ := hdvd
    have e1 : Decode.drop off bytes = [] := by
      unfold Decode.drop
      apply List.drop_of_length_le
      have : (1 : ℤ) ≤ q := by
        by_contra hcon
        have : q ≤ 0 := by omega
        have : (2 : ℤ) ^ 32 * q ≤ 0 := mul_nonpos_of_nonneg_of_nonpos (by norm_num) this
        omega
      have : (2 : ℤ) ^ 32 ≤ off := by rw [hq]; nlinarith
      omega
    rw [e1, Decode.take, List.take_nil] at hc
    cases hc

/-- A file without steps and with more than 4 GiB.  Step `-1` is read from the beginning of the file, as is the number of steps. -/
def hugeFile (pad : List UInt8) : List UInt8 := [0, 0, 0, 0, 1, 0, 0, 0, 4, 0, 0, 0] ++ pad ++ [1, 5, 0, 2]

theorem hugeFile_count (pad : List UInt8) : readLE 4 (hugeFile pad) = some 0 := by
  have : ∀ tl, readLE 4 (0 :: 0 :: 0 :: 0 :: tl) = readLE 4 [0, 0, 0, 0] := fun _ => rfl
  exact (this _).trans (by decide +kernel)

theorem hugeFile_accepted {pad : List UInt8} (h : pad.length = 2 ^ 32 - 12) : mainReference (hugeFile pad) = .ok (1, 5) := by
  have h4 := hugeFile_count pad
  have h8 : readLE 8 (hugeFile pad) = some (2 ^ 32) := by
    have : ∀ tl, readLE 8 (0 :: 0 :: 0 :: 0 :: 1 :: 0 :: 0 :: 0 :: tl) = readLE 8 [0, 0, 0, 0, 1, 0, 0, 0] := fun _ => rfl
    exact (this _).trans (by decide +kernel)
  have hl : readLE 4 (Decode.drop 8 (hugeFile pad)) = some 4 := by
    have : ∀ tl, readLE 4 (4 :: 0 :: 0 :: 0 :: tl) = readLE 4 [4, 0, 0, 0] := fun _ => rfl
    exact (this _).trans (by decide +kernel)
  have e0 : Decode.drop (Decode.wrap64 (4 + 12 * (((0 : ℕ) : ℤ) - 1))) (hugeFile pad) = hugeFile pad := by
    rw [show Decode.wrap64 (4 + 12 * (((0 : ℕ) : ℤ) - 1)) = -8 by decide +kernel]
    rfl
  have hd : Decode.take 4 (Decode.drop (2 ^ 32) (hugeFile pad)) = [1, 5, 0, 2] := by
    have : Decode.drop (2 ^ 32) (hugeFile pad) = [1, 5, 0, 2] := by
      unfold Decode.drop hugeFile
      rw [show (2 : ℤ) ^ 32 = ((2 ^ 32 : ℕ) : ℤ) by norm_num, Int.toNat_natCast]
      rw [List.drop_append_of_le_length (by simp [h]), List.drop_of_length_le (by simp [h]), List.nil_append]
    rw [this]
    rfl
  have hs : stepData (hugeFile pad) (((0 : ℕ) : ℤ) - 1) = some [1, 5, 0, 2] := by
    unfold stepData
    simp only [e0, hl, h8, Option.bind_eq_bind, Option.bind_some, hd]
  have hdec : ∃ s, decodeProofStep [1, 5, 0, 2] = some s ∧ s.vectSet.channels = 1 ∧ s.bound = 5 := by
    have : ((decodeProofStep [1, 5, 0, 2]).map fun s => (s.vectSet.channels, s.bound)) = some (1, 5) := by decide +kernel
    cases hc : decodeProofStep [1, 5, 0, 2] with
    | none => rw [hc] at this; cases this
    | some s =>
      rw [hc] at this
      simp only [Option.map_some, Option.some.injEq, Prod.mk.injEq] at this
      exact ⟨s, rfl, this.1, this.2⟩
  obtain ⟨s, hs', h1, h2⟩ := hdec
  have hfn : stepFn (hugeFile pad) (((0 : ℕ) : ℤ) - 1) = some s := by
    unfold stepFn
    rw [hs]
    exact hs'
  unfold mainReference
  rw [h4]
  show refCheckProof 0 (stepFn (hugeFile pad)) = _
  unfold refCheckProof
  have hp : ∀ f : ℤ → Ref.Result Unit, Ref.parCheckRange f 0 0 = .ok () := by
    intro f
    rw [Ref.parCheckRange.eq_def, if_pos (by norm_num)]
    rfl
  simp only [hp, hfn]
  rw [← h1, ← h2]
  rfl

end Sortnet.Lazy
