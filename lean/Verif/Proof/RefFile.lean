import Verif.Proof.RefSound
import Verif.Spec.RefFile
import Verif.Proof.Truncated

/-! # Files that `snocheck -r` accepts -/

namespace Sortnet.Lazy

open Ref (VectSet Witness Result Fail)

attribute [local irreducible] Decode.wrap64

variable {α β : Type}

theorem bind_ok {x : Result α} {f : α → Result β} {b : β} (h : (x >>= f) = .ok b) : ∃ a, x = .ok a ∧ f a = .ok b := by
  cases x with
  | error e => cases h
  | ok a => exact ⟨a, rfl, h⟩

theorem demand_ok {x : L α} {a : α} (h : demand x = .ok a) : x = some a := by
  cases x with
  | none => cases h
  | some b => cases h; rfl

theorem full_of_zip {γ : Type} {f : γ × L (Option Witness) → Result β} {xs : List γ} {l : List (L (Option Witness))} {ys : List β}
    (hf : ∀ p b, f p = .ok b → ∃ w, p.2 = some w) (hlen : xs.length = l.length) (h : Ref.traverse f (xs.zip l) = .ok ys) :
    ∀ w ∈ l, ∃ x, w = some x := by
  rw [Ref.traverse_ok] at h
  induction l generalizing xs ys with
  | nil => simp
  | cons w l ih =>
    cases xs with
    | nil => simp at hlen
    | cons x xs =>
      rw [List.zip_cons_cons] at h
      cases h with
      | cons h1 h2 =>
        intro v hv
        rcases List.mem_cons.1 hv with rfl | hv
        · exact hf _ _ h1
        · exact ih (by simpa using hlen) h2 v hv

theorem refGetBound_full {s : RefSteps} {w : L (Option Witness)} {vs : VectSet} {b : ℕ} (h : refGetBound s w vs = .ok b) :
    ∃ x, w = some x := by
  cases w with
  | none => cases h
  | some x => exact ⟨x, rfl⟩

/-- Everything in an accepted step has been evaluated. -/
theorem full_of_accepted {s : RefSteps} {i : ℤ} (h : refCheckStep s i = .ok ()) : ∃ t, s i = .ok t ∧ FullStep (some t) := by
  unfold refCheckStep at h
  obtain ⟨t, ht, h⟩ := bind_ok h
  refine ⟨t, ht, t, rfl, ?_⟩
  cases hw : t.witnesses with
  | huffman pol ws =>
    rw [hw] at h
    unfold refCheckHuffman at h
    obtain ⟨l, hl, h⟩ := bind_ok h
    obtain ⟨_, hlen, h⟩ := bind_ok h
    obtain ⟨bs, hbs, h⟩ := bind_ok h
    rw [Ref.check_ok, beq_iff_eq] at hlen
    exact ⟨l, demand_ok hl, full_of_zip (fun p b hp => refGetBound_full hp) hlen hbs⟩
  | successors ws =>
    rw [hw] at h
    unfold refCheckSuccessors at h
    obtain ⟨_, _, h⟩ := bind_ok h
    obtain ⟨l, hl, h⟩ := bind_ok h
    obtain ⟨_, hlen, h⟩ := bind_ok h
    obtain ⟨bs, hbs, h⟩ := bind_ok h
    rw [Ref.check_ok, beq_iff_eq] at hlen
    exact ⟨l, demand_ok hl, full_of_zip (fun p b hp => by
      unfold refCheckSuccessor at hp
      obtain ⟨_, hp, _⟩ := bind_ok hp
      exact refGetBound_full hp) hlen hbs⟩

/-- What an accepted file tells about its steps. -/
theorem accepted_steps {bytes : List UInt8} {w b : ℕ} (h : mainReference bytes = .ok (w, b)) :
    ∃ n, readLE 4 bytes = some n ∧ ∀ i, 0 ≤ i → i < (n.toNat : ℤ) →
      refCheckStep (fun j => if 0 ≤ j ∧ j < (n.toNat : ℤ) then demand (stepFn bytes j) else .error .left) i = .ok () := by
  unfold mainReference at h
  obtain ⟨n, hn, h⟩ := bind_ok h
  refine ⟨n, demand_ok hn, fun i h0 h1 => ?_⟩
  unfold refCheckProof at h
  dsimp only at h
  split at h
  · cases h
  · next x hx =>
    have := (Ref.parCheckRange_ok _ _ _).1 hx
    exact this i h0 (by omega)

theorem accepted_full {bytes : List UInt8} {w b : ℕ} (h : mainReference bytes = .ok (w, b)) {n : ℤ} (hn : readLE 4 bytes = some n)
    (i : ℤ) (h0 : 0 ≤ i) (h1 : i < (n.toNat : ℤ)) : FullStep (stepFn bytes i) := by
  obtain ⟨n', hn', hs⟩ := accepted_steps h
  rw [hn] at hn'
  cases hn'
  obtain ⟨t, ht, hf⟩ := full_of_accepted (hs i h0 h1)
  rw [if_pos ⟨h0, h1⟩] at ht
  rw [demand_ok ht]
  exact hf

theorem stepData_length {bytes d : List UInt8} {i : ℤ} (h : stepData bytes i = some d) : d.length ≤ bytes.length := by
  unfold stepData at h
  simp only [Option.bind_eq_bind, Option.bind_eq_some_iff] at h
  obtain ⟨a, _, b, _, h⟩ := h
  cases h
  unfold Decode.take Decode.drop
  rw [List.length_take, List.length_drop]
  omega

theorem bit_small {i : ℕ} (h : i < 63) : Decode.bit i = 2 ^ i := by
  unfold Decode.bit
  rw [if_pos (by omega)]
  have h1 : (2 : ℤ) ^ i < 2 ^ 63 := pow_lt_pow_right₀ (by norm_num) h
  exact Decode.wrap64_of_lt (by positivity) h1

theorem bit_large {i : ℕ} (h : 64 ≤ i) : Decode.bit i = 0 := by
  unfold Decode.bit
  rw [if_neg (by omega)]
  exact Decode.wrap64_of_lt le_rfl (by norm_num)

theorem bit_63 : Decode.bit 63 = -2 ^ 63 := by decide +kernel

/-- The set of a step that is decoded, unless it is empty. -/
theorem decoded_set {d : List UInt8} {s : RefStep} (h : decodeProofStep d = some s) (hd : d.length < 2 ^ 60)
    (hne : s.vectSet.vects ≠ []) : s.vectSet.channels < 64 ∧ s.vectSet.vects.Nodup ∧ (3 ≤ s.vectSet.channels → CleanBits s) := by
  unfold decodeProofStep at h
  simp only [Option.bind_eq_bind, Option.bind_eq_some_iff, Option.some.injEq] at h
  obtain ⟨c, hc, b, hb, k, hk, w, hw, rfl⟩ := h
  dsimp only at hne ⊢
  have hch : (Decode.fromBytes c.toNat (Decode.take (Decode.bit (c.toNat - 3)) (Decode.drop 2 d))).channels = c.toNat := rfl
  have h64 : c.toNat < 64 := by
    by_contra hcon
    have hlt := c.toNat_lt
    rcases (by omega : c.toNat = 64 ∨ c.toNat = 65 ∨ c.toNat = 66 ∨ 67 ≤ c.toNat) with e | e | e | e
    · rw [e, bit_small (by norm_num)] at hk
      rw [Decode.drop, List.getElem?_drop, List.getElem?_eq_none (by norm_num at *; omega)] at hk
      cases hk
    · rw [e, bit_small (by norm_num)] at hk
      rw [Decode.drop, List.getElem?_drop, List.getElem?_eq_none (by norm_num at *; omega)] at hk
      cases hk
    · rw [e, show (66 : ℕ) - 3 = 63 from rfl, bit_63] at hk
      have : Decode.drop (-2 ^ 63 + 2) d = d := by
        unfold Decode.drop
        rw [show ((-2 ^ 63 + 2 : ℤ)).toNat = 0 by decide, List.drop_zero]
      rw [this, hc] at hk
      cases hk
      have hne0 : c ≠ 0 := by rintro rfl; cases e
      have hne1 : c ≠ 1 := by rintro rfl; cases e
      have hne2 : c ≠ 2 := by rintro rfl; cases e
      rw [if_neg hne0, if_neg hne1, if_neg hne2] at hw
      cases hw
    · apply hne
      rw [bit_large (by omega)]
      rfl
  refine ⟨h64, Decode.fromBytes_nodup _ _, fun h3 v hv => ?_⟩
  rw [hch] at h3
  show v.toNat < 2 ^ c.toNat
  have hlt := Decode.fromBytes_lt _ _ v hv
  rw [bit_small (by omega)] at hlt
  have hlen : (Decode.take (2 ^ (c.toNat - 3)) (Decode.drop 2 d)).length ≤ 2 ^ (c.toNat - 3) := by
    unfold Decode.take
    rw [List.length_take]
    have : ((2 : ℤ) ^ (c.toNat - 3)).toNat = 2 ^ (c.toNat - 3) := by
      have : ((2 : ℤ) ^ (c.toNat - 3)) = ((2 ^ (c.toNat - 3) : ℕ) : ℤ) := by push_cast; rfl
      rw [this, Int.toNat_natCast]
    omega
  have e : 2 ^ c.toNat = 8 * 2 ^ (c.toNat - 3) := by
    conv_lhs => rw [show c.toNat = 3 + (c.toNat - 3) by omega, pow_add]
    norm_num
  rw [e]
  omega

theorem setOk_of_file {bytes : List UInt8} (hlen : bytes.length < 2 ^ 60) {i : ℤ} {s : RefStep} (hs : stepFn bytes i = some s)
    (hne : s.vectSet.vects ≠ []) (hbits : s.vectSet.channels < 3 → CleanBits s) : Ref.SetOk s.vectSet := by
  unfold stepFn at hs
  rw [Option.bind_eq_bind, Option.bind_eq_some_iff] at hs
  obtain ⟨d, hd, hdec⟩ := hs
  have hset := decoded_set hdec (by have := stepData_length hd; omega) hne
  have hclean : CleanBits s := by
    by_cases h3 : 3 ≤ s.vectSet.channels
    · exact hset.2.2 h3
    · exact hbits (by omega)
  exact ⟨hset.1, fun v hv => Ref.fits_of_lt (hclean v hv), hset.2.1⟩

theorem accepted_stepOk0 {bytes : List UInt8} (hlen : bytes.length < 2 ^ 60) {n : ℤ} (hn : readLE 4 bytes = some n)
    (hperm : ∀ i s, 0 ≤ i → i < n → stepFn bytes i = some s → GenuinePerms s)
    (hbits : ∀ i s, 0 ≤ i → i < n → stepFn bytes i = some s → s.vectSet.channels < 3 → CleanBits s)
    {w b : ℕ} (h : mainReference bytes = .ok (w, b)) (i : ℤ) (h0 : 0 ≤ i) (hi : i < n) :
    Ref.StepOk0 (Decode.stepFn ⟨0, false, []⟩ bytes i) := by
  have hnn : (n.toNat : ℤ) = n := Int.toNat_of_nonneg (by omega)
  have h1 := ap_mainReference ⟨0, false, []⟩ bytes (by rw [h]; simp)
  rw [h] at h1
  unfold Decode.mainReference at h1
  have hc : Decode.stepCount ⟨0, false, []⟩ bytes = n := by
    unfold Decode.stepCount Decode.read32LE
    exact (ap_readLE _ 4 bytes n hn).symm
  rw [hc] at h1
  have hi' : i < (n.toNat : ℤ) := by omega
  obtain ⟨s, hs, hfull⟩ := accepted_full h hn i h0 hi'
  have ha := ap_stepFn ⟨0, false, []⟩ bytes i s hs
  have hne : (Decode.stepFn ⟨0, false, []⟩ bytes i).vectSet.vects ≠ [] := by
    have hchk : Ref.parCheckRange (Ref.checkStep fun j => if 0 ≤ j ∧ j < (n.toNat : ℤ) then
        .ok (Decode.stepFn ⟨0, false, []⟩ bytes j) else .error .left) 0 n.toNat = .ok () := by
      unfold Ref.checkProof at h1
      dsimp only at h1
      split at h1
      · cases h1
      · next hx => exact hx
    exact Ref.nonempty_of_ref (by rw [if_pos ⟨h0, hi'⟩]) ((Ref.parCheckRange_ok _ _ _).1 hchk i h0 (by omega))
  refine ⟨?_, ?_⟩
  · rw [← ha.vectSet]
    exact setOk_of_file hlen hs (by rw [ha.vectSet]; exact hne) (hbits i s h0 hi hs)
  · have hp := hperm i s h0 hi hs
    unfold GenuinePerms at hp
    rcases ha.witnesses with ⟨pol, ws, ws', e1, e2, hws⟩ | ⟨ws, ws', e1, e2, hws⟩
    · rw [e1] at hp hfull
      rw [e2]
      intro w hw
      have := fullList_map hfull hws
      rw [← ha.vectSet]
      exact hp _ this w (List.mem_map.2 ⟨_, hw, rfl⟩)
    · rw [e1] at hp hfull
      rw [e2]
      intro w hw
      have := fullList_map hfull hws
      rw [← ha.vectSet]
      exact hp _ this w (List.mem_map.2 ⟨_, hw, rfl⟩)

/-- Soundness of `snocheck -r` for files with at least one step, genuine permutations and no superfluous bits. -/
theorem mainReference_sound {bytes : List UInt8} (hlen : bytes.length < 2 ^ 60) {n : ℤ} (hn : readLE 4 bytes = some n) (hn0 : n ≠ 0)
    (hperm : ∀ i s, 0 ≤ i → i < n → stepFn bytes i = some s → GenuinePerms s)
    (hbits : ∀ i s, 0 ≤ i → i < n → stepFn bytes i = some s → s.vectSet.channels < 3 → CleanBits s)
    {w b : ℕ} (h : mainReference bytes = .ok (w, b)) : LowerSizeBound w b := by
  have hpos : 0 ≤ n := by
    have := ap_readLE ⟨0, false, []⟩ 4 bytes n hn
    rw [this]
    exact (Decode.readLE_range _ _ 4 (by norm_num)).1
  have h1 := ap_mainReference ⟨0, false, []⟩ bytes (by rw [h]; simp)
  rw [h] at h1
  unfold Decode.mainReference at h1
  have hc : Decode.stepCount ⟨0, false, []⟩ bytes = n := by
    unfold Decode.stepCount Decode.read32LE
    exact (ap_readLE _ 4 bytes n hn).symm
  rw [hc] at h1
  have hlt := readLE_lt hn
  exact Ref.checkProof_sound0 (by omega) (by omega)
    (fun i h0 hi => accepted_stepOk0 hlen hn hperm hbits h i h0 (by omega)) h1.symm

end Sortnet.Lazy
