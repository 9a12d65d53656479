import Verif.Proof.LazyRef
import Verif.Proof.RefExample

/-! # Soundness of the reference checker for files with genuine permutations -/

namespace Sortnet.Ref

open Decode (translateStep wrap64)

/-- A step as `StepOk`, with any bound. -/
structure StepOk0 (s : ProofStep) : Prop where
  set : SetOk s.vectSet
  perms : match s.witnesses with
    | .huffman _ ws => PermsOk (s.vectSet.channels - 1) ws
    | .successors ws => PermsOk s.vectSet.channels ws

theorem nonempty_of_ref {steps : ProofSteps} {i : ℤ} {s : ProofStep} (hs : steps i = .ok s) (h : checkStep steps i = .ok ()) :
    s.vectSet.vects ≠ [] := by
  intro he
  unfold checkStep at h
  rw [hs] at h
  cases hw : s.witnesses with
  | huffman pol ws =>
    have e5 : extremalChannels pol s.vectSet = [] := by unfold extremalChannels; simp [he]
    simp only [bind, Except.bind, hw, checkHuffman, e5, List.zip_nil_left, traverse] at h
    have : huffmanBound [] = none := by decide +kernel
    rw [this] at h
    split at h <;> cases h
  | successors ws =>
    simp only [bind, Except.bind, hw, checkSuccessors, size, he, List.length_nil, check] at h
    rw [if_neg (by simp)] at h
    cases h

theorem steps_sound {count : ℕ} {steps : ℤ → ProofStep} (hc : (count : ℤ) < 2 ^ 63)
    (hok : ∀ i, 0 ≤ i → i < (count : ℤ) → StepOk0 (steps i))
    (h : ∀ i, 0 ≤ i → i < (count : ℤ) →
      checkStep (fun n => if 0 ≤ n ∧ n < (count : ℤ) then .ok (steps n) else .error .left) i = .ok ()) :
    ∀ k : ℕ, k < count → Checker.StepOk (translateStep (steps k)) := by
  intro k
  induction k using Nat.strong_induction_on with
  | _ k ih =>
    intro hk
    have hok' := hok k (by omega) (by omega)
    by_cases hb : (∃ ws, (steps k).witnesses = .successors ws) ∧ (steps k).bound = 0
    · refine ⟨?_, ?_⟩
      · intro l hl
        have := Lazy.asBoolVectList_length _ l hl
        rw [this]
        simp [translateStep, Checker.nat]
      · have : Checker.nat (translateStep (steps k)).bound = 0 := by simp [translateStep, Checker.nat, hb.2]
        rw [this]
        exact LB_zero _
    · have hs : StepOk (steps k) := by
        refine ⟨hok'.set, ?_⟩
        have hp := hok'.perms
        cases hw : (steps k).witnesses with
        | huffman pol ws => rw [hw] at hp; exact hp
        | successors ws =>
          rw [hw] at hp
          exact ⟨hp, fun h0 => hb ⟨⟨ws, hw⟩, h0⟩⟩
      have h1 := (checkStep_iff ⟨false, 0⟩ (by omega : (0 : ℤ) ≤ k) (by omega) hc (fun j hj0 hj1 =>
        ⟨(hok j hj0 (by omega)).set, nonempty_of_ref (by rw [if_pos ⟨hj0, by omega⟩]) (h j hj0 (by omega))⟩) hs).1
        (h k (by omega) (by omega))
      refine Checker.checkStep_sound _ _ _ ?_ _ h1
      intro i h0 hi
      lift i to ℕ using h0
      rw [wrap64_eq (by omega) (by omega)]
      exact ih i (by omega) (by omega)

theorem checkProof_sound0 {count : ℕ} (hpos : 0 < count) (hc : (count : ℤ) < 2 ^ 63) {steps : ℤ → ProofStep}
    (hok : ∀ i, 0 ≤ i → i < (count : ℤ) → StepOk0 (steps i)) {w b : ℕ}
    (h : checkProof count steps = .ok (w, b)) : LowerSizeBound w b := by
  unfold checkProof at h
  dsimp only at h
  cases hp : parCheckRange (checkStep fun n => if 0 ≤ n ∧ n < (count : ℤ) then .ok (steps n) else .error .left) 0 count with
  | error e => rw [hp] at h; cases h
  | ok x =>
    rw [hp] at h
    rw [parCheckRange_ok] at hp
    have := steps_sound hc hok (fun i h0 h1 => hp i h0 (by omega)) (count - 1) (by omega)
    have e : ((count - 1 : ℕ) : ℤ) = (count : ℤ) - 1 := by omega
    rw [e] at this
    simp only [Except.ok.injEq, Prod.mk.injEq] at h
    obtain ⟨rfl, rfl⟩ := h
    have hl := this.2.lowerSizeBound
    simpa [translateStep, Checker.nat] using hl

end Sortnet.Ref

namespace Sortnet.Decode

theorem foldl_addByte_lt (bytes : List UInt8) (s : List (BitVec 64) × ℕ) (hn : s.1.Nodup) :
    (bytes.foldl addByte s).1.Nodup ∧ ∀ v ∈ (bytes.foldl addByte s).1,
      v ∈ s.1 ∨ v.toNat < s.2 + 8 * bytes.length := by
  induction bytes generalizing s with
  | nil => exact ⟨hn, fun v hv => .inl hv⟩
  | cons b bytes ih =>
    obtain ⟨a1, a2, a3⟩ := addByte_spec s b
    obtain ⟨i1, i2⟩ := ih (addByte s b) (a2 hn)
    refine ⟨i1, fun v hv => ?_⟩
    rw [List.length_cons]
    rcases i2 v hv with h | h
    · rcases (a3 v).1 h with h | ⟨i, hi, _, rfl⟩
      · exact .inl h
      · right
        rw [BitVec.toNat_ofNat]
        have := Nat.mod_le (s.2 + i) (2 ^ 64)
        omega
    · rw [a1] at h
      exact .inr (by omega)

theorem fromBytes_nodup (c : ℕ) (bytes : List UInt8) : (fromBytes c bytes).vects.Nodup :=
  (foldl_addByte_lt bytes ([], 0) List.nodup_nil).1

theorem fromBytes_lt (c : ℕ) (bytes : List UInt8) : ∀ v ∈ (fromBytes c bytes).vects, v.toNat < 8 * bytes.length := by
  intro v hv
  rcases (foldl_addByte_lt bytes ([], 0) List.nodup_nil).2 v hv with h | h
  · simp at h
  · simpa using h

end Sortnet.Decode
