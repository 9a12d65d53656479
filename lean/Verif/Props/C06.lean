import Verif.Proof.RefExample

/-!
# C06: the two checkers agree

`StepOk` (in Spec/RefCert.lean): fewer than 64 channels, vectors without bits outside the
channels, and witnesses whose permutations are permutations of the channels of the set they are
compared with.  Successor steps have a non-zero bound, because the verified checker rejects the others
(`C06_bound_zero`).
-/

namespace Sortnet.Ref

/-- On well-formed certificates with at least one step, the reference checker accepts iff the verified
checker accepts, with the same answer. -/
theorem C06_agree (u : Checker.Undef) (count : ℕ) (hpos : 0 < count) (hc : (count : ℤ) < 2 ^ 63)
    (steps : ℤ → ProofStep) (hok : ∀ i, 0 ≤ i → i < (count : ℤ) → StepOk (steps i)) (w b : ℕ) :
    checkProof count steps = .ok (w, b) ↔
      Checker.checkProofGetBound u (Decode.translateProofSteps count steps) = some ((w : ℤ), (b : ℤ)) :=
  checkProof_iff u hpos hc steps hok w b

/-- The same for files: the two modes of the program give the same answer. -/
theorem C06_files (u : Decode.Undef) (v : Checker.Undef) (bytes : List UInt8)
    (hpos : 0 < Decode.stepCount u bytes) (hc : Decode.stepCount u bytes < 2 ^ 63)
    (hok : ∀ i, 0 ≤ i → i < Decode.stepCount u bytes → StepOk (Decode.stepFn u bytes i)) (w b : ℕ) :
    Decode.mainReference u bytes = .ok (w, b) ↔ Decode.mainVerified u v bytes = some ((w : ℤ), (b : ℤ)) := by
  have e : ((Decode.stepCount u bytes).toNat : ℤ) = Decode.stepCount u bytes := Int.toNat_of_nonneg (by omega)
  have := C06_agree v (Decode.stepCount u bytes).toNat (by omega) (by omega) (Decode.stepFn u bytes)
    (fun i h0 hi => hok i h0 (by omega)) w b
  rw [e] at this
  exact this

/-- Without steps the reference checker answers from whatever is decoded as step `-1`, the verified
checker gives no answer. -/
theorem C06_no_steps (u : Checker.Undef) (steps : ℤ → ProofStep) :
    checkProof 0 steps = .ok ((steps (-1)).vectSet.channels, (steps (-1)).bound) ∧
    Checker.checkProofGetBound u (Decode.translateProofSteps 0 steps) = none := by
  constructor
  · have : parCheckRange (checkStep fun n => if 0 ≤ n ∧ n < ((0 : ℕ) : ℤ) then .ok (steps n) else .error .left) 0 0
        = .ok () := (parCheckRange_ok _ _ _).2 (by intro i h1 h2; simp at h2; omega)
    unfold checkProof
    simp only [this]
    rfl
  · simp [Checker.checkProofGetBound, Decode.translateProofSteps]

/-- A successor step with bound 0 is accepted by the reference checker and rejected by the verified
one. -/
theorem C06_bound_zero :
    let s : ProofStep := ⟨⟨2, [0, 1, 2, 3]⟩, 0, .successors [none]⟩
    checkProof 1 (fun _ => s) = .ok (2, 0) ∧
      Checker.checkProofGetBound ⟨false, 0⟩ (Decode.translateProofSteps 1 fun _ => s) = none := by
  decide +kernel

/-- Non-vacuity: the file of `C02` is well-formed and accepted by both. -/
example : Decode.mainReference ⟨0, false, []⟩ Decode.file3 = .ok (3, 3) ∧
    Decode.mainVerified ⟨0, false, []⟩ ⟨false, 0⟩ Decode.file3 = some (3, 3) ∧
    (0 < Decode.stepCount ⟨0, false, []⟩ Decode.file3) ∧
    ∀ i, 0 ≤ i → i < Decode.stepCount ⟨0, false, []⟩ Decode.file3 →
      StepOk (Decode.stepFn ⟨0, false, []⟩ Decode.file3 i) :=
  ⟨by decide +kernel, Decode.file3_accepted, by decide +kernel, file3_ok⟩

end Sortnet.Ref
