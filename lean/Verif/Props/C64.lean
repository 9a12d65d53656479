import Verif.Proof.AcceptComplete
import Verif.Props.C01
import Verif.Props.C42

/-!
# C64: exactly which certificates are accepted

`Accept.Certifies` is in Spec/Accept.lean.
-/

namespace Sortnet

open Accept Checker ProofGen

/-- The verified checker answers `(w, b)` if and only if every step of the certificate follows from those before it, and the
last step is about `w` channels with the bound `b`. -/
theorem C64_accepts_iff (u : Undef) (cert : ProofCert) (w b : ℤ) :
    checkProofGetBound u cert = some (w, b) ↔ Certifies cert w b := checkProofGetBound_iff u cert w b

/-- For a file written by `write_proof`, `snocheck -v` prints `Just (w, b)` if and only if the steps written certify it. -/
theorem C64_file_iff {cs : List CertStep} (hc : ∀ c ∈ cs, c.Representable)
    (hn : cs.length < 2 ^ 32) (hl : (writeProof (cs.map CertStep.bytes)).length < 2 ^ 63) (w b : ℤ) :
    Lazy.mainVerified (writeProof (cs.map CertStep.bytes)) = some (some (w, b)) ↔ Certifies (certOf cs) w b :=
  written_iff hc hn hl w b

/-- The rules are sound. -/
theorem C64_sound {cert : ProofCert} {w b : ℤ} (h : Certifies cert w b) : LowerSizeBound w.toNat b.toNat :=
  (C01_checker_sound ⟨false, 0⟩ cert w b ((C64_accepts_iff _ _ _ _).2 h)).1

/-- The rules are complete, too: a bound on the size of sorting networks on `n ≥ 1` channels is true if and only if there is
a certificate that the checker accepts for it. -/
theorem C64_complete (u : Undef) {n : ℕ} (hn : 0 < n) (b : ℕ) :
    (∃ cert, checkProofGetBound u cert = some ((n : ℤ), (b : ℤ))) ↔ LowerSizeBound n b := by
  simp only [C64_accepts_iff]
  constructor
  · rintro ⟨cert, h⟩
    simpa using C64_sound h
  · exact certifies_complete hn

/-- No certificate is accepted for less than one channel. -/
theorem C64_width {u : Undef} {cert : ProofCert} {w b : ℤ} (h : checkProofGetBound u cert = some (w, b)) : 0 < w := by
  rw [C64_accepts_iff] at h
  rw [← h.2.2.1]
  exact (h.2.1 (cert.length - 1) (by have := h.1; omega) (by omega)).width_pos

/-- The order and the repetition of the vectors of the steps do not matter. -/
theorem C64_vectors (u : Undef) {c c' : ProofCert} (hl : c.length = c'.length)
    (h : ∀ i, 0 ≤ i → i < c.length → (c.step i).width = (c'.step i).width ∧ (c.step i).bound = (c'.step i).bound ∧
      (c.step i).witnesses = (c'.step i).witnesses ∧ ∀ v, v ∈ (c.step i).vectList ↔ v ∈ (c'.step i).vectList) :
    checkProofGetBound u c = checkProofGetBound u c' := by
  have hs : ∀ i, 0 ≤ i → i < c.length → SameStep (c.step i) (c'.step i) := fun i h0 h1 =>
    let ⟨a1, a2, a3, a4⟩ := h i h0 h1
    ⟨a1, a2, a3, a4⟩
  refine Option.ext fun ⟨w, b⟩ => ?_
  rw [C64_accepts_iff, C64_accepts_iff]
  exact ⟨fun h => h.congr hl hs, fun h => h.congr hl.symm fun i h0 h1 => (hs i h0 (by omega)).symm⟩

/-- The certificate up to any step is a certificate for this step. -/
theorem C64_prefix (u : Undef) {cert : ProofCert} {w b : ℤ} (h : checkProofGetBound u cert = some (w, b)) (k : ℤ) (h0 : 0 < k)
    (hk : k ≤ cert.length) : checkProofGetBound u { cert with length := k } =
      some ((cert.step (k - 1)).width, (cert.step (k - 1)).bound) := by
  rw [C64_accepts_iff] at h ⊢
  exact ⟨h0, fun i hi0 hi1 => h.2.1 i hi0 (lt_of_lt_of_le hi1 hk), rfl, rfl⟩

/-- Non-vacuity: the certificate of C01 for four channels, -/
theorem C64_example : Certifies cert4 4 5 := (C64_accepts_iff ⟨false, 0⟩ _ _ _).1 cert4_accepted

/-- and the file of C42. -/
theorem C64_example_file : Certifies (certOf exampleSteps) 3 3 := by
  have hl : (writeProof (exampleSteps.map CertStep.bytes)).length < 2 ^ 63 := by decide +kernel
  rw [← C64_file_iff exampleSteps_representable (by decide) hl]
  decide +kernel

/-- Certificates do not certify everything that is true: four channels need five comparators (C01), but the two steps that
show this for three channels are missing. -/
theorem C64_not_certified : LowerSizeBound 4 5 ∧
    ¬ Certifies ⟨1, fun _ => ⟨4, allVects 4, 5, .huffman false (List.replicate 4 none)⟩⟩ 4 5 := by
  refine ⟨C64_sound C64_example, ?_⟩
  rw [← C64_accepts_iff ⟨false, 0⟩]
  have h : checkProofGetBound ⟨false, 0⟩ ⟨1, fun _ => ⟨4, allVects 4, 5, .huffman false (List.replicate 4 none)⟩⟩ = none := by
    decide +kernel
  rw [h]
  intro h; cases h

end Sortnet
