import Verif.Proof.Truncated
import Verif.Props.C42
import Verif.Props.C41

/-!
# C60: incomplete certificates

`Decode.AcceptsReference` and `Decode.AcceptsVerified` are in Spec/Truncated.lean.
-/

namespace Sortnet

open ProofGen Decode

namespace Decode

/-- In a part of the file there is a step that is decoded to something no checker accepts. -/
theorem truncated_step {cs : List CertStep} (hc : ∀ c ∈ cs, c.Representable) (hne : cs ≠ [])
    (hn : cs.length < 127 * 2 ^ 24) (hl : (writeProof (cs.map CertStep.bytes)).length < 2 ^ 62) (P : List UInt8)
    (hp : P <+: writeProof (cs.map CertStep.bytes)) (hcut : P ≠ writeProof (cs.map CertStep.bytes)) :
    0 < stepCount cutUndef P ∧ stepCount cutUndef P < 2 ^ 32 ∧
    ((stepFn cutUndef P (stepCount cutUndef P - 1)).witnesses = .huffman false [] ∨
    (stepCount cutUndef P = cs.length ∧
      (stepFn cutUndef P ((cs.length : ℤ) - 1)).vectSet =
        (stepFn cutUndef (writeProof (cs.map CertStep.bytes)) ((cs.length : ℤ) - 1)).vectSet ∧
      SameKind (stepFn cutUndef P ((cs.length : ℤ) - 1)).witnesses
        (stepFn cutUndef (writeProof (cs.map CertStep.bytes)) ((cs.length : ℤ) - 1)).witnesses ∧
      BadList (wlist (stepFn cutUndef (writeProof (cs.map CertStep.bytes)) ((cs.length : ℤ) - 1)).witnesses).length
        (wlist (stepFn cutUndef P ((cs.length : ℤ) - 1)).witnesses))) := by
  have hP : P = (writeProof (cs.map CertStep.bytes)).take P.length := List.prefix_iff_eq_take.1 hp
  have hk : P.length < (writeProof (cs.map CertStep.bytes)).length := by
    rcases Nat.lt_or_ge P.length (writeProof (cs.map CertStep.bytes)).length with h | h
    · exact h
    · exact absurd (hp.eq_of_length_le h) hcut
  have hpos : 0 < cs.length := List.length_pos_iff.2 hne
  by_cases h4 : P.length < 4
  · have h := read32LE_missing P h4
    have e : stepCount cutUndef P = read32LE cutUndef P := rfl
    rw [e]
    refine ⟨by omega, by omega, Or.inl ?_⟩
    rw [stepFn, stepData_far P h4 _ (by omega) (by omega), decodeProofStep_nil]
  · have e : stepCount cutUndef P = cs.length := by
      rw [hP, stepCount, writeProof, List.append_assoc, le32_eq, List.take_append, leBytes_length,
        List.take_of_length_le (by rw [leBytes_length]; omega), read32LE_leBytes _ (by rw [List.length_map]; omega),
        List.length_map]
    have hlast : cs.getLast? = some (cs.getLast hne) := List.getLast?_eq_some_getLast hne
    have hrep := hc _ (List.getLast_mem hne)
    set c := cs.getLast hne with hcdef
    have hlast' : (cs.map CertStep.bytes).getLast? = some c.bytes := by rw [List.getLast?_map, hlast]; rfl
    obtain ⟨j, hj, -, hd⟩ := stepData_take hlast' hrep.length (by simp [CertStep.bytes]) hl P.length hk
    have hi : cs.length - 1 < cs.length := by omega
    have hfull : stepData cutUndef (writeProof (cs.map CertStep.bytes)) ((cs.length : ℤ) - 1) = c.bytes := by
      have hg : (cs.map CertStep.bytes)[cs.length - 1]'(by rw [List.length_map]; exact hi) = c.bytes := by
        rw [List.getElem_map, hcdef, List.getLast_eq_getElem]
      rw [show ((cs.length : ℤ) - 1) = ((cs.length - 1 : ℕ) : ℤ) by omega,
        stepData_writeProof cutUndef (by rw [List.length_map]; omega) (by omega) (cs.length - 1)
          (by rw [List.length_map]; exact hi) (by rw [hg]; exact hrep.length), hg]
    rw [List.length_map] at hd
    rw [← hP] at hd
    refine ⟨by omega, by omega, ?_⟩
    rw [e, stepFn, stepFn, hd, hfull]
    rcases decodeProofStep_take hrep j hj with h | h
    · exact Or.inl h
    · exact Or.inr ⟨rfl, h⟩

theorem decodeProofStep_undef (u u' : Undef) {c : CertStep} (h : c.Representable) :
    decodeProofStep u c.bytes = decodeProofStep u' c.bytes := by
  have hw := (decodeProofStep_bytes u h).witnesses.trans (decodeProofStep_bytes u' h).witnesses.symm
  have hv : (decodeProofStep u c.bytes).vectSet = (decodeProofStep u' c.bytes).vectSet := rfl
  have hb : (decodeProofStep u c.bytes).bound = (decodeProofStep u' c.bytes).bound := rfl
  generalize decodeProofStep u c.bytes = p at *
  generalize decodeProofStep u' c.bytes = q at *
  cases p; cases q
  simp_all

theorem stepFn_undef (u u' : Undef) {cs : List CertStep} (hc : ∀ c ∈ cs, c.Representable) (hn : cs.length < 2 ^ 32)
    (hl : (writeProof (cs.map CertStep.bytes)).length < 2 ^ 63) (i : ℤ) (h0 : 0 ≤ i) (hi : i < cs.length) :
    stepFn u (writeProof (cs.map CertStep.bytes)) i = stepFn u' (writeProof (cs.map CertStep.bytes)) i := by
  obtain ⟨i, rfl⟩ := Int.eq_ofNat_of_zero_le h0
  have hlt : i < cs.length := by omega
  have h := hc _ (List.getElem_mem hlt)
  rw [stepFn, stepFn, stepData_writeProof u (by simpa using hn) hl i (by simpa using hlt) (by simpa using h.length),
    stepData_writeProof u' (by simpa using hn) hl i (by simpa using hlt) (by simpa using h.length), List.getElem_map]
  exact decodeProofStep_undef u u' h

theorem mainReference_undef (u u' : Undef) {cs : List CertStep} (hc : ∀ c ∈ cs, c.Representable) (hne : cs ≠ [])
    (hn : cs.length < 2 ^ 32) (hl : (writeProof (cs.map CertStep.bytes)).length < 2 ^ 63) :
    mainReference u (writeProof (cs.map CertStep.bytes)) = mainReference u' (writeProof (cs.map CertStep.bytes)) := by
  unfold mainReference
  rw [stepCount_writeProof u (by simpa using hn), stepCount_writeProof u' (by simpa using hn), List.length_map,
    Int.toNat_natCast]
  exact Ref.checkProof_congr _ (List.length_pos_iff.2 hne) _ _ fun i h0 hi => stepFn_undef u u' hc hn hl i h0 hi

theorem mainVerified_undef (u u' : Undef) {v : Checker.Undef} {cs : List CertStep} (hc : ∀ c ∈ cs, c.Representable)
    (hn : cs.length < 2 ^ 32) (hl : (writeProof (cs.map CertStep.bytes)).length < 2 ^ 63) :
    mainVerified u v (writeProof (cs.map CertStep.bytes)) = mainVerified u' v (writeProof (cs.map CertStep.bytes)) := by
  unfold mainVerified
  rw [stepCount_writeProof u (by simpa using hn), stepCount_writeProof u' (by simpa using hn), List.length_map]
  refine Checker.checkProofGetBound_congr v (Int.natCast_nonneg _) fun i h0 hi => ?_
  rw [wrap64_of_lt h0 (by omega)]
  exact stepFn_undef u u' hc hn hl i h0 hi

end Decode

variable {cs : List CertStep} (hc : ∀ c ∈ cs, c.Representable) (hne : cs ≠ []) (hn : cs.length < 127 * 2 ^ 24)
  (hl : (writeProof (cs.map CertStep.bytes)).length < 2 ^ 62)

include hc hne hn hl

/-- C60.  If the reference checker accepts a certificate, it accepts no proper beginning of the file. -/
theorem C60_reference {r : ℕ × ℕ} (h : AcceptsReference (writeProof (cs.map CertStep.bytes)) r) (P : List UInt8)
    (hp : P <+: writeProof (cs.map CertStep.bytes)) (hcut : P ≠ writeProof (cs.map CertStep.bytes)) :
    ¬ ∃ r', AcceptsReference P r' := by
  rintro ⟨r', h'⟩
  have hpos : 0 < cs.length := List.length_pos_iff.2 hne
  obtain ⟨h0, h1, h2⟩ := truncated_step hc hne hn hl P hp hcut
  have k' := h' cutUndef
  have k := h cutUndef
  unfold mainReference at k k'
  rw [stepCount_writeProof _ (by rw [List.length_map]; omega), List.length_map, Int.toNat_natCast] at k
  rcases h2 with h2 | ⟨e, h3, h4, h5⟩
  · exact (Ref.checkProof_needs k' (i := stepCount cutUndef P - 1) (by omega) (by omega)).2.2 h2
  · rw [e, Int.toNat_natCast] at k'
    obtain ⟨a1, a2, -⟩ := Ref.checkProof_needs k' (i := (cs.length : ℤ) - 1) (by omega) (by omega)
    obtain ⟨b1, -, -⟩ := Ref.checkProof_needs k (i := (cs.length : ℤ) - 1) (by omega) (by omega)
    rcases h5 with h5 | ⟨w, hw, h5⟩
    · have e6 := targetCount_congr
        (stepFn cutUndef (writeProof (cs.map CertStep.bytes)) ((cs.length : ℤ) - 1)).vectSet h4
      rw [a1, b1, h3, e6] at h5
      exact absurd h5 (Nat.lt_irrefl _)
    · have := a2 w hw
      omega

/-- C60.  If the verified checker accepts a certificate, it accepts no proper beginning of the file. -/
theorem C60_verified {r : ℤ × ℤ} (h : AcceptsVerified (writeProof (cs.map CertStep.bytes)) r) (P : List UInt8)
    (hp : P <+: writeProof (cs.map CertStep.bytes)) (hcut : P ≠ writeProof (cs.map CertStep.bytes)) :
    ¬ ∃ r', AcceptsVerified P r' := by
  rintro ⟨r', h'⟩
  have hpos : 0 < cs.length := List.length_pos_iff.2 hne
  obtain ⟨h0, h1, h2⟩ := truncated_step hc hne hn hl P hp hcut
  have k' := h' cutUndef ⟨false, 0⟩
  have k := h cutUndef ⟨false, 0⟩
  unfold mainVerified at k k'
  rw [stepCount_writeProof _ (by rw [List.length_map]; omega), List.length_map] at k
  rcases h2 with h2 | ⟨e, h3, h4, h5⟩
  · exact ((Checker.checkProof_needs (by omega) k').2 (stepCount cutUndef P - 1) (by omega) (by omega)).2.2 h2
  · rw [e] at k'
    obtain ⟨a1, a2, -⟩ := (Checker.checkProof_needs (by omega) k').2 ((cs.length : ℤ) - 1) (by omega) (by omega)
    obtain ⟨b1, -, -⟩ := (Checker.checkProof_needs (by omega) k).2 ((cs.length : ℤ) - 1) (by omega) (by omega)
    rcases h5 with h5 | ⟨w, hw, h5⟩
    · have e6 := Checker.targetCount_congr ⟨false, 0⟩ h3 h4
      rw [a1, b1, e6] at h5
      exact absurd h5 (Nat.lt_irrefl _)
    · have := a2 w hw
      omega

omit hc hne hn hl

/-- C60 for the files written by `gen_proof`: under the hypotheses of C41, with fewer than `127 * 2 ^ 24` sets, no proper
beginning of the certificate is accepted. -/
theorem C60_gen_proof {fs fs' : Files.FS} {groups : List (ℕ × ℕ)} {sets : (g : ℕ × ℕ) → List (Bitmap g.1)}
    (h : Files.LogDir fs groups sets)
    (hfun : ∀ A b b', (A, b) ∈ Files.logged groups sets → (A, b') ∈ Files.logged groups sets → b = b')
    (hch : ∀ A b, (A, b) ∈ Files.logged groups sets → Chained A.s.toSet)
    (huns : ∀ A b, (A, b) ∈ Files.logged groups sets → b ≠ 0 → ¬ IsChain (· ≤ ·) A.s.toSet)
    (hsize : (Files.logged groups sets).length < 127 * 2 ^ 24) {N b : ℕ}
    (hroot : ((⟨N, allValues N⟩ : OSet), b) ∈ Files.logged groups sets)
    (hmax : ∀ q ∈ groups, q.1 ≤ N) (hb : 2 ≤ b) (hg : genProof fs = some fs') :
    ∃ file, fs' proofName = some file ∧ AcceptsVerified file (N, b) ∧
      ∀ P, P <+: file → P ≠ file → ¬ ∃ r, AcceptsVerified P r := by
  obtain ⟨cs, hf, hrep, hlen⟩ := C41_steps h hfun hch huns (lt_trans hsize (by norm_num)) hroot hmax hg
  obtain ⟨file, hf', hacc⟩ := C41_accepts h hfun hch huns (lt_trans hsize (by norm_num)) hroot hmax hb hg
  rw [hf] at hf'
  obtain rfl := Option.some.inj hf'
  refine ⟨_, hf, hacc, ?_⟩
  have hne : cs ≠ [] := by
    rintro rfl
    have := hacc cutUndef ⟨false, 0⟩
    rw [show mainVerified cutUndef ⟨false, 0⟩ (writeProof (([] : List CertStep).map CertStep.bytes)) = none by
      decide +kernel] at this
    cases this
  have hsum : ∀ l : List CertStep, (∀ c ∈ l, c.bytes.length ≤ 2048) → (l.map fun c => c.bytes.length).sum ≤ 2048 * l.length := by
    intro l
    induction l with
    | nil => intro _; simp
    | cons c l ih =>
      intro h
      have ih := ih fun c hc => h c (List.mem_cons_of_mem _ hc)
      have := h c List.mem_cons_self
      rw [List.map_cons, List.sum_cons, List.length_cons]
      omega
  have := hsum cs fun c hc => (hrep c hc).2
  exact C60_verified (fun c hc => (hrep c hc).1) hne (by omega) (by rw [C42_length]; omega) hacc

/-- Non-vacuity: a certificate with two steps that both checkers accept. -/
theorem C60_example : (∀ c ∈ exampleSteps, c.Representable) ∧
    AcceptsReference (writeProof (exampleSteps.map CertStep.bytes)) (3, 3) ∧
    AcceptsVerified (writeProof (exampleSteps.map CertStep.bytes)) (3, 3) := by
  have hl : (writeProof (exampleSteps.map CertStep.bytes)).length < 2 ^ 63 := by decide +kernel
  refine ⟨exampleSteps_representable, fun u => ?_, fun u v => ?_⟩
  · rw [mainReference_undef u cutUndef exampleSteps_representable (by simp [exampleSteps]) (by decide) hl]
    decide +kernel
  · rw [mainVerified_undef u cutUndef exampleSteps_representable (by decide) hl, mainVerified,
      Checker.checkProofGetBound_undef v ⟨false, 0⟩]
    decide +kernel

/-- Its 51 bytes without the last are accepted by neither. -/
example : (¬ ∃ r, AcceptsReference ((writeProof (exampleSteps.map CertStep.bytes)).take 51) r) ∧
    ¬ ∃ r, AcceptsVerified ((writeProof (exampleSteps.map CertStep.bytes)).take 51) r := by
  have hcut : (writeProof (exampleSteps.map CertStep.bytes)).take 51 ≠ writeProof (exampleSteps.map CertStep.bytes) := by
    decide +kernel
  have hl : (writeProof (exampleSteps.map CertStep.bytes)).length < 2 ^ 62 := by decide +kernel
  exact ⟨C60_reference C60_example.1 (by simp [exampleSteps]) (by decide) hl C60_example.2.1 _ (List.take_prefix _ _) hcut,
    C60_verified C60_example.1 (by simp [exampleSteps]) (by decide) hl C60_example.2.2 _ (List.take_prefix _ _) hcut⟩

end Sortnet
