import Verif.Proof.Accept
import Verif.Proof.CheckerAccept
import Verif.Proof.LazyFile

/-! # Files and the certificates of Spec/Accept.lean -/

namespace Sortnet.Accept

open Checker (ProofWitness ProofStep ProofCert)

/-- Two steps that differ at most in the order and repetition of their vectors. -/
structure SameStep (s t : ProofStep) : Prop where
  width : s.width = t.width
  bound : s.bound = t.bound
  witnesses : s.witnesses = t.witnesses
  vects : ∀ v, v ∈ s.vectList ↔ v ∈ t.vectList

theorem SameStep.symm {s t : ProofStep} (h : SameStep s t) : SameStep t s :=
  ⟨h.width.symm, h.bound.symm, h.witnesses.symm, fun v => (h.vects v).symm⟩

theorem Shows.congr {steps steps' : ℤ → ProofStep} {limit : ℤ} (h : ∀ i, 0 ≤ i → i < limit → SameStep (steps i) (steps' i))
    {n : ℕ} {A : Set (List Bool)} {w : Option ProofWitness} {b : ℕ} (hs : Shows steps limit n A w b) :
    Shows steps' limit n A w b := by
  cases hs with
  | few h => exact .few h
  | many h => exact .many h
  | step w h0 h1 hp hsub =>
    have hss := h _ h0 h1
    rw [hss.bound]
    exact .step w h0 h1 hp fun v hv => hsub v ((hss.vects v).2 hv)

theorem StepFollows.congr {steps steps' : ℤ → ProofStep} {limit : ℤ}
    (h : ∀ i, 0 ≤ i → i < limit → SameStep (steps i) (steps' i)) {s t : ProofStep} (hst : SameStep s t)
    (hf : StepFollows steps limit s) : StepFollows steps' limit t := by
  obtain ⟨h1, h2⟩ := hf
  have hV : {v | v ∈ t.vectList} = {v | v ∈ s.vectList} := by
    ext v
    exact (hst.vects v).symm
  unfold StepFollows
  rw [hV, ← hst.width, ← hst.bound, ← hst.witnesses]
  refine ⟨fun v hv => h1 v ((hst.vects v).2 hv), ?_⟩
  cases hw : s.witnesses with
  | successor ws =>
    rw [hw] at h2
    exact ⟨h2.1, h2.2.1, h2.2.2.imp fun _ _ ⟨b, hb, hle⟩ => ⟨b, hb.congr h, hle⟩⟩
  | huffman pol ws =>
    rw [hw] at h2
    obtain ⟨a1, a2, bs, m, a3, a4, a5, a6⟩ := h2
    exact ⟨a1, a2, bs, m, a3, a4, a5, a6.imp fun _ _ hs => hs.congr h⟩

theorem Certifies.congr {c c' : ProofCert} (hl : c.length = c'.length)
    (h : ∀ i, 0 ≤ i → i < c.length → SameStep (c.step i) (c'.step i)) {w b : ℤ} (hc : Certifies c w b) :
    Certifies c' w b := by
  obtain ⟨h0, h1, h2, h3⟩ := hc
  have hlast := h (c.length - 1) (by omega) (by omega)
  refine ⟨by omega, fun i hi0 hi1 => ?_, by rw [← hl, ← hlast.width, h2], by rw [← hl, ← hlast.bound, h3]⟩
  exact (h1 i hi0 (by omega)).congr (fun j hj0 hj1 => h j hj0 (by omega)) (h i hi0 (by omega))

theorem translated_sameStep {c : CertStep} {s : ProofStep} (h : Checker.Translated c s) : SameStep s (stepOf c) := by
  refine ⟨h.width, h.bound, ?_, fun v => ?_⟩
  · cases hk : c.kind with
    | huffman pol =>
      rw [h.huffman pol hk]
      unfold stepOf
      rw [hk]
      rfl
    | successors =>
      rw [h.successors hk]
      unfold stepOf
      rw [hk]
      rfl
  · rw [h.lists v]
    simp only [stepOf, List.mem_map, Finset.mem_toList, Set.Finite.mem_toFinset]
    exact exists_congr fun x => and_congr_right fun _ => eq_comm

open ProofGen

attribute [local irreducible] Decode.wrap64 Decode.bit

theorem written_iff {cs : List CertStep} (hc : ∀ c ∈ cs, c.Representable)
    (hn : cs.length < 2 ^ 32) (hl : (writeProof (cs.map CertStep.bytes)).length < 2 ^ 63) (w b : ℤ) :
    Lazy.mainVerified (writeProof (cs.map CertStep.bytes)) = some (some (w, b)) ↔ Certifies (certOf cs) w b := by
  rw [Lazy.mainVerified_written ⟨0, false, []⟩ ⟨false, 0⟩ hc hn hl, Option.some.injEq]
  unfold Decode.mainVerified
  rw [Checker.checkProofGetBound_iff]
  set cert := Decode.translateProofSteps (Decode.stepCount ⟨0, false, []⟩ (writeProof (cs.map CertStep.bytes)))
    (Decode.stepFn ⟨0, false, []⟩ (writeProof (cs.map CertStep.bytes))) with hcert
  have hlen : cert.length = (certOf cs).length := by
    have := Decode.stepCount_writeProof ⟨0, false, []⟩ (steps := cs.map CertStep.bytes) (by simpa using hn)
    rw [List.length_map] at this
    exact this
  have hsame : ∀ i, 0 ≤ i → i < cert.length → SameStep (cert.step i) ((certOf cs).step i) := by
    intro i h0 h1
    rw [hlen] at h1
    lift i to ℕ using h0
    have hi : i < cs.length := by
      have : (i : ℤ) < (cs.length : ℤ) := h1
      omega
    have e1 : (certOf cs).step i = stepOf cs[i] := by
      simp [certOf, hi]
    rw [e1]
    apply translated_sameStep
    show Checker.Translated cs[i] (Decode.translateStep (Decode.stepFn _ _ (Decode.wrap64 i)))
    apply Checker.Decoded.translated
    rw [Decode.wrap64_nat (by omega), Decode.stepFn]
    have hr := hc _ (List.getElem_mem hi)
    rw [Decode.stepData_writeProof ⟨0, false, []⟩ (steps := cs.map CertStep.bytes) (by simpa using hn) hl i (by simpa using hi)
      (by simpa using hr.length)]
    rw [List.getElem_map]
    exact Decode.decodeProofStep_bytes _ hr
  exact ⟨fun h => h.congr hlen hsame, fun h => h.congr hlen.symm fun i h0 h1 => (hsame i h0 (by omega)).symm⟩

end Sortnet.Accept
