import Verif.Proof.ProofDecode

/-!
# C42: round trip of certificate files

`CertStep.Representable` and `CertStep.Decoded` are in Spec/Cert.lean.
-/

namespace Sortnet

open ProofGen

/-- C42.  For every list of representable steps, the decoder of the checker finds in the file written by `write_proof` as
many steps as were written, and the step with number `i` is decoded to the `i`-th step.  The values `u` of expressions
that throw do not matter. -/
theorem C42_round_trip (u : Decode.Undef) {cs : List CertStep} (hc : ∀ c ∈ cs, c.Representable) (hn : cs.length < 2 ^ 32)
    (hl : (writeProof (cs.map CertStep.bytes)).length < 2 ^ 63) :
    Decode.stepCount u (writeProof (cs.map CertStep.bytes)) = cs.length ∧
      ∀ (i : ℕ) (c : CertStep), cs[i]? = some c → c.Decoded (Decode.stepFn u (writeProof (cs.map CertStep.bytes)) i) := by
  refine ⟨by rw [Decode.stepCount_writeProof u (by simpa using hn), List.length_map], fun i c hi => ?_⟩
  obtain ⟨hlt, rfl⟩ := List.getElem?_eq_some_iff.1 hi
  have h := hc _ (List.getElem_mem hlt)
  rw [Decode.stepFn, Decode.stepData_writeProof u (by simpa using hn) hl i (by simpa using hlt) (by simpa using h.length),
    List.getElem_map]
  exact Decode.decodeProofStep_bytes u h

/-- The length of the file of a step list; it bounds the hypothesis on sizes. -/
theorem C42_length (cs : List CertStep) : (writeProof (cs.map CertStep.bytes)).length =
    4 + 12 * cs.length + (cs.map fun c => c.bytes.length).sum := by
  rw [writeProof, List.length_append, List.length_append, Decode.offsetTable_length, le32_eq, Decode.leBytes_length,
    List.length_flatten, List.map_map, List.length_map]
  rfl

/-- The steps are determined by what is decoded: two representable steps with the same decoding are equal. -/
theorem C42_injective {c d : CertStep} {p : Ref.ProofStep} (hc : c.Decoded p) (hd : d.Decoded p) : c = d := by
  obtain ⟨⟨n, s⟩, b, k, r⟩ := c
  obtain ⟨⟨n', s'⟩, b', k', r'⟩ := d
  have e1 : n = n' := hc.channels.symm.trans hd.channels
  subst e1
  have e2 : s = s' := by
    have : s.toSet = s'.toSet := by
      ext x
      have h1 := hc.mem (List.ofFn x)
      have h2 := hd.mem (List.ofFn x)
      simp only [List.ofFn_inj] at h1 h2
      simpa using h1.symm.trans h2
    exact Bitmap.toSet_injective this
  subst e2
  have e3 : b = b' := hc.bound.symm.trans hd.bound
  subst e3
  have e4 := hc.witnesses.symm.trans hd.witnesses
  have inj : Function.Injective fun r : Option CertRef => r.map fun r =>
      ({ stepId := r.id, invert := r.invert, perm := r.perm } : Ref.Witness) := by
    apply Option.map_injective
    rintro ⟨a, b, c⟩ ⟨a', b', c'⟩ h
    simp only [Ref.Witness.mk.injEq] at h
    obtain ⟨rfl, rfl, rfl⟩ := h
    rfl
  unfold CertStep.witnesses at e4
  cases k <;> cases k' <;> simp only [Ref.Witnesses.huffman.injEq, Ref.Witnesses.successors.injEq, reduceCtorEq] at e4
  · obtain ⟨rfl, e4⟩ := e4
    rw [List.map_injective_iff.2 inj e4]
  · rw [List.map_injective_iff.2 inj e4]

/-- A list of two steps, with a reference and a missing reference. -/
def exampleSteps : List CertStep :=
  [⟨⟨2, allValues 2⟩, 1, .successors, [none]⟩,
   ⟨⟨3, allValues 3⟩, 3, .huffman true, [some ⟨true, [1, 0], 0⟩, none, some ⟨false, [0, 1], 0⟩]⟩]

theorem exampleSteps_representable : ∀ c ∈ exampleSteps, c.Representable := by
  intro c hc
  simp only [exampleSteps, List.mem_cons, List.not_mem_nil, or_false] at hc
  rcases hc with rfl | rfl
  · exact ⟨by decide, by decide, by simp, by decide +kernel⟩
  · refine ⟨by decide, by decide, ?_, by decide +kernel⟩
    intro r hr
    simp only [List.mem_cons, Option.some.injEq, reduceCtorEq, false_or, List.not_mem_nil, or_false] at hr
    rcases hr with rfl | rfl <;> exact ⟨rfl, by decide, by decide⟩

/-- The hypotheses of `C42_round_trip` hold for it. -/
example : (∀ c ∈ exampleSteps, c.Representable) ∧ exampleSteps.length < 2 ^ 32 ∧
    (writeProof (exampleSteps.map CertStep.bytes)).length < 2 ^ 63 :=
  ⟨exampleSteps_representable, by decide, by decide +kernel⟩

end Sortnet
