import Verif.Proof.RefAgree
import Verif.Props.C02

/-! # A well-formed file -/

namespace Sortnet.Ref

/-- The steps of the file of `C02` are well-formed. -/
theorem file3_ok : ∀ i, 0 ≤ i → i < Decode.stepCount ⟨0, false, []⟩ Decode.file3 →
    StepOk (Decode.stepFn ⟨0, false, []⟩ Decode.file3 i) := by
  intro i h0 hi
  have hcount : Decode.stepCount ⟨0, false, []⟩ Decode.file3 = 2 := by decide +kernel
  rw [hcount] at hi
  obtain rfl | rfl : i = 0 ∨ i = 1 := by omega
  · have e : Decode.stepFn ⟨0, false, []⟩ Decode.file3 0 =
        ⟨⟨2, [3, 2, 1, 0]⟩, 1, .successors [none]⟩ := by decide +kernel
    rw [e]
    refine ⟨⟨by decide, ?_, by decide⟩, ?_, by decide⟩
    · intro v hv
      apply fits_of_lt
      simp only [List.mem_cons, List.not_mem_nil, or_false] at hv
      rcases hv with rfl | rfl | rfl | rfl <;> decide
    · intro w hw
      simp at hw
  · have e : Decode.stepFn ⟨0, false, []⟩ Decode.file3 1 =
        ⟨⟨3, [7, 6, 5, 4, 3, 2, 1, 0]⟩, 3, .huffman false
          [some ⟨0, false, [0, 1]⟩, some ⟨0, true, [0, 1]⟩, some ⟨0, false, [1, 0]⟩]⟩ := by decide +kernel
    rw [e]
    refine ⟨⟨by decide, ?_, by decide⟩, ?_⟩
    · intro v hv
      apply fits_of_lt
      simp only [List.mem_cons, List.not_mem_nil, or_false] at hv
      rcases hv with rfl | rfl | rfl | rfl | rfl | rfl | rfl | rfl <;> decide
    · intro w hw
      simp at hw
      rcases hw with rfl | rfl | rfl <;> decide

end Sortnet.Ref
