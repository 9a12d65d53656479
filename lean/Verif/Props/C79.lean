import Verif.Proof.HuffmanAlgebra
import Verif.Props.C02

/-!
# C79: the extracted checker is the checker of the Isabelle development

Model/Thy.lean has the definitions of the Isabelle theories, Model/Checker.lean the Haskell code that was extracted from them and
patched.
-/

namespace Sortnet

/-- C79, the Haskell function and the function of the Isabelle development give the same answer for every certificate, whatever
the values are that neither specifies. -/
theorem C79_extraction (u : Checker.Undef) (v : Thy.Undef) (cert : Checker.ProofCert) :
    Checker.checkProofGetBound u cert = Thy.checkProofGetBound v cert := by
  classical
  unfold Checker.checkProofGetBound Thy.checkProofGetBound
  refine if_congr ?_ rfl rfl
  rw [Bool.and_eq_true, decide_eq_true_iff]
  refine and_congr ?_ Iff.rfl
  unfold Checker.checkProof Thy.CheckProof
  rw [Bool.and_eq_true, decide_eq_true_iff, Thy.nat_eq]
  exact and_congr Iff.rfl (Thy.parRangeAll_iff (fun i => Thy.checkStep_iff u v _ _ _) _ _)

/-- C79, the claim of the Isabelle development, for sequences over all natural numbers and comparators between any of them, is
the claim about comparator networks with `n` channels. -/
theorem C79_claim (n k : ℕ) : Thy.LowerSizeBound n k ↔ LowerSizeBound n k := by
  constructor
  · intro h cn hcn
    have := h (cn.map fun c => (c.1.val, c.2.val)) ?_
    · simpa using this
    · intro x hx i j hij
      rw [Thy.run_eq]
      obtain ⟨h1, h2⟩ := Thy.run_fin cn x
      by_cases hj : j < n
      · rw [h1 ⟨i, by omega⟩, h1 ⟨j, hj⟩]
        exact hcn _ hij
      · rw [h2 j (by omega), hx j (by omega)]
        exact Bool.le_true _
  · intro h cn hcn
    refine lowerSizeBoundNat_of_LB (LB_univ_iff.2 h) cn fun x hx => ?_
    rw [← Thy.run_eq]
    exact hcn x hx

/-- C79, `check_proof_get_bound_spec` (`Checker.thy:1468-1486`): the theorem that the Isabelle development proves. -/
theorem C79_spec (v : Thy.Undef) (cert : Checker.ProofCert) (width bound : ℤ)
    (h : Thy.checkProofGetBound v cert = some (width, bound)) : Thy.LowerSizeBound width.toNat bound.toNat := by
  rw [← C79_extraction ⟨false, 0⟩ v] at h
  exact (C79_claim _ _).2 (Checker.C01_checker_sound _ _ _ _ h).1

/-- C79, the Huffman bound of the Isabelle development is the least result of merging the values in any order. -/
theorem C79_huffman (v : Thy.Undef) (l : List ℕ) (hl : l ≠ []) : IsOptMerge l (Thy.sucmaxValueBoundHuffman v ↑l) := by
  rw [← Thy.valueBoundHuffman_eq ⟨false, 0⟩ v l hl, isOptMerge_iff hl]
  exact Checker.sucmaxValueBoundHuffman_spec _ _ hl

/-- C79, `value_bound_huffman_mset` (`Huffman.thy:1170-1172`): in every Huffman algebra, Huffman's algorithm gives the least value
of all expressions made of the given values. -/
theorem C79_huffman_algebra {α : Type*} [LinearOrder α] {comb : α → α → α} (h : Thy.HuffmanAlgebra comb) (min : α)
    (elem : Set α → α) (A : Multiset α) (hA : A ≠ 0) :
    IsLeast {v | ∃ e, Thy.msetExpr e = A ∧ Thy.valueExpr comb e = v} (Thy.valueBoundHuffman min elem comb A) :=
  Thy.valueBoundHuffman_isLeast h min elem _ A rfl hA

/-- C79, the operation used for the bounds is a Huffman algebra (`Sorting_Network.thy:981-984`). -/
theorem C79_sucmax : Thy.HuffmanAlgebra Thy.sucmax := Thy.sucmax_algebra

/-- C79, `snocheck -v` prints what the Isabelle function gives for the decoded file. -/
theorem C79_pipeline (u : Decode.Undef) (v : Thy.Undef) (w : Checker.Undef) (bytes : List UInt8) :
    Decode.mainVerified u w bytes =
      Thy.checkProofGetBound v (Decode.translateProofSteps (Decode.stepCount u bytes) (Decode.stepFn u bytes)) :=
  C79_extraction w v _

/-- Non-vacuity: a certificate is accepted, and one is rejected. -/
theorem C79_example (v : Thy.Undef) :
    (∃ cert, Thy.checkProofGetBound v cert = some (3, 3)) ∧ ∃ cert, 0 < cert.length ∧ Thy.checkProofGetBound v cert = none := by
  constructor
  · refine ⟨Decode.translateProofSteps (Decode.stepCount ⟨0, false, []⟩ Decode.file3)
      (Decode.stepFn ⟨0, false, []⟩ Decode.file3), ?_⟩
    rw [← C79_pipeline ⟨0, false, []⟩ v ⟨false, 0⟩ Decode.file3]
    exact Decode.file3_accepted
  · refine ⟨⟨1, fun _ => ⟨2, [[true, false], [false, true]], 2, .successor [none]⟩⟩, by decide, ?_⟩
    rw [← C79_extraction ⟨false, 0⟩ v]
    decide +kernel

end Sortnet
