import Verif.Proof.Huffman
import Verif.Proof.CheckerSound

/-!
# C09: the three implementations of the Huffman bound agree
-/

namespace Sortnet

/-- On every non-empty list, the extracted function and the reference function agree, whatever the
crash values of the extracted code are, and both are the optimal merge value. -/
theorem C09_checkers (u : Checker.Undef) (bs : List ℕ) (hne : bs ≠ []) :
    huffmanBound bs = some (Checker.sucmaxValueBoundHuffman u bs) ∧
    IsOptMerge bs (Checker.sucmaxValueBoundHuffman u bs) := by
  have h := Checker.sucmaxValueBoundHuffman_spec u bs hne
  exact ⟨huffmanBound_spec bs hne h, (isOptMerge_iff hne).2 h⟩

/-- On every non-empty list of bytes, the Rust function agrees with both, unless the common value
does not fit in a byte. -/
theorem C09_rust (u : Checker.Undef) (bs : List ℕ) (hne : bs ≠ []) (hb : ∀ b ∈ bs, b < 256) (v : ℕ) :
    maxPlus1Huffman bs = some v ↔ v < 256 ∧ Checker.sucmaxValueBoundHuffman u bs = v ∧
      huffmanBound bs = some v := by
  have h := Checker.sucmaxValueBoundHuffman_spec u bs hne
  rw [maxPlus1Huffman_spec bs hne hb h, huffmanBound_spec bs hne h]
  constructor
  · intro h'
    split_ifs at h' with h1
    cases h'
    exact ⟨h1, rfl, rfl⟩
  · rintro ⟨h1, rfl, _⟩
    rw [if_pos h1]

/-- On the empty list they differ: 0, an undefined value of the extracted code and a pattern match
failure. -/
theorem C09_empty (u : Checker.Undef) : maxPlus1Huffman [] = some 0 ∧
    Checker.sucmaxValueBoundHuffman u [] = u.nat ∧ huffmanBound [] = none := by
  refine ⟨by decide +kernel, ?_, by decide +kernel⟩
  unfold Checker.sucmaxValueBoundHuffman
  simp [Checker.sizeList, Checker.genLength]

/-- Non-vacuity. -/
example : maxPlus1Huffman [3, 1, 4, 1, 5, 3] = some 7 ∧ huffmanBound [3, 1, 4, 1, 5, 3] = some 7 := by
  decide +kernel

end Sortnet
