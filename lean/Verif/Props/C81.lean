import Verif.Proof.Unpatched
import Verif.Props.C63
import Verif.Props.C79

/-!
# C81: the patch of the extracted checker changes the evaluation order, but not the result

`Lazy.checkProofGetBound` is the checker as it is compiled, with strict tries and `Parallel.par`; `Lazy.Raw.checkProofGetBound` is the
code that Isabelle extracts, before `strict_and_parallel.patch` is applied.  `none` is an exception (or an evaluation that does not
end), so that the equations below say that the same answer is returned, or that both throw.
-/

namespace Sortnet

open Lazy

/-- C81: for every certificate that the library function is given, with every pattern of exceptions in its parts, the checker without the
patch returns the same as the checker with it. -/
theorem C81_result (cert : ProofCert) : Raw.checkProofGetBound cert = Lazy.checkProofGetBound cert :=
  Raw.checkProofGetBound_eq cert

/-- C81 for every step of a certificate. -/
theorem C81_step (steps : ℤ → ProofStep) (limit : ℤ) (step : ProofStep) :
    Raw.checkStep steps limit step = Lazy.checkStep steps limit step := Raw.checkStep_eq steps limit step

/-- C81 for every file: `snocheck -v` prints the same, or ends with an exception, with and without the patch. -/
theorem C81_file (bytes : List UInt8) : Raw.mainVerified bytes = Lazy.mainVerified bytes := Raw.mainVerified_eq bytes

/-- So the definition in the Isabelle theories, whatever it returns where the program throws, is what both return. -/
theorem C81_isabelle {bytes : List UInt8} {r : Option (ℤ × ℤ)} (h : Raw.mainVerified bytes = some r) (u : Decode.Undef)
    (v : Thy.Undef) :
    Thy.checkProofGetBound v (Decode.translateProofSteps (Decode.stepCount u bytes) (Decode.stepFn u bytes)) = r := by
  rw [← C79_pipeline u v ⟨false, 0⟩, C63_answer ((C81_file bytes).symm.trans h)]

/-- A bound that is printed without the patch is a true lower bound. -/
theorem C81_sound {bytes : List UInt8} {w b : ℤ} (h : Raw.mainVerified bytes = some (some (w, b))) :
    LowerSizeBound w.toNat b.toNat := (C63_sound ((C81_file bytes).symm.trans h)).1

/-- The equations are about two different evaluation orders: for a trie with a vector that throws, the strict fields make a
difference.  `is_subset_vt` finds a vector that is not in the second set before it comes to the one that throws; with strict fields the
first set cannot be evaluated. -/
theorem C81_order_differs :
    Raw.isSubsetVt (Raw.vtList (.ofList [[some false, some true], [some true, none]])) .empty = some false ∧
    Lazy.isSubsetVt (Lazy.vtList [[some false, some true], [some true, none]]) (some .empty) = none := ⟨by rfl, by rfl⟩

/-- Non-vacuity: a file that is accepted without the patch, one that is rejected, and one that throws. -/
theorem C81_example :
    Raw.mainVerified Decode.file3 = some (some (3, 3)) ∧
    Raw.mainVerified (Decode.file3.set 34 4) = some none ∧ Raw.mainVerified [1, 0] = none := by
  simp only [C81_file]
  exact ⟨C63_file3, C63_rejected, C63_short_header (by decide)⟩

end Sortnet
