import Verif.Model.Decode
import Verif.Props.C01

/-!
# C02: `snocheck -v` is sound for every file

`mainVerified u v bytes` is the result printed for a file: header and steps are decoded, translated
and given to the verified checker.  `u` and `v` stand for the values of Haskell expressions that throw.
-/

namespace Sortnet.Decode

/-- Whatever the bytes of the file are, a printed `Just (w, b)` is a true lower bound for sorting
networks with `w` channels. -/
theorem C02_verified_pipeline_sound (u : Undef) (v : Checker.Undef) (bytes : List UInt8) (w b : ℤ)
    (h : mainVerified u v bytes = some (w, b)) :
    LowerSizeBound w.toNat b.toNat ∧ LowerSizeBoundNat w.toNat b.toNat :=
  Checker.C01_checker_sound v _ w b h

/-- The numbers printed are the two bytes at the start of the last step of the file. -/
theorem C02_answer (u : Undef) (v : Checker.Undef) (bytes : List UInt8) (w b : ℤ)
    (h : mainVerified u v bytes = some (w, b)) :
    0 < stepCount u bytes ∧
    w = (index u (stepData u bytes (wrap64 (stepCount u bytes - 1))) 0).toNat ∧
    b = (index u (stepData u bytes (wrap64 (stepCount u bytes - 1))) 1).toNat := by
  unfold mainVerified Checker.checkProofGetBound at h
  split_ifs at h with hc
  simp only [Bool.and_eq_true, decide_eq_true_eq] at hc
  simp only [translateProofSteps, translateStep, stepFn, decodeProofStep, fromBytes] at h hc
  rw [Option.some.injEq, Prod.mk.injEq] at h
  obtain ⟨h1, h2⟩ := h
  exact ⟨hc.2, h1.symm, h2.symm⟩

/-- A file with the two steps "two channels need one comparator" and "three channels need three". -/
def file3 : List UInt8 :=
  [2, 0, 0, 0,
   28, 0, 0, 0, 0, 0, 0, 0, 5, 0, 0, 0,
   33, 0, 0, 0, 0, 0, 0, 0, 25, 0, 0, 0,
   2, 1, 0x0F, 2, 2,
   3, 3, 0xFF, 0, 0, 0, 1, 0, 0, 0, 0, 1, 0, 1, 0, 0, 0, 0, 0, 1, 0, 0, 0, 0, 0]

/-- Non-vacuity. -/
theorem file3_accepted :
    mainVerified ⟨0, false, []⟩ ⟨false, 0⟩ file3 = some (3, 3) := by decide +kernel

example : LowerSizeBound 3 3 := (C02_verified_pipeline_sound _ _ _ _ _ file3_accepted).1

end Sortnet.Decode
