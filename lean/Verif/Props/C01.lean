import Verif.Proof.CheckerUndef
import Verif.Theory.Standard

/-!
# C01: an answer of the verified checker is a true lower bound

`checkProofGetBound` is the model of the exported function `check_proof_get_bound`.
-/

namespace Sortnet.Checker

/-- If the verified checker answers `(width, bound)` for a certificate, whatever the certificate is,
then every network (with arbitrary channels and orientations) that sorts all 0/1 inputs of the given
width has at least `bound` comparators. -/
theorem C01_checker_sound (u : Undef) (cert : ProofCert) (width bound : ℤ)
    (h : checkProofGetBound u cert = some (width, bound)) :
    LowerSizeBound width.toNat bound.toNat ∧ LowerSizeBoundNat width.toNat bound.toNat := by
  unfold checkProofGetBound at h
  split_ifs at h with hc
  simp only [Bool.and_eq_true, decide_eq_true_eq] at hc
  simp only [Option.some.injEq, Prod.mk.injEq] at h
  obtain ⟨rfl, rfl⟩ := h
  obtain ⟨-, hlb⟩ := checkProof_sound u cert hc.1 (cert.length - 1) (by omega) (by omega)
  have hnat : ∀ z : ℤ, nat z = z.toNat := by intro z; simp only [nat]; omega
  rw [hnat, hnat] at hlb
  exact ⟨hlb.lowerSizeBound, lowerSizeBoundNat_of_LB (hlb.mono (Set.subset_univ _))⟩

/-- Every step of an accepted certificate, not only the last one, states a true lower bound for the
set of vectors it lists. -/
theorem C01_every_step (u : Undef) (cert : ProofCert) (h : checkProof u cert = true) (i : ℤ)
    (h0 : 0 ≤ i) (hi : i < cert.length) :
    (∀ l ∈ (cert.step i).vectList, l.length = (cert.step i).width.toNat) ∧
      LB {x : Fin (cert.step i).width.toNat → Bool | List.ofFn x ∈ (cert.step i).vectList}
        (cert.step i).bound.toNat := by
  obtain ⟨hlen, hlb⟩ := checkProof_sound u cert h i h0 hi
  have hnat : ∀ z : ℤ, nat z = z.toNat := by intro z; simp only [nat]; omega
  rw [hnat] at hlen
  rw [hnat, hnat] at hlb
  refine ⟨hlen, ?_⟩
  rw [vset_eq (S := {l | l ∈ (cert.step i).vectList}) hlen] at hlb
  exact hlb

/-- The answer does not depend on the values the model substitutes for undefined Haskell
expressions: no such value is ever used by an accepting run. -/
theorem C01_undef_irrelevant (u u' : Undef) (cert : ProofCert) :
    checkProofGetBound u cert = checkProofGetBound u' cert :=
  checkProofGetBound_undef u u' cert

/-! ## Non-vacuity: a certificate that four channels need five comparators -/

/-- All vectors of a given width. -/
def allVects : ℕ → List (List Bool)
  | 0 => [[]]
  | n + 1 => (allVects n).flatMap fun l => [false :: l, true :: l]

/-- Two channels need one comparator, three need three, four need five. -/
def cert4 : ProofCert where
  length := 3
  step := fun i =>
    if i = 0 then ⟨2, allVects 2, 1, .successor [none]⟩
    else if i = 1 then ⟨3, allVects 3, 3, .huffman true (List.replicate 3 (some ⟨0, false, [0, 1]⟩))⟩
    else ⟨4, allVects 4, 5, .huffman false (List.replicate 4 (some ⟨1, true, [2, 0, 1]⟩))⟩

theorem cert4_accepted : checkProofGetBound ⟨false, 0⟩ cert4 = some (4, 5) := by decide +kernel

example : LowerSizeBound 4 5 := (C01_checker_sound _ _ _ _ cert4_accepted).1

/-- A certificate claiming six comparators for four channels is rejected. -/
example : checkProofGetBound ⟨false, 0⟩
    { cert4 with step := fun i => { cert4.step i with bound := if i = 2 then 6 else (cert4.step i).bound } }
      = none := by decide +kernel

end Sortnet.Checker
