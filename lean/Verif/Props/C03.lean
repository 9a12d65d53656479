import Verif.Props.C01

/-!
# C03: the parallel range check is the sequential range check

The steps of a certificate are numbered from 0; step `i` is given to `checkStep` together with its number.
-/

namespace Sortnet.Checker

/-- For every predicate and every range, splitting the range recursively and checking the halves in
parallel gives the same answer as checking the numbers one after the other. -/
theorem C03_par_range_all (f : ℕ → Bool) (lo n : ℕ) :
    parRangeAll f lo n = (List.range n).all fun k => f (lo + k) := by
  rw [Bool.eq_iff_iff, parRangeAll_iff]
  simp only [List.all_eq_true, List.mem_range]
  constructor
  · intro h k hk
    exact h _ (by omega) (by omega)
  · intro h k hk hk'
    have := h (k - lo) (by omega)
    rwa [show lo + (k - lo) = k by omega] at this

/-- A certificate is accepted iff every single step is accepted, each with its own number as the limit for
references. -/
theorem C03_check_proof (u : Undef) (cert : ProofCert) :
    checkProof u cert = true ↔
      0 ≤ cert.length ∧ ∀ i, 0 ≤ i → i < cert.length → checkStep u cert.step i (cert.step i) = true := by
  unfold checkProof
  rw [Bool.and_eq_true, decide_eq_true_eq, C03_par_range_all, List.all_eq_true]
  refine and_congr_right fun h0 => ⟨fun h i h1 h2 => ?_, fun h k hk => ?_⟩
  · have := h i.toNat (List.mem_range.2 (by unfold nat; omega))
    rwa [Nat.zero_add, Int.toNat_of_nonneg h1] at this
  · rw [List.mem_range] at hk
    rw [Nat.zero_add]
    exact h k (by omega) (by unfold nat at hk; omega)

/-- Whether a step with number `i` is accepted depends only on the step and on those before it. -/
theorem C03_earlier_steps (u : Undef) (i : ℤ) (steps steps' : ℤ → ProofStep)
    (h : ∀ k, 0 ≤ k → k < i → steps k = steps' k) (step : ProofStep) :
    checkStep u steps i step = checkStep u steps' i step := by
  unfold checkStep checkHuffman checkSuccessors
  rw [getBound_congr u h]

/-- The last step of the certificate of `C01` is accepted, also when it is changed where only later steps could look, but
not when an earlier step is replaced. -/
example : checkStep ⟨false, 0⟩ cert4.step 2 (cert4.step 2) = true ∧
    checkStep ⟨false, 0⟩ (fun k => if k < 2 then cert4.step k else cert4.step 0) 2 (cert4.step 2) = true ∧
    checkStep ⟨false, 0⟩ (fun k => if k < 1 then cert4.step k else cert4.step 0) 2 (cert4.step 2) = false := by
  decide +kernel

/-- A range that is split (more than 1000 elements) and fails at one number only. -/
example : parRangeAll (fun k => k != 2345) 1000 1500 = false := by
  rw [C03_par_range_all, Bool.eq_false_iff]
  intro h
  have := List.all_eq_true.1 h 1345 (by simp)
  simp at this

end Sortnet.Checker
