import Verif.Model.Snocheck
import Verif.Proof.Dot
import Verif.Props.C05
import Verif.Props.C77

/-!
# C80: what `snocheck` and `verify_proof_cert.sh` tell the user

`Snocheck.main msg fs args` is what the program writes to the standard output and its exit status, if the files are `fs` and the
arguments are `args`; `Snocheck.script` is the same for the script.
-/

namespace Sortnet

open Files Snocheck Script

/-- The text `Just (w,b)` and a newline. -/
def justText (w b : ℕ) : Str :=
  str ['J', 'u', 's', 't', ' ', '('] ++ dec w ++ str [','] ++ dec b ++ str [')', '\n']

/-- The text `Nothing` and a newline. -/
def nothingText : Str := str ['N', 'o', 't', 'h', 'i', 'n', 'g', '\n']

theorem justText_inj {w b w' b' : ℕ} (h : justText w b = justText w' b') : w = w' ∧ b = b' := by
  unfold justText at h
  simp only [List.append_assoc, List.append_cancel_left_eq] at h
  have hc : ∀ n, (44 : UInt8) ∉ dec n := fun n hn => absurd (mem_dec hn).1 (by decide)
  have hd : ∀ n, (41 : UInt8) ∉ dec n := fun n hn => absurd (mem_dec hn).1 (by decide)
  obtain ⟨h1, h2⟩ := append_sep_inj (hc _) (hc _) h
  obtain ⟨h3, _⟩ := append_sep_inj (hd _) (hd _) h2
  exact ⟨dec_injective h1, dec_injective h3⟩

theorem accepted_nat {bytes : List UInt8} {w b : ℤ} (h : Lazy.mainVerified bytes = some (some (w, b))) :
    0 ≤ w ∧ 0 ≤ b := by
  obtain ⟨_, h1, h2⟩ := Decode.C02_answer ⟨0, false, []⟩ ⟨false, 0⟩ bytes w b (C63_answer h _ _)
  rw [h1, h2]
  exact ⟨Int.natCast_nonneg _, Int.natCast_nonneg _⟩

theorem show_just {w b : ℤ} (h : 0 ≤ w ∧ 0 ≤ b) : showMaybe (some (w, b)) ++ [10] = justText w.toNat b.toNat := by
  unfold showMaybe showPair showInt justText
  dsimp only
  rw [if_neg (by omega), if_neg (by omega), show w.natAbs = w.toNat by omega, show b.natAbs = b.toNat by omega]
  simp only [List.append_assoc]
  rfl

theorem show_nothing : showMaybe none ++ [10] = nothingText := rfl

/-- C80, the output of `snocheck -v` for a file that can be read: `Just (w,b)` if the checker accepts it with this answer, `Nothing`
if it rejects it, and nothing with a status that is not 0 if there is an exception. -/
theorem C80_verified (msg : List UInt8 → Str) (fs : FS) (f : Str) (bytes : List UInt8) (hf : fs f = some bytes) :
    (∀ w b : ℕ, main msg fs [str ['-', 'v'], f] = ⟨justText w b, 0⟩ ↔ Lazy.mainVerified bytes = some (some ((w : ℤ), (b : ℤ)))) ∧
    (main msg fs [str ['-', 'v'], f] = ⟨nothingText, 0⟩ ↔ Lazy.mainVerified bytes = some none) ∧
    (main msg fs [str ['-', 'v'], f] = ⟨[], 1⟩ ↔ Lazy.mainVerified bytes = none) := by
  have e : main msg fs [str ['-', 'v'], f] = match Lazy.mainVerified bytes with
      | some r => ⟨showMaybe r ++ [10], 0⟩
      | none => uncaught := by
    unfold main
    dsimp only
    rw [if_neg (show str ['-', 'v'] ≠ str ['-', 'r'] by decide), if_pos rfl, hf]
    rfl
  rw [e]
  cases hv : Lazy.mainVerified bytes with
  | none => simp [uncaught]
  | some r =>
    cases r with
    | none =>
      refine ⟨fun w b => ?_, ?_, ?_⟩
      · simp [show_nothing, nothingText, justText, str]
      · simp [show_nothing]
      · simp
    | some p =>
      obtain ⟨w, b⟩ := p
      have hn := accepted_nat hv
      dsimp only
      rw [show_just hn]
      refine ⟨fun w' b' => ?_, ?_, ?_⟩
      · constructor
        · intro h
          obtain ⟨h1, h2⟩ := justText_inj (Exit.mk.inj h).1
          rw [Option.some.injEq, Option.some.injEq, Prod.mk.injEq]
          omega
        · intro h
          rw [Option.some.injEq, Option.some.injEq, Prod.mk.injEq] at h
          rw [h.1, h.2]
          rfl
      · simp [nothingText, justText, str]
      · simp

/-- C80, whatever the arguments and the files are: if the output begins with `Just`, the verified checker was used, the output
is `Just (w,b)` for some numbers, and `b` is a lower bound for `w` channels. -/
theorem C80_just (msg : List UInt8 → Str) (fs : FS) (args : List Str)
    (h : str ['J', 'u', 's', 't'] <+: (main msg fs args).stdout) :
    ∃ (f : Str) (w b : ℕ), args = [str ['-', 'v'], f] ∧ main msg fs args = ⟨justText w b, 0⟩ ∧ LowerSizeBound w b := by
  have hu : ¬ str ['J', 'u', 's', 't'] <+: usage := by decide
  match args with
  | [] => exact absurd h hu
  | [_] => exact absurd h hu
  | _ :: _ :: _ :: _ => exact absurd h hu
  | [o, f] =>
    by_cases h1 : o = str ['-', 'v']
    · subst h1
      cases hf : fs f with
      | none =>
        exfalso
        revert h
        unfold main
        dsimp only
        rw [if_neg (show str ['-', 'v'] ≠ str ['-', 'r'] by decide), if_pos rfl, hf]
        decide
      | some bytes =>
        obtain ⟨hv1, hv2, hv3⟩ := C80_verified msg fs f bytes hf
        cases hv : Lazy.mainVerified bytes with
        | none => rw [hv3.2 hv] at h; exact absurd h (by decide)
        | some r =>
          cases r with
          | none => rw [hv2.2 hv] at h; exact absurd h (by decide)
          | some p =>
            obtain ⟨w, b⟩ := p
            have hn := accepted_nat hv
            refine ⟨f, w.toNat, b.toNat, rfl, (hv1 _ _).2 ?_, (C63_sound hv).1⟩
            rw [hv, Int.toNat_of_nonneg hn.1, Int.toNat_of_nonneg hn.2]
    · exfalso
      revert h
      unfold main
      dsimp only
      by_cases h2 : o = str ['-', 'r']
      · rw [if_pos h2]
        cases fs f with
        | none => dsimp only; decide
        | some bytes =>
          dsimp only
          split <;> simp [str, uncaught]
      · rw [if_neg h2, if_neg h1]
        exact hu

/-- C80, the output can be read: from a line `Just (w,b)` the two numbers are known, and they are a true lower bound. -/
theorem C80_read (msg : List UInt8 → Str) (fs : FS) (args : List Str) (w b : ℕ)
    (h : (main msg fs args).stdout = justText w b) : LowerSizeBound w b := by
  obtain ⟨f, w', b', _, h2, h3⟩ := C80_just msg fs args (by rw [h]; exact ⟨_, rfl⟩)
  rw [h2] at h
  obtain ⟨rfl, rfl⟩ := justText_inj h
  exact h3

/-- C80, the exit status of `snocheck` is 1 if and only if a checker was chosen and the file cannot be read or there is an
exception, and else 0; it does not tell whether the certificate is accepted. -/
theorem C80_status (msg : List UInt8 → Str) (fs : FS) (args : List Str) :
    ((main msg fs args).status = 0 ∨ (main msg fs args).status = 1) ∧
    ((main msg fs args).status = 1 ↔ ∃ o f, args = [o, f] ∧ (o = str ['-', 'r'] ∨ o = str ['-', 'v']) ∧
      ∀ bytes, fs f = some bytes → (o = str ['-', 'r'] → Lazy.mainReference bytes = .error .crash) ∧
        (o = str ['-', 'v'] → Lazy.mainVerified bytes = none)) := by
  have hrv : str ['-', 'r'] ≠ str ['-', 'v'] := by decide
  match args with
  | [] => simp [main]
  | [_] => simp [main]
  | _ :: _ :: _ :: _ => simp [main]
  | [o, f] =>
    have e : (∃ o' f', [o, f] = [o', f'] ∧ (o' = str ['-', 'r'] ∨ o' = str ['-', 'v']) ∧
        ∀ bytes, fs f' = some bytes → (o' = str ['-', 'r'] → Lazy.mainReference bytes = .error .crash) ∧
          (o' = str ['-', 'v'] → Lazy.mainVerified bytes = none)) ↔ (o = str ['-', 'r'] ∨ o = str ['-', 'v']) ∧
        ∀ bytes, fs f = some bytes → (o = str ['-', 'r'] → Lazy.mainReference bytes = .error .crash) ∧
          (o = str ['-', 'v'] → Lazy.mainVerified bytes = none) := by
      constructor
      · rintro ⟨o', f', h, h'⟩
        simp only [List.cons.injEq, and_true] at h
        obtain ⟨rfl, rfl⟩ := h
        exact h'
      · exact fun h => ⟨o, f, rfl, h⟩
    rw [e]
    unfold main
    dsimp only
    by_cases h1 : o = str ['-', 'r']
    · subst h1
      simp only [if_true, true_or, true_and, forall_true_left, hrv, false_implies, and_true]
      cases fs f with
      | none => simp [uncaught]
      | some bytes =>
        simp only [Option.some.injEq, forall_eq']
        split <;> rename_i h2 <;> simp [h2, uncaught]
    · by_cases h2 : o = str ['-', 'v']
      · subst h2
        simp only [h1, if_false, if_true, or_true, true_and, forall_true_left, false_implies]
        cases fs f with
        | none => simp [uncaught]
        | some bytes =>
          simp only [Option.some.injEq, forall_eq']
          split <;> rename_i h2 <;> simp [h2, uncaught]
      · simp [h1, h2]

/-- C80, `verify_proof_cert.sh CERTBIN`: after an introduction that does not depend on the file, the output of `snocheck -v`; and
its exit status. -/
theorem C80_script (msg : List UInt8 → Str) (fs : FS) (f : Str) (more : List Str) (hf : f ≠ []) :
    (script msg fs (f :: more)).stdout = banner ++ (main msg fs [str ['-', 'v'], f]).stdout ∧
    (script msg fs (f :: more)).status = (main msg fs [str ['-', 'v'], f]).status := by
  unfold script
  dsimp only
  rw [if_neg hf]
  exact ⟨rfl, rfl⟩

/-- C80, the script without an argument, or with an empty one, prints how to use it and has the exit status 1, which is not that
of the checker in the same case. -/
theorem C80_script_usage (msg : List UInt8 → Str) (fs : FS) (args : List Str) (h : args = [] ∨ args.head? = some []) :
    script msg fs args = ⟨str "usage: bash verify_proof_cert.sh CERTBIN\n".toList, 1⟩ ∧ (main msg fs []).status = 0 := by
  refine ⟨?_, rfl⟩
  rcases h with rfl | h
  · exact congrArg (Exit.mk · 1) (by decide +kernel)
  · cases args with
    | nil => exact absurd h (by simp)
    | cons f more =>
      obtain rfl : f = [] := Option.some.inj h
      exact congrArg (Exit.mk · 1) (by decide +kernel)

/-- Non-vacuity: an empty argument followed by another one. -/
example (msg : List UInt8 → Str) (fs : FS) : (script msg fs [[], ProofGen.proofName]).status = 1 := by
  rw [(C80_script_usage msg fs [[], ProofGen.proofName] (.inr rfl)).1]

/-- C80, finding: the words in the introduction of the script are not those that follow.  The checker prints neither `None`
nor `Some`. -/
theorem C80_words (msg : List UInt8 → Str) (fs : FS) (args : List Str) :
    ¬ str ['N', 'o', 'n', 'e'] <+: (main msg fs args).stdout ∧ ¬ str ['S', 'o', 'm', 'e'] <+: (main msg fs args).stdout := by
  have hu : ¬ str ['N', 'o', 'n', 'e'] <+: usage ∧ ¬ str ['S', 'o', 'm', 'e'] <+: usage := by decide
  match args with
  | [] => exact hu
  | [_] => exact hu
  | _ :: _ :: _ :: _ => exact hu
  | [o, f] =>
    unfold main
    dsimp only
    by_cases h1 : o = str ['-', 'r']
    · simp only [h1, if_true]
      cases fs f with
      | none => dsimp only; decide
      | some bytes =>
        dsimp only
        split <;> simp [str, uncaught]
    · simp only [h1, if_false]
      by_cases h2 : o = str ['-', 'v']
      · simp only [h2, if_true]
        cases fs f with
        | none => dsimp only; decide
        | some bytes =>
          dsimp only
          split
          · rename_i r _
            rcases r with _ | ⟨w, b⟩ <;> simp [showMaybe, str]
          · decide
      · simp only [h2, if_false]
        exact hu

/-- C80, finding: a certificate that is rejected gives the exit status 0, of the checker and of the script. -/
theorem C80_rejected_status (msg : List UInt8 → Str) : ∃ fs : FS, ∃ f : Str,
    main msg fs [str ['-', 'v'], f] = ⟨nothingText, 0⟩ ∧ (script msg fs [f]).status = 0 := by
  let fs : FS := fun f => if f = str ['p'] then some Decode.badFile else none
  have hf : fs (str ['p']) = some Decode.badFile := by simp [fs]
  have h1 : main msg fs [str ['-', 'v'], str ['p']] = ⟨nothingText, 0⟩ := by
    rw [(C80_verified msg fs _ _ hf).2.1]
    decide +kernel
  refine ⟨fs, str ['p'], h1, ?_⟩
  rw [(C80_script msg fs (str ['p']) [] (by decide)).2, h1]

/-- C80, finding: what `snocheck -r` prints need not be true (C05). -/
theorem C80_reference (msg : List UInt8 → Str) : ∃ fs : FS, ∃ f : Str, ∃ w b : ℕ,
    main msg fs [str ['-', 'r'], f] = ⟨str ['R', 'i', 'g', 'h', 't', ' '] ++ showPair w b ++ [10], 0⟩ ∧ ¬ LowerSizeBound w b := by
  refine ⟨fun _ => some Decode.badFile, [], 2, 2, ?_, C05_false_permutation.2⟩
  unfold main
  dsimp only
  rw [if_pos rfl]
  rw [C05_false_permutation.1]

/-- C80, the end of `search_and_verify.sh` for `N` channels in a new directory: the last line is `Just (N,r)`, where `r` is the
minimum size of a sorting network on `N` channels.  (`C77_example` has such runs.) -/
theorem C80_search_and_verify (msg : List UInt8 → Str) {N : ℕ} (h3 : 3 ≤ N) (hN : N ≤ 11) {fs fs' : FS}
    (hnew : ∀ g, fs (pbinName g) = none) {a : Option (Option (ℤ × ℤ))} (h : ScriptRun N fs fs' (.checked a)) :
    ∃ r : ℕ, MinSize N r ∧ script msg fs' [ProofGen.proofName] = ⟨banner ++ justText N r, 0⟩ := by
  obtain ⟨r, hr, ha⟩ := (C77_early h3 hN hnew .refl).2 fs' a h
  refine ⟨r, hr, ?_⟩
  generalize ho : Outcome.checked a = o at h
  cases h with
  | verify hs hp hg hf =>
    rw [Outcome.checked.injEq] at ho
    have h1 := ((C80_verified msg fs' _ _ hf).1 N r).2 (ho.symm.trans ha)
    obtain ⟨e1, e2⟩ := C80_script msg fs' ProofGen.proofName [] (by decide)
    rw [h1] at e1 e2
    cases hx : script msg fs' [ProofGen.proofName] with
    | mk a b => rw [hx] at e1 e2; dsimp only at e1 e2; rw [e1, e2]
  | _ => simp at ho

/-- Non-vacuity: a file for which `Just (3,3)` is printed. -/
theorem C80_example (msg : List UInt8 → Str) : ∃ fs : FS, ∃ f : Str,
    main msg fs [str ['-', 'v'], f] = ⟨str "Just (3,3)\n".toList, 0⟩ := by
  refine ⟨fun _ => some Decode.file3, [], ?_⟩
  have h : Lazy.mainVerified Decode.file3 = some (some (((3 : ℕ) : ℤ), ((3 : ℕ) : ℤ))) := by decide +kernel
  rw [((C80_verified msg _ [] Decode.file3 rfl).1 3 3).2 h]
  decide +kernel

end Sortnet
