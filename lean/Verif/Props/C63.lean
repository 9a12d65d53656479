import Verif.Proof.LazyFile
import Verif.Props.C02
import Verif.Props.C44
import Verif.Props.C60

/-!
# C63: `snocheck -v` with exceptions and lazy evaluation

`Lazy.mainVerified bytes` is what the program does: `none` if it ends with an exception, and `some r` if it prints `r`.
In Model/LazyChecker.lean an exception spreads as in Haskell, that is, only if the expression is demanded.  The models of
C01 and C02 have no exceptions: an expression that throws has an arbitrary value there.
-/

namespace Sortnet

open ProofGen Files Search Relation

/-- If the program prints an answer, it is the answer of the models of C01 and C02, whatever the values of the throwing
expressions are there. -/
theorem C63_answer {bytes : List UInt8} {r : Option (ℤ × ℤ)} (h : Lazy.mainVerified bytes = some r) (u : Decode.Undef)
    (v : Checker.Undef) : Decode.mainVerified u v bytes = r := (Lazy.ap_mainVerified u v bytes r h).symm

/-- A printed `Just (w, b)` is a true lower bound. -/
theorem C63_sound {bytes : List UInt8} {w b : ℤ} (h : Lazy.mainVerified bytes = some (some (w, b))) :
    LowerSizeBound w.toNat b.toNat ∧ LowerSizeBoundNat w.toNat b.toNat :=
  Decode.C02_verified_pipeline_sound ⟨0, false, []⟩ ⟨false, 0⟩ bytes w b (C63_answer h _ _)

/-- The verified code itself throws nothing: if the steps of a file can be decoded, with all their witnesses, then the
program prints an answer, whether or not the file is accepted. -/
theorem C63_no_exception {bytes : List UInt8} {n : ℤ} (hn : Lazy.readLE 4 bytes = some n)
    (h : ∀ i, 0 ≤ i → i < n → Lazy.FullStep (Lazy.stepFn bytes i)) (u : Decode.Undef) (v : Checker.Undef) :
    Lazy.mainVerified bytes = some (Decode.mainVerified u v bytes) := Lazy.mainVerified_full u v hn h

/-- The program prints an answer for every certificate file written by `write_proof`, right or wrong. -/
theorem C63_written {cs : List CertStep} (hc : ∀ c ∈ cs, c.Representable)
    (hn : cs.length < 2 ^ 32) (hl : (writeProof (cs.map CertStep.bytes)).length < 2 ^ 63) (u : Decode.Undef)
    (v : Checker.Undef) : Lazy.mainVerified (writeProof (cs.map CertStep.bytes)) =
      some (Decode.mainVerified u v (writeProof (cs.map CertStep.bytes))) := Lazy.mainVerified_written u v hc hn hl

/-- It prints `Just` for no proper beginning of a certificate that is accepted (C60). -/
theorem C63_incomplete {cs : List CertStep} (hc : ∀ c ∈ cs, c.Representable) (hne : cs ≠ []) (hn : cs.length < 127 * 2 ^ 24)
    (hl : (writeProof (cs.map CertStep.bytes)).length < 2 ^ 62) {r : ℤ × ℤ}
    (h : Lazy.mainVerified (writeProof (cs.map CertStep.bytes)) = some (some r)) (P : List UInt8)
    (hp : P <+: writeProof (cs.map CertStep.bytes)) (hcut : P ≠ writeProof (cs.map CertStep.bytes)) (r' : ℤ × ℤ) :
    Lazy.mainVerified P ≠ some (some r') := fun h' =>
  C60_verified hc hne hn hl (C63_answer h) P hp hcut ⟨r', C63_answer h'⟩

/-- A file that `gen_proof` has written is accepted without exceptions, if the model of C41 accepts it. -/
theorem lazy_gen_proof {fs fs' : FS} {groups : List (ℕ × ℕ)} {sets : (g : ℕ × ℕ) → List (Bitmap g.1)}
    (h : LogDir fs groups sets)
    (hfun : ∀ A b b', (A, b) ∈ logged groups sets → (A, b') ∈ logged groups sets → b = b')
    (hch : ∀ A b, (A, b) ∈ logged groups sets → Chained A.s.toSet)
    (huns : ∀ A b, (A, b) ∈ logged groups sets → b ≠ 0 → ¬ IsChain (· ≤ ·) A.s.toSet)
    (hsize : (logged groups sets).length < 2 ^ 32) {N b : ℕ} (hroot : ((⟨N, allValues N⟩ : OSet), b) ∈ logged groups sets)
    (hmax : ∀ q ∈ groups, q.1 ≤ N) (hb : 2 ≤ b) (hg : genProof fs = some fs') :
    ∃ file, fs' proofName = some file ∧ Lazy.mainVerified file = some (some ((N : ℤ), (b : ℤ))) := by
  obtain ⟨cs, hf, hrep, hlen⟩ := C41_steps h hfun hch huns hsize hroot hmax hg
  obtain ⟨file, hf', hacc⟩ := C41_accepts h hfun hch huns hsize hroot hmax hb hg
  rw [hf] at hf'
  obtain rfl := Option.some.inj hf'
  refine ⟨_, hf, ?_⟩
  have hsum : ∀ l : List CertStep, (∀ c ∈ l, c.bytes.length ≤ 2048) → (l.map fun c => c.bytes.length).sum ≤ 2048 * l.length := by
    intro l
    induction l with
    | nil => intro _; simp
    | cons c l ih =>
      intro h
      have ih := ih fun c hc => h c (List.mem_cons_of_mem _ hc)
      have := h c List.mem_cons_self
      rw [List.map_cons, List.sum_cons, List.length_cons]
      omega
  have := hsum cs fun c hc => (hrep c hc).2
  rw [C63_written (fun c hc => (hrep c hc).1) (by omega) (by rw [C42_length]; omega) ⟨0, false, []⟩ ⟨false, 0⟩, hacc]

/-- C41 with exceptions: the certificates made from logs with correct bounds are accepted. -/
theorem C63_gen_proof {fs fs' : FS} {groups : List (ℕ × ℕ)} {sets : (g : ℕ × ℕ) → List (Bitmap g.1)}
    (h : LogDir fs groups sets)
    (hfun : ∀ A b b', (A, b) ∈ logged groups sets → (A, b') ∈ logged groups sets → b = b')
    (hch : ∀ A b, (A, b) ∈ logged groups sets → Chained A.s.toSet)
    (hlb : ∀ A b, (A, b) ∈ logged groups sets → LB A.s.toSet b)
    (hsize : (logged groups sets).length < 2 ^ 32) {N b : ℕ} (hroot : ((⟨N, allValues N⟩ : OSet), b) ∈ logged groups sets)
    (hmax : ∀ q ∈ groups, q.1 ≤ N) (hb : 2 ≤ b) (hg : genProof fs = some fs') :
    ∃ file, fs' proofName = some file ∧ Lazy.mainVerified file = some (some ((N : ℤ), (b : ℤ))) := by
  refine lazy_gen_proof h hfun hch ?_ hsize hroot hmax hb hg
  intro A b hA hb0 hcon
  have := (hlb A b hA).le_UB (UB_zero hcon)
  omega

/-- C44 with exceptions: after a search for all vectors on `N` channels, dumping, pruning and `gen_proof`, `snocheck -v`
prints `Just (N, r)` for the minimum size `r` of a sorting network. -/
theorem C63_pipeline (hash : List ℕ → ℕ) (N : ℕ) (h3 : 3 ≤ N) (hN : N ≤ 11) (G : Global)
    (h : Run hash none ⟨N, allValues N⟩ G) (r : ℕ) (hr : Returned G r)
    (hash' : List UInt8 → ℕ) (threads : ℕ) (hist : List (OSet × State)) (hh : ∀ e ∈ hist, 3 ≤ e.1.n ∧ e.1.n ≤ 11)
    (hst : lastSet hist = G.store) (m : StateMap) (hm : (StateMap.new threads).run hash' hist = some m)
    (hsize : m.len < 2 ^ 32)
    (fs0 : FS) (hfresh : ∀ g, fs0 (pbinName g) = none) (fs2 : FS)
    (hp : ReflTransGen CrashStep (dumpStates m fs0, .stopped) (fs2, .done)) :
    MinSize N r ∧ ∃ fs3 file, genProof fs2 = some fs3 ∧ fs3 proofName = some file ∧
      Lazy.mainVerified file = some (some ((N : ℤ), (r : ℤ))) := by
  have hmin := C29_sorting_network hash N hN G h r hr
  refine ⟨hmin, ?_⟩
  obtain ⟨fs3, hg⟩ := C43_provable hash N h3 hN G h r hr hash' threads hist hh hst m hm fs0 hfresh fs2 hp
  obtain ⟨groups, kept, _, hlog, hL, hmax, hroot, hlen⟩ := pipeline_log h3 hN h hr hh hst hm hfresh
  have h0 : Chained (⟨N, allValues N⟩ : OSet).s.toSet := by dsimp only; rw [toSet_allValues]; exact chained_univ
  obtain ⟨_, _, _, β, hG, _⟩ := h.inv h0 hN
  obtain ⟨file, hf, hacc⟩ := lazy_gen_proof (hlog fs2 hp) (by
      intro A b b' hb hb'
      obtain ⟨v, hv, rfl⟩ := hL.mem A b hb
      obtain ⟨v', hv', rfl⟩ := hL.mem A b' hb'
      rw [hv] at hv'
      cases hv'
      rfl) (fun A b hA => (hL.le hG.sinv hA).2.2.1.1)
    (fun A b hA _ => not_chain (hL.le hG.sinv hA).2.2.1 (hL.le hG.sinv hA).2.2.2)
    (by omega) hroot hmax (by have := three_le_of_opt h3 (isOpt_univ_iff.2 hmin); omega) hg
  exact ⟨fs3, file, hg, hf, hacc⟩

/-! ## Where the program throws -/

/-- A file too short for the number of steps ends with an exception. -/
theorem C63_short_header {bytes : List UInt8} (h : bytes.length < 4) : Lazy.mainVerified bytes = none := by
  have : Lazy.readLE 4 bytes = none := by
    match bytes, h with
    | [], _ => rfl
    | [_], _ => rfl
    | [_, _], _ => rfl
    | [_, _, _], _ => rfl
  unfold Lazy.mainVerified Lazy.translateProofSteps
  rw [this]
  rfl

/-- A step whose vectors have the wrong length. -/
def shortVectors : Lazy.ProofCert where
  length := some 1
  step _ :=
    { width := some 2, vectList := some [[], [true], [false], [false, false]], bound := some 1,
      witnesses := some (.successor (some [some none])) }

/-- The models of C01 reject this certificate, whatever the values of throwing expressions are. -/
theorem shortVectors_model (u : Checker.Undef) : Checker.checkProofGetBound u
    { length := 1,
      step := fun _ => { width := 2, vectList := [[], [true], [false], [false, false]], bound := 1, witnesses := .successor [none] } } =
    none := by
  rw [Checker.checkProofGetBound_undef u ⟨false, 0⟩]
  decide +kernel

/-- The verified code alone, called with vectors that are too short, can throw: it looks at the bits before it compares the
lengths.  Such steps are not decoded from files. -/
theorem C63_api_exception : Lazy.checkProofGetBound shortVectors = none := by decide +kernel

/-- Non-vacuity: a file that is accepted, -/
theorem C63_file3 : Lazy.mainVerified Decode.file3 = some (some (3, 3)) := by decide +kernel

/-- and one with a wrong bound, which is rejected without exceptions. -/
theorem C63_rejected : Lazy.mainVerified (Decode.file3.set 34 4) = some none := by decide +kernel

/-- An exception that is not demanded does no harm: the second step of this file has no bytes, but the first step is already
rejected. -/
theorem C63_not_demanded : Lazy.mainVerified [2, 0, 0, 0, 28, 0, 0, 0, 0, 0, 0, 0, 5, 0, 0, 0,
    0, 0, 0, 0, 0, 0, 0, 0, 0, 0, 0, 0, 2, 2, 0x0F, 2, 2] = some none ∧
    Lazy.stepFn [2, 0, 0, 0, 28, 0, 0, 0, 0, 0, 0, 0, 5, 0, 0, 0,
      0, 0, 0, 0, 0, 0, 0, 0, 0, 0, 0, 0, 2, 2, 0x0F, 2, 2] 1 = none := ⟨by decide +kernel, Option.isNone_iff_eq_none.1 (by decide +kernel)⟩

end Sortnet
