import Verif.Proof.RefNoSteps
import Verif.Proof.VerifiedRef
import Verif.Props.C63

/-!
# C65: `snocheck -r` with exceptions and lazy evaluation, and what it accepts compared with `snocheck -v`

`Lazy.mainReference bytes` is what the program does: `.ok (w, b)` if it prints `Right (w, b)`, `.error .left` if it prints a
`Left`, and `.error .crash` if it ends with an exception.  In Model/LazyRef.lean an exception spreads only if the expression
is demanded.  In the models of C05 and C06 the expressions of the decoder that throw have an arbitrary value.
-/

namespace Sortnet

open ProofGen Files Search Relation

/-- If the program does not end with an exception, it prints the answer of the models of C05 and C06, whatever the values of
the throwing expressions are there. -/
theorem C65_answer {bytes : List UInt8} (h : Lazy.mainReference bytes ≠ .error .crash) (u : Decode.Undef) :
    Decode.mainReference u bytes = Lazy.mainReference bytes := (Lazy.ap_mainReference u bytes h).symm

/-- If there are steps and they can all be decoded, with all their witnesses, then decoding causes no exceptions. -/
theorem C65_no_exception {bytes : List UInt8} {n : ℤ} (hn : Lazy.readLE 4 bytes = some n) (hn0 : n ≠ 0)
    (h : ∀ i, 0 ≤ i → i < n → Lazy.FullStep (Lazy.stepFn bytes i)) (u : Decode.Undef) :
    Lazy.mainReference bytes = Decode.mainReference u bytes := Lazy.mainReference_full u hn hn0 h

/-- Everything is decoded before a file with steps is accepted: no step and no witness is left out. -/
theorem C65_accepted_full {bytes : List UInt8} {w b : ℕ} (h : Lazy.mainReference bytes = .ok (w, b)) {n : ℤ}
    (hn : Lazy.readLE 4 bytes = some n) (i : ℤ) (h0 : 0 ≤ i) (hi : i < n) : Lazy.FullStep (Lazy.stepFn bytes i) :=
  Lazy.accepted_full h hn i h0 (by omega)

/-- The same for `snocheck -v`. -/
theorem C65_accepted_full_verified {bytes : List UInt8} {w b : ℤ} (h : Lazy.mainVerified bytes = some (some (w, b))) {n : ℤ}
    (hn : Lazy.readLE 4 bytes = some n) (i : ℤ) (h0 : 0 ≤ i) (hi : i < n) : Lazy.FullStep (Lazy.stepFn bytes i) := by
  obtain ⟨n', hn', _, h⟩ := Lazy.verified_steps h
  rw [hn] at hn'
  cases hn'
  exact h i h0 hi

/-- Files written by `write_proof` are decoded without exceptions, whether they are right or wrong. -/
theorem C65_written {cs : List CertStep} (hc : ∀ c ∈ cs, c.Representable) (hne : cs ≠ [])
    (hn : cs.length < 2 ^ 32) (hl : (writeProof (cs.map CertStep.bytes)).length < 2 ^ 63) (u : Decode.Undef) :
    Lazy.mainReference (writeProof (cs.map CertStep.bytes)) =
      Decode.mainReference u (writeProof (cs.map CertStep.bytes)) := Lazy.mainReference_written u hc hne hn hl

/-- Whatever `snocheck -v` accepts, `snocheck -r` accepts with the same answer, if the sets of the steps have no vectors
with bits on channels that do not exist.  From three channels on, there is no room for such bits in a file. -/
theorem C65_reference_of_verified {bytes : List UInt8} (hlen : bytes.length < 2 ^ 60)
    (hbits : ∀ n i s, Lazy.readLE 4 bytes = some n → 0 ≤ i → i < n → Lazy.stepFn bytes i = some s →
      s.vectSet.channels < 3 → Lazy.CleanBits s)
    {w b : ℤ} (h : Lazy.mainVerified bytes = some (some (w, b))) : Lazy.mainReference bytes = .ok (w.toNat, b.toNat) :=
  Lazy.reference_of_verified hlen hbits h

/-- Conversely, if also the witnesses carry genuine permutations, there are steps, and no successor step has bound 0. -/
theorem C65_verified_of_reference {bytes : List UInt8} (hlen : bytes.length < 2 ^ 60) {n : ℤ}
    (hn : Lazy.readLE 4 bytes = some n) (hn0 : n ≠ 0)
    (hperm : ∀ i s, 0 ≤ i → i < n → Lazy.stepFn bytes i = some s → Lazy.GenuinePerms s)
    (hbits : ∀ i s, 0 ≤ i → i < n → Lazy.stepFn bytes i = some s → s.vectSet.channels < 3 → Lazy.CleanBits s)
    (hbound : ∀ i s ws, 0 ≤ i → i < n → Lazy.stepFn bytes i = some s → s.witnesses = .successors ws → s.bound ≠ 0)
    {w b : ℕ} (h : Lazy.mainReference bytes = .ok (w, b)) : Lazy.mainVerified bytes = some (some ((w : ℤ), (b : ℤ))) :=
  Lazy.verified_of_reference hlen hn hn0 hperm hbits hbound h

/-- For files written by `write_proof` no hypothesis on bits is needed. -/
theorem C65_written_verified {cs : List CertStep} (hc : ∀ c ∈ cs, c.Representable)
    (hn : cs.length < 2 ^ 32) (hl : (writeProof (cs.map CertStep.bytes)).length < 2 ^ 60) {w b : ℤ}
    (h : Lazy.mainVerified (writeProof (cs.map CertStep.bytes)) = some (some (w, b))) :
    Lazy.mainReference (writeProof (cs.map CertStep.bytes)) = .ok (w.toNat, b.toNat) :=
  C65_reference_of_verified hl (fun n i s hn' h0 hi hs _ =>
    Lazy.written_clean hc hn (lt_trans hl (by norm_num)) n i s hn' h0 hi hs) h

/-- It accepts no proper beginning of a certificate that it accepts (C60). -/
theorem C65_incomplete {cs : List CertStep} (hc : ∀ c ∈ cs, c.Representable) (hne : cs ≠ []) (hn : cs.length < 127 * 2 ^ 24)
    (hl : (writeProof (cs.map CertStep.bytes)).length < 2 ^ 62) {r : ℕ × ℕ}
    (h : Lazy.mainReference (writeProof (cs.map CertStep.bytes)) = .ok r) (P : List UInt8)
    (hp : P <+: writeProof (cs.map CertStep.bytes)) (hcut : P ≠ writeProof (cs.map CertStep.bytes)) (r' : ℕ × ℕ) :
    Lazy.mainReference P ≠ .ok r' := fun h' =>
  C60_reference hc hne hn hl (fun u => (C65_answer (by rw [h]; simp) u).trans h) P hp hcut
    ⟨r', fun u => (C65_answer (by rw [h']; simp) u).trans h'⟩

theorem reference_gen_proof {fs fs' : FS} {groups : List (ℕ × ℕ)} {sets : (g : ℕ × ℕ) → List (Bitmap g.1)}
    (h : LogDir fs groups sets)
    (hfun : ∀ A b b', (A, b) ∈ logged groups sets → (A, b') ∈ logged groups sets → b = b')
    (hch : ∀ A b, (A, b) ∈ logged groups sets → Chained A.s.toSet)
    (huns : ∀ A b, (A, b) ∈ logged groups sets → b ≠ 0 → ¬ IsChain (· ≤ ·) A.s.toSet)
    (hsize : (logged groups sets).length < 2 ^ 32) {N b : ℕ} (hroot : ((⟨N, allValues N⟩ : OSet), b) ∈ logged groups sets)
    (hmax : ∀ q ∈ groups, q.1 ≤ N) (hb : 2 ≤ b) (hg : genProof fs = some fs') :
    ∃ file, fs' proofName = some file ∧ Lazy.mainVerified file = some (some ((N : ℤ), (b : ℤ))) ∧
      Lazy.mainReference file = .ok (N, b) := by
  obtain ⟨cs, hf, hrep, hlen⟩ := C41_steps h hfun hch huns hsize hroot hmax hg
  obtain ⟨file, hf', hacc⟩ := lazy_gen_proof h hfun hch huns hsize hroot hmax hb hg
  rw [hf] at hf'
  obtain rfl := Option.some.inj hf'
  refine ⟨_, hf, hacc, ?_⟩
  have hsum : ∀ l : List CertStep, (∀ c ∈ l, c.bytes.length ≤ 2048) → (l.map fun c => c.bytes.length).sum ≤ 2048 * l.length := by
    intro l
    induction l with
    | nil => intro _; simp
    | cons c l ih =>
      intro h
      have ih := ih fun c hc => h c (List.mem_cons_of_mem _ hc)
      have := h c List.mem_cons_self
      rw [List.map_cons, List.sum_cons, List.length_cons]
      omega
  have := hsum cs fun c hc => (hrep c hc).2
  have key := C65_written_verified (fun c hc => (hrep c hc).1) (by omega) (by rw [C42_length]; omega) hacc
  simpa using key

/-- Certificates made by `gen_proof` from logs with correct bounds are accepted by `snocheck -r`, too. -/
theorem C65_gen_proof {fs fs' : FS} {groups : List (ℕ × ℕ)} {sets : (g : ℕ × ℕ) → List (Bitmap g.1)}
    (h : LogDir fs groups sets)
    (hfun : ∀ A b b', (A, b) ∈ logged groups sets → (A, b') ∈ logged groups sets → b = b')
    (hch : ∀ A b, (A, b) ∈ logged groups sets → Chained A.s.toSet)
    (hlb : ∀ A b, (A, b) ∈ logged groups sets → LB A.s.toSet b)
    (hsize : (logged groups sets).length < 2 ^ 32) {N b : ℕ} (hroot : ((⟨N, allValues N⟩ : OSet), b) ∈ logged groups sets)
    (hmax : ∀ q ∈ groups, q.1 ≤ N) (hb : 2 ≤ b) (hg : genProof fs = some fs') :
    ∃ file, fs' proofName = some file ∧ Lazy.mainReference file = .ok (N, b) := by
  obtain ⟨file, hf, _, hr⟩ := reference_gen_proof h hfun hch (by
    intro A b hA hb0 hcon
    have := (hlb A b hA).le_UB (UB_zero hcon)
    omega) hsize hroot hmax hb hg
  exact ⟨file, hf, hr⟩

/-- The whole pipeline: after a search for all vectors on `N` channels, dumping, pruning and `gen_proof`, both modes of
`snocheck` print `N` and the minimum size of a sorting network. -/
theorem C65_pipeline (hash : List ℕ → ℕ) (N : ℕ) (h3 : 3 ≤ N) (hN : N ≤ 11) (G : Global)
    (h : Run hash none ⟨N, allValues N⟩ G) (r : ℕ) (hr : Returned G r)
    (hash' : List UInt8 → ℕ) (threads : ℕ) (hist : List (OSet × State)) (hh : ∀ e ∈ hist, 3 ≤ e.1.n ∧ e.1.n ≤ 11)
    (hst : lastSet hist = G.store) (m : StateMap) (hm : (StateMap.new threads).run hash' hist = some m)
    (hsize : m.len < 2 ^ 32)
    (fs0 : FS) (hfresh : ∀ g, fs0 (pbinName g) = none) (fs2 : FS)
    (hp : ReflTransGen CrashStep (dumpStates m fs0, .stopped) (fs2, .done)) :
    MinSize N r ∧ ∃ fs3 file, genProof fs2 = some fs3 ∧ fs3 proofName = some file ∧
      Lazy.mainVerified file = some (some ((N : ℤ), (r : ℤ))) ∧ Lazy.mainReference file = .ok (N, r) := by
  have hmin := C29_sorting_network hash N hN G h r hr
  refine ⟨hmin, ?_⟩
  obtain ⟨fs3, hg⟩ := C43_provable hash N h3 hN G h r hr hash' threads hist hh hst m hm fs0 hfresh fs2 hp
  obtain ⟨groups, kept, _, hlog, hL, hmax, hroot, hlen⟩ := pipeline_log h3 hN h hr hh hst hm hfresh
  have h0 : Chained (⟨N, allValues N⟩ : OSet).s.toSet := by dsimp only; rw [toSet_allValues]; exact chained_univ
  obtain ⟨_, _, _, β, hG, _⟩ := h.inv h0 hN
  obtain ⟨file, hf, hacc, href⟩ := reference_gen_proof (hlog fs2 hp) (by
      intro A b b' hb hb'
      obtain ⟨v, hv, rfl⟩ := hL.mem A b hb
      obtain ⟨v', hv', rfl⟩ := hL.mem A b' hb'
      rw [hv] at hv'
      cases hv'
      rfl) (fun A b hA => (hL.le hG.sinv hA).2.2.1.1)
    (fun A b hA _ => not_chain (hL.le hG.sinv hA).2.2.1 (hL.le hG.sinv hA).2.2.2)
    (by omega) hroot hmax (by have := three_le_of_opt h3 (isOpt_univ_iff.2 hmin); omega) hg
  exact ⟨fs3, file, hg, hf, hacc, href⟩

/-! ## Where the program throws -/

/-- A file too short for the number of steps ends with an exception. -/
theorem C65_short_header {bytes : List UInt8} (h : bytes.length < 4) : Lazy.mainReference bytes = .error .crash := by
  have : Lazy.readLE 4 bytes = none := by
    match bytes, h with
    | [], _ => rfl
    | [_], _ => rfl
    | [_, _], _ => rfl
    | [_, _, _], _ => rfl
  unfold Lazy.mainReference
  rw [this]
  rfl

/-- `gen_proof` writes four zero bytes for a bound below 2 (C41): `snocheck -r` then ends with an exception. -/
theorem C65_no_steps : Lazy.mainReference [0, 0, 0, 0] = .error .crash := by decide +kernel

/-! ## Non-vacuity, and the hypotheses -/

/-- A file that is accepted, -/
theorem C65_file3 : Lazy.mainReference Decode.file3 = .ok (3, 3) := by decide +kernel

/-- one with a wrong bound, which is rejected without exceptions, -/
theorem C65_rejected : Lazy.mainReference (Decode.file3.set 34 4) = .error .left := by decide +kernel

/-- and one whose second step has no bytes, which is rejected because of the first one. -/
theorem C65_not_demanded : Lazy.mainReference [2, 0, 0, 0, 28, 0, 0, 0, 0, 0, 0, 0, 5, 0, 0, 0,
    0, 0, 0, 0, 0, 0, 0, 0, 0, 0, 0, 0, 2, 3, 0x0F, 2, 2] = .error .left := by decide +kernel

/-- The vectors of the second step of this file have bits on a third channel, of two. -/
def extraBits : List UInt8 :=
  [2, 0, 0, 0,
   28, 0, 0, 0, 0, 0, 0, 0, 5, 0, 0, 0,
   33, 0, 0, 0, 0, 0, 0, 0, 11, 0, 0, 0,
   2, 0, 0x0D, 0, 2,
   2, 1, 0x1E, 2, 0, 0, 1, 0, 0, 0, 0]

/-- `C65_reference_of_verified` needs its hypothesis on bits. -/
theorem C65_extra_bits : Lazy.mainVerified extraBits = some (some (2, 1)) ∧
    Lazy.mainReference extraBits = .error .left := by decide +kernel

/-- `C65_verified_of_reference` needs the hypothesis on bounds.  See C05 for the other hypotheses. -/
theorem C65_bound_zero : Lazy.mainReference [1, 0, 0, 0, 16, 0, 0, 0, 0, 0, 0, 0, 5, 0, 0, 0, 2, 0, 0x0F, 2, 2] = .ok (2, 0) ∧
    Lazy.mainVerified [1, 0, 0, 0, 16, 0, 0, 0, 0, 0, 0, 0, 5, 0, 0, 0, 2, 0, 0x0F, 2, 2] = some none := by decide +kernel

end Sortnet
