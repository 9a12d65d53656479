import Verif.Proof.Fix
import Verif.Props.C42
import Verif.Props.C39

/-!
# C45: `fix_proof` inserts the bounds

`OldStep`, `CertStep.oldBytes` are in Spec/OldCert.lean; `LogDir` and `logged` are in Spec/Cert.lean.
-/

namespace Sortnet

open Files ProofGen Fix

/-- What `create` and a write do to the files. -/
theorem create_append (fs : FS) (name : Str) (data : List UInt8) (f : Str) :
    ((fs.create name).append name data) f = if f = name then some data else fs f := by
  unfold FS.create FS.append
  by_cases h : f = name
  · subst h; simp
  · rw [if_neg h, Function.update_of_ne h, Function.update_of_ne h]

/-- C45, for arbitrary bytes after the sets.  Let the directory have a log with one bound for each set, no `proof.bin`, and
an old certificate of any steps whose sets are in the log.  Then `fix_proof` does not panic, writes to `proof.bin` the file
in which step `i` is the old step `i` with its logged bound inserted and which has the offsets and lengths of these steps,
and changes no other file. -/
theorem C45_inserts {fs : FS} {groups : List (ℕ × ℕ)} {sets : (g : ℕ × ℕ) → List (Bitmap g.1)} (h : LogDir fs groups sets)
    (hfun : ∀ A b b', (A, b) ∈ logged groups sets → (A, b') ∈ logged groups sets → b = b')
    {old : List OldStep} {bounds : List ℕ} (hb : List.Forall₂ (fun s b => (s.set, b) ∈ logged groups sets) old bounds)
    (hl : ∀ s ∈ old, s.bytes.length < 2 ^ 32) (hc : old.length < 2 ^ 32) {trailing : List UInt8}
    (hold : fs oldName = some (writeProof (old.map OldStep.bytes) ++ trailing)) (hnew : fs proofName = none) :
    ∃ fs', fixProof fs = some fs' ∧ fs' proofName = some (writeProof (List.zipWith OldStep.withBound old bounds)) ∧
      ∀ f, f ≠ proofName → fs' f = fs f := by
  have e1 : old = (old.zip bounds).map Prod.fst := by rw [List.map_fst_zip (le_of_eq hb.length_eq)]
  have hz : ∀ s ∈ old.zip bounds, (s.1.set, s.2) ∈ logged groups sets := fun s hs => (List.forall₂_zip hb hs)
  have hold' : fs oldName = some (writeProof ((old.zip bounds).map fun s => s.1.bytes) ++ trailing) := by
    rw [hold]
    conv_lhs => rw [e1, List.map_map]
    rfl
  have hnn : ∀ s ∈ old.zip bounds, s.1.set.n < 256 := by
    intro s hs
    have := hz s hs
    unfold logged at this
    obtain ⟨g, hg, hm⟩ := List.mem_flatMap.1 this
    obtain ⟨t, _, ht⟩ := List.mem_map.1 hm
    have h1 := (h.channels g hg).2
    have h2 : s.1.set.n = g.1 := (congrArg (fun p : OSet × ℕ => p.1.n) ht).symm
    omega
  refine ⟨_, fixProof_spec h hfun hnn (fun s hs => hl _ (List.of_mem_zip hs).1) (by
    rw [List.length_zip, ← hb.length_eq]; omega) hz hold' hnew, ?_, ?_⟩
  · rw [create_append, if_pos rfl, ← List.map_uncurry_zip_eq_zipWith]
    rfl
  · intro f hf
    rw [create_append, if_neg hf]

theorem oldBytes_eq (c : CertStep) : ∃ rest, c.oldBytes = (OldStep.mk c.set rest).bytes ∧
    c.bytes = (OldStep.mk c.set rest).withBound c.bound := ⟨_, rfl, rfl⟩

/-- C45, for certificates.  If the old file has the steps `cs` without their bounds, and their bounds are those in the log,
then the decoder of the checker finds the steps `cs` in the file that `fix_proof` writes; it is the file that
`write_proof` writes for these steps. -/
theorem C45_certificate {fs : FS} {groups : List (ℕ × ℕ)} {sets : (g : ℕ × ℕ) → List (Bitmap g.1)}
    (h : LogDir fs groups sets) (hfun : ∀ A b b', (A, b) ∈ logged groups sets → (A, b') ∈ logged groups sets → b = b')
    {cs : List CertStep} (hcs : ∀ c ∈ cs, c.Representable) (hb : ∀ c ∈ cs, (c.set, c.bound) ∈ logged groups sets)
    (hn : cs.length < 2 ^ 32) (hl : (writeProof (cs.map CertStep.bytes)).length < 2 ^ 63)
    (hold : fs oldName = some (writeProof (cs.map CertStep.oldBytes))) (hnew : fs proofName = none) :
    ∃ fs' file, fixProof fs = some fs' ∧ fs' proofName = some file ∧ (∀ f, f ≠ proofName → fs' f = fs f) ∧
      file = writeProof (cs.map CertStep.bytes) ∧
      ∀ u, Decode.stepCount u file = cs.length ∧
        ∀ (i : ℕ) (c : CertStep), cs[i]? = some c → c.Decoded (Decode.stepFn u file i) := by
  choose rest h1 h2 using oldBytes_eq
  obtain ⟨fs', e1, e2, e3⟩ := C45_inserts (old := cs.map fun c => ⟨c.set, rest c⟩) (bounds := cs.map CertStep.bound) h hfun
    (by
      rw [List.forall₂_map_left_iff, List.forall₂_map_right_iff, List.forall₂_same]
      exact hb)
    (by
      intro s hs
      obtain ⟨c, hc, rfl⟩ := List.mem_map.1 hs
      have h3 := (hcs c hc).length
      rw [h2, oldBytes_length] at h3
      omega)
    (by rw [List.length_map]; exact hn) (trailing := [])
    (by
      rw [hold, List.append_nil, List.map_map]
      exact congrArg (fun l => some (writeProof l)) (List.map_congr_left fun c _ => h1 c))
    hnew
  have e4 : List.zipWith OldStep.withBound (cs.map fun c => ⟨c.set, rest c⟩) (cs.map CertStep.bound) =
      cs.map CertStep.bytes := by
    rw [List.zipWith_map, List.zipWith_self]
    exact List.map_congr_left fun c _ => (h2 c).symm
  rw [e4] at e2
  exact ⟨fs', _, e1, e2, e3, rfl, fun u => C42_round_trip u hcs hn hl⟩

/-- A set that is not in the log is not given a bound: `fix_proof` panics. -/
theorem C45_missing {fs : FS} {groups : List (ℕ × ℕ)} {sets : (g : ℕ × ℕ) → List (Bitmap g.1)}
    (h : LogDir fs groups sets) {old : List OldStep} (hn : ∀ s ∈ old, s.set.n < 64)
    (hl : ∀ s ∈ old, s.bytes.length < 2 ^ 32) (hc : old.length < 2 ^ 32)
    {s : OldStep} (hs : s ∈ old) (hL : ∀ b, (s.set, b) ∉ logged groups sets) {trailing : List UInt8}
    (hold : fs oldName = some (writeProof (old.map OldStep.bytes) ++ trailing)) : fixProof fs = none :=
  fixProof_missing h (fun s hs => (hn s hs).trans (by norm_num)) hl hc hs hL hold

/-- An existing certificate is not overwritten. -/
theorem C45_exists {fs : FS} {file : List UInt8} (h : fs proofName = some file) : fixProof fs = none := by
  unfold fixProof
  rw [h]
  cases Fix.load fs with
  | none => rfl
  | some m => cases fs oldName <;> rfl

/-- The directory of `exampleLog3` with an old certificate. -/
def exampleOld : FS := fun name =>
  if name = oldName then some (writeProof [[3, 255, 0, 2, 2, 2]]) else exampleLog3 name

/-- The hypotheses of `C45_certificate` can be met, and the conversion gives the certificate that `gen_proof` writes for
this log. -/
theorem C45_example : ∃ fs', fixProof exampleOld = some fs' ∧ fs' proofName = some (writeProof [[3, 3, 255, 0, 2, 2, 2]]) := by
  have hd : LogDir exampleOld [(3, 3)] fun g => [allValues g.1] := by
    refine ⟨⟨groupName (3, 3) ++ [10], by decide +kernel, by decide +kernel⟩, by simp, by simp, by simp, by simp, ?_⟩
    intro g hg
    rw [List.mem_singleton.1 hg]
    decide +kernel
  have hL : ∀ A b, (A, b) ∈ logged [(3, 3)] (fun g => [allValues g.1]) ↔ A = ⟨3, allValues 3⟩ ∧ b = 3 := by
    intro A b
    simp [logged]
  obtain ⟨fs', file, e1, e2, _, e4, _⟩ := C45_certificate hd
    (by
      intro A b b' h1 h2
      rw [((hL A b).1 h1).2, ((hL A b').1 h2).2])
    (cs := [⟨⟨3, allValues 3⟩, 3, .huffman false, [none, none, none]⟩])
    (by
      intro c hc
      rw [List.mem_singleton.1 hc]
      exact ⟨by decide, by decide, by simp, by decide +kernel⟩)
    (by
      intro c hc
      rw [List.mem_singleton.1 hc, hL]
      exact ⟨rfl, rfl⟩)
    (by decide) (by decide +kernel) (by decide +kernel) (by decide +kernel)
  refine ⟨fs', e1, ?_⟩
  rw [e2, e4]
  decide +kernel

end Sortnet
