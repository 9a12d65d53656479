import Verif.Proof.CertWrite
import Verif.Props.C63
import Verif.Props.C67

/-!
# C78: `gen-proof` and `fix-proof` stopped while they write a certificate

`GenRun` and `FixRun` (Model/CertWrite.lean) are the steps of the two commands, where the process can be killed, or meet a write
error, at any time and can be started again.
-/

namespace Sortnet

open Files ProofGen Relation Fix

/-! ## `gen-proof` -/

/-- C78, at any time `gen-proof` has changed at most `proof.bin`.  This file is as before, or a beginning of the complete
certificate. -/
theorem C78_gen_files {fs0 fs : FS} {p : GenPC} (h : ReflTransGen GenRun (fs0, .stopped) (fs, p)) :
    (∀ x, x ≠ proofName → fs x = fs0 x) ∧
    (fs = fs0 ∨ ∃ fs1 file P, genProof fs0 = some fs1 ∧ fs1 proofName = some file ∧ fs proofName = some P ∧ P <+: file) := by
  have hi := genInv_of_reach (fun _ _ => genSteps_congr) h
  refine ⟨hi.other, hi.cert.imp id ?_⟩
  rintro ⟨steps, P, h1, h2, h3⟩
  refine ⟨_, _, P, by rw [genProof, h1]; rfl, ?_, h2, h3⟩
  rw [create_append, if_pos rfl]

/-- C78, if the certificate cannot be made from the log, then `gen-proof` changes nothing: a certificate that was there
remains. -/
theorem C78_gen_panic {fs0 fs : FS} {p : GenPC} (h : ReflTransGen GenRun (fs0, .stopped) (fs, p))
    (hg : genProof fs0 = none) : fs = fs0 := by
  rcases (C78_gen_files h).2 with h | ⟨fs1, _, _, h1, _⟩
  · exact h
  · rw [hg] at h1
    cases h1

theorem gen_ext {fs fs' : FS} (h : ∀ x, x ≠ proofName → fs' x = fs x) : genProof fs' = genProof fs := by
  unfold genProof
  rw [genSteps_congr h]
  cases genSteps fs with
  | none => rfl
  | some steps =>
    refine congrArg some ?_
    funext x
    rw [create_append, create_append]
    split
    · rfl
    · exact h x ‹_›

/-- C78, after any number of interrupted runs, another one gives the files of a run that is not interrupted. -/
theorem C78_gen_again {fs0 fs : FS} {p : GenPC} (h : ReflTransGen GenRun (fs0, .stopped) (fs, p)) :
    genProof fs = genProof fs0 ∧
      ∀ fs1, genProof fs0 = some fs1 → ReflTransGen GenRun (fs, .stopped) (fs1, .done) := by
  have e := gen_ext (C78_gen_files h).1
  refine ⟨e, fun fs1 h1 => ?_⟩
  rw [← e] at h1
  unfold genProof at h1
  obtain ⟨steps, h2, h3⟩ := Option.bind_eq_some_iff.1 h1
  rw [← Option.some.inj h3]
  refine .head (.create h2) (.head ?_ (.single (.finish (lost := []))))
  have := GenRun.write (fs := fs.create proofName) (now := writeProof steps) (rest := []) (by
    rw [writeProof, le32_eq]; simp [leBytes])
  rwa [List.append_nil] at this

/-- C78, whatever `gen-proof` has left of a certificate that the checker accepts when it is complete (C41): the checker prints
`Just` only if it is the complete file, or the file that was there before. -/
theorem C78_gen_checker {fs0 fs : FS} {p : GenPC} {groups : List (ℕ × ℕ)} {sets : (g : ℕ × ℕ) → List (Bitmap g.1)}
    (hlog : LogDir fs0 groups sets)
    (hfun : ∀ A b b', (A, b) ∈ logged groups sets → (A, b') ∈ logged groups sets → b = b')
    (hch : ∀ A b, (A, b) ∈ logged groups sets → Chained A.s.toSet)
    (huns : ∀ A b, (A, b) ∈ logged groups sets → b ≠ 0 → ¬ IsChain (· ≤ ·) A.s.toSet)
    (hsize : (logged groups sets).length < 127 * 2 ^ 24) {N b : ℕ}
    (hroot : ((⟨N, allValues N⟩ : OSet), b) ∈ logged groups sets)
    (hmax : ∀ q ∈ groups, q.1 ≤ N) (hb : 2 ≤ b) {fs1 : FS} (hg : genProof fs0 = some fs1)
    (h : ReflTransGen GenRun (fs0, .stopped) (fs, p)) {P : List UInt8} {r : ℤ × ℤ} (hP : fs proofName = some P)
    (hacc : Lazy.mainVerified P = some (some r)) : fs = fs0 ∨ fs = fs1 := by
  obtain ⟨h1, h2⟩ := C78_gen_files h
  refine h2.imp id ?_
  rintro ⟨fs1', file, P', e1, e2, e3, e4⟩
  rw [hg] at e1
  obtain rfl := Option.some.inj e1
  rw [hP] at e3
  obtain rfl := Option.some.inj e3
  obtain ⟨file', f1, -, f3⟩ := C60_gen_proof hlog hfun hch huns hsize hroot hmax hb hg
  rw [e2] at f1
  obtain rfl := Option.some.inj f1
  have e : P = file := by
    by_contra hne
    exact f3 P e4 hne ⟨r, C63_answer hacc⟩
  subst e
  funext x
  by_cases hx : x = proofName
  · rw [hx, hP, e2]
  · rw [h1 x hx]
    unfold genProof at hg
    obtain ⟨steps, -, h3⟩ := Option.bind_eq_some_iff.1 hg
    rw [← Option.some.inj h3, create_append, if_neg hx]

/-! ## `fix-proof` -/

/-- C78, `fix-proof` never changes a file that exists.  At any time `proof.bin` does not exist, or has a beginning of the
complete file, if the conversion is possible. -/
theorem C78_fix_files {fs0 fs : FS} {buf : List UInt8} {p : FixPC} (h : ReflTransGen FixRun (fs0, [], .stopped) (fs, buf, p)) :
    (∀ x, x ≠ proofName → fs x = fs0 x) ∧
    ((fs0 proofName).isSome → fs = fs0 ∧ p ≠ .done) ∧
    (∀ P fs1, fs0 proofName = none → fs proofName = some P → fixProof fs0 = some fs1 →
      ∃ file, fs1 proofName = some file ∧ P <+: file) := by
  have hi := fixInv_of_reach h
  refine ⟨hi.other, fun hs => ?_, fun P fs1 h0 hP h1 => ?_⟩
  · rcases hi.cert with ⟨h1, _, h2⟩ | ⟨_, _, _, _, _, h3, _⟩
    · refine ⟨h1, ?_⟩
      rintro rfl
      simp at h2
    · rw [h3] at hs
      cases hs
  · rcases hi.cert with ⟨h2, _⟩ | ⟨m, data, P', e1, e2, e3, e4, e5, _⟩
    · have h2 : fs = fs0 := h2
      rw [h2, h0] at hP
      cases hP
    · rw [fixProof_rem e1 e2 e3] at h1
      obtain ⟨file, h4, h5⟩ := Option.map_eq_some_iff.1 h1
      have e4 : fs proofName = some P' := e4
      rw [hP] at e4
      obtain rfl := Option.some.inj e4
      refine ⟨file, by rw [← h5, create_append, if_pos rfl], ?_⟩
      rw [wrCount_eq h4] at e5
      exact (List.prefix_append _ _).trans e5

/-- C78, once `proof.bin` exists, in whatever state, running `fix-proof` again and again changes nothing, and it never
ends normally. -/
theorem C78_fix_blocked {fs0 fs fs' : FS} {buf buf' : List UInt8} {p p' : FixPC}
    (_h : ReflTransGen FixRun (fs0, [], .stopped) (fs, buf, p)) (hp : (fs proofName).isSome)
    (h' : ReflTransGen FixRun (fs, [], .stopped) (fs', buf', p')) : fs' = fs ∧ p' ≠ .done :=
  (C78_fix_files h').2.1 hp

/-- C78, if `fix-proof` ends normally, then the conversion is possible, and `proof.bin` has the complete result, if no bytes
are lost in a write error at the end. -/
theorem C78_fix_done {fs0 fs : FS} {buf : List UInt8} (h : ReflTransGen FixRun (fs0, [], .stopped) (fs, buf, .done)) :
    ∃ fs1 file P, fixProof fs0 = some fs1 ∧ fs1 proofName = some file ∧ fs proofName = some P ∧ P ++ buf = file ∧
      (buf = [] → fs = fs1) := by
  have hi := fixInv_of_reach h
  obtain ⟨m, data, P, e1, e2, e3, e4, e5, e6⟩ := hi.active rfl
  obtain ⟨file, h1⟩ := Option.isSome_iff_exists.1 (show (remCount m data).isSome = true from e6.symm)
  rw [wrCount_eq h1, List.append_nil] at e5
  have h2 : fixProof fs0 = some ((fs0.create proofName).append proofName file) := by rw [fixProof_rem e1 e2 e3, h1]; rfl
  refine ⟨_, file, P, h2, by rw [create_append, if_pos rfl], e4, e5, ?_⟩
  rintro rfl
  rw [List.append_nil] at e5
  subst e5
  funext x
  rw [create_append]
  split
  · rename_i hx
    rw [hx, e4]
  · exact hi.other x ‹_›

/-- C78, if the conversion is possible, then a run that is not interrupted ends with the complete file. -/
theorem C78_fix_runs {fs0 fs1 : FS} (h : fixProof fs0 = some fs1) :
    ReflTransGen FixRun (fs0, [], .stopped) (fs1, [], .done) := by
  have hp : fs0 proofName = none := by
    cases hp : fs0 proofName with
    | none => rfl
    | some file => rw [C45_exists hp] at h; cases h
  cases hm : Fix.load fs0 with
  | none => unfold fixProof at h; rw [hm] at h; cases h
  | some m =>
    cases hd : fs0 oldName with
    | none => unfold fixProof at h; rw [hm, hd] at h; cases h
    | some data =>
      rw [fixProof_rem hm hd hp] at h
      obtain ⟨r, h1, rfl⟩ := Option.map_eq_some_iff.1 h
      refine .head (.create hm hd hp) ((run_count _ m h1).trans (.single ?_))
      have := FixRun.flush (fs := fs0.create proofName) (now := r) (rest := []) (p := .done) (remCount_ne_nil h1)
      rwa [List.append_nil] at this

/-- C78, the checker and an interrupted conversion (C45): of a certificate that is accepted when it is complete, no part that
`fix-proof` may leave behind is accepted. -/
theorem C78_fix_checker {fs0 fs : FS} {groups : List (ℕ × ℕ)} {sets : (g : ℕ × ℕ) → List (Bitmap g.1)}
    (hlog : LogDir fs0 groups sets) (hfun : ∀ A b b', (A, b) ∈ logged groups sets → (A, b') ∈ logged groups sets → b = b')
    {cs : List CertStep} (hcs : ∀ c ∈ cs, c.Representable) (hb : ∀ c ∈ cs, (c.set, c.bound) ∈ logged groups sets)
    (hne : cs ≠ []) (hn : cs.length < 127 * 2 ^ 24) (hl : (writeProof (cs.map CertStep.bytes)).length < 2 ^ 62)
    (hold : fs0 oldName = some (writeProof (cs.map CertStep.oldBytes))) (hnew : fs0 proofName = none) {r : ℤ × ℤ}
    (hacc : Lazy.mainVerified (writeProof (cs.map CertStep.bytes)) = some (some r))
    {buf : List UInt8} {p : FixPC} (h : ReflTransGen FixRun (fs0, [], .stopped) (fs, buf, p)) {P : List UInt8} {r' : ℤ × ℤ}
    (hP : fs proofName = some P) (hacc' : Lazy.mainVerified P = some (some r')) : P = writeProof (cs.map CertStep.bytes) := by
  obtain ⟨fs1, file, h1, h2, -, h4, -⟩ := C45_certificate hlog hfun hcs hb (lt_trans hn (by norm_num))
    (lt_trans hl (by norm_num)) hold hnew
  obtain ⟨file', h5, h6⟩ := (C78_fix_files h).2.2 P fs1 hnew hP h1
  rw [h2] at h5
  obtain rfl := Option.some.inj h5
  rw [h4] at h6
  by_contra hc
  exact C63_incomplete hcs hne hn hl hacc P h6 hc r' hacc'

/-- The data of the last step is missing. -/
theorem last_missing {steps : List (List UInt8)} {last : List UInt8} (hlast : steps.getLast? = some last)
    (hs : last.length < 2 ^ 32) (hne : last ≠ []) (hn : steps.length < 127 * 2 ^ 24)
    (hl : (writeProof steps).length < 2 ^ 62) (P : List UInt8) (hp : P <+: writeProof steps)
    (hk : P.length + last.length ≤ (writeProof steps).length) (r : ℤ × ℤ) : Lazy.mainVerified P ≠ some (some r) := by
  intro hacc
  have h := C63_answer hacc Decode.cutUndef ⟨false, 0⟩
  have hP : P = (writeProof steps).take P.length := List.prefix_iff_eq_take.1 hp
  have hlen : 0 < last.length := List.length_pos_iff.2 hne
  have hpos : 0 < steps.length := List.length_pos_iff.2 (by rintro rfl; simp at hlast)
  have key : 0 < Decode.stepCount Decode.cutUndef P ∧ Decode.stepCount Decode.cutUndef P < 2 ^ 32 ∧
      (Decode.stepFn Decode.cutUndef P (Decode.stepCount Decode.cutUndef P - 1)).witnesses = .huffman false [] := by
    by_cases h4 : P.length < 4
    · have h := Decode.read32LE_missing P h4
      have e : Decode.stepCount Decode.cutUndef P = Decode.read32LE Decode.cutUndef P := rfl
      rw [e]
      refine ⟨by omega, by omega, ?_⟩
      rw [Decode.stepFn, Decode.stepData_far P h4 _ (by omega) (by omega), Decode.decodeProofStep_nil]
    · have e : Decode.stepCount Decode.cutUndef P = steps.length := by
        rw [hP, Decode.stepCount, writeProof, List.append_assoc, le32_eq, List.take_append, leBytes_length,
          List.take_of_length_le (by rw [leBytes_length]; omega), Decode.read32LE_leBytes _ (by omega)]
      obtain ⟨j, -, hj, hd⟩ := Decode.stepData_take hlast hs hne hl P.length (by omega)
      rw [← hP, hj hk, List.take_zero] at hd
      refine ⟨by omega, by omega, ?_⟩
      rw [e, Decode.stepFn, hd, Decode.decodeProofStep_nil]
  unfold Decode.mainVerified at h
  obtain ⟨k1, k2, k3⟩ := key
  exact ((Checker.checkProof_needs (by omega) h).2 _ (by omega) (by omega)).2.2 k3

/-- C78, if a set of the old certificate is not in the log, `fix-proof` panics with a part of the file written.  The checker
does not accept it, whatever the old certificate is. -/
theorem C78_fix_missing {fs0 fs : FS} {groups : List (ℕ × ℕ)} {sets : (g : ℕ × ℕ) → List (Bitmap g.1)}
    (hlog : LogDir fs0 groups sets) {old : List OldStep} (hn : ∀ s ∈ old, s.set.n < 256)
    (hl : ∀ s ∈ old, s.bytes.length < 2 ^ 32 - 1) (hc : old.length < 127 * 2 ^ 24)
    {trailing : List UInt8} (hold : fs0 oldName = some (writeProof (old.map OldStep.bytes) ++ trailing))
    (hsize : (writeProof (old.map OldStep.bytes)).length < 2 ^ 61)
    {s : OldStep} (hs : s ∈ old) (hL : ∀ b, (s.set, b) ∉ logged groups sets) (hnew : fs0 proofName = none)
    {buf : List UInt8} {p : FixPC} (h : ReflTransGen FixRun (fs0, [], .stopped) (fs, buf, p)) :
    p ≠ .done ∧ ∀ P r, fs proofName = some P → Lazy.mainVerified P ≠ some (some r) := by
  have hmiss := fixProof_missing hlog hn (fun s hs => by have := hl s hs; omega) (lt_trans hc (by norm_num)) hs hL hold
  have hi := fixInv_of_reach h
  refine ⟨?_, fun P r hP => ?_⟩
  · rintro rfl
    obtain ⟨fs1, _, _, h1, _⟩ := C78_fix_done h
    rw [hmiss] at h1
    cases h1
  rcases hi.cert with ⟨h1, _⟩ | ⟨m, data, P', e1, e2, e3, e4, e5, _⟩
  · have h1 : fs = fs0 := h1
    rw [h1, hnew] at hP
    cases hP
  have e4 : fs proofName = some P' := e4
  rw [hP] at e4
  obtain rfl := Option.some.inj e4
  obtain ⟨m', em, hm⟩ := Fix.load_spec hlog
  rw [e1] at em
  obtain rfl := Option.some.inj em
  rw [hold] at e2
  obtain rfl := Option.some.inj e2
  have hx : m.get (s.set.n, s.set.s.packed) = none := by
    cases hg : m.get (s.set.n, s.set.s.packed) with
    | none => rfl
    | some b => exact absurd ((hm.mem s.set b).1 (get_mem hg)) (hL b)
  set bnd : OldStep → ℕ := fun s => (m.get (s.set.n, s.set.s.packed)).getD 0 with hbnd
  obtain ⟨k, hk, ew⟩ := wrSteps_missing m hn ⟨s, hs, hx⟩ trailing bnd (fun s _ b hb => by rw [hbnd]; dsimp only; rw [hb]; rfl)
  set new := old.map fun s => s.withBound (bnd s) with hnewdef
  have hlen : new.length = old.length := by rw [hnewdef, List.length_map]
  have hf : List.Forall₂ (fun o n : List UInt8 => n.length = o.length + 1) (old.map OldStep.bytes) new := by
    rw [hnewdef, List.forall₂_map_left_iff, List.forall₂_map_right_iff, List.forall₂_same]
    exact fun s _ => oldBytes_length s _
  have hw : wrCount m (writeProof (old.map OldStep.bytes) ++ trailing) =
      le32 new.length ++ offsetTable (4 + 12 * new.length) new ++ (new.take k).flatten := by
    rw [wrCount, writeProof, List.append_assoc, List.append_assoc, le32_eq, readLE_leBytes]
    dsimp only
    rw [List.length_map, Nat.mod_eq_of_lt (show old.length < 256 ^ 4 from lt_trans hc (by norm_num))]
    have := wrTable_spec m 0 (4 + 12 * old.length) hf (fun o ho => by
      obtain ⟨s, hs, rfl⟩ := List.mem_map.1 ho
      have := hl s hs
      omega) [] ((old.map OldStep.bytes).flatten ++ trailing)
    rw [List.length_map] at this
    rw [this, List.nil_append, ew, hlen, hnewdef, List.map_take, Nat.add_zero, List.append_assoc]
  have hsn : old ≠ [] := by rintro rfl; simp at hs
  have hlast : new.getLast? = some ((old.getLast hsn).withBound (bnd (old.getLast hsn))) := by
    rw [hnewdef, List.getLast?_map, List.getLast?_eq_some_getLast hsn]; rfl
  have hlnew : (writeProof new).length = (writeProof (old.map OldStep.bytes)).length + old.length := by
    have : ∀ l : List OldStep, (l.map fun s => s.withBound (bnd s)).flatten.length =
        (l.map OldStep.bytes).flatten.length + l.length := by
      intro l
      induction l with
      | nil => rfl
      | cons s l ih =>
        rw [List.map_cons, List.map_cons, List.flatten_cons, List.flatten_cons, List.length_append, List.length_append, ih,
          oldBytes_length, List.length_cons]
        omega
    rw [writeProof, writeProof, List.length_append, List.length_append, List.length_append, List.length_append,
      Decode.offsetTable_length, Decode.offsetTable_length, le32_eq, le32_eq, leBytes_length, leBytes_length, hlen, List.length_map, this]
    omega
  have hpre : wrCount m (writeProof (old.map OldStep.bytes) ++ trailing) <+: writeProof new := by
    rw [hw, writeProof, List.append_assoc, List.append_assoc]
    refine (List.prefix_append_right_inj _).2 ((List.prefix_append_right_inj _).2 ?_)
    conv_rhs => rw [← List.take_append_drop k new, List.flatten_append]
    exact List.prefix_append _ _
  have hP' : P <+: wrCount m (writeProof (old.map OldStep.bytes) ++ trailing) := (List.prefix_append _ _).trans e5
  refine last_missing hlast ?_ (by simp [OldStep.withBound]) (by omega) (by omega) P (hP'.trans hpre) ?_ r
  · rw [oldBytes_length]
    have := hl _ (List.getLast_mem hsn)
    omega
  · have h1 := hP'.length_le
    have h2 : ((new.take k).flatten).length + ((old.getLast hsn).withBound (bnd (old.getLast hsn))).length ≤
        new.flatten.length := by
      have h3 : new = new.dropLast ++ [(old.getLast hsn).withBound (bnd (old.getLast hsn))] :=
        (List.dropLast_append_getLast? _ hlast).symm
      have h4 : new.take k = new.dropLast.take k := by
        rw [List.dropLast_eq_take, List.take_take, min_eq_left (by omega)]
      rw [h4]
      conv_rhs => rw [h3, List.flatten_append, List.length_append]
      have h5 : (new.dropLast.take k).flatten.length ≤ new.dropLast.flatten.length := by
        conv_rhs => rw [← List.take_append_drop k new.dropLast, List.flatten_append, List.length_append]
        omega
      simp only [List.flatten_cons, List.flatten_nil, List.append_nil]
      omega
    rw [hw, List.length_append, List.length_append] at h1
    rw [writeProof, List.length_append, List.length_append]
    omega

/-- C78, whatever `fix-proof` has left behind: `gen-proof` makes the certificate it would have made without this. -/
theorem C78_fix_then_gen {fs0 fs : FS} {buf : List UInt8} {p : FixPC}
    (h : ReflTransGen FixRun (fs0, [], .stopped) (fs, buf, p)) : genProof fs = genProof fs0 := gen_ext (C78_fix_files h).1

/-! ## Examples -/

/-- A run of `gen-proof` that is killed with three bytes in the file, where the hypotheses of `C78_gen_checker` are met. -/
theorem C78_gen_example : ∃ fs fs1, ReflTransGen GenRun (exampleLog3, .stopped) (fs, .stopped) ∧
    fs proofName = some [1, 0, 0] ∧ genProof exampleLog3 = some fs1 ∧
    fs1 proofName = some (writeProof [[3, 3, 255, 0, 2, 2, 2]]) ∧ ∀ r, Lazy.mainVerified [1, 0, 0] ≠ some (some r) := by
  have hg : genProof exampleLog3 = some ((exampleLog3.create proofName).append proofName
      (writeProof [[3, 3, 255, 0, 2, 2, 2]])) := by rw [genProof, exampleLog3_steps]; rfl
  have hw : GenRun (exampleLog3.create proofName, .writing (writeProof [[3, 3, 255, 0, 2, 2, 2]]))
      ((exampleLog3.create proofName).append proofName [1, 0, 0],
        .writing ((writeProof [[3, 3, 255, 0, 2, 2, 2]]).drop 3)) := by
    have := GenRun.write (fs := exampleLog3.create proofName) (now := [1, 0, 0])
      (rest := (writeProof [[3, 3, 255, 0, 2, 2, 2]]).drop 3) (by simp)
    rwa [show [1, 0, 0] ++ (writeProof [[3, 3, 255, 0, 2, 2, 2]]).drop 3 = writeProof [[3, 3, 255, 0, 2, 2, 2]] by
      decide +kernel] at this
  have hrun : ReflTransGen GenRun (exampleLog3, .stopped)
      ((exampleLog3.create proofName).append proofName [1, 0, 0], .stopped) :=
    .head (.create exampleLog3_steps) (.head hw (.single .kill))
  have hf : ((exampleLog3.create proofName).append proofName [1, 0, 0]) proofName = some [1, 0, 0] := by
    rw [create_append, if_pos rfl]
  have hL : ∀ A b, (A, b) ∈ logged [(3, 3)] (fun g => [allValues g.1]) → A = ⟨3, allValues 3⟩ ∧ b = 3 := by
    intro A b hA
    simpa [logged] using hA
  refine ⟨_, _, hrun, hf, hg, by rw [create_append, if_pos rfl], fun r hr => ?_⟩
  have key := C78_gen_checker exampleLog3_dir (N := 3) (b := 3)
    (by
      intro A b b' h1 h2
      rw [(hL A b h1).2, (hL A b' h2).2])
    (by
      intro A b h
      rw [(hL A b h).1]
      dsimp only
      rw [toSet_allValues]
      exact chained_univ)
    (by
      intro A b h _
      rw [(hL A b h).1]
      dsimp only
      rw [toSet_allValues]
      exact not_chain_univ (by omega))
    (by decide +kernel) (by simp [logged]) (by simp) (by omega) hg hrun hf hr
  rcases key with h | h
  · have := congrFun h proofName
    rw [hf] at this
    exact absurd this (by decide +kernel)
  · have := congrFun h proofName
    rw [hf, create_append, if_pos rfl] at this
    exact absurd this (by decide +kernel)

/-- The directory of `exampleLog3` with an old certificate that has a set with two channels which is not in the log. -/
def exampleMissing : FS := fun name =>
  if name = oldName then some (writeProof [[3, 255, 0, 2, 2, 2], [2, 15, 0, 2]]) else exampleLog3 name

theorem exampleMissing_dir : LogDir exampleMissing [(3, 3)] fun g => [allValues g.1] := by
  refine ⟨⟨groupName (3, 3) ++ [10], by decide +kernel, by decide +kernel⟩, by simp, by simp, by simp, by simp, ?_⟩
  intro g hg
  rw [List.mem_singleton.1 hg]
  decide +kernel

/-- The bytes that `fix-proof` writes there before it panics. -/
def exampleMissingOut : List UInt8 :=
  le32 2 ++ (le64 28 ++ le32 7) ++ (le64 35 ++ le32 5) ++ [3, 3, 255, 0, 2, 2, 2]

/-- The hypotheses of `C78_fix_missing` can be met, and the panic leaves a file. -/
theorem C78_fix_example : ∃ fs, ReflTransGen FixRun (exampleMissing, [], .stopped) (fs, [], .panicked) ∧
    fs proofName = some exampleMissingOut ∧ ∀ r, Lazy.mainVerified exampleMissingOut ≠ some (some r) := by
  obtain ⟨m, hm, -⟩ := Fix.load_spec exampleMissing_dir
  have hm' : m = [((3, [255]), 3)] := by
    have : Fix.load exampleMissing = some [((3, [255]), 3)] := by decide +kernel
    rw [this] at hm
    exact (Option.some.inj hm).symm
  subst hm'
  have hrun : ReflTransGen FixRun (exampleMissing, [], .stopped)
      ((exampleMissing.create proofName).append proofName exampleMissingOut, [], .panicked) := by
    refine .head (.create hm rfl rfl) (.head (.count (n := 2) (data' := (writeProof [[3, 255, 0, 2, 2, 2], [2, 15, 0, 2]]).drop 4)
      (by decide +kernel)) ?_)
    refine .head (.entry (offset := 28) (len := 6) (data' := (writeProof [[3, 255, 0, 2, 2, 2], [2, 15, 0, 2]]).drop 12)
      (data'' := (writeProof [[3, 255, 0, 2, 2, 2], [2, 15, 0, 2]]).drop 16) (by decide +kernel) (by decide +kernel)) ?_
    refine .head (.entry (offset := 34) (len := 4) (data' := (writeProof [[3, 255, 0, 2, 2, 2], [2, 15, 0, 2]]).drop 24)
      (data'' := (writeProof [[3, 255, 0, 2, 2, 2], [2, 15, 0, 2]]).drop 28) (by decide +kernel) (by decide +kernel)) ?_
    refine .head .tableEnd (.head (.step (out := [3, 3, 255, 0, 2, 2, 2]) (data' := [2, 15, 0, 2]) (by decide +kernel)) ?_)
    refine .head (.stepPanic (by decide +kernel)) (.single ?_)
    have := FixRun.flush (fs := exampleMissing.create proofName) (now := exampleMissingOut) (rest := []) (p := .panicked)
      (by decide +kernel)
    rw [List.append_nil] at this
    convert this using 3
    decide +kernel
  have hL : ∀ A b, (A, b) ∈ logged [(3, 3)] (fun g => [allValues g.1]) ↔ A = ⟨3, allValues 3⟩ ∧ b = 3 := by
    intro A b
    simp [logged]
  have hold : exampleMissing oldName = some (writeProof (([⟨⟨3, allValues 3⟩, [0, 2, 2, 2]⟩, ⟨⟨2, allValues 2⟩, [0, 2]⟩] :
      List OldStep).map OldStep.bytes) ++ []) := by decide +kernel
  have key := C78_fix_missing exampleMissing_dir (by decide) (by decide +kernel) (by decide) hold (by decide +kernel)
    (s := ⟨⟨2, allValues 2⟩, [0, 2]⟩) (by simp) (by
      intro b hb
      have := congrArg OSet.n ((hL _ b).1 hb).1
      simp at this) rfl hrun
  have hf : ((exampleMissing.create proofName).append proofName exampleMissingOut) proofName = some exampleMissingOut := by
    rw [create_append, if_pos rfl]
  exact ⟨_, hrun, hf, fun r => key.2 _ r hf⟩

/-- The hypotheses of `C78_fix_checker` can be met: `fix-proof` is killed with two bytes in the file.  Then it is blocked. -/
theorem C78_fix_blocked_example : ∃ fs, ReflTransGen FixRun (exampleOld, [], .stopped) (fs, [], .stopped) ∧
    fs proofName = some [1, 0] ∧ (∀ r, Lazy.mainVerified [1, 0] ≠ some (some r)) ∧ fixProof fs = none ∧
    (∃ fs1, ReflTransGen FixRun (exampleOld, [], .stopped) (fs1, [], .done) ∧
      fs1 proofName = some (writeProof [[3, 3, 255, 0, 2, 2, 2]])) := by
  have hd : LogDir exampleOld [(3, 3)] fun g => [allValues g.1] := by
    refine ⟨⟨groupName (3, 3) ++ [10], by decide +kernel, by decide +kernel⟩, by simp, by simp, by simp, by simp, ?_⟩
    intro g hg
    rw [List.mem_singleton.1 hg]
    decide +kernel
  obtain ⟨m, hm, -⟩ := Fix.load_spec hd
  have hrun : ReflTransGen FixRun (exampleOld, [], .stopped)
      ((exampleOld.create proofName).append proofName [1, 0], [], .stopped) := by
    refine .head (.create hm rfl rfl) (.head (.count (n := 1) (data' := (writeProof [[3, 255, 0, 2, 2, 2]]).drop 4)
      (by decide +kernel)) (.head (b := (_, [0, 0], .table m 0 1 [] ((writeProof [[3, 255, 0, 2, 2, 2]]).drop 4))) ?_
      (.single .kill)))
    exact FixRun.flush (fs := exampleOld.create proofName) (now := [1, 0]) (rest := [0, 0]) (by simp)
  have hf : ((exampleOld.create proofName).append proofName [1, 0]) proofName = some [1, 0] := by
    rw [create_append, if_pos rfl]
  have hL : ∀ A b, (A, b) ∈ logged [(3, 3)] (fun g => [allValues g.1]) ↔ A = ⟨3, allValues 3⟩ ∧ b = 3 := by
    intro A b
    simp [logged]
  obtain ⟨fs1, e1, e2⟩ := C45_example
  refine ⟨_, hrun, hf, fun r hr => ?_, C45_exists hf, fs1, C78_fix_runs e1, e2⟩
  have := C78_fix_checker hd
    (by
      intro A b b' h1 h2
      rw [((hL A b).1 h1).2, ((hL A b').1 h2).2])
    (cs := [⟨⟨3, allValues 3⟩, 3, .huffman false, [none, none, none]⟩])
    (by
      intro c hc
      rw [List.mem_singleton.1 hc]
      exact ⟨by decide, by decide, by simp, by decide +kernel⟩)
    (by
      intro c hc
      rw [List.mem_singleton.1 hc, hL]
      exact ⟨rfl, rfl⟩)
    (by simp) (by decide) (by decide +kernel) (by decide +kernel) (by decide +kernel) (r := (3, 3)) (by decide +kernel)
    hrun hf hr
  revert this
  decide +kernel

end Sortnet
