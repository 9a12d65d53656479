import Verif.Proof.Script
import Verif.Props.C49

/-!
# C77: `search_and_verify.sh`, run any number of times

`ScriptRun N fs fs' o` (Model/Script.lean) is a run of the script for `N` channels in the directory `fs`, which leaves the
directory `fs'` and ends with `o`: it is stopped at any point, or the checker is run.
-/

namespace Sortnet

open Search Files ProofGen Relation Script

/-- C77, soundness.  Whatever was in the directory, a printed `Just (w, b)` is a true lower bound. -/
theorem C77_sound {N : ℕ} {fs fs' : FS} {w b : ℤ} (h : ScriptRun N fs fs' (.checked (some (some (w, b))))) :
    LowerSizeBound w.toNat b.toNat := by
  generalize ho : Outcome.checked (some (some (w, b))) = o at h
  cases h with
  | verify hs hp hg hf =>
    rw [Outcome.checked.injEq] at ho
    exact (C63_sound ho.symm).1
  | _ => simp at ho

/-- Runs that end before `prune-all` make no `.pbin` files. -/
theorem early_pbin {N : ℕ} {fs0 fs : FS} (hnew : ∀ g, fs0 (pbinName g) = none) (h : ReflTransGen (EarlyEnd N) fs0 fs) (g : ℕ × ℕ) :
    fs (pbinName g) = none := by
  induction h with
  | refl => exact hnew g
  | tail _ hab ih =>
    cases hab with
    | search => exact ih
    | dump hs hd => rw [dump_pbin hd, ih]

/-- C77, runs that ended before `prune-all` do no harm.  Let the directory have had no `.pbin` files, and let all runs of the
script so far have ended while searching or while the states were dumped.  In the next run, `prune-all` does not panic; if it
ends, `gen-proof` does not panic; and if the checker is run, it prints `Just (N, r)`, where `r` is the minimum size of a sorting
network on `N` channels. -/
theorem C77_early {N : ℕ} (h3 : 3 ≤ N) (hN : N ≤ 11) {fs0 fs : FS} (hnew : ∀ g, fs0 (pbinName g) = none)
    (h : ReflTransGen (EarlyEnd N) fs0 fs) :
    (∀ r m, Searched N r m → ∀ fs2 p, ReflTransGen PruneStep (dumpStates m fs, .stopped) (fs2, p) →
      p ≠ .panicked ∧ (p = .done → (genProof fs2).isSome)) ∧
    ∀ fs' a, ScriptRun N fs fs' (.checked a) → ∃ r : ℕ, MinSize N r ∧ a = some (some ((N : ℤ), (r : ℤ))) := by
  have hpb := early_pbin hnew h
  have key : ∀ r m, Searched N r m → ∀ fs2, ReflTransGen PruneStep (dumpStates m fs, .stopped) (fs2, .done) →
      MinSize N r ∧ ∃ fs3 file, genProof fs2 = some fs3 ∧ fs3 proofName = some file ∧
        Lazy.mainVerified file = some (some ((N : ℤ), (r : ℤ))) := by
    rintro r m ⟨hash, G, hash', threads, hist, h, hr, hh, hst, hm, hsize⟩ fs2 hp
    exact C63_pipeline hash N h3 hN G h r hr hash' threads hist hh hst m hm hsize fs hpb fs2
      (hp.lift id fun _ _ h => CrashStep.step h)
  refine ⟨fun r m hs fs2 p hp => ⟨(prune_files h3 hN hs hp).1, ?_⟩, fun fs' a ha => ?_⟩
  · rintro rfl
    obtain ⟨_, fs3, _, hg, _⟩ := key r m hs fs2 hp
    rw [hg]
    rfl
  · generalize ho : Outcome.checked a = o at ha
    cases ha with
    | verify hs hp hg hf =>
      rw [Outcome.checked.injEq] at ho
      obtain ⟨hmin, fs3, file, e1, e2, e3⟩ := key _ _ hs _ hp
      rw [hg] at e1
      obtain rfl := Option.some.inj e1
      rw [hf] at e2
      obtain rfl := Option.some.inj e2
      exact ⟨_, hmin, ho.trans e3⟩
    | _ => simp at ho

/-- C77, the `.pbin` files.  After any number of runs of the script, each of which may have been stopped at any point, every
`.pbin` file is correct, if there were none at the beginning. -/
theorem C77_files {N : ℕ} (h3 : 3 ≤ N) (hN : N ≤ 11) {fs0 fs : FS} (hnew : ∀ g, fs0 (pbinName g) = none) (h : Runs N fs0 fs)
    (g : ℕ × ℕ) (data : List UInt8) (hd : fs (pbinName g) = some data) : GoodFile N g data := runs_files h3 hN hnew h hd

/-- C77, a `.pbin` file is never changed.  So a later run uses those of earlier runs, and the log may be made of parts of the
logs of several searches. -/
theorem C77_kept {N : ℕ} (h3 : 3 ≤ N) (hN : N ≤ 11) {fs fs' : FS} (h : Runs N fs fs') (g : ℕ × ℕ) (data : List UInt8)
    (hd : fs (pbinName g) = some data) : fs' (pbinName g) = some data := by
  induction h with
  | refl => exact hd
  | tail _ hab ih =>
    obtain ⟨o, ho⟩ := hab
    exact (run_files h3 hN ho g).1 data ih

/-- C77, runs after runs that were stopped at any point.  If the checker is run, it ends without an exception and prints `Just (N, r)`,
where `r` is the minimum size of a sorting network on `N` channels, or `Nothing`.  It prints `Just (N, r)` if no set has two
different bounds in the log, which may be made of parts of several logs. -/
theorem C77_again {N : ℕ} (h3 : 3 ≤ N) (hN : N ≤ 11) {fs0 fs fs' : FS} (hnew : ∀ g, fs0 (pbinName g) = none) (h : Runs N fs0 fs)
    {a : Option (Option (ℤ × ℤ))} (ha : ScriptRun N fs fs' (.checked a)) (hsize : SmallLog fs') :
    ∃ r : ℕ, MinSize N r ∧ (a = some (some ((N : ℤ), (r : ℤ))) ∨ a = some none) ∧
      (OneBound fs' → a = some (some ((N : ℤ), (r : ℤ)))) := by
  have hgood : ∀ g data, fs' (pbinName g) = some data → GoodFile N g data := fun g data hd =>
    runs_files h3 hN hnew (h.tail ⟨_, ha⟩) hd
  generalize ho : Outcome.checked a = o at ha
  cases ha with
  | @verify r m fs2 _ file hs hp hg hf =>
    rw [Outcome.checked.injEq] at ho
    obtain ⟨hmin, _⟩ := dump_dir h3 hN hs fs
    obtain ⟨_, _, _, hdone⟩ := prune_files h3 hN hs hp
    obtain ⟨groups, hidx, hroot, hpb⟩ := hdone rfl
    have hfs : ∀ x, x ≠ proofName → fs' x = fs2 x := fun x hx => genProof_other hg hx
    have hsets : ∀ g : ℕ × ℕ, ∃ sets : List (Bitmap g.1), g ∈ groups → sets ≠ [] ∧
        fs' (pbinName g) = some (sets.flatMap Bitmap.packed) ∧
        ∀ s ∈ sets, Chained s.toSet ∧ LB s.toSet g.2 ∧ ((⟨g.1, s⟩ : OSet) = ⟨N, allValues N⟩ → MinSize N g.2) := by
      intro g
      by_cases hgm : g ∈ groups
      · obtain ⟨data, hd⟩ := Option.isSome_iff_exists.1 (hpb g hgm)
        rw [← hfs _ (proof_ne_pbin g)] at hd
        obtain ⟨_, _, sets, s1, rfl, s3⟩ := hgood g data hd
        exact ⟨sets, fun _ => ⟨s1, hd, s3⟩⟩
      · exact ⟨[], fun h => absurd h hgm⟩
    choose sets hsets using hsets
    have hch : ∀ g ∈ groups, 3 ≤ g.1 ∧ g.1 ≤ N ∧ g.2 ≤ 35 := fun g hgm => by
      have := hgood g _ (hsets g hgm).2.1
      exact ⟨this.channels.1, this.channels.2, this.bound⟩
    have hlog' : ∀ fs'' : FS, (∀ x, x ≠ proofName → fs'' x = fs2 x) → LogDir fs'' groups sets := fun fs'' h'' => by
      refine ⟨?_, fun e => by rw [e] at hroot; simp at hroot, fun g hgm => ?_, fun g hgm => ?_, fun g hgm => (hsets g hgm).1,
        fun g hgm => ?_⟩
      · obtain ⟨data, d1, d2⟩ := hidx
        exact ⟨data, (h'' _ (by decide)).trans d1, d2⟩
      · have := hch g hgm
        omega
      · have := hch g hgm
        omega
      · rw [h'' _ (proof_ne_pbin g), ← hfs _ (proof_ne_pbin g)]
        exact (hsets g hgm).2.1
    have hlog := hlog' fs2 fun _ _ => rfl
    have hlogE := hlog' fs' hfs
    have hmem : ∀ A b, (A, b) ∈ logged groups sets → Chained A.s.toSet ∧ LB A.s.toSet b ∧
        (A = ⟨N, allValues N⟩ → MinSize N b) := by
      intro A b hA
      simp only [logged, List.mem_flatMap, List.mem_map, Prod.mk.injEq] at hA
      obtain ⟨g, hgm, s, hs, rfl, rfl⟩ := hA
      exact (hsets g hgm).2.2 s hs
    obtain ⟨N', b, _, hmax, hrt⟩ := genProof_root hlog hg
    obtain rfl : N' = N := by
      have h1 := hmax _ hroot
      simp only [logged, List.mem_flatMap, List.mem_map, Prod.mk.injEq] at hrt
      obtain ⟨p, hp, s, _, hs, _⟩ := hrt
      have := (hch p hp).2.1
      have hpn : p.1 = N' := congrArg OSet.n hs
      dsimp only at h1
      omega
    have hone : ∀ b', ((⟨N', allValues N'⟩ : OSet), b') ∈ logged groups sets → b' = r := fun b' hb' =>
      minSize_unique ((hmem _ _ hb').2.2 rfl) hmin
    obtain rfl := hone b hrt
    have hb : 2 ≤ b := by
      have := three_le_of_opt h3 (isOpt_univ_iff.2 hmin)
      omega
    refine ⟨b, hmin, ?_, fun hob => ?_⟩
    · rw [ho]
      exact gen_answer hlog (hsize _ _ hlogE) hrt hone hmax hb hg hf
    · obtain ⟨file', f1, f2⟩ := C63_gen_proof hlog (hob _ _ hlogE) (fun A b hA => (hmem A b hA).1)
        (fun A b hA => (hmem A b hA).2.1) (hsize _ _ hlogE) hrt hmax hb hg
      rw [hf] at f1
      obtain rfl := Option.some.inj f1
      exact ho.trans f2
  | _ => simp at ho

/-! ## Two bounds for one set -/

/-- A directory with the log of all vectors on three and four channels, where two bounds are logged for three channels. -/
def exampleTwoBounds (order : List (ℕ × ℕ)) : FS := fun x =>
  if x = indexName then some (order.flatMap fun g => groupName g ++ [10])
  else if x = pbinName (4, 5) then some [255, 255]
  else if x = pbinName (3, 3) then some [255]
  else if x = pbinName (3, 2) then some [255] else none

/-- C77, why `Nothing` cannot be excluded there: in this directory all `.pbin` files are correct, but two bounds are logged for a
set, both of them true.  `gen-proof` takes the one for the proof of four channels, and the other one for its step, so that its
certificate is rejected.  If the two groups are in the other order in the index, the certificate is accepted. -/
theorem C77_two_bounds :
    (∀ order g data, exampleTwoBounds order (pbinName g) = some data → GoodFile 4 g data) ∧
    (∃ fs' file, genProof (exampleTwoBounds [(4, 5), (3, 3), (3, 2)]) = some fs' ∧ fs' proofName = some file ∧
      Lazy.mainVerified file = some none) ∧
    ∃ fs' file, genProof (exampleTwoBounds [(4, 5), (3, 2), (3, 3)]) = some fs' ∧ fs' proofName = some file ∧
      Lazy.mainVerified file = some (some (4, 5)) := by
  refine ⟨fun order g data h => ?_, ?_, ?_⟩
  · have hall : ∀ n : ℕ, Chained (allValues n).toSet := fun n => by rw [toSet_allValues]; exact chained_univ
    have h4 : LB (allValues 4).toSet 5 := by
      rw [toSet_allValues]; exact ((C49_optimum 4 5).2 C29_three_four.2).1
    have h3 : LB (allValues 3).toSet 3 := by
      rw [toSet_allValues]; exact ((C49_optimum 3 3).2 C29_three_four.1).1
    unfold exampleTwoBounds at h
    rw [if_neg (pbin_ne_index g).symm] at h
    split_ifs at h with e1 e2 e3
    · obtain rfl := pbin_injective e1
      obtain rfl := Option.some.inj h
      exact ⟨by decide, by decide, [allValues 4], by simp, by decide +kernel, fun s hs => by
        rw [List.mem_singleton.1 hs]; exact ⟨hall 4, h4, fun _ => C29_three_four.2⟩⟩
    · obtain rfl := pbin_injective e2
      obtain rfl := Option.some.inj h
      exact ⟨by decide, by decide, [allValues 3], by simp, by decide +kernel, fun s hs => by
        rw [List.mem_singleton.1 hs]; exact ⟨hall 3, h3, fun e => absurd (congrArg OSet.n e) (by decide)⟩⟩
    · obtain rfl := pbin_injective e3
      obtain rfl := Option.some.inj h
      exact ⟨by decide, by decide, [allValues 3], by simp, by decide +kernel, fun s hs => by
        rw [List.mem_singleton.1 hs]; exact ⟨hall 3, h3.le (by omega), fun e => absurd (congrArg OSet.n e) (by decide)⟩⟩
  · have h : (genSteps (exampleTwoBounds [(4, 5), (3, 3), (3, 2)])).map (fun c => Lazy.mainVerified (writeProof c)) =
        some (some none) := by
      unfold genSteps
      simp only [encodeProof_eq]
      unfold encWitness
      simp only [encodeProof_eq]
      decide +kernel
    obtain ⟨c, h1, h2⟩ := Option.map_eq_some_iff.1 h
    refine ⟨_, writeProof c, by unfold genProof; rw [h1]; rfl, by simp [FS.append, FS.create], h2⟩
  · have h : (genSteps (exampleTwoBounds [(4, 5), (3, 2), (3, 3)])).map (fun c => Lazy.mainVerified (writeProof c)) =
        some (some (some (4, 5))) := by
      unfold genSteps
      simp only [encodeProof_eq]
      unfold encWitness
      simp only [encodeProof_eq]
      decide +kernel
    obtain ⟨c, h1, h2⟩ := Option.map_eq_some_iff.1 h
    refine ⟨_, writeProof c, by unfold genProof; rw [h1]; rfl, by simp [FS.append, FS.create], h2⟩

/-! ## Examples -/

/-- A directory has at most one log. -/
theorem logged_unique {fs : FS} {groups groups' : List (ℕ × ℕ)} {sets sets' : (g : ℕ × ℕ) → List (Bitmap g.1)}
    (h : LogDir fs groups sets) (h' : LogDir fs groups' sets') : logged groups sets = logged groups' sets' := by
  obtain ⟨data, d1, d2⟩ := h.index
  obtain ⟨data', d1', d2'⟩ := h'.index
  rw [d1] at d1'
  obtain rfl := Option.some.inj d1'
  obtain rfl : groups = groups' := C36_names.1.list_map (d2.symm.trans d2')
  unfold logged
  refine List.flatMap_congr fun g hg => ?_
  have e : (sets g).flatMap Bitmap.packed = (sets' g).flatMap Bitmap.packed :=
    Option.some.inj ((h.file g hg).symm.trans (h'.file g hg))
  have p1 := packed_prefix (e ▸ List.prefix_rfl : (sets g).flatMap Bitmap.packed <+: (sets' g).flatMap Bitmap.packed)
  have p2 := packed_prefix (e ▸ List.prefix_rfl : (sets' g).flatMap Bitmap.packed <+: (sets g).flatMap Bitmap.packed)
  rw [p1.eq_of_length (le_antisymm p1.length_le p2.length_le)]

/-- The index does not depend on the files that were there before. -/
theorem dump_index (m : StateMap) (fs fs' : FS) : dumpStates m fs indexName = dumpStates m fs' indexName := by
  have key : ∀ (l : List (ℕ × List UInt8 × State)) (a b : FS × List (ℕ × ℕ)), a.1 indexName = b.1 indexName → a.2 = b.2 →
      (l.foldl dumpEntry a).1 indexName = (l.foldl dumpEntry b).1 indexName := by
    intro l
    induction l with
    | nil => intro a b h _; exact h
    | cons e l ih =>
      rintro ⟨a, ga⟩ ⟨b, gb⟩ h1 h2
      dsimp only at h1 h2
      subst h2
      have hn : indexName ≠ groupName (e.1, e.2.2.lo) := fun h => C36_names.2 _ h.symm
      rw [List.foldl_cons, List.foldl_cons]
      apply ih
      · unfold dumpEntry
        dsimp only
        split_ifs
        · simp [FS.append, hn, h1]
        · simp [FS.append, FS.create, hn, h1]
      · unfold dumpEntry
        dsimp only
        split_ifs <;> rfl
  refine key _ _ _ ?_ rfl
  simp [FS.create]

/-- Non-vacuity.  A first run for four channels is stopped while the states are dumped: an empty index is left behind.  The second
run prints `Just (4, 5)`, and so does a third one.  The hypotheses of C77 are met in all runs. -/
theorem C77_example : ∃ fs1 fs2 fs3 : FS, EarlyEnd 4 (fun _ => none) fs1 ∧ fs1 indexName = some [] ∧
    ScriptRun 4 fs1 fs2 (.checked (some (some (4, 5)))) ∧ ScriptRun 4 fs2 fs3 (.checked (some (some (4, 5)))) ∧
    SmallLog fs3 ∧ OneBound fs3 ∧ ∃ data, fs2 (pbinName (4, 5)) = some data := by
  obtain ⟨G, hist, m, _, _, _, h, hr, hh, hst, hm, hsize, _⟩ := C44_example
  have hs : Searched 4 5 m := ⟨_, G, _, 8, hist, h, hr, hh, hst, hm, hsize⟩
  have hpath : ∀ fs : FS, ∃ fs2, ReflTransGen PruneStep (dumpStates m fs, .stopped) (fs2, .done) := fun fs => by
    obtain ⟨_, _, groups, out, hdir, _⟩ := dump_dir (by omega) (by omega) hs fs
    exact prune_completes hdir (crashInv_of_reach hdir .refl)
  have hd : ReflTransGen (DumpStep m) (DumpSt.init fun _ => none) _ := .single (.start rfl)
  have hE : EarlyEnd 4 (fun _ => none) _ := .dump hs hd
  obtain ⟨e1, e2⟩ := C77_early (N := 4) (by omega) (by omega) (fun _ => rfl) (.single hE)
  obtain ⟨fsa, ha⟩ := hpath _
  obtain ⟨fs2, hg2⟩ := Option.isSome_iff_exists.1 ((e1 5 m hs fsa _ ha).2 rfl)
  obtain ⟨data, _, hf2⟩ := genProof_file hg2
  have hrun2 := ScriptRun.verify hs ha hg2 hf2
  obtain ⟨fsb, hb⟩ := hpath fs2
  have hpb1 := early_pbin (N := 4) (fun _ => rfl) (.single hE)
  have lift : ∀ {a b : FS × Proc}, ReflTransGen PruneStep a b → ReflTransGen CrashStep a b := fun h =>
    h.lift id fun _ _ h => CrashStep.step h
  obtain ⟨_, fs3, file3, hg3, hf3, _⟩ := C67_second_search _ 4 (by omega) (by omega) G h 5 hr _ 8 hist hh hst m hm hsize _ hpb1 fsa
    (lift ha) fs2 (Or.inr hg2) _ 8 hist hh m hm (by rw [hst]) fsb (lift hb)
  have hrun3 := ScriptRun.verify hs hb hg3 hf3
  obtain ⟨groups, kept, _, hlog, hL, _, hroot, hlen⟩ := pipeline_log (by omega) (by omega) h hr hh hst hm hpb1
  have hlog := hlog fsa (lift ha)
  have hidx : ∀ {fs fs'}, ReflTransGen PruneStep (dumpStates m fs, .stopped) (fs', .done) →
      fs' indexName = dumpStates m fs indexName := fun {fs fs'} hp => by
    obtain ⟨_, _, groups, out, hdir, _⟩ := dump_dir (N := 4) (by omega) (by omega) hs fs
    exact (crashInv_of_reach hdir (lift hp)).base _ fun g _ => ⟨pbin_ne_index g, tmp_ne_index g⟩
  have hlog3 : LogDir fs3 groups kept := by
    refine ⟨?_, hlog.nonempty, hlog.channels, hlog.bound, hlog.sets_ne, fun g hg => ?_⟩
    · obtain ⟨data, d1, d2⟩ := hlog.index
      refine ⟨data, ?_, d2⟩
      rw [genProof_other hg3 (by decide), hidx hb, ← d1, hidx ha]
      exact dump_index m _ _
    · refine C77_kept (N := 4) (by omega) (by omega) (.single ⟨_, hrun3⟩) g _ ?_
      rw [genProof_other hg2 (proof_ne_pbin g)]
      exact hlog.file g hg
  have hsmall : SmallLog fs3 := fun groups' sets' h' => by
    rw [logged_unique h' hlog3]
    omega
  have hone : OneBound fs3 := fun groups' sets' h' A b b' hb hb' => by
    rw [logged_unique h' hlog3] at hb hb'
    obtain ⟨v, hv, rfl⟩ := hL.mem A b hb
    obtain ⟨v', hv', rfl⟩ := hL.mem A b' hb'
    rw [hv] at hv'
    cases hv'
    rfl
  obtain ⟨r, hr1, hr2⟩ := e2 _ _ hrun2
  obtain rfl := minSize_unique hr1 C29_three_four.2
  obtain ⟨r', hr1', _, hr2'⟩ := C77_again (by omega) (by omega) (fun _ => rfl)
    ((ReflTransGen.single ⟨_, .dump hs hd⟩).tail ⟨_, hrun2⟩ : Runs 4 (fun _ => none) fs2) hrun3 hsmall
  obtain rfl := minSize_unique hr1' C29_three_four.2
  rw [hr2] at hrun2
  rw [hr2' hone] at hrun3
  refine ⟨_, fs2, fs3, hE, by simp [DumpSt.init, FS.create], hrun2, hrun3, hsmall, hone, ?_⟩
  have hg45 : (4, 5) ∈ groups := by
    simp only [logged, List.mem_flatMap, List.mem_map, Prod.mk.injEq] at hroot
    obtain ⟨g, hg, s, _, e, e'⟩ := hroot
    have : g = (4, 5) := Prod.ext (congrArg OSet.n e) e'
    exact this ▸ hg
  exact ⟨_, (genProof_other hg2 (proof_ne_pbin _)).trans (hlog.file _ hg45)⟩

end Sortnet
