import Verif.Props.C44
import Verif.Props.C45

/-!
# C67: the commands can be repeated in the same directory

`RerunDir` (Spec/Prune.lean) is a directory with a log in which some `.pbin` files may exist already, with any contents.
-/

namespace Sortnet

open Search Files ProofGen Relation

/-! ## `prune_all` -/

/-- C67, `prune_all` keeps every `.pbin` file that exists, whatever its contents, and makes those that are missing.  This
holds for every execution, with any number of crashes. -/
theorem C67_prune {fs0 : FS} {groups : List (ℕ × ℕ)} {out : ℕ × ℕ → List UInt8} (h0 : RerunDir fs0 groups out) (fs : FS)
    (p : Proc) (h : ReflTransGen CrashStep (fs0, .stopped) (fs, p)) :
    p ≠ .panicked ∧ (∀ g ∈ groups, ∀ data, fs0 (pbinName g) = some data → fs (pbinName g) = some data) ∧
    (p = .done → ∀ g ∈ groups, fs (pbinName g) = some (out g)) ∧
    ∀ x, (∀ g ∈ groups, x ≠ pbinName g ∧ x ≠ tmpName g) → fs x = fs0 x := by
  have hi := crashInv_of_reach h0 h
  refine ⟨?_, fun g hg data hd => ?_, ?_, hi.base⟩
  · rintro rfl
    exact hi.proc
  · rcases hi.pbin g hg with hc | hc
    · rw [hc.2] at hd
      simp at hd
    · rw [← h0.old g hg data hd]
      exact hc.1
  · rintro rfl
    exact hi.proc

/-- C67, running `prune_all` again changes nothing: if it has ended with the files `fs`, then any further execution of it, with
any number of crashes, has the same files at its end, and such an execution exists. -/
theorem C67_prune_again {fs0 : FS} {groups : List (ℕ × ℕ)} {out : ℕ × ℕ → List UInt8} (h0 : RerunDir fs0 groups out) (fs : FS)
    (h : ReflTransGen CrashStep (fs0, .stopped) (fs, .done)) :
    (∀ fs' , ReflTransGen CrashStep (fs, .stopped) (fs', .done) → fs' = fs) ∧
      ReflTransGen PruneStep (fs, .stopped) (fs, .done) := by
  have hi := crashInv_of_reach h0 h
  have hpb : ∀ g ∈ groups, fs (pbinName g) = some (out g) := hi.proc
  have h1 : RerunDir fs groups out := by
    refine ⟨hi.index h0, fun g hg => ?_, fun g hg data hd => ?_⟩
    · obtain ⟨hb, data, i1, i2, _⟩ := h0.input g hg
      refine ⟨hb, data, ?_, i2, fun hn => ?_⟩
      · rw [hi.input, i1]
      · rw [hpb g hg] at hn
        simp at hn
    · rw [hpb g hg] at hd
      exact Option.some.inj hd
  have key : ∀ fs' , ReflTransGen CrashStep (fs, .stopped) (fs', .done) → fs' = fs := by
    intro fs' h'
    refine (crashInv_of_reach h1 h').done_unique ⟨fun _ _ => rfl, fun g hg => Or.inr ⟨hpb g hg, ?_⟩, hpb⟩
    unfold endTmp
    rw [if_neg (by rw [hpb g hg]; simp)]
  refine ⟨key, ?_⟩
  obtain ⟨fs', h'⟩ := prune_completes h1 (crashInv_of_reach h1 .refl)
  rw [key fs' (h'.lift id fun _ _ hs => CrashStep.step hs)] at h'
  exact h'

/-! ## `gen_proof` -/

theorem proofName_ne_pbin (line : Str) : withExtension line extPbin ≠ proofName := by
  intro h
  have := congrArg suffix4 h
  rw [withExtension, show extPbin = [112, 98, 105, 110] by decide, suffix4_append _ _ rfl] at this
  revert this
  decide

/-- `gen_proof` does not read the certificate. -/
theorem genSteps_congr {fs fs' : FS} (h : ∀ x, x ≠ proofName → fs' x = fs x) : genSteps fs' = genSteps fs := by
  have h1 : loadLine fs' = loadLine fs := by
    funext m line
    unfold loadLine
    rw [h _ (proofName_ne_pbin line)]
  unfold genSteps load
  rw [h _ (by decide), h1]

/-- C67, running `gen_proof` again gives the same certificate, whatever is in the directory. -/
theorem C67_gen_again (fs fs' : FS) (h : genProof fs = some fs') : genProof fs' = some fs' := by
  unfold genProof at h
  cases hs : genSteps fs with
  | none => rw [hs] at h; simp at h
  | some steps =>
    rw [hs] at h
    have h : (fs.create proofName).append proofName (writeProof steps) = fs' := Option.some.inj h
    subst h
    unfold genProof
    have hother : ∀ x, x ≠ proofName → ((fs.create proofName).append proofName (writeProof steps)) x = fs x := fun x hx => by
      rw [create_append, if_neg hx]
    rw [genSteps_congr hother, hs]
    refine congrArg some ?_
    funext x
    rw [create_append, create_append]
    split <;> rfl

theorem genProof_pbin {fs fs' : FS} (h : genProof fs = some fs') (g : ℕ × ℕ) : fs' (pbinName g) = fs (pbinName g) := by
  unfold genProof at h
  cases hs : genSteps fs with
  | none => rw [hs] at h; simp at h
  | some steps =>
    rw [hs] at h
    have h : (fs.create proofName).append proofName (writeProof steps) = fs' := Option.some.inj h
    rw [← h, create_append, if_neg (show pbinName g ≠ proofName from proofName_ne_pbin _)]

/-! ## A second search -/

/-- The channels and lower bounds that occur in the state map of a search, which are the groups of its log (C36). -/
def Search.groupsOf (σ : Store) : Set (ℕ × ℕ) := {g | ∃ A v, σ A = some v ∧ (A.n, v.lo) = g}

theorem mem_groups_of_logOf {σ : Store} {groups : List (ℕ × ℕ)} {kept : (g : ℕ × ℕ) → List (Bitmap g.1)}
    (h : LogOf σ (logged groups kept)) (hne : ∀ g ∈ groups, kept g ≠ []) (g : ℕ × ℕ) : g ∈ groups ↔ g ∈ groupsOf σ := by
  constructor
  · intro hg
    obtain ⟨s, hs⟩ := List.exists_mem_of_ne_nil _ (hne g hg)
    obtain ⟨v, hv, hlo⟩ := h.mem ⟨g.1, s⟩ g.2 (by
      simp only [logged, List.mem_flatMap, List.mem_map, Prod.mk.injEq]
      exact ⟨g, hg, s, hs, rfl, rfl⟩)
    exact ⟨_, v, hv, by rw [hlo]⟩
  · rintro ⟨A, v, hv, rfl⟩
    obtain ⟨s, hs, _⟩ := h.cover A v hv
    simp only [logged, List.mem_flatMap, List.mem_map, Prod.mk.injEq] at hs
    obtain ⟨q, hq, t, _, h1, h2⟩ := hs
    have h1 : q.1 = A.n := congrArg OSet.n h1
    rwa [show (A.n, v.lo) = q from Prod.ext h1.symm h2.symm]

theorem packed_ne_nil {n : ℕ} {sets : List (Bitmap n)} (h : sets ≠ []) : sets.flatMap Bitmap.packed ≠ [] := by
  obtain ⟨s, hs⟩ := List.exists_mem_of_ne_nil _ h
  intro hn
  have := List.flatMap_eq_nil_iff.1 hn s hs
  have hl := packed_length s
  rw [this] at hl
  have : 0 < 2 ^ n := Nat.two_pow_pos n
  simp only [List.length_nil, packedLen] at hl
  omega

/-- A directory into which a search is dumped, with `.pbin` files for all groups. -/
theorem rerun_dump {hash' : List UInt8 → ℕ} {threads : ℕ} {hist : List (OSet × State)}
    (hh : ∀ e ∈ hist, 3 ≤ e.1.n ∧ e.1.n ≤ 11) {m : StateMap} (hm : (StateMap.new threads).run hash' hist = some m)
    {fs : FS} {old : ℕ × ℕ → List UInt8} (hold : ∀ g ∈ groupsOf (lastSet hist), fs (pbinName g) = some (old g)) :
    ∃ groups : List (ℕ × ℕ), groups.Nodup ∧ (∀ g, g ∈ groups ↔ g ∈ groupsOf (lastSet hist)) ∧
      RerunDir (dumpStates m fs) groups old := by
  obtain ⟨groups, hnd, hgm, hidx, hfile, hother⟩ := C36_dump_states hash' threads hist hh m hm fs
  have hpb : ∀ g ∈ groups, dumpStates m fs (pbinName g) = some (old g) := fun g hg => by
    rw [hother _ (pbin_ne_index g).symm fun g' _ => groupName_ne_pbin g g']
    exact hold g ((hgm g).1 hg)
  refine ⟨groups, hnd, hgm, ⟨_, hidx, lines_index groups⟩, fun g hg => ?_, fun g hg data hd => ?_⟩
  · obtain ⟨A, v, hv, rfl⟩ := (hgm g).1 hg
    obtain ⟨sets, s1, s2, s3⟩ := hfile _ hg
    refine ⟨?_, _, s2, packed_ne_nil ?_, fun hn => ?_⟩
    · obtain ⟨e, he, rfl⟩ : ∃ e ∈ hist, e.1 = A := by
        unfold lastSet at hv
        obtain ⟨e, he, _⟩ := Option.map_eq_some_iff.1 hv
        refine ⟨e, List.mem_reverse.1 (List.mem_of_find?_eq_some he), ?_⟩
        simpa using List.find?_some he
      have := (hh e he).2
      have h11 : (11 : ℕ) < 2 ^ 64 := by norm_num
      dsimp only
      omega
    · intro hnil
      have := (s3 A.s).2 ⟨v, hv, rfl⟩
      rw [hnil] at this
      simp at this
    · rw [hpb _ hg] at hn
      simp at hn
  · rw [hpb g hg] at hd
    exact Option.some.inj hd

/-- C67, a second search in the same directory.  Let `prune_all` have finished after a first search as in C44, and possibly
`gen_proof`, too.  Let a second search be dumped into the same directory, for the same number of channels or not, with a limit
or not, and let `prune_all` have finished again.  If the log of the second search has the same groups as that of the first one,
then `gen_proof` succeeds, and `snocheck -v` accepts the certificate for the result `r` of the first search. -/
theorem C67_second_search (hash : List ℕ → ℕ) (N : ℕ) (h3 : 3 ≤ N) (hN : N ≤ 11) (G : Global)
    (h : Run hash none ⟨N, allValues N⟩ G) (r : ℕ) (hr : Returned G r)
    (hash' : List UInt8 → ℕ) (threads : ℕ) (hist : List (OSet × State)) (hh : ∀ e ∈ hist, 3 ≤ e.1.n ∧ e.1.n ≤ 11)
    (hst : lastSet hist = G.store) (m : StateMap) (hm : (StateMap.new threads).run hash' hist = some m)
    (hsize : m.len < 2 ^ 32)
    (fs0 : FS) (hfresh : ∀ g, fs0 (pbinName g) = none) (fs2 : FS)
    (hp : ReflTransGen CrashStep (dumpStates m fs0, .stopped) (fs2, .done))
    (fs3 : FS) (h23 : fs3 = fs2 ∨ genProof fs2 = some fs3)
    (hash2 : List UInt8 → ℕ) (threads' : ℕ) (hist' : List (OSet × State)) (hh' : ∀ e ∈ hist', 3 ≤ e.1.n ∧ e.1.n ≤ 11) (m' : StateMap)
    (hm' : (StateMap.new threads').run hash2 hist' = some m') (hgroups : groupsOf (lastSet hist') = groupsOf G.store)
    (fs5 : FS) (hp' : ReflTransGen CrashStep (dumpStates m' fs3, .stopped) (fs5, .done)) :
    MinSize N r ∧ ∃ fs6 file, genProof fs5 = some fs6 ∧ fs6 proofName = some file ∧
      ∀ (d : Decode.Undef) (u : Checker.Undef), Decode.mainVerified d u file = some ((N : ℤ), (r : ℤ)) := by
  have hmin := C29_sorting_network hash N hN G h r hr
  refine ⟨hmin, ?_⟩
  obtain ⟨groups, kept, hdir, hlog, hL, hmax, hroot, hlen⟩ := pipeline_log h3 hN h hr hh hst hm hfresh
  have hlog := hlog fs2 hp
  have hmem := mem_groups_of_logOf hL hlog.sets_ne
  have hpb3 : ∀ g ∈ groupsOf (lastSet hist'), fs3 (pbinName g) = some ((kept g).flatMap Bitmap.packed) := by
    intro g hg
    rw [hgroups] at hg
    have h2 := hlog.file g ((hmem g).2 hg)
    rcases h23 with rfl | h23
    · exact h2
    · rw [genProof_pbin h23]
      exact h2
  obtain ⟨groups', hnd', hmem', hdir'⟩ := rerun_dump hh' hm' hpb3
  have hiff : ∀ g, g ∈ groups' ↔ g ∈ groups := fun g => by rw [hmem', hgroups, hmem]
  have hperm : groups'.Perm groups := (List.perm_ext_iff_of_nodup hnd' hdir.nodup).2 hiff
  have hlp : (logged groups' kept).Perm (logged groups kept) := hperm.flatMap_right _
  have hinv := crashInv_of_reach hdir' hp'
  have hlog' : LogDir fs5 groups' kept := by
    refine ⟨hinv.index hdir', ?_, fun g hg => hlog.channels g ((hiff g).1 hg), fun g hg => hlog.bound g ((hiff g).1 hg),
      fun g hg => hlog.sets_ne g ((hiff g).1 hg), fun g hg => hinv.proc g hg⟩
    intro hnil
    rw [hnil] at hperm
    exact hlog.nonempty (List.nil_perm.1 hperm)
  have hL' : LogOf G.store (logged groups' kept) :=
    ⟨fun A b hA => hL.mem A b (hlp.mem_iff.1 hA), fun A v hv => by
      obtain ⟨s, hs, hsub⟩ := hL.cover A v hv
      exact ⟨s, hlp.mem_iff.2 hs, hsub⟩⟩
  have hroot' := hlp.mem_iff.2 hroot
  have hmax' : ∀ g ∈ groups', g.1 ≤ N := fun g hg => hmax g ((hiff g).1 hg)
  have h0 : Chained (⟨N, allValues N⟩ : OSet).s.toSet := by dsimp only; rw [toSet_allValues]; exact chained_univ
  obtain ⟨_, _, _, β, hG, _⟩ := h.inv h0 hN
  obtain ⟨mm, g, _, e1, e2, hg, _⟩ := genSteps_spec hlog'
  obtain ⟨g', e3⟩ := proveAll_total hG.sinv (fun A v hv => h.pos h0 hN hv) hL' hg
  obtain ⟨fs6, hgen⟩ := C39_gen_proof hlog' (N := N) (by
    simp only [logged, List.mem_flatMap, List.mem_map, Prod.mk.injEq] at hroot'
    obtain ⟨q, hq, s, _, he, _⟩ := hroot'
    exact ⟨q, hq, congrArg OSet.n he⟩) hmax' ⟨r, hroot'⟩ ⟨mm, g, g', e1, e2, e3⟩
  obtain ⟨file, hf, hacc⟩ := C41_accepts hlog' (by
      intro A b b' hb hb'
      obtain ⟨v, hv, rfl⟩ := hL'.mem A b hb
      obtain ⟨v', hv', rfl⟩ := hL'.mem A b' hb'
      rw [hv] at hv'
      cases hv'
      rfl) (fun A b hA => (hL'.le hG.sinv hA).2.2.1.1)
    (fun A b hA _ => not_chain (hL'.le hG.sinv hA).2.2.1 (hL'.le hG.sinv hA).2.2.2)
    (by have := hlp.length_eq; omega) hroot' hmax' (by have := three_le_of_opt h3 (isOpt_univ_iff.2 hmin); omega) hgen
  exact ⟨fs6, file, hgen, hf, hacc⟩

/-- C67, old results are not noticed: for every search there are contents of `.pbin` files in the directory such that after the
search and `prune_all`, `gen_proof` panics.  So C43 and C44 need a directory without `.pbin` files. -/
theorem C67_stale (hash : List ℕ → ℕ) (N : ℕ) (h3 : 3 ≤ N) (hN : N ≤ 11) (G : Global)
    (h : Run hash none ⟨N, allValues N⟩ G) (r : ℕ) (hr : Returned G r)
    (hash' : List UInt8 → ℕ) (threads : ℕ) (hist : List (OSet × State)) (hh : ∀ e ∈ hist, 3 ≤ e.1.n ∧ e.1.n ≤ 11)
    (hst : lastSet hist = G.store) (m : StateMap) (hm : (StateMap.new threads).run hash' hist = some m) :
    ∃ fs0 : FS, ∀ fs2, ReflTransGen CrashStep (dumpStates m fs0, .stopped) (fs2, .done) → genProof fs2 = none := by
  classical
  let kept : (g : ℕ × ℕ) → List (Bitmap g.1) := fun g => [fun _ => false]
  let fs0 : FS := fun x => if hx : ∃ g, pbinName g = x then some ((kept hx.choose).flatMap Bitmap.packed) else none
  have hfs0 : ∀ g, fs0 (pbinName g) = some ((kept g).flatMap Bitmap.packed) := fun g => by
    have hx : ∃ g', pbinName g' = pbinName g := ⟨g, rfl⟩
    have : hx.choose = g := pbin_injective hx.choose_spec
    unfold fs0
    rw [dif_pos hx, this]
  refine ⟨fs0, fun fs2 hp => ?_⟩
  obtain ⟨groups, hnd, hmem, hdir⟩ := rerun_dump hh hm fun g _ => hfs0 g
  obtain ⟨groups0, kept0, hdir0, hlog0, hL0, hmax0, hroot0, _⟩ :=
    pipeline_log h3 hN h hr hh hst hm (fs0 := fun _ => none) fun _ => rfl
  obtain ⟨fs', hp'⟩ := prune_completes hdir0.rerun (crashInv_of_reach hdir0.rerun .refl)
  have hlog0 := hlog0 fs' (hp'.lift id fun _ _ hs => CrashStep.step hs)
  have hiff : ∀ g, g ∈ groups ↔ g ∈ groups0 := fun g => by
    rw [hmem, hst, mem_groups_of_logOf hL0 hlog0.sets_ne]
  have hinv := crashInv_of_reach hdir hp
  have hlog : LogDir fs2 groups kept := by
    refine ⟨hinv.index hdir, ?_, fun g hg => hlog0.channels g ((hiff g).1 hg),
      fun g hg => hlog0.bound g ((hiff g).1 hg), fun g hg => by simp [kept], fun g hg => hinv.proc g hg⟩
    intro hnil
    obtain ⟨g, hg⟩ := List.exists_mem_of_ne_nil _ hlog0.nonempty
    have := (hiff g).2 hg
    rw [hnil] at this
    simp at this
  obtain ⟨mm, g, N', e1, e2, hg, e3, _, _, _, e4⟩ := genSteps_spec hlog
  have hnone : genSteps fs2 = none := by
    cases hpa : g.proveAll with
    | none =>
      unfold genSteps
      rw [e1]
      simp only [Option.bind_eq_bind, Option.bind_some]
      rw [e3, e2]
      simp only [Option.bind_some]
      rw [hpa]
      rfl
    | some g' =>
      obtain ⟨hP, _, e5⟩ := e4 g' hpa
      rw [e5, encodeProof_eq]
      have : mapGet g'.outputSets ⟨N', allValues N'⟩ = none := by
        cases hget : mapGet g'.outputSets ⟨N', allValues N'⟩ with
        | none => rfl
        | some b =>
          have hm := hP.out.sub _ (mapGet_mem hget)
          simp only [logged, kept, List.mem_flatMap, List.mem_map, Prod.mk.injEq, List.mem_singleton] at hm
          obtain ⟨q, _, s, rfl, he, _⟩ := hm
          obtain ⟨rfl, he⟩ := (OSet.mk.injEq ..).mp he
          have := congrFun (eq_of_heq he) 0
          simp [allValues] at this
      rw [this]
      rfl
  unfold genProof
  rw [hnone]
  rfl

/-- Non-vacuity of `C67_second_search`: the same search on four channels twice. -/
example : ∃ (G : Global) (hist : List (OSet × State)) (m : StateMap) (fs2 fs3 fs5 fs6 : FS) (file : List UInt8),
    Run (fun _ => 0) none ⟨4, allValues 4⟩ G ∧ Returned G 5 ∧ lastSet hist = G.store ∧
    (StateMap.new 8).run (fun _ => 0) hist = some m ∧
    ReflTransGen CrashStep (dumpStates m fun _ => none, .stopped) (fs2, .done) ∧ genProof fs2 = some fs3 ∧
    ReflTransGen CrashStep (dumpStates m fs3, .stopped) (fs5, .done) ∧ genProof fs5 = some fs6 ∧
    fs6 proofName = some file ∧ ∀ (d : Decode.Undef) (u : Checker.Undef), Decode.mainVerified d u file = some (4, 5) := by
  obtain ⟨G, h, hr⟩ := C28_example
  obtain ⟨hist, m, fs2, hh, hst, hm, hp⟩ := C43_hypotheses _ 4 (by omega) (by omega) G h 5 hr (fun _ => 0) 8
    (fun _ => none) (fun _ => rfl)
  have hs : m.len < 2 ^ 32 := by
    refine len_of_small _ 8 hist hh m hm fun A v hv => ?_
    rw [hst] at hv
    have h4 := ((final_store (by omega) (by omega) h hr).2 A v hv).1
    have h3 := (C28_entries _ _ _ (by dsimp only; rw [toSet_allValues]; exact chained_univ) (by decide) G h A v hv).1.1
    omega
  obtain ⟨_, fs3, _, h1, _, _⟩ := C44_pipeline _ 4 (by omega) (by omega) G h 5 hr _ 8 hist hh hst m hm hs
    (fun _ => none) (fun _ => rfl) fs2 hp
  obtain ⟨groups, kept, hdir, hlog, hL, _⟩ := pipeline_log (by omega) (by omega) h hr hh hst hm (fs0 := fun _ => none)
    fun _ => rfl
  have hlog := hlog fs2 hp
  obtain ⟨groups', _, _, hdir'⟩ := rerun_dump (fs := fs3) hh hm (old := fun g => (kept g).flatMap Bitmap.packed) fun g hg => by
    rw [hst, ← mem_groups_of_logOf hL hlog.sets_ne] at hg
    rw [genProof_pbin h1]
    exact hlog.file g hg
  obtain ⟨fs5, hp5⟩ := prune_completes hdir' (crashInv_of_reach hdir' .refl)
  have hp5 := hp5.lift id fun _ _ hs => CrashStep.step hs
  obtain ⟨_, fs6, file, h4, h5, h6⟩ := C67_second_search _ 4 (by omega) (by omega) G h 5 hr _ 8 hist hh hst m hm hs
    (fun _ => none) (fun _ => rfl) fs2 hp fs3 (Or.inr h1) _ 8 hist hh m hm (by rw [hst]) fs5 hp5
  exact ⟨G, hist, m, fs2, fs3, fs5, fs6, file, h, hr, hst, hm, hp, h1, hp5, h4, h5, h6⟩

end Sortnet
