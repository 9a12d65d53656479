import Verif.Proof.DumpPrune
import Verif.Props.C65

/-!
# C70: a log that `dump_states` has written only in part

`DumpStep` (Model/DumpCrash.lean) are the steps of `dump_states` with the buffers of its writers.  The files `st.fs` of any
state that is reached are what is left if the process is killed or fails there.
-/

namespace Sortnet

open Search Files ProofGen Relation

/-- C70, nothing is lost without a cause.  If the function gets to its end and all buffers have been written, the files are
those of C36. -/
theorem C70_complete (m : StateMap) (fs0 : FS) (st : DumpSt) (h : ReflTransGen (DumpStep m) (DumpSt.init fs0) st)
    (hp : st.pc = .drop) (hb : ∀ x, st.buf x = []) : st.fs = dumpStates m fs0 := dump_complete (dump_crash_inv h) hp hb

/-- There are such executions for every state map. -/
theorem C70_exists (m : StateMap) (fs0 : FS) : ∃ st, ReflTransGen (DumpStep m) (DumpSt.init fs0) st ∧ st.pc = .drop ∧
    ∀ x, st.buf x = [] := dump_exists m fs0

/-- C70, the files at any time.  Every file is as before, or it is `index.txt` or the file of a group of the dump, and has a
beginning of the contents that it has after a complete dump. -/
theorem C70_prefix (m : StateMap) (fs0 : FS) (st : DumpSt) (h : ReflTransGen (DumpStep m) (DumpSt.init fs0) st) (x : Str) :
    st.fs x = fs0 x ∨ (x = indexName ∨ ∃ e ∈ m.drain, x = groupName (e.1, e.2.2.lo)) ∧
      ∃ P D, st.fs x = some P ∧ dumpStates m fs0 x = some D ∧ P <+: D := by
  rcases dump_partial (dump_crash_inv h) x with hc | ⟨hc | ⟨g, hg, rfl⟩, hc'⟩
  · exact Or.inl hc
  · exact Or.inr ⟨Or.inl hc, hc'⟩
  · obtain ⟨e, he, rfl⟩ := ((dump_inv fs0 m.drain).mem g).1 hg
    exact Or.inr ⟨Or.inr ⟨e, he, rfl⟩, hc'⟩

theorem packed_prefix {n : ℕ} {sets sets' : List (Bitmap n)} (h : sets'.flatMap Bitmap.packed <+: sets.flatMap Bitmap.packed) :
    sets' <+: sets := by
  induction sets' generalizing sets with
  | nil => exact List.nil_prefix
  | cons s sets' ih =>
    have hl := packed_length s
    have hpos : 0 < s.packed.length := by
      rw [hl]
      have := Nat.one_le_two_pow (n := n)
      unfold packedLen
      omega
    cases sets with
    | nil =>
      have := h.length_le
      rw [List.flatMap_cons, List.length_append, List.flatMap_nil, List.length_nil] at this
      omega
    | cons t sets =>
      rw [List.flatMap_cons, List.flatMap_cons] at h
      have hlen : s.packed.length = t.packed.length := by rw [hl, packed_length]
      have e : s.packed = t.packed := by
        have h1 : s.packed <+: t.packed ++ sets.flatMap Bitmap.packed := (List.prefix_append _ _).trans h
        have h2 := List.prefix_of_prefix_length_le h1 (List.prefix_append _ _) hlen.le
        exact h2.eq_of_length hlen
      rw [packed_injective e] at h ⊢
      exact List.cons_prefix_cons.2 ⟨rfl, ih ((List.prefix_append_right_inj _).1 h)⟩

/-- The files from which `prune_all` gets to its end, also if bytes are lost. -/
theorem cut_prune (hash' : List UInt8 → ℕ) (threads : ℕ) (hist : List (OSet × State)) (hh : ∀ e ∈ hist, 3 ≤ e.1.n ∧ e.1.n ≤ 11)
    (m : StateMap) (hm : (StateMap.new threads).run hash' hist = some m) (fs0 : FS) (hnew : ∀ x, fs0 x = none) (st : DumpSt)
    (h : ReflTransGen (DumpStep m) (DumpSt.init fs0) st) (fs2 : FS)
    (hp : ReflTransGen LossStep (st.fs, .stopped) (fs2, .done)) :
    ∃ (P : List UInt8) (gs : List (ℕ × ℕ)), st.fs indexName = some P ∧ lines P = gs.map groupName ∧ gs.Nodup ∧
      ∀ g ∈ gs, 3 ≤ g.1 ∧ g.1 ≤ 11 ∧ ∃ sets : List (Bitmap g.1), sets ≠ [] ∧ sets.Nodup ∧
        st.fs (groupName g) = some (sets.flatMap Bitmap.packed) ∧
        ∀ s ∈ sets, ∃ v, lastSet hist ⟨g.1, s⟩ = some v ∧ v.lo = g.2 := by
  obtain ⟨groups, hnd, hgm, hidx, hfile, hother⟩ := C36_dump_states hash' threads hist hh m hm fs0
  have hmem : ∀ g, (∃ e ∈ m.drain, g = (e.1, e.2.2.lo)) → g ∈ groups := by
    rintro g ⟨⟨c, p, v⟩, he, rfl⟩
    obtain ⟨s, _, hv⟩ := ((C34_drain hash' threads hist hh m hm).1 c p v).1 he
    exact (hgm _).2 ⟨⟨c, s⟩, v, hv, rfl⟩
  have hcut : ∀ x, st.fs x = none ∨ (x = indexName ∨ ∃ g ∈ groups, x = groupName g) ∧
      ∃ P D, st.fs x = some P ∧ dumpStates m fs0 x = some D ∧ P <+: D := by
    intro x
    rcases C70_prefix m fs0 st h x with hc | ⟨hc | ⟨e, he, rfl⟩, hc'⟩
    · exact Or.inl (hc.trans (hnew x))
    · exact Or.inr ⟨Or.inl hc, hc'⟩
    · exact Or.inr ⟨Or.inr ⟨_, hmem _ ⟨e, he, rfl⟩, rfl⟩, hc'⟩
  obtain ⟨P, hP⟩ := index_of_done hp
  have hpre : P <+: groups.flatMap fun g => groupName g ++ [10] := by
    rcases hcut indexName with hc | ⟨_, P', D, h1, h2, h3⟩
    · rw [hP] at hc
      simp at hc
    · rw [hP] at h1
      rw [hidx] at h2
      obtain rfl := Option.some.inj h1
      obtain rfl := Option.some.inj h2
      exact h3
  have hpb : ∀ g, st.fs (pbinName g) = none := by
    intro g
    rcases hcut (pbinName g) with hc | ⟨hc | ⟨g', _, hc⟩, _⟩
    · exact hc
    · exact absurd hc.symm (pbin_ne_index g)
    · exact absurd hc.symm (pbin_ne_group g' g)
  obtain ⟨gs, hgs, hl⟩ := lines_prefix hpre
  have hline : ∀ s ∈ lines P, (∃ g ∈ groups, s = groupName g) ∨ ∃ g, s <+: groupName g ∧ s ≠ groupName g := by
    intro s hs
    rcases hl with hl | ⟨g, _, L, h1, h2, hl⟩
    · rw [hl] at hs
      obtain ⟨g, hg, rfl⟩ := List.mem_map.1 hs
      exact Or.inl ⟨g, hgs.subset hg, rfl⟩
    · rw [hl] at hs
      rcases List.mem_append.1 hs with hs | hs
      · obtain ⟨g, hg, rfl⟩ := List.mem_map.1 hs
        exact Or.inl ⟨g, hgs.subset hg, rfl⟩
      · rw [List.mem_singleton.1 hs]
        exact Or.inr ⟨g, h1, h2⟩
  have hnone : ∀ s, (∃ g, s <+: groupName g ∧ s ≠ groupName g) → st.fs s = none := by
    rintro s ⟨g, h1, h2⟩
    have hs := (cut_groupName h1 h2).1
    rcases hcut s with hc | ⟨hc | ⟨g', _, hc⟩, _⟩
    · exact hc
    · rw [hc] at hs
      exact absurd (by decide) hs
    · obtain ⟨t, ht, _⟩ := groupName_concat g'
      rw [hc, ht] at hs
      simp at hs
  have hgood := good_of_done hP
    (fun s hs s' => by
      rcases hline s hs with ⟨g, _, rfl⟩ | ⟨g, h1, h2⟩
      · exact group_ne_ext g s'
      · exact cut_ne_ext h1 h2 s')
    (fun s hs hne => by
      rcases hline s hs with ⟨g, _, rfl⟩ | hc
      · exact ⟨g, rfl⟩
      · exact absurd (hnone s hc) hne) hpb hp
  have hl' : lines P = gs.map groupName := by
    rcases hl with hl | ⟨g, _, L, h1, h2, hl⟩
    · exact hl
    · obtain ⟨_, data, _, _, hd, _⟩ := hgood L (by rw [hl]; simp)
      rw [hnone L ⟨g, h1, h2⟩] at hd
      simp at hd
  refine ⟨P, gs, hP, hl', hnd.sublist hgs.sublist, fun g hg => ?_⟩
  have hgg := hgs.subset hg
  have hn : 3 ≤ g.1 ∧ g.1 ≤ 11 := by
    obtain ⟨A, v, hv, rfl⟩ := (hgm g).1 hgg
    obtain ⟨e, he, rfl⟩ : ∃ e ∈ hist, e.1 = A := by
      unfold lastSet at hv
      obtain ⟨e, he, _⟩ := Option.map_eq_some_iff.1 hv
      refine ⟨e, List.mem_reverse.1 (List.mem_of_find?_eq_some he), ?_⟩
      simpa using List.find?_some he
    exact hh e he
  obtain ⟨n, data, out, e1, e2, e3⟩ := hgood (groupName g) (by rw [hl']; exact List.mem_map.2 ⟨g, hg, rfl⟩)
  have h11 : (11 : ℕ) < 2 ^ 64 := by norm_num
  rw [lineChannels_groupName (by omega)] at e1
  obtain rfl := Option.some.inj e1
  obtain ⟨sets', kept, k1, _⟩ := (C37_prune hn.1 hn.2 data).2 out e3
  obtain ⟨sets, s1, s2, s3⟩ := hfile g hgg
  refine ⟨hn.1, hn.2, sets', ?_, ?_⟩
  · rintro rfl
    rw [k1, List.flatMap_nil, pruneData_nil] at e3
    simp at e3
  · have hpre' : sets' <+: sets := by
      apply packed_prefix
      rcases hcut (groupName g) with hc | ⟨_, Q, D, h1, h2, h3⟩
      · rw [e2] at hc
        simp at hc
      · rw [e2] at h1
        rw [s2] at h2
        obtain rfl := Option.some.inj h1
        obtain rfl := Option.some.inj h2
        rw [← k1]
        exact h3
    exact ⟨s1.sublist hpre'.sublist, by rw [e2, k1], fun s hs => (s3 s).1 (hpre'.subset hs)⟩

/-- C70, `prune_all` after an incomplete dump into a new directory.  It ends, after any number of crashes, only if the index
has only complete names, and the file of each of these groups has only complete sets, at least one.  Then these sets are
states with the lower bound of the group. -/
theorem C70_prune (hash' : List UInt8 → ℕ) (threads : ℕ) (hist : List (OSet × State)) (hh : ∀ e ∈ hist, 3 ≤ e.1.n ∧ e.1.n ≤ 11)
    (m : StateMap) (hm : (StateMap.new threads).run hash' hist = some m) (fs0 : FS) (hnew : ∀ x, fs0 x = none) (st : DumpSt)
    (h : ReflTransGen (DumpStep m) (DumpSt.init fs0) st) (fs2 : FS)
    (hp : ReflTransGen CrashStep (st.fs, .stopped) (fs2, .done)) :
    ∃ (P : List UInt8) (gs : List (ℕ × ℕ)), st.fs indexName = some P ∧ lines P = gs.map groupName ∧ gs.Nodup ∧
      ∀ g ∈ gs, 3 ≤ g.1 ∧ g.1 ≤ 11 ∧ ∃ sets : List (Bitmap g.1), sets ≠ [] ∧ sets.Nodup ∧
        st.fs (groupName g) = some (sets.flatMap Bitmap.packed) ∧
        ∀ s ∈ sets, ∃ v, lastSet hist ⟨g.1, s⟩ = some v ∧ v.lo = g.2 :=
  cut_prune hash' threads hist hh m hm fs0 hnew st h fs2 (ReflTransGen.mono (fun _ _ => LossStep.crash) _ _ hp)

/-- The sets in a log are states. -/
theorem logged_length (hash' : List UInt8 → ℕ) (threads : ℕ) (hist : List (OSet × State))
    (hh : ∀ e ∈ hist, 3 ≤ e.1.n ∧ e.1.n ≤ 11) (m : StateMap) (hm : (StateMap.new threads).run hash' hist = some m)
    {groups : List (ℕ × ℕ)} {kept : (g : ℕ × ℕ) → List (Bitmap g.1)} (hnd : groups.Nodup) (hk : ∀ g ∈ groups, (kept g).Nodup)
    (hs : ∀ g ∈ groups, ∀ s ∈ kept g, ∃ v, lastSet hist ⟨g.1, s⟩ = some v ∧ v.lo = g.2) :
    (logged groups kept).length ≤ m.len := by
  obtain ⟨d1, _, d3⟩ := C34_drain hash' threads hist hh m hm
  have hnd' : ((logged groups kept).map fun e => (e.1.n, e.1.s.packed)).Nodup := by
    have hinj : Function.Injective fun A : OSet => (A.n, A.s.packed) := by
      rintro ⟨n, s⟩ ⟨n', s'⟩ he
      simp only [Prod.mk.injEq] at he
      obtain ⟨rfl, he⟩ := he
      rw [packed_injective he]
    rw [show (fun e : OSet × ℕ => (e.1.n, e.1.s.packed)) = (fun A : OSet => (A.n, A.s.packed)) ∘ Prod.fst from rfl,
      ← List.map_map]
    refine List.Nodup.map hinj ?_
    unfold logged
    rw [List.map_flatMap, List.nodup_flatMap]
    constructor
    · intro g hg
      rw [List.map_map]
      refine List.Nodup.map ?_ (hk g hg)
      intro s s' he
      simpa using he
    · refine hnd.imp_of_mem ?_
      intro g g' hg hg' hne
      rw [Function.onFun, List.disjoint_left]
      intro A hA hA'
      simp only [List.map_map, List.mem_map, Function.comp] at hA hA'
      obtain ⟨s, hsk, rfl⟩ := hA
      obtain ⟨s', hsk', he⟩ := hA'
      obtain ⟨v, hv, e1⟩ := hs g hg s hsk
      obtain ⟨v', hv', e2⟩ := hs g' hg' s' hsk'
      rw [he, hv] at hv'
      cases hv'
      have : g'.1 = g.1 := congrArg OSet.n he
      exact hne (Prod.ext this.symm (by omega))
  have hsub : ((logged groups kept).map fun e => (e.1.n, e.1.s.packed)) ⊆ m.drain.map fun e => (e.1, e.2.1) := by
    intro p hp
    obtain ⟨⟨A, b⟩, hA, rfl⟩ := List.mem_map.1 hp
    simp only [logged, List.mem_flatMap, List.mem_map, Prod.mk.injEq] at hA
    obtain ⟨g, hg, s, hsk, rfl, rfl⟩ := hA
    obtain ⟨v, hv, _⟩ := hs g hg s hsk
    exact List.mem_map.2 ⟨(g.1, s.packed, v), (d1 _ _ _).2 ⟨s, rfl, hv⟩, rfl⟩
  have := (List.subperm_of_subset hnd' hsub).length_le
  rw [List.length_map, List.length_map, ← d3] at this
  exact this

/-- If `gen_proof` succeeds, all vectors on the largest number of channels are in the log. -/
theorem genProof_root {fs fs' : FS} {groups : List (ℕ × ℕ)} {sets : (g : ℕ × ℕ) → List (Bitmap g.1)} (h : LogDir fs groups sets)
    (hg : genProof fs = some fs') : ∃ N b, N ≤ 11 ∧ (∀ q ∈ groups, q.1 ≤ N) ∧
      ((⟨N, allValues N⟩ : OSet), b) ∈ logged groups sets := by
  obtain ⟨m, g, N, e1, e2, hrep, e3, hN, ⟨q, hq, rfl⟩, hmax, h3⟩ := genSteps_spec h
  refine ⟨q.1, ?_⟩
  obtain ⟨data, hd, _⟩ := genProof_file hg
  cases ep : g.proveAll with
  | none =>
    unfold genSteps at hd
    rw [e1] at hd
    simp only [Option.bind_eq_bind, Option.bind_some] at hd
    rw [e3] at hd
    simp only [Option.bind_some] at hd
    rw [e2] at hd
    simp only [Option.bind_some] at hd
    rw [ep] at hd
    simp at hd
  | some g' =>
    obtain ⟨hp, ho, he⟩ := h3 g' ep
    rw [hd] at he
    rw [encodeProof_eq] at he
    cases eo : mapGet g'.outputSets ⟨q.1, allValues q.1⟩ with
    | none =>
      rw [eo] at he
      simp [mapGet] at he
    | some b =>
      refine ⟨b, hN, hmax, ?_⟩
      unfold mapGet at eo
      obtain ⟨e, he', rfl⟩ := Option.map_eq_some_iff.1 eo
      have hm := List.mem_of_find?_eq_some he'
      have hA : e.1 = ⟨q.1, allValues q.1⟩ := by simpa using List.find?_some he'
      have := hp.out.sub e hm
      rw [← hA]
      exact this

/-- The certificate for a directory with files that contain states of a search with their bounds. -/
theorem log_certificate (hash : List ℕ → ℕ) (limit : Option ℕ) (A0 : OSet) (h0 : Chained A0.s.toSet) (hA : A0.n ≤ 11)
    (G : Global) (hrun : Run hash limit A0 G)
    (hash' : List UInt8 → ℕ) (threads : ℕ) (hist : List (OSet × State)) (hh : ∀ e ∈ hist, 3 ≤ e.1.n ∧ e.1.n ≤ 11)
    (hst : lastSet hist = G.store) (m : StateMap) (hm : (StateMap.new threads).run hash' hist = some m)
    (hsize : m.len < 2 ^ 32) (gs : List (ℕ × ℕ)) (kept : (g : ℕ × ℕ) → List (Bitmap g.1)) (hnd : gs.Nodup)
    (hgs : ∀ g ∈ gs, 3 ≤ g.1 ∧ g.1 ≤ 11)
    (hkept : ∀ g ∈ gs, (kept g).Nodup ∧ kept g ≠ [] ∧ ∀ s ∈ kept g, ∃ v, lastSet hist ⟨g.1, s⟩ = some v ∧ v.lo = g.2)
    (fs2 : FS) (hidx : ∃ data, fs2 indexName = some data ∧ lines data = gs.map groupName)
    (hfile : ∀ g ∈ gs, fs2 (pbinName g) = some ((kept g).flatMap Bitmap.packed)) (fs3 : FS)
    (hg : genProof fs2 = some fs3) :
    ∃ (N b : ℕ) (v : State) (file : List UInt8), G.store ⟨N, allValues N⟩ = some v ∧ v.lo = b ∧ fs3 proofName = some file ∧
      (2 ≤ b ∧ Lazy.mainVerified file = some (some ((N : ℤ), (b : ℤ))) ∧ Lazy.mainReference file = .ok (N, b) ∧
          LowerSizeBound N b ∨
        b ≤ 1 ∧ file = [0, 0, 0, 0]) := by
  obtain ⟨_, _, _, β, hG, _⟩ := hrun.inv h0 hA
  have hmem : ∀ A b, (A, b) ∈ logged gs kept → ∃ v, G.store A = some v ∧ v.lo = b := by
    intro A b hA
    simp only [logged, List.mem_flatMap, List.mem_map, Prod.mk.injEq] at hA
    obtain ⟨g, hg, s, hs, rfl, rfl⟩ := hA
    obtain ⟨v, hv, hvlo⟩ := (hkept g hg).2.2 s hs
    rw [hst] at hv
    exact ⟨v, hv, hvlo⟩
  have hbound : ∀ A b, (A, b) ∈ logged gs kept → LB A.s.toSet b ∧ Chained A.s.toSet ∧ b ≤ 35 := by
    intro A b hA
    obtain ⟨v, hv, rfl⟩ := hmem A b hA
    obtain ⟨hok, _, _⟩ := hG.sinv.dom A v hv
    have h1 := hG.sinv.lb A hok
    have h2 := h1.le_UB (hG.sinv.ub A hok)
    have h3 := hG.sinv.top A hok
    have e' : G.store.get A = v := by simp [Store.get, hv]
    rw [e'] at h1 h2 h3
    exact ⟨h1, hok.1, by omega⟩
  have hne : gs ≠ [] := by
    rintro rfl
    obtain ⟨idx, hi, hli⟩ := hidx
    unfold genProof genSteps load at hg
    rw [hi] at hg
    simp only [Option.bind_eq_bind, Option.bind_some] at hg
    rw [hli] at hg
    simp at hg
  have hlog : LogDir fs2 gs kept := by
    refine ⟨hidx, hne, fun g hg => ⟨by have := (hgs g hg).1; omega, (hgs g hg).2⟩, fun g hg => ?_,
      fun g hg => (hkept g hg).2.1, fun g hg => hfile g hg⟩
    obtain ⟨s, hs⟩ := List.exists_mem_of_ne_nil _ (hkept g hg).2.1
    have := (hbound ⟨g.1, s⟩ g.2 (by
      simp only [logged, List.mem_flatMap, List.mem_map, Prod.mk.injEq]
      exact ⟨g, hg, s, hs, rfl, rfl⟩)).2.2
    omega
  have hfun : ∀ A b b', (A, b) ∈ logged gs kept → (A, b') ∈ logged gs kept → b = b' := by
    intro A b b' hb hb'
    obtain ⟨v, hv, rfl⟩ := hmem A b hb
    obtain ⟨v', hv', rfl⟩ := hmem A b' hb'
    rw [hv] at hv'
    cases hv'
    rfl
  have hlen := logged_length hash' threads hist hh m hm hnd (fun g hg => (hkept g hg).1) fun g hg => (hkept g hg).2.2
  obtain ⟨N, b, hN, hmax, hroot⟩ := genProof_root hlog hg
  obtain ⟨v, hv, hvb⟩ := hmem _ _ hroot
  by_cases hb : 2 ≤ b
  · obtain ⟨file, f1, f2⟩ := C63_gen_proof hlog hfun (fun A b hA => (hbound A b hA).2.1) (fun A b hA => (hbound A b hA).1)
      (by omega) hroot hmax hb hg
    obtain ⟨file', f1', f3⟩ := C65_gen_proof hlog hfun (fun A b hA => (hbound A b hA).2.1) (fun A b hA => (hbound A b hA).1)
      (by omega) hroot hmax hb hg
    rw [f1] at f1'
    obtain rfl := Option.some.inj f1'
    refine ⟨N, b, v, file, hv, hvb, f1, Or.inl ⟨hb, f2, f3, ?_⟩⟩
    have := (C63_sound f2).1
    simpa using this
  · obtain ⟨f1, _⟩ := C41_small_bound hlog (fun b' hb' => hfun _ _ _ hb' hroot) hroot hmax (by omega) hg
    exact ⟨N, b, v, _, hv, hvb, f1, Or.inr ⟨by omega, rfl⟩⟩

/-- The directory before `prune_all`, with the sets that `prune` keeps. -/
theorem cut_dir {hist : List (OSet × State)} (m : StateMap) (fs0 : FS) (hnew : ∀ x, fs0 x = none) (st : DumpSt)
    (h : ReflTransGen (DumpStep m) (DumpSt.init fs0) st) {P : List UInt8} {gs : List (ℕ × ℕ)} (hP : st.fs indexName = some P)
    (hl : lines P = gs.map groupName) (hnd : gs.Nodup)
    (hgs : ∀ g ∈ gs, 3 ≤ g.1 ∧ g.1 ≤ 11 ∧ ∃ sets : List (Bitmap g.1), sets ≠ [] ∧ sets.Nodup ∧
        st.fs (groupName g) = some (sets.flatMap Bitmap.packed) ∧
        ∀ s ∈ sets, ∃ v, lastSet hist ⟨g.1, s⟩ = some v ∧ v.lo = g.2) :
    ∃ kept : (g : ℕ × ℕ) → List (Bitmap g.1), (∀ g ∈ gs, (kept g).Nodup ∧ kept g ≠ [] ∧
        ∀ s ∈ kept g, ∃ v, lastSet hist ⟨g.1, s⟩ = some v ∧ v.lo = g.2) ∧
      PruneDir st.fs gs fun g => (kept g).flatMap Bitmap.packed := by
  have hkept : ∀ g : ℕ × ℕ, ∃ kept : List (Bitmap g.1), g ∈ gs → kept.Nodup ∧ kept ≠ [] ∧
      (∃ data, st.fs (groupName g) = some data ∧ pruneData g.1 data = some (kept.flatMap Bitmap.packed)) ∧
      ∀ s ∈ kept, ∃ v, lastSet hist ⟨g.1, s⟩ = some v ∧ v.lo = g.2 := by
    intro g
    by_cases hg : g ∈ gs
    · obtain ⟨q1, q2, sets, s1, s2, s3, s4⟩ := hgs g hg
      obtain ⟨kept, k1, k2, k3, _⟩ := pruneData_spec (by omega) (by omega) sets s1
      refine ⟨kept, fun _ => ⟨?_, ?_, ⟨_, s3, k1⟩, fun s hs => s4 s (k2.subset hs)⟩⟩
      · obtain ⟨l, hl1, hl2⟩ := k2
        exact hl1.nodup_iff.1 (s2.sublist hl2)
      · rintro rfl
        obtain ⟨s, hs⟩ := List.exists_mem_of_ne_nil _ s1
        obtain ⟨t, ht, _⟩ := k3 s hs
        simp at ht
    · exact ⟨[], fun h => absurd h hg⟩
  choose kept hkept using hkept
  have hpb : ∀ g, st.fs (pbinName g) = none := by
    intro g
    rcases C70_prefix m fs0 st h (pbinName g) with hc | ⟨hc | ⟨e, _, hc⟩, _⟩
    · exact hc.trans (hnew _)
    · exact absurd hc.symm (pbin_ne_index g)
    · exact absurd hc.symm (pbin_ne_group _ g)
  have h11 : (11 : ℕ) < 2 ^ 64 := by norm_num
  refine ⟨kept, fun g hg => ⟨(hkept g hg).1, (hkept g hg).2.1, (hkept g hg).2.2.2⟩, ⟨P, hP, hl⟩, hnd, fun g hg => ?_,
    fun g hg => hpb g⟩
  have := (hgs g hg).2.1
  exact ⟨by omega, (hkept g hg).2.2.1⟩

/-- C70, certificates.  Let the state map of a search, from any initial set that is reachable, with a limit or not, be dumped
into a new directory at any point of the search, and let the dump be cut off anywhere.  Let `prune_all` have ended there, after any
number of crashes.  If `gen_proof` then does not panic, the certificate is about all vectors on some number `N` of channels
and their lower bound `b` in the state map.  Both modes of `snocheck` accept it for the pair `(N, b)`, and the bound is true.
Only if `b` is less than 2 is it a file without steps, which is rejected (C41). -/
theorem C70_certificate (hash : List ℕ → ℕ) (limit : Option ℕ) (A0 : OSet) (h0 : Chained A0.s.toSet) (hA : A0.n ≤ 11)
    (G : Global) (hrun : Run hash limit A0 G)
    (hash' : List UInt8 → ℕ) (threads : ℕ) (hist : List (OSet × State)) (hh : ∀ e ∈ hist, 3 ≤ e.1.n ∧ e.1.n ≤ 11)
    (hst : lastSet hist = G.store) (m : StateMap) (hm : (StateMap.new threads).run hash' hist = some m)
    (hsize : m.len < 2 ^ 32) (fs0 : FS) (hnew : ∀ x, fs0 x = none) (st : DumpSt)
    (h : ReflTransGen (DumpStep m) (DumpSt.init fs0) st) (fs2 : FS)
    (hp : ReflTransGen CrashStep (st.fs, .stopped) (fs2, .done)) (fs3 : FS) (hg : genProof fs2 = some fs3) :
    ∃ (N b : ℕ) (v : State) (file : List UInt8), G.store ⟨N, allValues N⟩ = some v ∧ v.lo = b ∧ fs3 proofName = some file ∧
      (2 ≤ b ∧ Lazy.mainVerified file = some (some ((N : ℤ), (b : ℤ))) ∧ Lazy.mainReference file = .ok (N, b) ∧
          LowerSizeBound N b ∨
        b ≤ 1 ∧ file = [0, 0, 0, 0]) := by
  obtain ⟨P, gs, hP, hl, hnd, hgs⟩ := C70_prune hash' threads hist hh m hm fs0 hnew st h fs2 hp
  obtain ⟨kept, hkept, hdir⟩ := cut_dir m fs0 hnew st h hP hl hnd hgs
  have hinv := crashInv_of_reach hdir.rerun hp
  exact log_certificate hash limit A0 h0 hA G hrun hash' threads hist hh hst m hm hsize gs kept hnd
    (fun g hg => ⟨(hgs g hg).1, (hgs g hg).2.1⟩) hkept fs2
    (hinv.index hdir.rerun) (fun g hg => hinv.proc g hg) fs3 hg

/-- An interruption at the beginning: the index is empty, `prune_all` ends, and `gen_proof` panics. -/
theorem C70_empty (m : StateMap) (fs0 : FS) : ∃ st, ReflTransGen (DumpStep m) (DumpSt.init fs0) st ∧
    ReflTransGen CrashStep (st.fs, .stopped) (st.fs, .done) ∧ genProof st.fs = none := by
  refine ⟨_, .single (.start rfl), ?_, ?_⟩
  · have hi : (fs0.create indexName) indexName = some [] := Function.update_self ..
    exact .tail (.single (.step (.start hi))) (.step .finish)
  · unfold genProof genSteps load
    have hi : (fs0.create indexName) indexName = some [] := Function.update_self ..
    change Option.bind (Option.bind (Option.bind ((fs0.create indexName) indexName) _) _) _ = none
    rw [hi]
    rfl

/-- An interruption before the sets of the first group are written: with the name of the group in the index, `prune_all` never
ends, however often it is started. -/
theorem C70_stuck (hash' : List UInt8 → ℕ) (threads : ℕ) (hist : List (OSet × State)) (hh : ∀ e ∈ hist, 3 ≤ e.1.n ∧ e.1.n ≤ 11)
    (m : StateMap) (hm : (StateMap.new threads).run hash' hist = some m) (hne : m.drain ≠ []) (fs0 : FS)
    (hnew : ∀ x, fs0 x = none) :
    ∃ st, ReflTransGen (DumpStep m) (DumpSt.init fs0) st ∧ ∀ fs2, ¬ ReflTransGen CrashStep (st.fs, .stopped) (fs2, .done) := by
  obtain ⟨e, todo, he⟩ := List.exists_cons_of_ne_nil hne
  let st1 : DumpSt := { DumpSt.init fs0 with fs := fs0.create indexName, pc := .loop m.drain }
  have h1 : DumpStep m (DumpSt.init fs0) st1 := .start rfl
  let st2 : DumpSt := { st1 with buf := st1.write indexName (groupName (e.1, e.2.2.lo) ++ [10]), pc := .create e todo }
  have h2 : DumpStep m st1 st2 := .line (todo := todo) (by rw [← he]) (by simp [st1, DumpSt.init])
  let st3 : DumpSt := { st2 with
    fs := st2.fs.append indexName (groupName (e.1, e.2.2.lo) ++ [10]), buf := Function.update st2.buf indexName [] }
  have h3 : DumpStep m st2 st3 := .flush (by
    rw [List.append_nil]
    simp [st2, st1, DumpSt.write, DumpSt.init])
  have hr : ReflTransGen (DumpStep m) (DumpSt.init fs0) st3 := .tail (.tail (.single h1) h2) h3
  refine ⟨st3, hr, fun fs2 hp => ?_⟩
  obtain ⟨P, gs, hP, hl, _, hgs⟩ := C70_prune hash' threads hist hh m hm fs0 hnew st3 hr fs2 hp
  have hP' : st3.fs indexName = some (groupName (e.1, e.2.2.lo) ++ [10]) := by
    simp [st3, st2, st1, FS.append, FS.create]
  rw [hP'] at hP
  obtain rfl := Option.some.inj hP
  have hl' := lines_index [(e.1, e.2.2.lo)]
  simp only [List.flatMap_cons, List.flatMap_nil, List.append_nil] at hl'
  rw [hl'] at hl
  have hg : (e.1, e.2.2.lo) ∈ gs := by
    have : groupName (e.1, e.2.2.lo) ∈ gs.map groupName := by rw [← hl]; simp
    obtain ⟨g, hg, hgn⟩ := List.mem_map.1 this
    rwa [groupName_injective hgn] at hg
  obtain ⟨_, _, sets, _, _, hf, _⟩ := hgs _ hg
  have hnone : st3.fs (groupName (e.1, e.2.2.lo)) = none := by
    simp [st3, st2, st1, FS.append, FS.create, groupName_ne_index, hnew]
  rw [hnone] at hf
  simp at hf

/-! ## A cut that goes unnoticed -/

/-- A state map with two sets on three channels, in two groups. -/
def exampleCut : List (OSet × State) :=
  [(⟨3, fun x => x == 1#3 || x == 2#3⟩, ⟨1, 1, 1, 1⟩), (⟨3, allValues 3⟩, ⟨3, 3, 3, 3⟩)]

/-- A hash function that puts the two sets into different shards. -/
def exampleCutHash (packed : List UInt8) : ℕ := if packed = [255] then 3 else 13

theorem exampleCut_drain : ((StateMap.new 1).run exampleCutHash exampleCut).map (fun m => m.drain) =
    some [(3, [255], ⟨3, 3, 3, 3⟩), (3, [6], ⟨1, 1, 1, 1⟩)] := by
  decide +kernel

/-- The files after the first of the two groups. -/
def exampleCutFiles : FS :=
  (((FS.create (fun _ => none) indexName).create (groupName (3, 3))).append indexName (groupName (3, 3) ++ [10])).append
    (groupName (3, 3)) [255]

/-- These files after `prune_all`. -/
def exampleCutPruned : FS :=
  ((exampleCutFiles.create (tmpName (3, 3))).append (tmpName (3, 3)) [255]).rename (tmpName (3, 3)) (pbinName (3, 3))

/-- A part of the dump can be lost without an error in the commands that follow: here the second group is missing, and a
certificate is written all the same. -/
theorem C70_unnoticed : ∃ m st fs2, (StateMap.new 1).run exampleCutHash exampleCut = some m ∧
    ReflTransGen (DumpStep m) (DumpSt.init fun _ => none) st ∧ st.fs (groupName (3, 1)) = none ∧
    (dumpStates m (fun _ => none) (groupName (3, 1))).isSome ∧
    ReflTransGen CrashStep (st.fs, .stopped) (fs2, .done) ∧ (genProof fs2).isSome := by
  obtain ⟨m, hm, hd⟩ := Option.map_eq_some_iff.1 exampleCut_drain
  let st1 : DumpSt := { DumpSt.init (fun _ => none) with fs := FS.create (fun _ => none) indexName, pc := .loop m.drain }
  have h1 : DumpStep m (DumpSt.init fun _ => none) st1 := .start rfl
  let st2 : DumpSt := { st1 with
    buf := st1.write indexName (groupName (3, 3) ++ [10]), pc := .create (3, [255], ⟨3, 3, 3, 3⟩) [(3, [6], ⟨1, 1, 1, 1⟩)] }
  have h2 : DumpStep m st1 st2 := .line (e := (3, [255], ⟨3, 3, 3, 3⟩)) (todo := [(3, [6], ⟨1, 1, 1, 1⟩)]) (by rw [← hd])
    (by simp [st1, DumpSt.init])
  let st3 : DumpSt :=
    { fs := st2.fs.create (groupName (3, 3)), buf := st2.write (groupName (3, 3)) [255], groups := st2.groups ++ [(3, 3)],
      pc := .loop [(3, [6], ⟨1, 1, 1, 1⟩)] }
  have h3 : DumpStep m st2 st3 :=
    .create (st := st2) (e := (3, [255], ⟨3, 3, 3, 3⟩)) (todo := [(3, [6], ⟨1, 1, 1, 1⟩)]) rfl
  let st4 : DumpSt := { st3 with
    fs := st3.fs.append indexName (groupName (3, 3) ++ [10]), buf := Function.update st3.buf indexName [] }
  have h4 : DumpStep m st3 st4 := .flush (by
    rw [List.append_nil]
    simp [st3, st2, st1, DumpSt.write, DumpSt.init, (groupName_ne_index (3, 3)).symm])
  let st5 : DumpSt := { st4 with
    fs := st4.fs.append (groupName (3, 3)) [255], buf := Function.update st4.buf (groupName (3, 3)) [] }
  have h5 : DumpStep m st4 st5 := .flush (by
    rw [List.append_nil]
    simp [st4, st3, st2, st1, DumpSt.write, DumpSt.init, groupName_ne_index])
  have hr : ReflTransGen (DumpStep m) (DumpSt.init fun _ => none) st5 :=
    .tail (.tail (.tail (.tail (.single h1) h2) h3) h4) h5
  have hfs : st5.fs = exampleCutFiles := rfl
  have hi : exampleCutFiles indexName = some (groupName (3, 3) ++ [10]) := by decide +kernel
  have p1 : PruneStep (exampleCutFiles, .stopped) (exampleCutFiles, .loop [groupName (3, 3)]) := by
    have := PruneStep.start hi
    rwa [show lines (groupName (3, 3) ++ [10]) = [groupName (3, 3)] by decide +kernel] at this
  have p2 : PruneStep (exampleCutFiles, .loop [groupName (3, 3)])
      (exampleCutFiles.create (tmpName (3, 3)), .writing (groupName (3, 3)) ([255] ++ []) []) :=
    .create (n := 3) (data := [255]) (by decide +kernel) (by decide +kernel) (by decide +kernel) (by decide +kernel)
  have p3 : PruneStep (exampleCutFiles.create (tmpName (3, 3)), .writing (groupName (3, 3)) ([255] ++ []) [])
      ((exampleCutFiles.create (tmpName (3, 3))).append (tmpName (3, 3)) [255], .writing (groupName (3, 3)) [] []) :=
    .write (by simp)
  have p4 : PruneStep ((exampleCutFiles.create (tmpName (3, 3))).append (tmpName (3, 3)) [255], .writing (groupName (3, 3)) [] [])
      (exampleCutPruned, .loop []) := .rename
  refine ⟨m, st5, exampleCutPruned, hm, hr, ?_, ?_, ?_, ?_⟩
  · rw [hfs]
    decide +kernel
  · unfold dumpStates
    rw [hd]
    decide +kernel
  · rw [hfs]
    exact .tail (.tail (.tail (.tail (.single (.step p1)) (.step p2)) (.step p3)) (.step p4)) (.step .finish)
  · have : genSteps exampleCutPruned = some [[3, 3, 255, 0, 2, 2, 2]] := by
      unfold genSteps
      simp only [encodeProof_eq]
      decide +kernel
    unfold genProof
    rw [this]
    rfl

/-- Non-vacuity of C70: the hypotheses can be met, here after a complete dump, for the search for all vectors on four
channels. -/
theorem C70_example : ∃ (G : Global) (hist : List (OSet × State)) (m : StateMap) (st : DumpSt) (fs2 fs3 : FS),
    Run (fun _ => 0) none ⟨4, allValues 4⟩ G ∧ (∀ e ∈ hist, 3 ≤ e.1.n ∧ e.1.n ≤ 11) ∧ lastSet hist = G.store ∧
    (StateMap.new 8).run (fun _ => 0) hist = some m ∧ m.len < 2 ^ 32 ∧
    ReflTransGen (DumpStep m) (DumpSt.init fun _ => none) st ∧
    ReflTransGen CrashStep (st.fs, .stopped) (fs2, .done) ∧ genProof fs2 = some fs3 := by
  obtain ⟨G, hist, m, fs2, fs3, file, h1, _, hh, h3, h4, h5, h6, h7, _⟩ := C44_example
  obtain ⟨st, s1, s2, s3⟩ := C70_exists m fun _ => none
  refine ⟨G, hist, m, st, fs2, fs3, h1, hh, h3, h4, h5, s1, ?_, h7⟩
  rw [C70_complete m _ st s1 s2 s3]
  exact h6

end Sortnet
