import Verif.Proof.SearchLog

/-!
# From the search to the pruned log
-/

namespace Sortnet

open Search Files Relation

variable {hash : List ℕ → ℕ}

theorem groupName_ne_pbin (g g' : ℕ × ℕ) : pbinName g ≠ groupName g' := (pbin_ne_group g' g).symm

/-- The log that `prune_all` leaves of a state map, in any state of any search.  `kept g` are the sets in the file of the group
`g`; none of them is subsumed by a smaller one. -/
theorem pipeline_log_any {limit : Option ℕ} {initial : OSet} (h0 : Chained initial.s.toSet) (hN : initial.n ≤ 11) {G : Global}
    (h : Run hash limit initial G) {hash' : List UInt8 → ℕ} {threads : ℕ} {hist : List (OSet × State)}
    (hh : ∀ e ∈ hist, 3 ≤ e.1.n ∧ e.1.n ≤ 11) (hst : lastSet hist = G.store) {m : StateMap}
    (hm : (StateMap.new threads).run hash' hist = some m) {fs0 : FS} (hfresh : ∀ g, fs0 (pbinName g) = none) :
    ∃ (groups : List (ℕ × ℕ)) (kept : (g : ℕ × ℕ) → List (Bitmap g.1)),
      (∀ g, g ∈ groups ↔ ∃ A v, G.store A = some v ∧ (A.n, v.lo) = g) ∧
      PruneDir (dumpStates m fs0) groups (fun g => (kept g).flatMap Bitmap.packed) ∧
      (groups ≠ [] → ∀ fs2, ReflTransGen CrashStep (dumpStates m fs0, .stopped) (fs2, .done) → LogDir fs2 groups kept) ∧
      ProofGen.LogOf G.store (logged groups kept) ∧
      (∀ g ∈ groups, ∀ s ∈ kept g, ∀ t ∈ kept g, s.toSet.ncard < t.toSet.ncard → ¬ SubsumesInv s.toSet t.toSet) ∧
      (logged groups kept).length ≤ m.len := by
  obtain ⟨groups, hnd, hgm, hidx, hfile, hother⟩ := C36_dump_states hash' threads hist hh m hm fs0
  rw [hst] at hgm
  obtain ⟨_, _, _, β, hG, _⟩ := h.inv h0 hN
  have hgs : ∀ g ∈ groups, 3 ≤ g.1 ∧ g.1 ≤ 11 ∧ g.2 ≤ 35 := by
    intro g hg
    obtain ⟨A, v, hv, rfl⟩ := (hgm g).1 hg
    obtain ⟨hok, ha, _⟩ := hG.sinv.dom A v hv
    have h1 := (hG.sinv.lb A hok).le_UB (hG.sinv.ub A hok)
    have h2 := hG.sinv.top A hok
    have e' : G.store.get A = v := by simp [Store.get, hv]
    rw [e'] at h1 h2
    exact ⟨ha, hok.2, by dsimp only; omega⟩
  have hkept : ∀ g : ℕ × ℕ, ∃ kept : List (Bitmap g.1), g ∈ groups → kept.Nodup ∧ kept ≠ [] ∧
      (∃ data, dumpStates m fs0 (groupName g) = some data ∧ pruneData g.1 data = some (kept.flatMap Bitmap.packed)) ∧
      (∀ s ∈ kept, ∃ v, G.store ⟨g.1, s⟩ = some v ∧ v.lo = g.2) ∧
      (∀ s : Bitmap g.1, (∃ v, G.store ⟨g.1, s⟩ = some v ∧ v.lo = g.2) → ∃ t ∈ kept, SubsumesInv t.toSet s.toSet) ∧
      ∀ s ∈ kept, ∀ t ∈ kept, s.toSet.ncard < t.toSet.ncard → ¬ SubsumesInv s.toSet t.toSet := by
    intro g
    by_cases hg : g ∈ groups
    · obtain ⟨sets, s1, s2, s3⟩ := hfile g hg
      rw [hst] at s3
      have hne : sets ≠ [] := by
        obtain ⟨A, v, hv, rfl⟩ := (hgm g).1 hg
        intro hnil
        have := (s3 A.s).2 ⟨v, hv, rfl⟩
        rw [hnil] at this
        simp at this
      obtain ⟨q1, q2, q3⟩ := hgs g hg
      obtain ⟨kept, k1, k2, k3, _, k5⟩ := pruneData_spec (by omega) (by omega) sets hne
      refine ⟨kept, fun _ => ⟨?_, ?_, ⟨_, s2, k1⟩, ?_, ?_, k5⟩⟩
      · obtain ⟨l, hl1, hl2⟩ := k2
        exact hl1.nodup_iff.1 (s1.sublist hl2)
      · rintro rfl
        obtain ⟨s, hs⟩ := List.exists_mem_of_ne_nil _ hne
        obtain ⟨t, ht, _⟩ := k3 s hs
        simp at ht
      · intro s hs
        exact (s3 s).1 (k2.subset hs)
      · intro s hs
        exact k3 s ((s3 s).2 hs)
    · exact ⟨[], fun h => absurd h hg⟩
  choose kept hkept using hkept
  have hlog : ProofGen.LogOf G.store (logged groups kept) := by
    constructor
    · intro A b hA
      simp only [logged, List.mem_flatMap, List.mem_map, Prod.mk.injEq] at hA
      obtain ⟨g, hg, s, hs, rfl, rfl⟩ := hA
      exact (hkept g hg).2.2.2.1 s hs
    · intro A v hv
      have hg : (A.n, v.lo) ∈ groups := (hgm _).2 ⟨A, v, hv, rfl⟩
      obtain ⟨t, ht, hsub⟩ := (hkept _ hg).2.2.2.2.1 A.s ⟨v, hv, rfl⟩
      refine ⟨t, ?_, hsub⟩
      simp only [logged, List.mem_flatMap, List.mem_map, Prod.mk.injEq]
      exact ⟨_, hg, t, ht, rfl, rfl⟩
  have hdir : PruneDir (dumpStates m fs0) groups (fun g => (kept g).flatMap Bitmap.packed) := by
    refine ⟨⟨_, hidx, lines_index groups⟩, hnd, ?_, ?_⟩
    · intro g hg
      obtain ⟨q1, q2, q3⟩ := hgs g hg
      refine ⟨?_, (hkept g hg).2.2.1⟩
      have : (11 : ℕ) < 2 ^ 64 := by norm_num
      omega
    · intro g hg
      rw [hother _ (pbin_ne_index g).symm fun g' _ => groupName_ne_pbin g g']
      exact hfresh g
  refine ⟨groups, kept, hgm, hdir, ?_, hlog, fun g hg => (hkept g hg).2.2.2.2.2, ?_⟩
  · intro hnil fs2 hp
    have hinv := crashInv_of_reach hdir.rerun hp
    refine ⟨hinv.index hdir.rerun, hnil, ?_, ?_, fun g hg => (hkept g hg).2.1, fun g hg => hinv.proc g hg⟩
    · intro g hg
      obtain ⟨q1, q2, q3⟩ := hgs g hg
      exact ⟨by omega, by omega⟩
    · intro g hg
      obtain ⟨q1, q2, q3⟩ := hgs g hg
      omega
  · obtain ⟨d1, _, d3⟩ := C34_drain hash' threads hist hh m hm
    have hnd' : ((logged groups kept).map fun e => (e.1.n, e.1.s.packed)).Nodup := by
      have hinj : Function.Injective fun A : OSet => (A.n, A.s.packed) := by
        rintro ⟨n, s⟩ ⟨n', s'⟩ he
        simp only [Prod.mk.injEq] at he
        obtain ⟨rfl, he⟩ := he
        rw [packed_injective he]
      rw [show (fun e : OSet × ℕ => (e.1.n, e.1.s.packed)) = (fun A : OSet => (A.n, A.s.packed)) ∘ Prod.fst from rfl,
        ← List.map_map]
      refine List.Nodup.map hinj ?_
      unfold logged
      rw [List.map_flatMap, List.nodup_flatMap]
      constructor
      · intro g hg
        rw [List.map_map]
        refine List.Nodup.map ?_ (hkept g hg).1
        intro s s' he
        simpa using he
      · refine hnd.imp_of_mem ?_
        intro g g' hg hg' hne
        rw [Function.onFun, List.disjoint_left]
        intro A hA hA'
        simp only [List.map_map, List.mem_map, Function.comp] at hA hA'
        obtain ⟨s, hs, rfl⟩ := hA
        obtain ⟨s', hs', he⟩ := hA'
        obtain ⟨v, hv, e1⟩ := (hkept g hg).2.2.2.1 s hs
        obtain ⟨v', hv', e2⟩ := (hkept g' hg').2.2.2.1 s' hs'
        rw [he, hv] at hv'
        cases hv'
        have : g'.1 = g.1 := congrArg OSet.n he
        exact hne (Prod.ext this.symm (by omega))
    have hsub : ((logged groups kept).map fun e => (e.1.n, e.1.s.packed)) ⊆ m.drain.map fun e => (e.1, e.2.1) := by
      intro p hp
      obtain ⟨⟨A, b⟩, hA, rfl⟩ := List.mem_map.1 hp
      obtain ⟨v, hv, _⟩ := hlog.mem A b hA
      exact List.mem_map.2 ⟨(A.n, A.s.packed, v), (d1 _ _ _).2 ⟨A.s, rfl, by rw [hst]; exact hv⟩, rfl⟩
    have := (List.subperm_of_subset hnd' hsub).length_le
    rw [List.length_map, List.length_map, ← d3] at this
    exact this

/-- The pruned log of a search for all vectors. -/
theorem pipeline_log {N : ℕ} (h3 : 3 ≤ N) (hN : N ≤ 11) {G : Global} (h : Run hash none ⟨N, allValues N⟩ G) {r : ℕ}
    (hr : Returned G r) {hash' : List UInt8 → ℕ} {threads : ℕ} {hist : List (OSet × State)}
    (hh : ∀ e ∈ hist, 3 ≤ e.1.n ∧ e.1.n ≤ 11) (hst : lastSet hist = G.store) {m : StateMap}
    (hm : (StateMap.new threads).run hash' hist = some m) {fs0 : FS} (hfresh : ∀ g, fs0 (pbinName g) = none) :
    ∃ (groups : List (ℕ × ℕ)) (kept : (g : ℕ × ℕ) → List (Bitmap g.1)),
      PruneDir (dumpStates m fs0) groups (fun g => (kept g).flatMap Bitmap.packed) ∧
      (∀ fs2, ReflTransGen CrashStep (dumpStates m fs0, .stopped) (fs2, .done) → LogDir fs2 groups kept) ∧
      ProofGen.LogOf G.store (logged groups kept) ∧ (∀ g ∈ groups, g.1 ≤ N) ∧
      ((⟨N, allValues N⟩ : OSet), r) ∈ logged groups kept ∧ (logged groups kept).length ≤ m.len := by
  have h0 : Chained (⟨N, allValues N⟩ : OSet).s.toSet := by dsimp only; rw [toSet_allValues]; exact chained_univ
  obtain ⟨⟨v0, hv0, hr0⟩, hfin⟩ := final_store h3 hN h hr
  obtain ⟨groups, kept, hgm, hdir, hdone, hlog, _, hlen⟩ := pipeline_log_any h0 hN h hh hst hm hfresh
  refine ⟨groups, kept, hdir, hdone ?_, hlog, ?_, ?_, hlen⟩
  · intro hnil
    have := (hgm _).2 ⟨_, v0, hv0, rfl⟩
    rw [hnil] at this
    simp at this
  · intro g hg
    obtain ⟨A, v, hv, rfl⟩ := (hgm g).1 hg
    exact (hfin A v hv).1
  · obtain ⟨t, ht, _⟩ := hlog.cover _ v0 hv0
    rw [hr0] at ht
    obtain ⟨v, hv, hvr⟩ := hlog.mem _ _ ht
    have := (hfin _ v hv).2 rfl hvr
    rw [this] at ht
    exact ht

end Sortnet
