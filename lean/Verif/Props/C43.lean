import Verif.Proof.Pipeline

/-!
# C43: the pruned log of a search is always provable

`lastSet hist` (C34) are the contents of the state map after the calls of `set` in `hist`, and `G.store` are the contents
of the state map at the end of the search.
-/

namespace Sortnet

open Search Files ProofGen Relation

/-- C43.  Let a search for all vectors on `N ≥ 3` channels without limit have returned, in any execution, and let its
state map be dumped into a directory without old `.pbin` files.  Let `prune_all` have finished there, after any number
of crashes.  Then `gen_proof` succeeds: a proof step is found for every set in the log, the set of all vectors is in the
log, and the log has no sets on more channels. -/
theorem C43_provable (hash : List ℕ → ℕ) (N : ℕ) (h3 : 3 ≤ N) (hN : N ≤ 11) (G : Global)
    (h : Run hash none ⟨N, allValues N⟩ G) (r : ℕ) (hr : Returned G r)
    (hash' : List UInt8 → ℕ) (threads : ℕ) (hist : List (OSet × State)) (hh : ∀ e ∈ hist, 3 ≤ e.1.n ∧ e.1.n ≤ 11)
    (hst : lastSet hist = G.store) (m : StateMap) (hm : (StateMap.new threads).run hash' hist = some m)
    (fs0 : FS) (hfresh : ∀ g, fs0 (pbinName g) = none) (fs2 : FS)
    (hp : ReflTransGen CrashStep (dumpStates m fs0, .stopped) (fs2, .done)) :
    ∃ fs3, genProof fs2 = some fs3 := by
  obtain ⟨groups, kept, _, hlog, hL, hmax, hroot, _⟩ := pipeline_log h3 hN h hr hh hst hm hfresh
  have hlog := hlog fs2 hp
  have h0 : Chained (⟨N, allValues N⟩ : OSet).s.toSet := by dsimp only; rw [toSet_allValues]; exact chained_univ
  obtain ⟨_, _, _, β, hG, _⟩ := h.inv h0 hN
  obtain ⟨m', g, _, e1, e2, hg, _⟩ := genSteps_spec hlog
  obtain ⟨g', e3⟩ := proveAll_total hG.sinv (fun A v hv => h.pos h0 hN hv) hL hg
  refine C39_gen_proof hlog (N := N) ?_ hmax ⟨r, hroot⟩ ⟨m', g, g', e1, e2, e3⟩
  simp only [logged, List.mem_flatMap, List.mem_map, Prod.mk.injEq] at hroot
  obtain ⟨q, hq, s, _, he, _⟩ := hroot
  exact ⟨q, hq, congrArg OSet.n he⟩

/-- The hypotheses of C43 about the state map and the directory can be met for every execution of the search: the
contents of the state map come from calls of `set`, which do not panic, and `prune_all` can always finish. -/
theorem C43_hypotheses (hash : List ℕ → ℕ) (N : ℕ) (h3 : 3 ≤ N) (hN : N ≤ 11) (G : Global)
    (h : Run hash none ⟨N, allValues N⟩ G) (r : ℕ) (hr : Returned G r) (hash' : List UInt8 → ℕ) (threads : ℕ)
    (fs0 : FS) (hfresh : ∀ g, fs0 (pbinName g) = none) :
    ∃ (hist : List (OSet × State)) (m : StateMap) (fs2 : FS), (∀ e ∈ hist, 3 ≤ e.1.n ∧ e.1.n ≤ 11) ∧
      lastSet hist = G.store ∧ (StateMap.new threads).run hash' hist = some m ∧
      ReflTransGen CrashStep (dumpStates m fs0, .stopped) (fs2, .done) := by
  obtain ⟨A, _, hreach⟩ := id h
  obtain ⟨hist, hh, hst⟩ := hreach.history
  obtain ⟨m, hm, _⟩ := C34_last_set hash' threads hist hh
  obtain ⟨groups, kept, hdir, _⟩ := pipeline_log h3 hN h hr hh hst hm hfresh
  obtain ⟨_, _, fs2, hp⟩ := C38_recovers hdir _ _ (ReflTransGen.refl (a := (dumpStates m fs0, Proc.stopped)))
  exact ⟨hist, m, fs2, hh, hst, hm, hp.lift id fun _ _ hs => CrashStep.step hs⟩

theorem Search.Visited.channels {hash : List ℕ → ℕ} {A0 B : OSet} (h0 : A0.n ≤ 11) (h : Visited hash A0 B) : B.n ≤ A0.n := by
  induction h with
  | init => exact Nat.le_refl _
  | @successor A T C i j hA hij hT hC ih =>
    obtain ⟨_, t, rfl, _⟩ := successor_toSet (Fin.ne_of_gt hij) hT
    obtain ⟨t', rfl, _⟩ := canon_shape (by omega) hC
    exact ih
  | @prune A T C pol c hA hT hC ih =>
    obtain ⟨n, s⟩ := A
    cases n with
    | zero => exact c.elim0
    | succ n =>
      unfold Search.prune at hT
      dsimp only at hT ih
      rw [Option.map_eq_some_iff] at hT
      obtain ⟨t, _, rfl⟩ := hT
      obtain ⟨t', rfl, _⟩ := canon_shape (by omega) hC
      dsimp only
      omega

/-- C43 needs at least three channels: for two or fewer nothing is stored, so the log is empty, and `gen_proof` panics
(`proof.rs:58`). -/
theorem C43_two_channels (hash : List ℕ → ℕ) (N : ℕ) (hN : N ≤ 2) (limit : Option ℕ) (G : Global)
    (h : Run hash limit ⟨N, allValues N⟩ G)
    (hash' : List UInt8 → ℕ) (threads : ℕ) (hist : List (OSet × State)) (hh : ∀ e ∈ hist, 3 ≤ e.1.n ∧ e.1.n ≤ 11)
    (hst : lastSet hist = G.store) (m : StateMap) (hm : (StateMap.new threads).run hash' hist = some m)
    (fs0 fs2 : FS) (hp : ReflTransGen CrashStep (dumpStates m fs0, .stopped) (fs2, .done)) :
    genProof fs2 = none := by
  obtain ⟨groups, hnd, hgm, hidx, hfile, hother⟩ := C36_dump_states hash' threads hist hh m hm fs0
  have h0 : Chained (⟨N, allValues N⟩ : OSet).s.toSet := by dsimp only; rw [toSet_allValues]; exact chained_univ
  have hempty : groups = [] := by
    rw [List.eq_nil_iff_forall_not_mem]
    intro g hg
    obtain ⟨A, v, hv, rfl⟩ := (hgm g).1 hg
    rw [hst] at hv
    obtain ⟨_, _, _, β, hG, _⟩ := h.inv h0 (by dsimp only; omega)
    obtain ⟨_, ha, _⟩ := hG.sinv.dom A v hv
    obtain ⟨A0, hA0, hreach⟩ := h
    obtain rfl := canon_allValues (by omega) hA0
    have := (hreach.visited hv).channels (by dsimp only; omega)
    dsimp only at this
    omega
  subst hempty
  have hdir : PruneDir (dumpStates m fs0) [] (fun _ => []) := ⟨⟨_, hidx, lines_index []⟩, hnd, by simp, by simp⟩
  obtain ⟨idx, hi, hl⟩ := (crashInv_of_reach hdir.rerun hp).index hdir.rerun
  unfold genProof genSteps load
  rw [hi]
  simp only [Option.bind_eq_bind, Option.bind_some]
  rw [hl]
  rfl

/-- Non-vacuity: the search for all vectors on four channels can return 5, and then `gen_proof` succeeds. -/
example : ∃ G hist m fs2 fs3, Run (fun _ => 0) none ⟨4, allValues 4⟩ G ∧ Returned G 5 ∧
    lastSet hist = G.store ∧ (StateMap.new 8).run (fun _ => 0) hist = some m ∧
    ReflTransGen CrashStep (dumpStates m fun _ => none, .stopped) (fs2, .done) ∧ genProof fs2 = some fs3 := by
  obtain ⟨G, h, hr⟩ := C28_example
  obtain ⟨hist, m, fs2, hh, hst, hm, hp⟩ := C43_hypotheses _ 4 (by omega) (by omega) G h 5 hr (fun _ => 0) 8
    (fun _ => none) (fun _ => rfl)
  obtain ⟨fs3, h3⟩ := C43_provable _ 4 (by omega) (by omega) G h 5 hr _ 8 hist hh hst m hm (fun _ => none)
    (fun _ => rfl) fs2 hp
  exact ⟨G, hist, m, fs2, fs3, h, hr, hst, hm, hp, h3⟩

end Sortnet
