import Verif.Props.C43
import Verif.Props.C41

/-!
# C44: the whole pipeline
-/

namespace Sortnet

open Search Files ProofGen Relation

theorem three_le_of_opt {N r : ℕ} (h3 : 3 ≤ N) (h : IsOpt (Set.univ : Set (Fin N → Bool)) r) : 3 ≤ r := by
  obtain ⟨d, rfl⟩ := Nat.exists_eq_add_of_le h3
  have h1 : LB (Set.univ : Set (Fin 3 → Bool)) 3 := LB_univ_iff.2 C29_three_four.1.2
  exact ((LB_extend h1 d).mono (Set.subset_univ _)).le_UB h.2

/-- C44.  Let a search for all vectors on `N` channels, from 3 to 11, without limit, have returned, in any execution,
and let its state map be dumped into a directory without old `.pbin` files.  Let `prune_all` have finished there, after
any number of crashes.  If fewer than `2 ^ 32` states were dumped, then `gen_proof` succeeds, and `snocheck -v` accepts the
certificate and prints `Just (N, r)`, where `r` is the minimum size of a sorting network on `N` channels. -/
theorem C44_pipeline (hash : List ℕ → ℕ) (N : ℕ) (h3 : 3 ≤ N) (hN : N ≤ 11) (G : Global)
    (h : Run hash none ⟨N, allValues N⟩ G) (r : ℕ) (hr : Returned G r)
    (hash' : List UInt8 → ℕ) (threads : ℕ) (hist : List (OSet × State)) (hh : ∀ e ∈ hist, 3 ≤ e.1.n ∧ e.1.n ≤ 11)
    (hst : lastSet hist = G.store) (m : StateMap) (hm : (StateMap.new threads).run hash' hist = some m)
    (hsize : m.len < 2 ^ 32)
    (fs0 : FS) (hfresh : ∀ g, fs0 (pbinName g) = none) (fs2 : FS)
    (hp : ReflTransGen CrashStep (dumpStates m fs0, .stopped) (fs2, .done)) :
    MinSize N r ∧ ∃ fs3 file, genProof fs2 = some fs3 ∧ fs3 proofName = some file ∧
      ∀ (d : Decode.Undef) (u : Checker.Undef), Decode.mainVerified d u file = some ((N : ℤ), (r : ℤ)) := by
  have hmin := C29_sorting_network hash N hN G h r hr
  refine ⟨hmin, ?_⟩
  obtain ⟨fs3, hg⟩ := C43_provable hash N h3 hN G h r hr hash' threads hist hh hst m hm fs0 hfresh fs2 hp
  obtain ⟨groups, kept, _, hlog, hL, hmax, hroot, hlen⟩ := pipeline_log h3 hN h hr hh hst hm hfresh
  have h0 : Chained (⟨N, allValues N⟩ : OSet).s.toSet := by dsimp only; rw [toSet_allValues]; exact chained_univ
  obtain ⟨_, _, _, β, hG, _⟩ := h.inv h0 hN
  obtain ⟨file, hf, hacc⟩ := C41_accepts (hlog fs2 hp) (by
      intro A b b' hb hb'
      obtain ⟨v, hv, rfl⟩ := hL.mem A b hb
      obtain ⟨v', hv', rfl⟩ := hL.mem A b' hb'
      rw [hv] at hv'
      cases hv'
      rfl) (fun A b hA => (hL.le hG.sinv hA).2.2.1.1)
    (fun A b hA _ => not_chain (hL.le hG.sinv hA).2.2.1 (hL.le hG.sinv hA).2.2.2)
    (by omega) hroot hmax (by have := three_le_of_opt h3 (isOpt_univ_iff.2 hmin); omega) hg
  exact ⟨fs3, file, hg, hf, hacc⟩

/-- There are few sets on three and four channels. -/
theorem len_of_small (hash' : List UInt8 → ℕ) (threads : ℕ) (hist : List (OSet × State))
    (hh : ∀ e ∈ hist, 3 ≤ e.1.n ∧ e.1.n ≤ 11) (m : StateMap) (hm : (StateMap.new threads).run hash' hist = some m)
    (hsmall : ∀ A v, lastSet hist A = some v → A.n = 3 ∨ A.n = 4) : m.len < 2 ^ 32 := by
  classical
  obtain ⟨d1, d2, d3⟩ := C34_drain hash' threads hist hh m hm
  let F : ∀ n, Finset (ℕ × List UInt8) := fun n => Finset.univ.image fun s : Fin (2 ^ n) → Bool =>
    (n, Bitmap.packed (n := n) fun x => s ⟨x.toNat, x.isLt⟩)
  have hF : ∀ n, (F n).card ≤ 2 ^ 2 ^ n := by
    intro n
    refine Finset.card_image_le.trans ?_
    rw [Finset.card_univ, Fintype.card_fun, Fintype.card_bool, Fintype.card_fin]
  have hsub : (m.drain.map fun e => (e.1, e.2.1)).toFinset ⊆ F 3 ∪ F 4 := by
    intro p hp
    rw [List.mem_toFinset] at hp
    obtain ⟨⟨c, q, v⟩, hA, rfl⟩ := List.mem_map.1 hp
    obtain ⟨s, rfl, hv⟩ := (d1 _ _ _).1 hA
    have key : ∀ n (s : Bitmap n), (n, s.packed) ∈ F n := by
      intro n s
      refine Finset.mem_image.2 ⟨fun i => s (BitVec.ofNat n i), Finset.mem_univ _, ?_⟩
      simp
    rw [Finset.mem_union]
    rcases hsmall _ _ hv with h | h <;> dsimp only at h <;> subst h
    · exact Or.inl (key 3 s)
    · exact Or.inr (key 4 s)
  have h1 := (Finset.card_le_card hsub).trans (Finset.card_union_le _ _)
  rw [List.toFinset_card_of_nodup d2, List.length_map, ← d3] at h1
  have h2 := hF 3
  have h3 := hF 4
  norm_num at h2 h3
  omega

/-- Non-vacuity: a search for all vectors on four channels returns, and then all hypotheses are met and the certificate
is accepted for the pair (4, 5). -/
theorem C44_example : ∃ (G : Global) (hist : List (OSet × State)) (m : StateMap) (fs2 fs3 : FS) (file : List UInt8),
    Run (fun _ => 0) none ⟨4, allValues 4⟩ G ∧ Returned G 5 ∧
    (∀ e ∈ hist, 3 ≤ e.1.n ∧ e.1.n ≤ 11) ∧ lastSet hist = G.store ∧
    (StateMap.new 8).run (fun _ => 0) hist = some m ∧ m.len < 2 ^ 32 ∧
    ReflTransGen CrashStep (dumpStates m fun _ => none, .stopped) (fs2, .done) ∧
    genProof fs2 = some fs3 ∧ fs3 proofName = some file ∧
    ∀ (d : Decode.Undef) (u : Checker.Undef), Decode.mainVerified d u file = some (4, 5) := by
  obtain ⟨G, h, hr⟩ := C28_example
  obtain ⟨hist, m, fs2, hh, hst, hm, hp⟩ := C43_hypotheses _ 4 (by omega) (by omega) G h 5 hr (fun _ => 0) 8
    (fun _ => none) (fun _ => rfl)
  have hs : m.len < 2 ^ 32 := by
    refine len_of_small _ 8 hist hh m hm fun A v hv => ?_
    rw [hst] at hv
    have h4 := ((final_store (by omega) (by omega) h hr).2 A v hv).1
    have h3 := (C28_entries _ _ _ (by dsimp only; rw [toSet_allValues]; exact chained_univ) (by decide) G h A v hv).1.1
    omega
  obtain ⟨_, fs3, file, h1, h2, h3⟩ := C44_pipeline _ 4 (by omega) (by omega) G h 5 hr _ 8 hist hh hst m hm hs
    (fun _ => none) (fun _ => rfl) fs2 hp
  exact ⟨G, hist, m, fs2, fs3, file, h, hr, hh, hst, hm, hs, hp, h1, h2, h3⟩

end Sortnet
