import Verif.Proof.SearchPhase
import Verif.Props.C54
import Verif.Props.C63

/-!
# C83: certificates for searches with `--limit` or `--prefix`

C43, C44 and C63 are about searches for all vectors without a limit.  `search` has the options `--limit` and `--prefix`, and its
log can be given to `prune-all`, `gen-proof` and `snocheck` as well.  `gen-proof` always makes a certificate for the set of all
vectors on the largest number of channels in the log (`proof.rs:58-63`).
-/

namespace Sortnet

open Search Files ProofGen Relation

/-- `gen_proof` panics if the set of all vectors is not in the log. -/
theorem genProof_no_root {fs : FS} {groups : List (ℕ × ℕ)} {sets : (g : ℕ × ℕ) → List (Bitmap g.1)} (h : LogDir fs groups sets)
    {N : ℕ} (hN : ∃ g ∈ groups, g.1 = N) (hmax : ∀ g ∈ groups, g.1 ≤ N)
    (hroot : ∀ b, ((⟨N, allValues N⟩ : OSet), b) ∉ logged groups sets) : genProof fs = none := by
  obtain ⟨m, g, N', e1, e2, hg, hl, _, ⟨q, hq, hqN⟩, hmax', h3⟩ := genSteps_spec h
  obtain rfl : N = N' := by
    obtain ⟨q', hq', rfl⟩ := hN
    have := hmax' q' hq'
    have := hmax q hq
    omega
  unfold genProof
  have : genSteps fs = none := by
    cases hp : g.proveAll with
    | none => unfold genSteps; simp [e1, e2, hl, hp]
    | some g' =>
      obtain ⟨_, ho, he⟩ := h3 g' hp
      have hnone : mapGet g'.outputSets ⟨N, allValues N⟩ = none := by
        rw [ho]
        unfold mapGet
        rw [Option.map_eq_none_iff, List.find?_eq_none]
        intro p hp' hpe
        have := hg.out.sub p hp'
        simp only [decide_eq_true_eq] at hpe
        exact hroot p.2 (by rw [← hpe]; exact this)
      rw [he, encodeProof_eq, hnone]
      rfl
  rw [this]
  rfl

/-- `gen_proof` panics on an empty log. -/
theorem genProof_empty {fs : FS} {idx : List UInt8} (hi : fs indexName = some idx) (hl : lines idx = []) : genProof fs = none := by
  unfold genProof genSteps load
  rw [hi]
  simp only [Option.bind_eq_bind, Option.bind_some]
  rw [hl]
  rfl

/-- The set of all vectors on the largest number of channels in the state map is in the state map, and no other set on so many
channels has the same lower bound. -/
def Certifiable (σ : Store) (N b : ℕ) : Prop :=
  (∃ v, σ ⟨N, allValues N⟩ = some v ∧ v.lo = b) ∧ (∀ A v, σ A = some v → A.n ≤ N) ∧
    ∀ A v, σ A = some v → A.n = N → v.lo = b → A = ⟨N, allValues N⟩

section

variable (hash : List ℕ → ℕ) (limit : Option ℕ) (initial : OSet) (h0 : Chained initial.s.toSet) (hn : initial.n ≤ 11) (G : Global)
  (h : Run hash limit initial G) (hash' : List UInt8 → ℕ) (threads : ℕ) (hist : List (OSet × State))
  (hh : ∀ e ∈ hist, 3 ≤ e.1.n ∧ e.1.n ≤ 11) (hst : lastSet hist = G.store) (m : StateMap)
  (hm : (StateMap.new threads).run hash' hist = some m) (fs0 : FS) (hfresh : ∀ g, fs0 (pbinName g) = none) (fs2 : FS)
  (hp : ReflTransGen CrashStep (dumpStates m fs0, .stopped) (fs2, .done))
include h0 hn h hh hst hm hfresh hp

/-- C83, when a certificate is made.  Let the state map of any search, with or without a limit, from any set, be dumped into a
directory without old `.pbin` files, and let `prune_all` have finished there, after any number of crashes.  Then `gen_proof`
succeeds exactly if the set of all vectors on the largest number of channels is in the state map and no other set on that
many channels has the same lower bound there.  (Such a set subsumes the set of all vectors, which is then pruned.) -/
theorem C83_succeeds_iff : (genProof fs2).isSome ↔ ∃ N b, Certifiable G.store N b := by
  obtain ⟨groups, kept, hgm, hdir, hdone, hL, hirr, _⟩ := pipeline_log_any h0 hn h hh hst hm hfresh
  obtain ⟨_, _, _, β, hG, _⟩ := h.inv h0 hn
  by_cases hnil : groups = []
  · subst hnil
    obtain ⟨idx, hi, hl⟩ := (crashInv_of_reach hdir.rerun hp).index hdir.rerun
    rw [genProof_empty hi hl]
    refine ⟨fun h => by simp at h, ?_⟩
    rintro ⟨N, b, ⟨v, hv, rfl⟩, _⟩
    have := (hgm _).2 ⟨_, v, hv, rfl⟩
    simp at this
  have hlog := hdone hnil fs2 hp
  constructor
  · intro hs
    obtain ⟨m', g, N, _, _, _, _, hN, ⟨q, hq, hqN⟩, hmax, _⟩ := genSteps_spec hlog
    have hroot : ∃ b, ((⟨N, allValues N⟩ : OSet), b) ∈ logged groups kept := by
      by_contra hno
      rw [genProof_no_root hlog ⟨q, hq, hqN⟩ hmax fun b hb => hno ⟨b, hb⟩] at hs
      simp at hs
    obtain ⟨b, hb⟩ := hroot
    obtain ⟨v, hv, rfl⟩ := hL.mem _ _ hb
    refine ⟨N, v.lo, ⟨v, hv, rfl⟩, fun A w hw => hmax _ ((hgm _).2 ⟨A, w, hw, rfl⟩), ?_⟩
    rintro ⟨n, s⟩ w hw hAn hlo
    dsimp only at hAn
    subst hAn
    obtain ⟨t, ht, hsub⟩ := hL.cover _ w hw
    dsimp only at t ht hsub
    rw [hlo] at ht
    by_contra hne
    have hu : t.toSet ≠ Set.univ := by
      intro hu
      rw [hu] at hsub
      have key : ∀ X : Set (Fin n → Bool), Subsumes Set.univ X → X = Set.univ := by
        rintro X ⟨π, hπ⟩
        have : permSet π (Set.univ : Set (Fin n → Bool)) = Set.univ := by
          refine Set.eq_univ_of_forall fun x => ?_
          rw [mem_permSet]; exact Set.mem_univ _
        rw [this] at hπ
        exact Set.eq_univ_of_univ_subset hπ
      have hc : complSet (Set.univ : Set (Fin n → Bool)) = Set.univ := by
        refine Set.eq_univ_of_forall fun x => ?_
        rw [mem_complSet]; exact Set.mem_univ _
      have : s.toSet = Set.univ := by
        rcases hsub with h | h
        · exact key _ h
        · rw [hc] at h; exact key _ h
      rw [← toSet_allValues] at this
      exact hne (by rw [Bitmap.toSet_injective this])
    simp only [logged, List.mem_flatMap, List.mem_map, Prod.mk.injEq] at hb ht
    obtain ⟨g1, hg1, s1, hs1, e1, e2⟩ := hb
    obtain ⟨g2, hg2, s2, hs2, e3, e4⟩ := ht
    obtain ⟨n1, b1⟩ := g1
    obtain ⟨n2, b2⟩ := g2
    dsimp only at s1 hs1 e1 e2 s2 hs2 e3 e4
    subst e2 e4
    obtain rfl : n1 = n := congrArg OSet.n e1
    obtain rfl : n2 = n1 := congrArg OSet.n e3
    rw [OSet.mk.injEq] at e1 e3
    obtain rfl := eq_of_heq e1.2
    obtain rfl := eq_of_heq e3.2
    refine hirr _ hg1 _ hs2 _ hs1 ?_ (Or.inl ⟨Equiv.refl _, ?_⟩)
    · rw [toSet_allValues]
      exact Set.ncard_lt_ncard ⟨Set.subset_univ _, fun h => hu (Set.eq_univ_of_univ_subset h)⟩ (Set.toFinite _)
    · rw [toSet_allValues]; exact Set.subset_univ _
  · rintro ⟨N, b, ⟨v, hv, rfl⟩, hmax, huniq⟩
    have hmax' : ∀ g ∈ groups, g.1 ≤ N := by
      intro g hg
      obtain ⟨A, w, hw, rfl⟩ := (hgm g).1 hg
      exact hmax A w hw
    obtain ⟨t, ht, _⟩ := hL.cover _ v hv
    obtain ⟨w, hw, hwlo⟩ := hL.mem _ _ ht
    rw [huniq _ w hw rfl hwlo] at ht
    obtain ⟨m', g, _, e1, e2, hg, _⟩ := genSteps_spec hlog
    obtain ⟨g', e3⟩ := proveAll_total hG.sinv (fun A v hv => h.pos h0 hn hv) hL hg
    obtain ⟨fs3, h3⟩ := C39_gen_proof hlog (N := N) ⟨_, (hgm _).2 ⟨_, v, hv, rfl⟩, rfl⟩ hmax' ⟨_, ht⟩ ⟨m', g, g', e1, e2, e3⟩
    rw [h3]
    rfl

/-- C83, what is certified.  In that case `snocheck -v` accepts the certificate and prints this number of channels and the bound
in the state map, which is a lower bound for the size of sorting networks, if it is at least 2. -/
theorem C83_result (N b : ℕ) (hc : Certifiable G.store N b) (hb : 2 ≤ b) (hsize : m.len < 2 ^ 32) :
    LowerSizeBound N b ∧ ∃ fs3 file, genProof fs2 = some fs3 ∧ fs3 proofName = some file ∧
      Lazy.mainVerified file = some (some ((N : ℤ), (b : ℤ))) := by
  have hs := (C83_succeeds_iff hash limit initial h0 hn G h hash' threads hist hh hst m hm fs0 hfresh fs2 hp).2 ⟨N, b, hc⟩
  obtain ⟨fs3, hg⟩ := Option.isSome_iff_exists.1 hs
  obtain ⟨⟨v, hv, rfl⟩, hmax, huniq⟩ := hc
  obtain ⟨groups, kept, hgm, hdir, hdone, hL, hirr, hlen⟩ := pipeline_log_any h0 hn h hh hst hm hfresh
  obtain ⟨_, _, _, β, hG, _⟩ := h.inv h0 hn
  have hnil : groups ≠ [] := by
    rintro rfl
    have := (hgm _).2 ⟨_, v, hv, rfl⟩
    simp at this
  have hlog := hdone hnil fs2 hp
  obtain ⟨t, ht, _⟩ := hL.cover _ v hv
  obtain ⟨w, hw, hwlo⟩ := hL.mem _ _ ht
  rw [huniq _ w hw rfl hwlo] at ht
  obtain ⟨file, hf, hacc⟩ := lazy_gen_proof hlog (by
      intro A b b' hb hb'
      obtain ⟨v, hv, rfl⟩ := hL.mem A b hb
      obtain ⟨v', hv', rfl⟩ := hL.mem A b' hb'
      rw [hv] at hv'
      cases hv'
      rfl) (fun A b hA => (hL.le hG.sinv hA).2.2.1.1)
    (fun A b hA _ => not_chain (hL.le hG.sinv hA).2.2.1 (hL.le hG.sinv hA).2.2.2)
    (by omega) ht (by
      intro g hg
      obtain ⟨A, w, hw, rfl⟩ := (hgm g).1 hg
      exact hmax A w hw) hb hg
  obtain ⟨_, _, _, hlb, _⟩ := C28_entries hash limit initial h0 hn G h _ v hv
  dsimp only at hlb
  rw [toSet_allValues] at hlb
  exact ⟨LB_univ_iff.1 hlb, fs3, file, hg, hf, hacc⟩

end

/-- C83, `--limit`.  Let a search for all vectors on `N` channels, from 3 to 11, have returned `r`, without limit or with a limit of
at least 2.  Then `r` is a lower bound for the size of sorting networks on `N` channels.  If no other set on `N` channels has
the bound `r` in the state map, then `gen_proof` succeeds and `snocheck -v` prints `Just (N, r)`; otherwise `gen_proof` panics. -/
theorem C83_limit (hash : List ℕ → ℕ) (N : ℕ) (h3 : 3 ≤ N) (hN : N ≤ 11) (limit : Option ℕ) (hl : ∀ l ∈ limit, 2 ≤ l) (G : Global)
    (h : Run hash limit ⟨N, allValues N⟩ G) (r : ℕ) (hr : Returned G r)
    (hash' : List UInt8 → ℕ) (threads : ℕ) (hist : List (OSet × State)) (hh : ∀ e ∈ hist, 3 ≤ e.1.n ∧ e.1.n ≤ 11)
    (hst : lastSet hist = G.store) (m : StateMap) (hm : (StateMap.new threads).run hash' hist = some m)
    (hsize : m.len < 2 ^ 32) (fs0 : FS) (hfresh : ∀ g, fs0 (pbinName g) = none) (fs2 : FS)
    (hp : ReflTransGen CrashStep (dumpStates m fs0, .stopped) (fs2, .done)) :
    LowerSizeBound N r ∧ (∃ v, G.store ⟨N, allValues N⟩ = some v ∧ v.lo = r) ∧
      ((∀ A v, G.store A = some v → A.n = N → v.lo = r → A = ⟨N, allValues N⟩) →
        ∃ fs3 file, genProof fs2 = some fs3 ∧ fs3 proofName = some file ∧
          Lazy.mainVerified file = some (some ((N : ℤ), (r : ℤ)))) ∧
      ((∃ A v, G.store A = some v ∧ A.n = N ∧ v.lo = r ∧ A ≠ ⟨N, allValues N⟩) → genProof fs2 = none) := by
  have h0 : Chained (⟨N, allValues N⟩ : OSet).s.toSet := by dsimp only; rw [toSet_allValues]; exact chained_univ
  have hr2 : 2 ≤ r := by
    have key : IsOpt (allValues N).toSet r → 2 ≤ r := by
      intro ho
      rw [toSet_allValues] at ho
      have := three_le_of_opt h3 ho
      omega
    cases limit with
    | none => exact key (C29_exact hash _ h0 hN G h r hr)
    | some l =>
      rcases (C29_limit hash l _ h0 hN G h r hr).2 with ho | hle
      · exact key ho
      · have := hl l rfl
        omega
  obtain ⟨A, hA, ⟨v, hv, rfl⟩ | ⟨_, h1⟩⟩ := root_stored h0 hN h hr
  · obtain rfl := canon_allValues hN hA
    have hlb := (C28_entries hash limit _ h0 hN G h _ v hv).2.2.2.1
    dsimp only at hlb
    rw [toSet_allValues] at hlb
    have hmax : ∀ A w, G.store A = some w → A.n ≤ N := by
      intro A w hw
      obtain ⟨A0, hA0, hreach⟩ := h
      obtain rfl := canon_allValues hN hA0
      exact (hreach.visited hw).channels hN
    refine ⟨LB_univ_iff.1 hlb, ⟨v, hv, rfl⟩, fun hu => ?_, ?_⟩
    · exact (C83_result hash limit _ h0 hN G h hash' threads hist hh hst m hm fs0 hfresh fs2 hp N v.lo ⟨⟨v, hv, rfl⟩, hmax, hu⟩
        hr2 hsize).2
    · rintro ⟨A, w, hw, hAn, hlo, hne⟩
      rw [← Option.not_isSome_iff_eq_none,
        C83_succeeds_iff hash limit _ h0 hN G h hash' threads hist hh hst m hm fs0 hfresh fs2 hp]
      rintro ⟨N', b', ⟨v', hv', rfl⟩, hmax', hu⟩
      obtain rfl : N' = N := Nat.le_antisymm (hmax _ _ hv') (hmax' _ _ hv)
      rw [hv] at hv'
      cases hv'
      exact hne (hu A w hw hAn hlo)
  · omega

/-- C83, a limit that does not cut the search short.  If the result of such a search is the least size of a sorting network on `N`
channels, then a certificate for it can always be made: `snocheck -v` prints `Just (N, r)`. -/
theorem C83_optimal (hash : List ℕ → ℕ) (N : ℕ) (h3 : 3 ≤ N) (hN : N ≤ 11) (limit : Option ℕ) (hl : ∀ l ∈ limit, 2 ≤ l) (G : Global)
    (h : Run hash limit ⟨N, allValues N⟩ G) (r : ℕ) (hr : Returned G r)
    (hopt : ∃ cn : List (Fin N × Fin N), SortingNetwork N cn ∧ cn.length = r)
    (hash' : List UInt8 → ℕ) (threads : ℕ) (hist : List (OSet × State)) (hh : ∀ e ∈ hist, 3 ≤ e.1.n ∧ e.1.n ≤ 11)
    (hst : lastSet hist = G.store) (m : StateMap) (hm : (StateMap.new threads).run hash' hist = some m)
    (hsize : m.len < 2 ^ 32) (fs0 : FS) (hfresh : ∀ g, fs0 (pbinName g) = none) (fs2 : FS)
    (hp : ReflTransGen CrashStep (dumpStates m fs0, .stopped) (fs2, .done)) :
    ∃ fs3 file, genProof fs2 = some fs3 ∧ fs3 proofName = some file ∧
      Lazy.mainVerified file = some (some ((N : ℤ), (r : ℤ))) := by
  obtain ⟨_, _, hcert, _⟩ := C83_limit hash N h3 hN limit hl G h r hr hash' threads hist hh hst m hm hsize fs0 hfresh fs2 hp
  refine hcert fun A v hv hAn hlo => ?_
  have h0 : Chained (⟨N, allValues N⟩ : OSet).s.toSet := by dsimp only; rw [toSet_allValues]; exact chained_univ
  obtain ⟨_, _, _, β, hG, _⟩ := h.inv h0 hN
  obtain ⟨A0, hA0, hreach⟩ := h
  obtain rfl := canon_allValues hN hA0
  obtain ⟨cn, hcn, hlen⟩ := hopt
  have hub : UB (Set.univ : Set (Fin N → Bool)) r := UB_of_sorting hcn hlen.le _
  have hr1 : 1 ≤ r := (LB_one (not_chain_univ (by omega))).le_UB hub
  rcases visited_shape (r := r - 1) hN (not_chain_univ (by omega)) (by rw [Nat.sub_add_cancel hr1]; exact hub)
    (hreach.visited hv) with hlt | rfl | ⟨t, rfl, hu⟩
  · omega
  · rfl
  · exfalso
    obtain ⟨hokA, _, _⟩ := hG.sinv.dom _ v hv
    have h1 := (hG.sinv.lb _ hokA).le_UB hu
    have e' : G.store.get ⟨N, t⟩ = v := by simp [Store.get, hv]
    rw [e'] at h1
    omega

/-- C83, a small result.  Let `q` be a lower bound for the size of sorting networks on one channel less.  If the result of such a
search is at most `q` plus the binary logarithm of `N`, rounded up, then a certificate for it can always be made as well.  So
`gen_proof` can only fail after a search with a limit that stopped with a bound above this one and below the least size. -/
theorem C83_small_bound (hash : List ℕ → ℕ) (N : ℕ) (h3 : 3 ≤ N) (hN : N ≤ 11) (limit : Option ℕ) (hl : ∀ l ∈ limit, 2 ≤ l)
    (G : Global) (h : Run hash limit ⟨N, allValues N⟩ G) (r : ℕ) (hr : Returned G r)
    (q : ℕ) (hq : LowerSizeBound (N - 1) q) (hle : r ≤ q + Nat.clog 2 N)
    (hash' : List UInt8 → ℕ) (threads : ℕ) (hist : List (OSet × State)) (hh : ∀ e ∈ hist, 3 ≤ e.1.n ∧ e.1.n ≤ 11)
    (hst : lastSet hist = G.store) (m : StateMap) (hm : (StateMap.new threads).run hash' hist = some m)
    (hsize : m.len < 2 ^ 32) (fs0 : FS) (hfresh : ∀ g, fs0 (pbinName g) = none) (fs2 : FS)
    (hp : ReflTransGen CrashStep (dumpStates m fs0, .stopped) (fs2, .done)) :
    ∃ fs3 file, genProof fs2 = some fs3 ∧ fs3 proofName = some file ∧
      Lazy.mainVerified file = some (some ((N : ℤ), (r : ℤ))) := by
  obtain ⟨hlb, _, hcert, _⟩ := C83_limit hash N h3 hN limit hl G h r hr hash' threads hist hh hst m hm hsize fs0 hfresh fs2 hp
  obtain ⟨n, rfl⟩ : ∃ n, N = n + 1 := ⟨N - 1, by omega⟩
  rcases early_alone hN hq h hr hle with hub | hal
  · obtain ⟨cn, hlen, hcn⟩ := hub
    obtain ⟨cn', _, h1, h2⟩ := exists_standard_of_sorts hcn
    exact C83_optimal hash (n + 1) h3 hN limit hl G h r hr ⟨cn', h1, Nat.le_antisymm (h2.trans hlen) (hlb cn' h1)⟩
      hash' threads hist hh hst m hm hsize fs0 hfresh fs2 hp
  · exact hcert fun A v hv hAn _ => hal A v hv hAn

/-- C83, a limit of at most 1, or at most two channels: the result is at most 1, nothing is stored, and `gen_proof`
panics. -/
theorem C83_small (hash : List ℕ → ℕ) (N : ℕ) (hN : N ≤ 11) (limit : Option ℕ) (G : Global)
    (h : Run hash limit ⟨N, allValues N⟩ G) (r : ℕ) (hr : Returned G r) (hl : N ≤ 2 ∨ ∃ l ∈ limit, l ≤ 1)
    (hash' : List UInt8 → ℕ) (threads : ℕ) (hist : List (OSet × State)) (hh : ∀ e ∈ hist, 3 ≤ e.1.n ∧ e.1.n ≤ 11)
    (hst : lastSet hist = G.store) (m : StateMap) (hm : (StateMap.new threads).run hash' hist = some m)
    (fs0 : FS) (hfresh : ∀ g, fs0 (pbinName g) = none) (fs2 : FS)
    (hp : ReflTransGen CrashStep (dumpStates m fs0, .stopped) (fs2, .done)) : r ≤ 1 ∧ genProof fs2 = none := by
  have h0 : Chained (⟨N, allValues N⟩ : OSet).s.toSet := by dsimp only; rw [toSet_allValues]; exact chained_univ
  have hstop : Stops limit (defaultState ⟨N, allValues N⟩) := by
    rcases hl with h2 | ⟨l, hl, h1⟩
    · left
      unfold defaultState
      split
      · rfl
      · rfl
    · by_cases h2 : N ≤ 2
      · left
        unfold defaultState
        split
        · rfl
        · rfl
      · right
        refine ⟨l, hl, ?_⟩
        have hso := allValues_unsorted (N := N) (by omega)
        unfold defaultState
        dsimp only
        rw [hso]
        simp only [Bool.false_eq_true, if_false]
        rw [if_neg h2]
        exact h1
  have hempty : ∀ B, G.store B = none := by
    obtain ⟨A, hA, hreach⟩ := id h
    obtain rfl := canon_allValues hN hA
    exact (hreach.idle hstop).1
  refine ⟨?_, ?_⟩
  · obtain ⟨A, hA, ⟨v, hv, _⟩ | ⟨_, h1⟩⟩ := root_stored h0 hN h hr
    · rw [hempty] at hv
      cases hv
    · exact h1
  · rw [← Option.not_isSome_iff_eq_none,
      C83_succeeds_iff hash limit _ h0 hN G h hash' threads hist hh hst m hm fs0 hfresh fs2 hp]
    rintro ⟨N', b', ⟨v', hv', _⟩, _⟩
    rw [hempty] at hv'
    cases hv'

/-- The hypotheses of C83 about the state map and the directory can be met for every execution of a search. -/
theorem C83_hypotheses (hash : List ℕ → ℕ) (limit : Option ℕ) (initial : OSet) (h0 : Chained initial.s.toSet) (hn : initial.n ≤ 11)
    (G : Global) (h : Run hash limit initial G) (hash' : List UInt8 → ℕ) (threads : ℕ)
    (fs0 : FS) (hfresh : ∀ g, fs0 (pbinName g) = none) :
    ∃ (hist : List (OSet × State)) (m : StateMap) (fs2 : FS), (∀ e ∈ hist, 3 ≤ e.1.n ∧ e.1.n ≤ 11) ∧
      lastSet hist = G.store ∧ (StateMap.new threads).run hash' hist = some m ∧
      ReflTransGen CrashStep (dumpStates m fs0, .stopped) (fs2, .done) := by
  obtain ⟨A, _, hreach⟩ := id h
  obtain ⟨hist, hh, hst⟩ := hreach.history
  obtain ⟨m, hm, _⟩ := C34_last_set hash' threads hist hh
  obtain ⟨groups, kept, _, hdir, _⟩ := pipeline_log_any h0 hn h hh hst hm hfresh
  obtain ⟨_, _, fs2, hp⟩ := C38_recovers hdir _ _ (ReflTransGen.refl (a := (dumpStates m fs0, Proc.stopped)))
  exact ⟨hist, m, fs2, hh, hst, hm, hp.lift id fun _ _ hs => CrashStep.step hs⟩

/-- A network with a comparator on two different channels does not give all vectors. -/
theorem image_run_ne_univ {n : ℕ} {pre : List (Fin n × Fin n)} (h : ∃ c ∈ pre, c.1 ≠ c.2) :
    run pre '' (Set.univ : Set (Fin n → Bool)) ≠ Set.univ := by
  intro hu
  have hsurj : Function.Surjective (run pre : (Fin n → Bool) → Fin n → Bool) := by
    rw [← Set.range_eq_univ, ← Set.image_univ]
    exact hu
  have hinj := Finite.injective_iff_surjective.2 hsurj
  have key : ∀ l : List (Fin n × Fin n), Function.Injective (run l : (Fin n → Bool) → Fin n → Bool) → ∀ c ∈ l, c.1 = c.2 := by
    intro l
    induction l with
    | nil => intro _ c hc; simp at hc
    | cons d l ih =>
      intro hl
      have e : (run (d :: l) : (Fin n → Bool) → Fin n → Bool) = run l ∘ applyCmp d := rfl
      rw [e] at hl
      have h1 : Function.Injective (applyCmp d : (Fin n → Bool) → Fin n → Bool) := hl.of_comp
      have h2 := Finite.injective_iff_surjective.1 h1
      have h3 : Function.Injective (run l : (Fin n → Bool) → Fin n → Bool) := Function.Injective.of_comp_right hl h2
      intro c hc
      rcases List.mem_cons.1 hc with rfl | hc
      · by_contra hne
        have := @h1 (fun k => decide (k = c.1)) (fun k => decide (k = c.2)) (by
          funext k
          simp only [applyCmp]
          by_cases k1 : k = c.2
          · subst k1; simp
          · by_cases k2 : k = c.1
            · simp [k2, hne, Ne.symm hne]
            · simp [k1, k2])
        have := congrFun this c.1
        simp [hne] at this
      · exact ih h3 c hc
  obtain ⟨c, hc, hne⟩ := h
  exact hne (key pre hinj c hc)

/-- C83, other initial sets.  After a search, with or without a limit, from a set without some vector, `gen_proof` always panics. -/
theorem C83_initial (hash : List ℕ → ℕ) (limit : Option ℕ) (initial : OSet) (h0 : Chained initial.s.toSet) (hn : initial.n ≤ 11)
    (hne : initial.s.toSet ≠ Set.univ) (G : Global) (h : Run hash limit initial G) (r : ℕ) (hr : Returned G r)
    (hash' : List UInt8 → ℕ) (threads : ℕ) (hist : List (OSet × State)) (hh : ∀ e ∈ hist, 3 ≤ e.1.n ∧ e.1.n ≤ 11)
    (hst : lastSet hist = G.store) (m : StateMap) (hm : (StateMap.new threads).run hash' hist = some m)
    (fs0 : FS) (hfresh : ∀ g, fs0 (pbinName g) = none) (fs2 : FS)
    (hp : ReflTransGen CrashStep (dumpStates m fs0, .stopped) (fs2, .done)) : genProof fs2 = none := by
  rw [← Option.not_isSome_iff_eq_none,
    C83_succeeds_iff hash limit _ h0 hn G h hash' threads hist hh hst m hm fs0 hfresh fs2 hp]
  rintro ⟨N, b, ⟨v, hv, rfl⟩, hmax, _⟩
  obtain ⟨A, hA, ⟨w, hw, _⟩ | ⟨he, _⟩⟩ := root_stored h0 hn h hr
  · obtain ⟨n, s⟩ := initial
    dsimp only at hn hne
    obtain ⟨t, rfl, ht⟩ := ProofGen.canon_shape hn hA
    obtain ⟨A0, hA0, hreach⟩ := h
    rw [hA] at hA0
    obtain rfl := Option.some.inj hA0
    have hvis := hreach.visited hv
    have h1 := hvis.channels hn
    have h2 := hmax _ _ hw
    dsimp only at h1 h2
    obtain rfl : N = n := Nat.le_antisymm h1 h2
    -- every visited set on that many channels leaves out some vector
    have key : ∀ B : OSet, Visited hash ⟨N, t⟩ B → B.n < N ∨ ∃ u : Bitmap N, B = ⟨N, u⟩ ∧ u.toSet ≠ Set.univ := by
      intro B hB
      have heq : ∀ {X Y : Set (Fin N → Bool)}, PermInvEquiv X Y → X = Set.univ → Y = Set.univ := by
        intro X Y hXY hX
        subst hX
        rcases hXY with ⟨π, rfl⟩ | ⟨π, rfl⟩
        · refine Set.eq_univ_of_forall fun x => ?_
          rw [mem_permSet]; exact Set.mem_univ _
        · refine Set.eq_univ_of_forall fun x => ?_
          rw [mem_permSet, mem_complSet]; exact Set.mem_univ _
      induction hB with
      | init =>
        refine Or.inr ⟨t, rfl, fun hu => hne ?_⟩
        exact heq ht hu
      | @successor A T C i j hA hij hT hC ih =>
        have hne' : i ≠ j := Fin.ne_of_gt hij
        rcases ih with hlt | ⟨s', rfl, _⟩
        · left
          obtain ⟨_, t, rfl, ht⟩ := successor_toSet hne' hT
          obtain ⟨t', rfl, ht'⟩ := ProofGen.canon_shape (by omega) hC
          exact hlt
        · right
          obtain ⟨_, t1, rfl, ht1⟩ := successor_toSet hne' hT
          dsimp only at t1 ht1 hC i j
          obtain ⟨t', rfl, ht'⟩ := ProofGen.canon_shape hn hC
          refine ⟨t', rfl, fun hu => ?_⟩
          have h3 := heq ht' hu
          rw [ht1] at h3
          have h4 : run [(j, i)] '' (Set.univ : Set (Fin N → Bool)) = Set.univ := by
            exact Set.eq_univ_of_univ_subset (h3.symm.subset.trans (Set.image_mono (Set.subset_univ _)))
          exact image_run_ne_univ ⟨_, List.mem_singleton.2 rfl, Ne.symm hne'⟩ h4
      | @prune A T C pol c hA hT hC ih =>
        left
        have hAn : A.n ≤ N := by
          rcases ih with hlt | ⟨s, rfl, _⟩
          · omega
          · exact Nat.le_refl _
        obtain ⟨n, s⟩ := A
        cases n with
        | zero => exact c.elim0
        | succ n =>
          unfold Search.prune at hT
          dsimp only at hT hAn
          rw [Option.map_eq_some_iff] at hT
          obtain ⟨t, _, rfl⟩ := hT
          obtain ⟨t', rfl, _⟩ := ProofGen.canon_shape (by omega) hC
          dsimp only
          omega
    rcases key _ hvis with hlt | ⟨u, hu, hne'⟩
    · exact absurd hlt (lt_irrefl _)
    · rw [OSet.mk.injEq] at hu
      obtain rfl := eq_of_heq hu.2
      exact hne' toSet_allValues
  · rw [he] at hv
    cases hv

/-- C83, `--prefix`.  After `search` with a prefix that has a comparator on two different channels, with or without a limit,
`gen_proof` always panics: no certificate can be made of such a search. -/
theorem C83_prefix (hash : List ℕ → ℕ) (n : ℕ) (hn : n ≤ 11) (limit : Option ℕ) (pre : List (Fin n × Fin n))
    (hpre : ∃ c ∈ pre, c.1 ≠ c.2) (G : Global) (h : CmdSearch hash n limit (prefixArgs pre) G) (r : ℕ) (hr : Returned G r)
    (hash' : List UInt8 → ℕ) (threads : ℕ) (hist : List (OSet × State)) (hh : ∀ e ∈ hist, 3 ≤ e.1.n ∧ e.1.n ≤ 11)
    (hst : lastSet hist = G.store) (m : StateMap) (hm : (StateMap.new threads).run hash' hist = some m)
    (fs0 : FS) (hfresh : ∀ g, fs0 (pbinName g) = none) (fs2 : FS)
    (hp : ReflTransGen CrashStep (dumpStates m fs0, .stopped) (fs2, .done)) : genProof fs2 = none := by
  obtain ⟨s, h1, h2, h3⟩ := h.run hn
  exact C83_initial hash limit ⟨n, s⟩ h2 hn (by dsimp only; rw [h1]; exact image_run_ne_univ hpre) G h3 r hr hash' threads hist hh
    hst m hm fs0 hfresh fs2 hp

/-! ## Examples -/

/-- No action of the schedule writes another set than those in `L`. -/
def setsOnly (hash : List ℕ → ℕ) (L : List OSet) : List (ℕ × ℕ) → Global → Bool
  | [], _ => true
  | (N, i) :: l, G =>
    (match G.tasks i with
      | some ⟨.run (.set A _ _) _ _, _, _, _, _⟩ => decide (A ∈ L)
      | _ => true) &&
    match act hash N i G with
    | none => true
    | some G' => setsOnly hash L l G'

theorem setsOnly_store {hash : List ℕ → ℕ} {L : List OSet} (l : List (ℕ × ℕ)) (G G' : Global) (h : setsOnly hash L l G = true)
    (he : exec hash l G = some G') (B : OSet) (hB : B ∉ L) : G'.store B = G.store B := by
  induction l generalizing G with
  | nil => cases he; rfl
  | cons x l ih =>
    obtain ⟨N, i⟩ := x
    rw [exec] at he
    rw [setsOnly, Bool.and_eq_true] at h
    cases h1 : act hash N i G with
    | none => rw [h1] at he; simp at he
    | some G1 =>
      rw [h1] at he h
      rw [ih G1 h.2 he]
      have ha := act_sound h1
      cases ha with
      | @set t A v k owned stack ht hs hok =>
        have h2 := h.1
        obtain ⟨st, _, _, _, _⟩ := t
        dsimp only at hs
        subst hs
        rw [ht] at h2
        have h3 : A ∈ L := of_decide_eq_true h2
        show (if B = A then _ else _) = _
        rw [if_neg (by rintro rfl; exact hB h3)]
      | _ => first | rfl | (rw [release_store]; rfl)

/-- A search for all vectors on four channels with limit 2 can return 3, and then only the set of all vectors is in the state
map. -/
theorem limit_example : ∃ G, Run (fun _ => 0) (some 2) ⟨4, allValues 4⟩ G ∧ Returned G 3 ∧
    ∀ A v, G.store A = some v → A = ⟨4, allValues 4⟩ := by
  have h : ((canon (fun _ => 0) ⟨4, allValues 4⟩).bind fun A =>
      (exec (fun _ => 0) (List.replicate 20 (1, 0)) (init (fun _ => 0) (some 2) A)).bind fun G =>
        if setsOnly (fun _ => 0) [⟨4, allValues 4⟩] (List.replicate 20 (1, 0)) (init (fun _ => 0) (some 2) A) then result G else none) =
      some 3 := by decide +kernel
  rw [Option.bind_eq_some_iff] at h
  obtain ⟨A, hA, h⟩ := h
  rw [Option.bind_eq_some_iff] at h
  obtain ⟨G, hG, h⟩ := h
  split at h
  · next hs =>
    refine ⟨G, ⟨A, hA, exec_reach .init hG⟩, result_returned h, fun B v hB => ?_⟩
    by_contra hne
    rw [setsOnly_store _ _ _ hs hG B (by simpa using hne)] at hB
    cases hB
  · simp at h

/-- Non-vacuity: after a search for all vectors on four channels with limit 2, the certificate is accepted for the pair (4, 3). -/
theorem C83_example : ∃ (G : Global) (hist : List (OSet × State)) (m : StateMap) (fs2 fs3 : FS) (file : List UInt8),
    Run (fun _ => 0) (some 2) ⟨4, allValues 4⟩ G ∧ Returned G 3 ∧ lastSet hist = G.store ∧
    (StateMap.new 8).run (fun _ => 0) hist = some m ∧ m.len < 2 ^ 32 ∧
    ReflTransGen CrashStep (dumpStates m fun _ => none, .stopped) (fs2, .done) ∧ genProof fs2 = some fs3 ∧
    fs3 proofName = some file ∧ Lazy.mainVerified file = some (some (4, 3)) := by
  obtain ⟨G, h, hr, hall⟩ := limit_example
  have h0 : Chained (⟨4, allValues 4⟩ : OSet).s.toSet := by dsimp only; rw [toSet_allValues]; exact chained_univ
  obtain ⟨hist, m, fs2, hh, hst, hm, hp⟩ := C83_hypotheses _ _ _ h0 (by decide) G h (fun _ => 0) 8 (fun _ => none) (fun _ => rfl)
  have hs : m.len < 2 ^ 32 := by
    refine len_of_small _ 8 hist hh m hm fun A v hv => ?_
    rw [hst] at hv
    rw [hall A v hv]
    exact Or.inr rfl
  obtain ⟨_, _, h1, _⟩ := C83_limit _ 4 (by omega) (by omega) _ (by simp) G h 3 hr _ 8 hist hh hst m hm hs (fun _ => none)
    (fun _ => rfl) fs2 hp
  obtain ⟨fs3, file, h2, h3, h4⟩ := h1 fun A v hv _ _ => hall A v hv
  exact ⟨G, hist, m, fs2, fs3, file, h, hr, hst, hm, hs, hp, h2, h3, h4⟩

/-- Non-vacuity: a search on four channels with the prefix `(0, 1)` returns, and then `gen_proof` panics. -/
example : ∃ (G : Global) (r : ℕ) (hist : List (OSet × State)) (m : StateMap) (fs2 : FS),
    CmdSearch (fun _ => 0) 4 none (prefixArgs [((0, 1) : Fin 4 × Fin 4)]) G ∧ Returned G r ∧ lastSet hist = G.store ∧
    (StateMap.new 8).run (fun _ => 0) hist = some m ∧
    ReflTransGen CrashStep (dumpStates m fun _ => none, .stopped) (fs2, .done) ∧ genProof fs2 = none := by
  obtain ⟨G, r, h, hr⟩ := C54_returns (fun _ => 0) 4 (by omega) none [((0, 1) : Fin 4 × Fin 4)]
  obtain ⟨s, h1, h2, h3⟩ := h.run (by omega)
  obtain ⟨hist, m, fs2, hh, hst, hm, hp⟩ := C83_hypotheses _ _ ⟨4, s⟩ h2 (by dsimp only; omega) G h3 (fun _ => 0) 8 (fun _ => none)
    (fun _ => rfl)
  exact ⟨G, r, hist, m, fs2, h, hr, hst, hm, hp, C83_prefix _ 4 (by omega) none _ ⟨(0, 1), by simp, by decide⟩ G h r hr _ 8 hist hh hst m
    hm (fun _ => none) (fun _ => rfl) fs2 hp⟩

end Sortnet
