import Verif.Spec.Script
import Verif.Props.C67
import Verif.Props.C70
import Verif.Props.C64

/-!
# `search_and_verify.sh`
-/

namespace Sortnet

namespace Script

open Search Files ProofGen Relation Accept

/-- The directory after a search. -/
theorem dump_dir {N r : ℕ} (h3 : 3 ≤ N) (hN : N ≤ 11) {m : StateMap} (hs : Searched N r m) (fs : FS) :
    MinSize N r ∧ (∀ g, dumpStates m fs (pbinName g) = fs (pbinName g)) ∧
    ∃ (groups : List (ℕ × ℕ)) (out : ℕ × ℕ → List UInt8), RerunDir (dumpStates m fs) groups out ∧ (N, r) ∈ groups ∧
      ∀ g ∈ groups, fs (pbinName g) = none → GoodFile N g (out g) := by
  obtain ⟨hash, G, hash', threads, hist, h, hr, hh, hst, hm, hsize⟩ := hs
  have hmin := C29_sorting_network hash N hN G h r hr
  refine ⟨hmin, ?_⟩
  obtain ⟨groups, hnd, hgm, hidx, hfile, hother⟩ := C36_dump_states hash' threads hist hh m hm fs
  rw [hst] at hgm
  have hpb : ∀ g, dumpStates m fs (pbinName g) = fs (pbinName g) := fun g =>
    hother _ (pbin_ne_index g).symm fun g' _ => groupName_ne_pbin g g'
  refine ⟨hpb, ?_⟩
  have h0 : Chained (⟨N, allValues N⟩ : OSet).s.toSet := by dsimp only; rw [toSet_allValues]; exact chained_univ
  obtain ⟨_, _, _, β, hG, _⟩ := h.inv h0 hN
  obtain ⟨⟨v0, hv0, hr0⟩, hfin⟩ := final_store h3 hN h hr
  have hval : ∀ A v, G.store A = some v → 3 ≤ A.n ∧ A.n ≤ N ∧ v.lo ≤ 35 ∧ Chained A.s.toSet ∧ LB A.s.toSet v.lo := by
    intro A v hv
    obtain ⟨hok, ha, _⟩ := hG.sinv.dom A v hv
    have h1 := hG.sinv.lb A hok
    have h1' := h1.le_UB (hG.sinv.ub A hok)
    have h2 := hG.sinv.top A hok
    have e' : G.store.get A = v := by simp [Store.get, hv]
    rw [e'] at h1 h1' h2
    exact ⟨ha, (hfin A v hv).1, by omega, hok.1, h1⟩
  have hkept : ∀ g : ℕ × ℕ, ∃ kept : List (Bitmap g.1), g ∈ groups →
      (∃ data, dumpStates m fs (groupName g) = some data ∧ data ≠ [] ∧
        pruneData g.1 data = some (kept.flatMap Bitmap.packed)) ∧ GoodFile N g (kept.flatMap Bitmap.packed) := by
    intro g
    by_cases hg : g ∈ groups
    · obtain ⟨sets, s1, s2, s3⟩ := hfile g hg
      rw [hst] at s3
      have hne : sets ≠ [] := by
        obtain ⟨A, v, hv, rfl⟩ := (hgm g).1 hg
        intro hnil
        have := (s3 A.s).2 ⟨v, hv, rfl⟩
        rw [hnil] at this
        simp at this
      have hgb : 3 ≤ g.1 ∧ g.1 ≤ N ∧ g.2 ≤ 35 := by
        obtain ⟨A, v, hv, rfl⟩ := (hgm g).1 hg
        have := hval A v hv
        exact ⟨this.1, this.2.1, this.2.2.1⟩
      obtain ⟨kept, k1, k2, k3, _⟩ := pruneData_spec (by omega) (by omega) sets hne
      refine ⟨kept, fun _ => ⟨⟨_, s2, packed_ne_nil hne, k1⟩, ⟨hgb.1, hgb.2.1⟩, hgb.2.2, kept, ?_, rfl, fun s hs => ?_⟩⟩
      · rintro rfl
        obtain ⟨s, hs⟩ := List.exists_mem_of_ne_nil _ hne
        obtain ⟨t, ht, _⟩ := k3 s hs
        simp at ht
      · obtain ⟨v, hv, hvlo⟩ := (s3 s).1 (k2.subset hs)
        obtain ⟨_, _, _, c1, c2⟩ := hval _ v hv
        refine ⟨c1, hvlo ▸ c2, fun e => ?_⟩
        rw [e, hv0] at hv
        obtain rfl := Option.some.inj hv
        rw [← hvlo, hr0]
        exact hmin
    · exact ⟨[], fun h => absurd h hg⟩
  choose kept hkept using hkept
  refine ⟨groups, fun g => (fs (pbinName g)).getD ((kept g).flatMap Bitmap.packed),
    ⟨⟨_, hidx, lines_index groups⟩, fun g hg => ?_, fun g hg data hd => ?_⟩, (hgm _).2 ⟨_, v0, hv0, by rw [hr0]⟩,
    fun g hg hn => ?_⟩
  · obtain ⟨⟨data, d1, d2, d3⟩, hgood⟩ := hkept g hg
    have h11 : (11 : ℕ) < 2 ^ 64 := by norm_num
    have := hgood.channels.2
    refine ⟨by omega, data, d1, d2, fun hn => ?_⟩
    rw [hpb] at hn
    rw [d3, hn]
    rfl
  · rw [hpb] at hd
    simp [hd]
  · simpa [hn] using (hkept g hg).2

/-- What pruning after a search leaves. -/
theorem prune_files {N r : ℕ} (h3 : 3 ≤ N) (hN : N ≤ 11) {m : StateMap} (hs : Searched N r m) {fs fs' : FS} {p : Proc}
    (hp : ReflTransGen PruneStep (dumpStates m fs, .stopped) (fs', p)) :
    p ≠ .panicked ∧ (∀ g data, fs (pbinName g) = some data → fs' (pbinName g) = some data) ∧
    (∀ g data, fs (pbinName g) = none → fs' (pbinName g) = some data → GoodFile N g data) ∧
    (p = .done → ∃ groups : List (ℕ × ℕ), (∃ data, fs' indexName = some data ∧ lines data = groups.map groupName) ∧
      (N, r) ∈ groups ∧ ∀ g ∈ groups, (fs' (pbinName g)).isSome) := by
  obtain ⟨_, hpb, groups, out, hdir, hroot, hgood⟩ := dump_dir h3 hN hs fs
  have hi := crashInv_of_reach hdir (hp.lift id fun _ _ h => CrashStep.step h)
  have hother : ∀ g, g ∉ groups → fs' (pbinName g) = fs (pbinName g) := fun g hg => by
    rw [← hpb g]
    exact hi.base _ fun g' hg' => ⟨fun e => hg (pbin_injective e ▸ hg'), tmp_ne_pbin g g'⟩
  refine ⟨?_, fun g data hd => ?_, fun g data hn hd => ?_, ?_⟩
  · rintro rfl
    exact hi.proc
  · by_cases hg : g ∈ groups
    · rcases hi.pbin g hg with hc | hc
      · rw [hpb, hd] at hc
        simp at hc
      · rw [← hdir.old g hg data ((hpb g).trans hd)]
        exact hc.1
    · rw [hother g hg, hd]
  · by_cases hg : g ∈ groups
    · rcases hi.pbin g hg with hc | hc
      · have := hc.1
        dsimp only [id] at this
        rw [hd] at this
        simp at this
      · have h1 := hc.1
        dsimp only [id] at h1
        rw [hd] at h1
        obtain rfl := Option.some.inj h1
        exact hgood g hg hn
    · rw [hother g hg, hn] at hd
      simp at hd
  · rintro rfl
    exact ⟨groups, hi.index hdir, hroot, fun g hg => by
      have := hi.proc g hg
      dsimp only [id] at this
      rw [this]
      rfl⟩

theorem dump_pbin {m : StateMap} {fs : FS} {st : DumpSt} (hd : ReflTransGen (DumpStep m) (DumpSt.init fs) st) (g : ℕ × ℕ) :
    st.fs (pbinName g) = fs (pbinName g) := by
  rcases C70_prefix m fs st hd (pbinName g) with hc | ⟨hc | ⟨e, _, hc⟩, _⟩
  · exact hc
  · exact absurd hc.symm (pbin_ne_index g)
  · exact absurd hc.symm (pbin_ne_group _ g)

theorem proof_ne_pbin (g : ℕ × ℕ) : pbinName g ≠ proofName := proofName_ne_pbin _

theorem genProof_other {fs fs' : FS} (h : genProof fs = some fs') {x : Str} (hx : x ≠ proofName) : fs' x = fs x := by
  unfold genProof at h
  cases hd : genSteps fs with
  | none => rw [hd] at h; simp at h
  | some data =>
    rw [hd] at h
    simp only [Option.bind_eq_bind, Option.bind_some, Option.some.injEq] at h
    rw [← h]
    simp [FS.append, FS.create, hx]

/-- A run of the script keeps the `.pbin` files, and makes only correct ones. -/
theorem run_files {N : ℕ} (h3 : 3 ≤ N) (hN : N ≤ 11) {fs fs' : FS} {o : Outcome} (h : ScriptRun N fs fs' o) (g : ℕ × ℕ) :
    (∀ data, fs (pbinName g) = some data → fs' (pbinName g) = some data) ∧
    ∀ data, fs (pbinName g) = none → fs' (pbinName g) = some data → GoodFile N g data := by
  cases h with
  | search => exact ⟨fun _ h => h, fun _ h h' => by rw [h] at h'; simp at h'⟩
  | dump hs hd =>
    rw [dump_pbin hd]
    exact ⟨fun _ h => h, fun _ h h' => by rw [h] at h'; simp at h'⟩
  | prune hs hp =>
    obtain ⟨_, h1, h2, _⟩ := prune_files h3 hN hs hp
    exact ⟨h1 g, h2 g⟩
  | gen hs hp hg =>
    obtain ⟨_, h1, h2, _⟩ := prune_files h3 hN hs hp
    rw [hg _ (proof_ne_pbin g)]
    exact ⟨h1 g, h2 g⟩
  | verify hs hp hg hf =>
    obtain ⟨_, h1, h2, _⟩ := prune_files h3 hN hs hp
    rw [genProof_other hg (proof_ne_pbin g)]
    exact ⟨h1 g, h2 g⟩

theorem runs_files {N : ℕ} (h3 : 3 ≤ N) (hN : N ≤ 11) {fs0 fs : FS} (hnew : ∀ g, fs0 (pbinName g) = none) (h : Runs N fs0 fs)
    {g : ℕ × ℕ} {data : List UInt8} (hd : fs (pbinName g) = some data) : GoodFile N g data := by
  induction h generalizing data with
  | refl => rw [hnew] at hd; simp at hd
  | @tail a b _ hab ih =>
    obtain ⟨o, ho⟩ := hab
    obtain ⟨h1, h2⟩ := run_files h3 hN ho g
    cases ha : a (pbinName g) with
    | none => exact h2 data ha hd
    | some d =>
      have := h1 d ha
      rw [hd] at this
      obtain rfl := Option.some.inj this
      exact ih ha

/-- The answer for a certificate that is about all vectors on `N` channels, if only one bound is logged for them. -/
theorem gen_answer {fs fs' : FS} {groups : List (ℕ × ℕ)} {sets : (g : ℕ × ℕ) → List (Bitmap g.1)}
    (h : LogDir fs groups sets) (hsize : (logged groups sets).length < 2 ^ 32) {N b : ℕ}
    (hroot : ((⟨N, allValues N⟩ : OSet), b) ∈ logged groups sets)
    (hone : ∀ b', ((⟨N, allValues N⟩ : OSet), b') ∈ logged groups sets → b' = b)
    (hmax : ∀ q ∈ groups, q.1 ≤ N) (hb : 2 ≤ b) (hg : genProof fs = some fs') {file : List UInt8}
    (hfile : fs' proofName = some file) :
    Lazy.mainVerified file = some (some ((N : ℤ), (b : ℤ))) ∨ Lazy.mainVerified file = some none := by
  obtain ⟨data, hd, hf⟩ := genProof_file hg
  obtain ⟨g, cs, st, hp, hi, rfl, hlast⟩ := genSteps_cert h hd hroot hmax
  rw [hf] at hfile
  obtain rfl := Option.some.inj hfile
  have hmem : ∀ A b, (A, b) ∈ logged groups sets → A.n ≤ 11 ∧ b < 256 := by
    intro A b hA
    simp only [logged, List.mem_flatMap, List.mem_map, Prod.mk.injEq] at hA
    obtain ⟨p, hp, s, _, rfl, rfl⟩ := hA
    exact ⟨(h.channels p hp).2, h.bound p hp⟩
  have hlen : cs.length < 2 ^ 32 := by
    refine lt_of_le_of_lt ?_ hsize
    have hsub : cs.map CertStep.set ⊆ (logged groups sets).map Prod.fst := by
      intro A hA
      obtain ⟨c, hc, rfl⟩ := List.mem_map.1 hA
      obtain ⟨i, hlt, rfl⟩ := List.getElem_of_mem hc
      exact List.mem_map.2 ⟨_, (hi.refs hp (List.getElem?_eq_getElem hlt)).1, rfl⟩
    have := (List.subperm_of_subset hi.nodup hsub).length_le
    simpa using this
  rcases hlast with ⟨_, s, hs, hk⟩ | ⟨c, hc, hcs⟩
  · exfalso
    obtain ⟨b0, hb0⟩ := hp.out.cover _ hroot
    obtain rfl := hone _ (hp.out.sub _ hb0)
    obtain ⟨s', hs', hok⟩ := hp.steps _ _ (mapGet_of_nodup hp.out.nodup hb0)
    rw [hs] at hs'
    obtain rfl := Option.some.inj hs'
    cases s with
    | trivial => have : b0 = 0 := hok; omega
    | notSorted => have := hok.1; omega
    | huffman pol ws => simp [PStep.certKind] at hk
    | successors ws => simp [PStep.certKind] at hk
  · have hrep : ∀ c ∈ cs, c.Representable := fun c hc => (Checker.cert_representable_of hp hi hmem hlen hc).1
    have hfl := Checker.cert_file_length_of hp hi hmem hlen
    have hw := C63_written hrep hlen hfl ⟨0, false, []⟩ ⟨false, 0⟩
    cases hr : Decode.mainVerified ⟨0, false, []⟩ ⟨false, 0⟩ (writeProof (cs.map CertStep.bytes)) with
    | none => rw [hr] at hw; exact Or.inr hw
    | some wb =>
      obtain ⟨w, b'⟩ := wb
      rw [hr] at hw
      refine Or.inl (hw.trans ?_)
      obtain ⟨_, _, e1, e2⟩ := (C64_file_iff hrep hlen hfl w b').1 hw
      have hcL : (c.set, c.bound) ∈ logged groups sets := by
        rw [List.getLast?_eq_getElem?] at hc
        exact (hi.refs hp hc).1
      have hcb : c.bound = b := hone _ (hcs ▸ hcL)
      have hlast : (certOf cs).step ((certOf cs).length - 1) = stepOf c := by
        have hpos : 0 < cs.length := List.length_pos_iff.2 (by rintro rfl; simp at hc)
        rw [List.getLast?_eq_getElem?] at hc
        simp only [certOf]
        rw [show ((cs.length : ℤ) - 1).toNat = cs.length - 1 by omega, hc]
        rfl
      rw [hlast] at e1 e2
      rw [← e1, ← e2, ← hcb]
      simp only [stepOf]
      rw [hcs]

theorem minSize_unique {n k l : ℕ} (h : MinSize n k) (h' : MinSize n l) : k = l := by
  obtain ⟨⟨cn, _, c1, c2⟩, hl⟩ := h
  obtain ⟨⟨cn', _, c1', c2'⟩, hl'⟩ := h'
  have h1 := hl cn' c1'
  have h2 := hl' cn c1
  omega

end Script

end Sortnet
