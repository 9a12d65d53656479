import Verif.Proof.CheckerAccept
import Verif.Props.C29
import Verif.Props.C40

/-!
# C41: generated certificates verify

The sets of a log are *chained* if they can be reached by comparators and pruning (C22).
-/

namespace Sortnet

open ProofGen Search Files Checker

/-- The certificate that `gen_proof` writes, as data. -/
theorem genSteps_cert {fs : FS} {groups : List (ℕ × ℕ)} {sets : (g : ℕ × ℕ) → List (Bitmap g.1)}
    (h : LogDir fs groups sets) {data : List (List UInt8)} (hd : genSteps fs = some data) {N b : ℕ}
    (hroot : ((⟨N, allValues N⟩ : OSet), b) ∈ logged groups sets) (hmax : ∀ q ∈ groups, q.1 ≤ N) :
    ∃ g cs st, PRep g (logged groups sets) ∧ EncInv g cs st ∧ data = cs.map CertStep.bytes ∧
      ((cs = [] ∧ ∃ s, mapGet g.steps ⟨N, allValues N⟩ = some s ∧ s.certKind = none) ∨
        ∃ c, cs.getLast? = some c ∧ c.set = ⟨N, allValues N⟩) := by
  obtain ⟨m, g, N', e1, e2, _, hlast, _, ⟨q, hq, hqN⟩, hmax', h3⟩ := genSteps_spec h
  obtain rfl : N = N' := by
    have h1 : N ≤ N' := by
      simp only [logged, List.mem_flatMap, List.mem_map, Prod.mk.injEq] at hroot
      obtain ⟨p, hp, s, _, hs, _⟩ := hroot
      have := hmax' p hp
      have hpn : p.1 = N := congrArg OSet.n hs
      omega
    have h2 := hmax q hq
    omega
  cases hg' : g.proveAll with
  | none =>
    exfalso
    unfold genSteps at hd
    rw [e1] at hd
    simp only [Option.bind_eq_bind, Option.bind_some] at hd
    rw [hlast] at hd
    simp only [Option.bind_some] at hd
    rw [e2] at hd
    simp only [Option.bind_some] at hd
    rw [hg'] at hd
    simp at hd
  | some g' =>
    obtain ⟨hp, _, he⟩ := h3 g' hg'
    rw [hd] at he
    obtain ⟨r, cs, st', e, hi, _, _, hn, hs⟩ := hp.encode _ ⟨b, hroot⟩ [] _ (EncInv.nil g')
    rw [e] at he
    simp only [Option.map_some, Option.some.injEq] at he
    refine ⟨g', cs, st', hp, hi, by rw [he, hi.data], ?_⟩
    cases r with
    | none => exact Or.inl (hn rfl)
    | some id =>
      obtain ⟨g1, g2⟩ := hs id rfl
      have hid : id + 1 = cs.length := g2.resolve_left (by simp)
      rw [Option.map_eq_some_iff] at g1
      obtain ⟨c, hc, hcs⟩ := g1
      refine Or.inr ⟨c, ?_, hcs⟩
      rw [List.getLast?_eq_getElem?, show cs.length - 1 = id by omega, hc]

theorem genProof_file {fs fs' : FS} (h : genProof fs = some fs') :
    ∃ data, genSteps fs = some data ∧ fs' proofName = some (writeProof data) := by
  unfold genProof at h
  cases hd : genSteps fs with
  | none => rw [hd] at h; simp at h
  | some data =>
    rw [hd] at h
    simp only [Option.bind_eq_bind, Option.bind_some, Option.some.injEq] at h
    refine ⟨data, rfl, ?_⟩
    rw [← h]
    simp [FS.append, FS.create]

/-- C41.  Let a log contain, for every set in it, one bound; let its sets be chained, and those with a non-zero bound
unsorted; let it have fewer than `2 ^ 32` sets, among them all vectors on the largest number of channels, with a bound of
at least 2.  If `gen_proof` does not panic on it, then `snocheck -v` accepts the file written by `gen_proof` and reports
this number of channels and this bound.  The values `d` and `u` of expressions that throw do not matter, that is, no
such expression is demanded. -/
theorem C41_accepts {fs fs' : FS} {groups : List (ℕ × ℕ)} {sets : (g : ℕ × ℕ) → List (Bitmap g.1)}
    (h : LogDir fs groups sets)
    (hfun : ∀ A b b', (A, b) ∈ logged groups sets → (A, b') ∈ logged groups sets → b = b')
    (hch : ∀ A b, (A, b) ∈ logged groups sets → Chained A.s.toSet)
    (huns : ∀ A b, (A, b) ∈ logged groups sets → b ≠ 0 → ¬ IsChain (· ≤ ·) A.s.toSet)
    (hsize : (logged groups sets).length < 2 ^ 32) {N b : ℕ} (hroot : ((⟨N, allValues N⟩ : OSet), b) ∈ logged groups sets)
    (hmax : ∀ q ∈ groups, q.1 ≤ N) (hb : 2 ≤ b) (hg : genProof fs = some fs') :
    ∃ file, fs' proofName = some file ∧ ∀ (d : Decode.Undef) (u : Checker.Undef),
      Decode.mainVerified d u file = some ((N : ℤ), (b : ℤ)) := by
  obtain ⟨data, hd, hf⟩ := genProof_file hg
  obtain ⟨g, cs, st, hp, hi, rfl, hlast⟩ := genSteps_cert h hd hroot hmax
  have hmem : ∀ A b, (A, b) ∈ logged groups sets → A.n ≤ 11 ∧ b < 256 := by
    intro A b hA
    simp only [logged, List.mem_flatMap, List.mem_map, Prod.mk.injEq] at hA
    obtain ⟨p, hp, s, _, rfl, rfl⟩ := hA
    exact ⟨(h.channels p hp).2, h.bound p hp⟩
  have hL : LogGood (logged groups sets) := by
    refine ⟨hfun, fun A b hA => ⟨hch A b hA, (hmem A b hA).1⟩, ?_, fun A b hA => (hmem A b hA).2⟩
    intro A b hA hb
    have h1 := huns A b hA hb
    rw [← sorted_iff ⟨hch A b hA, (hmem A b hA).1⟩] at h1
    simpa using h1
  have hlen : cs.length < 2 ^ 32 := by
    refine lt_of_le_of_lt ?_ hsize
    have hsub : cs.map CertStep.set ⊆ (logged groups sets).map Prod.fst := by
      intro A hA
      obtain ⟨c, hc, rfl⟩ := List.mem_map.1 hA
      obtain ⟨i, hlt, rfl⟩ := List.getElem_of_mem hc
      exact List.mem_map.2 ⟨_, (hi.refs hp (List.getElem?_eq_getElem hlt)).1, rfl⟩
    have := (List.subperm_of_subset hi.nodup hsub).length_le
    simpa using this
  refine ⟨_, hf, fun d u => ?_⟩
  obtain ⟨b0, hb0⟩ := hp.out.cover _ hroot
  have hb0' := hp.out.sub _ hb0
  have hbe : b0 = b := hfun _ _ _ hb0' hroot
  subst hbe
  rcases hlast with ⟨_, s, hs, hk⟩ | ⟨c, hc, hcs⟩
  · exfalso
    obtain ⟨s', hs', hok⟩ := hp.steps _ _ (mapGet_of_nodup hp.out.nodup hb0)
    rw [hs] at hs'
    obtain rfl := Option.some.inj hs'
    cases s with
    | trivial => have : b0 = 0 := hok; omega
    | notSorted => have := hok.1; omega
    | huffman pol ws => simp [PStep.certKind] at hk
    | successors ws => simp [PStep.certKind] at hk
  · rw [mainVerified_accepts hL hp hi u hlen d hc]
    have hcL : (c.set, c.bound) ∈ logged groups sets := by
      rw [List.getLast?_eq_getElem?] at hc
      exact (hi.refs hp hc).1
    have : c.bound = b0 := hfun _ _ _ (hcs ▸ hcL) hroot
    rw [hcs, this]

/-- The steps of the file written by `gen_proof`. -/
theorem C41_steps {fs fs' : FS} {groups : List (ℕ × ℕ)} {sets : (g : ℕ × ℕ) → List (Bitmap g.1)}
    (h : LogDir fs groups sets)
    (hfun : ∀ A b b', (A, b) ∈ logged groups sets → (A, b') ∈ logged groups sets → b = b')
    (hch : ∀ A b, (A, b) ∈ logged groups sets → Chained A.s.toSet)
    (huns : ∀ A b, (A, b) ∈ logged groups sets → b ≠ 0 → ¬ IsChain (· ≤ ·) A.s.toSet)
    (hsize : (logged groups sets).length < 2 ^ 32) {N b : ℕ} (hroot : ((⟨N, allValues N⟩ : OSet), b) ∈ logged groups sets)
    (hmax : ∀ q ∈ groups, q.1 ≤ N) (hg : genProof fs = some fs') :
    ∃ cs : List CertStep, fs' proofName = some (writeProof (cs.map CertStep.bytes)) ∧
      (∀ c ∈ cs, c.Representable ∧ c.bytes.length ≤ 2048) ∧ cs.length ≤ (logged groups sets).length := by
  obtain ⟨data, hd, hf⟩ := genProof_file hg
  obtain ⟨g, cs, st, hp, hi, rfl, -⟩ := genSteps_cert h hd hroot hmax
  have hmem : ∀ A b, (A, b) ∈ logged groups sets → A.n ≤ 11 ∧ b < 256 := by
    intro A b hA
    simp only [logged, List.mem_flatMap, List.mem_map, Prod.mk.injEq] at hA
    obtain ⟨p, hp, s, _, rfl, rfl⟩ := hA
    exact ⟨(h.channels p hp).2, h.bound p hp⟩
  have hL : LogGood (logged groups sets) := by
    refine ⟨hfun, fun A b hA => ⟨hch A b hA, (hmem A b hA).1⟩, ?_, fun A b hA => (hmem A b hA).2⟩
    intro A b hA hb
    have h1 := huns A b hA hb
    rw [← sorted_iff ⟨hch A b hA, (hmem A b hA).1⟩] at h1
    simpa using h1
  have hlen : cs.length ≤ (logged groups sets).length := by
    have hsub : cs.map CertStep.set ⊆ (logged groups sets).map Prod.fst := by
      intro A hA
      obtain ⟨c, hc, rfl⟩ := List.mem_map.1 hA
      obtain ⟨i, hlt, rfl⟩ := List.getElem_of_mem hc
      exact List.mem_map.2 ⟨_, (hi.refs hp (List.getElem?_eq_getElem hlt)).1, rfl⟩
    have := (List.subperm_of_subset hi.nodup hsub).length_le
    simpa using this
  exact ⟨cs, hf, fun c hc => cert_representable hL hp hi (by omega) hc, hlen⟩

/-- C41 as stated: the sets are reachable and the bounds are lower bounds. -/
theorem C41_correct_bounds {fs fs' : FS} {groups : List (ℕ × ℕ)} {sets : (g : ℕ × ℕ) → List (Bitmap g.1)}
    (h : LogDir fs groups sets)
    (hfun : ∀ A b b', (A, b) ∈ logged groups sets → (A, b') ∈ logged groups sets → b = b')
    (hch : ∀ A b, (A, b) ∈ logged groups sets → Chained A.s.toSet)
    (hlb : ∀ A b, (A, b) ∈ logged groups sets → LB A.s.toSet b)
    (hsize : (logged groups sets).length < 2 ^ 32) {N b : ℕ} (hroot : ((⟨N, allValues N⟩ : OSet), b) ∈ logged groups sets)
    (hmax : ∀ q ∈ groups, q.1 ≤ N) (hb : 2 ≤ b) (hg : genProof fs = some fs') :
    ∃ file, fs' proofName = some file ∧ ∀ (d : Decode.Undef) (u : Checker.Undef),
      Decode.mainVerified d u file = some ((N : ℤ), (b : ℤ)) := by
  refine C41_accepts h hfun hch ?_ hsize hroot hmax hb hg
  intro A b hA hb0 hcon
  have := (hlb A b hA).le_UB (UB_zero hcon)
  omega

/-- The bound of the set of all vectors must be at least 2: otherwise the file has no steps and is rejected. -/
theorem C41_small_bound {fs fs' : FS} {groups : List (ℕ × ℕ)} {sets : (g : ℕ × ℕ) → List (Bitmap g.1)}
    (h : LogDir fs groups sets) {N b : ℕ} (hfun : ∀ b', ((⟨N, allValues N⟩ : OSet), b') ∈ logged groups sets → b' = b)
    (hroot : ((⟨N, allValues N⟩ : OSet), b) ∈ logged groups sets)
    (hmax : ∀ q ∈ groups, q.1 ≤ N) (hb : b ≤ 1) (hg : genProof fs = some fs') :
    fs' proofName = some [0, 0, 0, 0] ∧ ∀ (d : Decode.Undef) (u : Checker.Undef),
      Decode.mainVerified d u [0, 0, 0, 0] = none := by
  refine ⟨?_, fun d u => ?_⟩
  rotate_left
  · have h0 : Decode.stepCount d [0, 0, 0, 0] = 0 := by
      have := Decode.stepCount_writeProof d (steps := []) (by simp)
      exact this
    unfold Decode.mainVerified Checker.checkProofGetBound
    rw [h0]
    simp [Decode.translateProofSteps]
  obtain ⟨data, hd, hf⟩ := genProof_file hg
  obtain ⟨g, cs, st, hp, hi, rfl, hlast⟩ := genSteps_cert h hd hroot hmax
  rw [hf]
  obtain ⟨b0, hb0⟩ := hp.out.cover _ hroot
  have hbe := hfun _ (hp.out.sub _ hb0)
  subst hbe
  have hm := mapGet_of_nodup hp.out.nodup hb0
  dsimp only at hm
  have hN : 2 ≤ N := by
    simp only [logged, List.mem_flatMap, List.mem_map, Prod.mk.injEq] at hroot
    obtain ⟨p, hp, s, _, hs, _⟩ := hroot
    have := (h.channels p hp).1
    have hpn : p.1 = N := congrArg OSet.n hs
    omega
  have hns : (allValues N).isSorted = false := by
    have hc : ¬ IsChain (· ≤ ·) (allValues N).toSet := by
      rw [toSet_allValues]
      intro hcon
      have h1 := hcon (x := fun i : Fin N => decide (i.1 = 0)) (Set.mem_univ _) (y := fun i : Fin N => decide (i.1 = 1))
        (Set.mem_univ _) (by
          intro he
          have := congrFun he ⟨0, by omega⟩
          simp at this)
      rcases h1 with h1 | h1
      · have := h1 ⟨0, by omega⟩
        exact absurd (this rfl) (by simp)
      · have := h1 ⟨1, by omega⟩
        exact absurd (this rfl) (by simp)
    rw [← C13_is_sorted (allValues N) (by rw [toSet_allValues]; exact chained_univ)] at hc
    simpa using hc
  obtain ⟨t, ht, htk⟩ : ∃ t, trivialStep b0 ⟨N, allValues N⟩ = some t ∧ t.certKind = none := by
    unfold trivialStep
    by_cases h0 : b0 = 0
    · exact ⟨_, if_pos h0, rfl⟩
    · refine ⟨.notSorted, ?_, rfl⟩
      rw [if_neg h0, if_pos ⟨by omega, hns⟩]
  have hstep := hp.first _ _ _ hm ht
  rcases hlast with ⟨rfl, _⟩ | ⟨c, hc, hcs⟩
  · rfl
  · exfalso
    rw [List.getLast?_eq_getElem?] at hc
    obtain ⟨s, ws, _, h2, h3, _⟩ := hi.step _ _ hc
    rw [hcs, hstep] at h2
    obtain rfl := Option.some.inj h2
    rw [htk] at h3
    simp at h3

/-- The hypotheses of `C41_correct_bounds` can be met. -/
theorem C41_example : ∃ fs' file, genProof exampleLog3 = some fs' ∧ fs' proofName = some file ∧
    ∀ (d : Decode.Undef) (u : Checker.Undef), Decode.mainVerified d u file = some (3, 3) := by
  have hg : ∃ fs', genProof exampleLog3 = some fs' := by
    unfold genProof
    rw [exampleLog3_steps]
    exact ⟨_, rfl⟩
  obtain ⟨fs', hg⟩ := hg
  have hL : ∀ A b, (A, b) ∈ logged [(3, 3)] (fun g => [allValues g.1]) → A = ⟨3, allValues 3⟩ ∧ b = 3 := by
    intro A b hA
    simpa [logged] using hA
  obtain ⟨file, hf, hv⟩ := C41_correct_bounds exampleLog3_dir (fs' := fs') (N := 3) (b := 3)
    (by
      intro A b b' h1 h2
      rw [(hL A b h1).2, (hL A b' h2).2])
    (by
      intro A b h
      rw [(hL A b h).1]
      dsimp only
      rw [toSet_allValues]
      exact chained_univ)
    (by
      intro A b h
      rw [(hL A b h).1, (hL A b h).2]
      dsimp only
      rw [toSet_allValues]
      exact (isOpt_univ_iff.2 C29_three_four.1).1)
    (by decide +kernel) (by simp [logged]) (by simp) (by omega) hg
  exact ⟨fs', file, hg, hf, hv⟩

end Sortnet
