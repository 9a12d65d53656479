import Verif.Proof.ProofTargets

/-!
# C39: proof generation terminates

`encodeProof` is defined by an unrestricted recursion; its value would be `none` if the recursion did not end.  It is
also `none` if it panics.
-/

namespace Sortnet

open ProofGen Search Files

/-- The witness sets of the proof step for `A`. -/
def ProofGen.GenProof.IsWitness (g : GenProof) (A B : OSet) : Prop :=
  ∃ s w, mapGet g.steps A = some s ∧ some w ∈ s.witnesses ∧ w.target = B

/-- C39, `encode_proof` terminates.  For every pruned log, whatever its sets and bounds, the log is loaded without
panic.  If proof steps are found for all sets, then `encode_proof` returns for every set of the log, in every state of
the encoder that calls of it for sets of the log, one after the other, lead to. -/
theorem C39_encode_terminates {fs : FS} {groups : List (ℕ × ℕ)} {sets : (g : ℕ × ℕ) → List (Bitmap g.1)}
    (h : LogDir fs groups sets) : ∃ m g, load fs = some m ∧ GenProof.new m = some g ∧
      ∀ g', g.proveAll = some g' → ∀ targets : List OSet, (∀ A ∈ targets, ∃ b, (A, b) ∈ logged groups sets) →
        ∃ st, targets.foldlM (fun st A => (g'.encodeProof A st).map Prod.snd) ⟨[], []⟩ = some st := by
  obtain ⟨m, g, N, e1, e2, _, _, _, _, _, h3⟩ := genSteps_spec h
  refine ⟨m, g, e1, e2, fun g' hg' targets ht => ?_⟩
  obtain ⟨hp, _⟩ := h3 g' hg'
  have key : ∀ (ts : List OSet) cs st, EncInv g' cs st → (∀ A ∈ ts, ∃ b, (A, b) ∈ logged groups sets) →
      ∃ st', ts.foldlM (fun st A => (g'.encodeProof A st).map Prod.snd) st = some st' := by
    intro ts
    induction ts with
    | nil => intro cs st _ _; exact ⟨st, rfl⟩
    | cons A ts ih =>
      intro cs st hi hts
      obtain ⟨r, cs', st', e, hi', _⟩ := hp.encode A (hts A List.mem_cons_self) cs st hi
      obtain ⟨st'', e''⟩ := ih cs' st' hi' fun B hB => hts B (List.mem_cons_of_mem _ hB)
      refine ⟨st'', ?_⟩
      rw [List.foldlM_cons, e]
      exact e''
  exact key targets [] _ (EncInv.nil g') ht

/-- C39, no cycles.  There is no cycle of sets in which each set is a witness for the previous one; all chains of
witnesses are finite. -/
theorem C39_no_cycle {fs : FS} {groups : List (ℕ × ℕ)} {sets : (g : ℕ × ℕ) → List (Bitmap g.1)}
    (h : LogDir fs groups sets) {m : Indexes} {g g' : GenProof} (e1 : load fs = some m) (e2 : GenProof.new m = some g)
    (e3 : g.proveAll = some g') (chain : ℕ → OSet) (hc : ∃ b, (chain 0, b) ∈ logged groups sets) :
    ∃ k, ¬ g'.IsWitness (chain k) (chain (k + 1)) := by
  obtain ⟨m0, g0, N, a1, a2, _, _, _, _, _, h3⟩ := genSteps_spec h
  rw [e1] at a1
  obtain rfl := Option.some.inj a1
  rw [e2] at a2
  obtain rfl := Option.some.inj a2
  obtain ⟨hp, _⟩ := h3 g' e3
  by_contra hcon
  push Not at hcon
  have step : ∀ k, (∃ b, (chain k, b) ∈ logged groups sets) →
      rank (chain (k + 1)) < rank (chain k) ∧ ∃ b, (chain (k + 1), b) ∈ logged groups sets := by
    rintro k ⟨b, hb⟩
    obtain ⟨s, w, hs, hw, ht⟩ := hcon k
    obtain ⟨b', hb'⟩ := hp.out.cover _ hb
    obtain ⟨s', hs', hok⟩ := hp.steps _ _ (mapGet_of_nodup hp.out.nodup hb')
    rw [hs] at hs'
    obtain rfl := Option.some.inj hs'
    rw [← ht]
    exact hok.witness hw
  have all : ∀ k, ∃ b, (chain k, b) ∈ logged groups sets := by
    intro k
    induction k with
    | zero => exact hc
    | succ k ih => exact (step k ih).2
  have hdec : ∀ k, rank (chain (k + 1)) < rank (chain k) := fun k => (step k (all k)).1
  obtain ⟨x, ⟨k, rfl⟩, hmin⟩ := (wellFounded_lt (α := ℕ ×ₗ ℕ ×ₗ ℕ)).has_min (Set.range fun k => rank (chain k)) ⟨_, 0, rfl⟩
  exact hmin _ ⟨k + 1, rfl⟩ (hdec k)

/-- C39 for `gen_proof` as a whole: the only panics are that no proof step is found for some set, and that the set of
all vectors is not in the log. -/
theorem C39_gen_proof {fs : FS} {groups : List (ℕ × ℕ)} {sets : (g : ℕ × ℕ) → List (Bitmap g.1)}
    (h : LogDir fs groups sets) {N : ℕ} (hN : ∃ g ∈ groups, g.1 = N) (hmax : ∀ g ∈ groups, g.1 ≤ N)
    (hroot : ∃ b, ((⟨N, allValues N⟩ : OSet), b) ∈ logged groups sets)
    (hsteps : ∃ m g g', load fs = some m ∧ GenProof.new m = some g ∧ g.proveAll = some g') :
    ∃ fs', genProof fs = some fs' := by
  obtain ⟨m, g, N', e1, e2, _, _, _, ⟨q, hq, hqN⟩, hmax', h3⟩ := genSteps_spec h
  obtain ⟨m0, g0, g', a1, a2, a3⟩ := hsteps
  rw [e1] at a1
  obtain rfl := Option.some.inj a1
  rw [e2] at a2
  obtain rfl := Option.some.inj a2
  obtain rfl : N = N' := by
    obtain ⟨q', hq', rfl⟩ := hN
    have := hmax' q' hq'
    have := hmax q hq
    omega
  obtain ⟨hp, _, he⟩ := h3 g' a3
  obtain ⟨r, cs', st', e, _⟩ := hp.encode _ hroot [] _ (EncInv.nil g')
  unfold genProof
  rw [he, e]
  exact ⟨_, rfl⟩

/-- A log with one set: all vectors on three channels, with bound 3. -/
def exampleLog3 : FS := fun name =>
  if name = indexName then some (groupName (3, 3) ++ [10])
  else if name = pbinName (3, 3) then some [255] else none

theorem exampleLog3_dir : LogDir exampleLog3 [(3, 3)] fun g => [allValues g.1] := by
  refine ⟨⟨groupName (3, 3) ++ [10], by decide +kernel, by decide +kernel⟩, by simp, by simp, by simp, by simp, ?_⟩
  intro g hg
  rw [List.mem_singleton.1 hg]
  decide +kernel

/-- `gen_proof` runs through on this log: it writes one Huffman step with three unsorted sets on two channels. -/
theorem exampleLog3_steps : genSteps exampleLog3 = some [[3, 3, 255, 0, 2, 2, 2]] := by
  unfold genSteps
  simp only [encodeProof_eq]
  decide +kernel

/-- The hypotheses can be met. -/
example : ∃ m g g', load exampleLog3 = some m ∧ GenProof.new m = some g ∧ g.proveAll = some g' := by
  have h := exampleLog3_steps
  unfold genSteps at h
  cases e1 : load exampleLog3 with
  | none => rw [e1] at h; simp at h
  | some m =>
    rw [e1] at h
    simp only [Option.bind_eq_bind, Option.bind_some] at h
    cases e2 : GenProof.new m with
    | none => rw [e2] at h; cases (List.map Sigma.fst m).getLast? <;> simp at h
    | some g =>
      rw [e2] at h
      cases e3 : g.proveAll with
      | none => simp only [Option.bind_some, e3] at h; cases (List.map Sigma.fst m).getLast? <;> simp at h
      | some g' => exact ⟨m, g, g', rfl, e2, e3⟩

end Sortnet
