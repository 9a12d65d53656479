import Verif.Props.C39

/-!
# C40: witness references point backwards

The format of a certificate, the targets of a step and the meaning of a reference are in Spec/Cert.lean.
-/

namespace Sortnet

open ProofGen Search Files

/-- C40.  For every pruned log for which `gen_proof` does not panic, the steps it writes are the encodings of a list of
steps `cs` such that

* no set has two steps, and every set comes from the log, with its bound;
* a step has one (possibly missing) reference for each of its targets, in order; a reference has a smaller number than
  the step it belongs to, and the step with this number is for a set that, with the permutation and inversion given by
  the reference, subsumes the target;
* the last step, if there is any, is for the set of all vectors on the largest number of channels. -/
theorem C40_references {fs : FS} {groups : List (ℕ × ℕ)} {sets : (g : ℕ × ℕ) → List (Bitmap g.1)}
    (h : LogDir fs groups sets) {data : List (List UInt8)} (hd : genSteps fs = some data) :
    ∃ cs : List CertStep, data = cs.map CertStep.bytes ∧ (cs.map CertStep.set).Nodup ∧
      (∀ (i : ℕ) (c : CertStep), cs[i]? = some c → (c.set, c.bound) ∈ logged groups sets ∧
        List.Forall₂ (fun ref T => ∀ r, ref = some r → r.id < i ∧ ∃ d, cs[r.id]? = some d ∧ r.Shows d.set.vset T)
          c.refs c.targets) ∧
      ∀ c, cs.getLast? = some c → c.set = ⟨c.set.n, allValues c.set.n⟩ ∧ ∀ g ∈ groups, g.1 ≤ c.set.n := by
  obtain ⟨m, g, N, e1, e2, _, hlast, _, _, hmax, h3⟩ := genSteps_spec h
  cases hg' : g.proveAll with
  | none =>
    exfalso
    unfold genSteps at hd
    rw [e1] at hd
    simp only [Option.bind_eq_bind, Option.bind_some] at hd
    rw [hlast] at hd
    simp only [Option.bind_some] at hd
    rw [e2] at hd
    simp only [Option.bind_some] at hd
    rw [hg'] at hd
    simp at hd
  | some g' =>
    obtain ⟨hp, _, he⟩ := h3 g' hg'
    rw [hd] at he
    have hroot : ∃ b, ((⟨N, allValues N⟩ : OSet), b) ∈ logged groups sets := by
      by_contra hcon
      have hnone : mapGet g'.outputSets ⟨N, allValues N⟩ = none := by
        cases hb : mapGet g'.outputSets ⟨N, allValues N⟩ with
        | none => rfl
        | some b => exact absurd ⟨b, hp.out.sub _ (mapGet_mem hb)⟩ hcon
      rw [encodeProof_eq] at he
      have h0 : mapGet (β := ℕ) [] (⟨N, allValues N⟩ : OSet) = none := rfl
      dsimp only at he
      rw [h0] at he
      dsimp only at he
      rw [hnone] at he
      simp at he
    obtain ⟨r, cs, st', e, hi, _, _, hn, hs⟩ := hp.encode _ hroot [] _ (EncInv.nil g')
    rw [e] at he
    simp only [Option.map_some, Option.some.injEq] at he
    refine ⟨cs, by rw [he, hi.data], hi.nodup, fun i c hc => hi.refs hp hc, ?_⟩
    intro c hc
    cases r with
    | none =>
      rw [(hn rfl).1] at hc
      simp at hc
    | some id =>
      obtain ⟨g1, g2⟩ := hs id rfl
      have hid : id + 1 = cs.length := g2.resolve_left (by simp)
      rw [List.getLast?_eq_getElem?, show cs.length - 1 = id by omega] at hc
      rw [hc] at g1
      simp only [Option.map_some, Option.some.injEq] at g1
      rw [g1]
      exact ⟨rfl, hmax⟩

/-- The hypotheses can be met, with a step that has targets. -/
example : LogDir exampleLog3 [(3, 3)] (fun g => [allValues g.1]) ∧ genSteps exampleLog3 = some [[3, 3, 255, 0, 2, 2, 2]] :=
  ⟨exampleLog3_dir, exampleLog3_steps⟩

end Sortnet
