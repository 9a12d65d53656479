import Verif.Proof.PruneCrash

/-!
# `prune_all` when bytes are lost
-/

namespace Sortnet

namespace Files

open Relation

variable {fs0 : FS} {groups : List (ℕ × ℕ)} {out : ℕ × ℕ → List UInt8}

/-- After a loss the directory is like one that had the shorter file from the beginning. -/
theorem CrashInv.lose (h0 : RerunDir fs0 groups out) {fs : FS} {name : Str} {rest : List UInt8} {todo : List Str}
    (h : CrashInv fs0 groups out (fs, .writing name rest todo)) :
    ∃ fs0' out', RerunDir fs0' groups out' ∧
      CrashInv fs0' groups out' (fs.rename (withExtension name extTmp) (withExtension name extPbin), .loop todo) ∧
      (∀ g, out' g <+: out g) ∧ ∀ x, (∀ g ∈ groups, x ≠ pbinName g ∧ x ≠ tmpName g) → fs0' x = fs0 x := by
  obtain ⟨gp, g, gt, e1, rfl, e2, e3, e4, w, e5, e6⟩ := h.proc
  rw [show withExtension (groupName g) extTmp = tmpName g from rfl,
    show withExtension (groupName g) extPbin = pbinName g from rfl]
  change fs (pbinName g) = none at e4
  change fs (tmpName g) = some w at e5
  have hg : g ∈ groups := by rw [e1]; simp
  have h0g : fs0 (pbinName g) = none := h.fresh hg e4
  let fs0' : FS := Function.update (Function.update fs0 (tmpName g) none) (pbinName g) (some w)
  let out' : ℕ × ℕ → List UInt8 := Function.update out g w
  have f1 : ∀ x, x ≠ pbinName g → x ≠ tmpName g → fs0' x = fs0 x := fun x h1 h2 =>
    (Function.update_of_ne h1 _ _).trans (Function.update_of_ne h2 _ _)
  have f2 : fs0' (pbinName g) = some w := Function.update_self ..
  have f3 : fs0' (tmpName g) = none := (Function.update_of_ne (tmp_ne_pbin g g).symm _ _).trans (Function.update_self ..)
  have f4 : ∀ g', g' ≠ g → fs0' (pbinName g') = fs0 (pbinName g') := fun g' hne =>
    f1 _ (fun e => hne (pbin_injective e)) (tmp_ne_pbin g' g)
  have f5 : ∀ g', g' ≠ g → fs0' (tmpName g') = fs0 (tmpName g') := fun g' hne =>
    f1 _ (tmp_ne_pbin g g').symm fun e => hne (tmp_injective e)
  have o1 : out' g = w := Function.update_self ..
  have o2 : ∀ g', g' ≠ g → out' g' = out g' := fun g' hne => Function.update_of_ne hne _ _
  have r1 : ∀ g', g' ≠ g → (fs.rename (tmpName g) (pbinName g)) (pbinName g') = fs (pbinName g') := fun g' hne => by
    unfold FS.rename
    rw [Function.update_of_ne (tmp_ne_pbin g' g), Function.update_of_ne fun e => hne (pbin_injective e)]
  have r2 : (fs.rename (tmpName g) (pbinName g)) (pbinName g) = some w := by
    unfold FS.rename
    rw [Function.update_of_ne (tmp_ne_pbin g g), Function.update_self, e5]
  have r3 : (fs.rename (tmpName g) (pbinName g)) (tmpName g) = none := by
    unfold FS.rename
    rw [Function.update_self]
  have r4 : ∀ g', g' ≠ g → (fs.rename (tmpName g) (pbinName g)) (tmpName g') = fs (tmpName g') := fun g' hne => by
    unfold FS.rename
    rw [Function.update_of_ne fun e => hne (tmp_injective e), Function.update_of_ne (tmp_ne_pbin g g').symm]
  clear_value fs0' out'
  generalize hfs : fs.rename (tmpName g) (pbinName g) = fs' at r1 r2 r3 r4
  refine ⟨fs0', out', ⟨?_, fun g' hg' => ?_, fun g' hg' data hd => ?_⟩, ⟨fun x hx => ?_, fun g' hg' => ?_, ?_⟩, fun g' => ?_,
    fun x hx => f1 x (hx g hg).1 (hx g hg).2⟩
  · obtain ⟨data, h1, h2⟩ := h0.index
    exact ⟨data, (f1 _ (pbin_ne_index g) (tmp_ne_index g)).trans h1, h2⟩
  · obtain ⟨hb, data, h1, h2, h3⟩ := h0.input g' hg'
    refine ⟨hb, data, (f1 _ (pbin_ne_group g' g) (tmp_ne_group g' g)).trans h1, h2, fun hn => ?_⟩
    have hne : g' ≠ g := by
      rintro rfl
      rw [f2] at hn
      simp at hn
    rw [o2 g' hne]
    exact h3 ((f4 g' hne).symm.trans hn)
  · by_cases hne : g' = g
    · subst hne
      rw [f2] at hd
      rw [o1]
      exact Option.some.inj hd
    · rw [o2 g' hne]
      exact h0.old g' hg' data ((f4 g' hne).symm.trans hd)
  · rw [f1 x (hx g hg).1 (hx g hg).2, ← h.base x hx]
    change fs' x = fs x
    rw [← hfs]
    exact (Function.update_of_ne (hx g hg).2 _ _).trans (Function.update_of_ne (hx g hg).1 _ _)
  · by_cases hne : g' = g
    · subst hne
      refine Or.inr ⟨r2.trans (by rw [o1]), r3.trans ?_⟩
      unfold endTmp
      rw [f3]
      split <;> rfl
    · rcases h.pbin g' hg' with hc | ⟨hc, hc'⟩
      · exact Or.inl ⟨(r1 g' hne).trans hc.1, (f4 g' hne).trans hc.2⟩
      · refine Or.inr ⟨(r1 g' hne).trans (hc.trans (by rw [o2 g' hne])), (r4 g' hne).trans (hc'.trans ?_)⟩
        unfold endTmp
        rw [f4 g' hne, f5 g' hne]
  · refine ⟨gp ++ [g], gt, by simpa using e1, e2, fun g' hg' => ?_⟩
    by_cases hne : g' = g
    · subst hne
      exact r2.trans (by rw [o1])
    · rcases List.mem_append.1 hg' with hg' | hg'
      · exact (r1 g' hne).trans ((e3 g' hg').trans (by rw [o2 g' hne]))
      · exact absurd (List.mem_singleton.1 hg') hne
  · by_cases hne : g' = g
    · subst hne
      rw [o1]
      exact ⟨rest, e6⟩
    · rw [o2 g' hne]

theorem loss_of_reach (h0 : RerunDir fs0 groups out) {st : FS × Proc} (h : ReflTransGen LossStep (fs0, .stopped) st) :
    ∃ fs0' out', RerunDir fs0' groups out' ∧ CrashInv fs0' groups out' st ∧ (∀ g, out' g <+: out g) ∧
      ∀ x, (∀ g ∈ groups, x ≠ pbinName g ∧ x ≠ tmpName g) → fs0' x = fs0 x := by
  induction h with
  | refl => exact ⟨fs0, out, h0, crashInv_of_reach h0 .refl, fun g => List.prefix_rfl, fun _ _ => rfl⟩
  | tail _ hs ih =>
    obtain ⟨fs0', out', h1, h2, h3, h4⟩ := ih
    cases hs with
    | crash hs =>
      cases hs with
      | step hs => exact ⟨fs0', out', h1, h2.step h1 hs, h3, h4⟩
      | crash => exact ⟨fs0', out', h1, ⟨h2.base, h2.pbin, trivial⟩, h3, h4⟩
    | lose =>
      obtain ⟨fs0'', out'', k1, k2, k3, k4⟩ := h2.lose h1
      exact ⟨fs0'', out'', k1, k2, fun g => (k3 g).trans (h3 g), fun x hx => (k4 x hx).trans (h4 x hx)⟩

end Files

end Sortnet
