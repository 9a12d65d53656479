import Verif.Proof.PruneCmd
import Verif.Props.C38

/-!
# C73: several `prune` commands at the same time

`PruneConc` (Model/PruneCmd.lean) are the steps of processes with the command `prune`, one for each `i`, in any order, where each
of them can be killed and started again at any time.
-/

namespace Sortnet

open Files Relation

variable {ι : Type} [DecidableEq ι] {fs0 : FS} {n : ι → ℕ} {name : ι → Str} {out : ι → List UInt8}

/-- C73, no interference.  At any time no process has panicked; each `.pbin` file is missing or complete; a process that has
ended has its complete `.pbin` file; and no file except the `.pbin` and `.tmp` files of the commands is changed, in particular
no input file. -/
theorem C73_safe (h0 : ConcDir fs0 n name out) (fs : FS) (p : ι → CmdProc)
    (h : ReflTransGen (PruneConc n name) (fs0, fun _ => .stopped) (fs, p)) :
    (∀ i, p i ≠ .panicked) ∧
    (∀ i, fs (withExtension (name i) extPbin) = none ∨ fs (withExtension (name i) extPbin) = some (out i)) ∧
    (∀ i, p i = .done → fs (withExtension (name i) extPbin) = some (out i)) ∧
    (∀ i, fs (name i) = fs0 (name i)) ∧
    ∀ x, (∀ i, x ≠ withExtension (name i) extPbin ∧ x ≠ withExtension (name i) extTmp) → fs x = fs0 x := by
  have hi := concInv_of_reach h0 h
  refine ⟨fun i hp => ?_, fun i => (hi.pbin i).imp And.left And.left, fun i hp => ?_, hi.input h0, hi.base⟩
  · have := hi.proc i
    dsimp only at this
    rw [hp] at this
    exact this
  · have := hi.proc i
    dsimp only at this
    rw [hp] at this
    exact this

/-- C73, one result.  When all processes have ended, the files do not depend on the order of their steps and on the kills. -/
theorem C73_same_result (h0 : ConcDir fs0 n name out) (fs fs' : FS) (p p' : ι → CmdProc)
    (h : ReflTransGen (PruneConc n name) (fs0, fun _ => .stopped) (fs, p)) (hd : ∀ i, p i = .done)
    (h' : ReflTransGen (PruneConc n name) (fs0, fun _ => .stopped) (fs', p')) (hd' : ∀ i, p' i = .done) : fs = fs' := by
  have hi := concInv_of_reach h0 h
  have hi' := concInv_of_reach h0 h'
  funext x
  by_cases hx : ∀ i, x ≠ pb name i ∧ x ≠ tm name i
  · exact (hi.base x hx).trans (hi'.base x hx).symm
  · push Not at hx
    obtain ⟨i, hx⟩ := hx
    by_cases h1 : x = pb name i
    · rw [h1, (hi.final hd i).1, (hi'.final hd' i).1]
    · rw [hx h1, (hi.final hd i).2, (hi'.final hd' i).2]

/-- C73, no deadlock.  From any state, a process can get to its end by its own steps, and so can all of finitely many. -/
theorem C73_ends [Finite ι] (h0 : ConcDir fs0 n name out) (fs : FS) (p : ι → CmdProc)
    (h : ReflTransGen (PruneConc n name) (fs0, fun _ => .stopped) (fs, p)) :
    (∀ i, ∃ fs', ReflTransGen (PruneConc n name) (fs, p) (fs', Function.update p i .done)) ∧
    ∃ fs', ReflTransGen (PruneConc n name) (fs, p) (fs', fun _ => .done) := by
  refine ⟨fun i => (concInv_of_reach h0 h).finish h0 i, ?_⟩
  have := Fintype.ofFinite ι
  have key : ∀ s : Finset ι, ∃ fs' p', ReflTransGen (PruneConc n name) (fs, p) (fs', p') ∧ ∀ i ∈ s, p' i = .done := by
    intro s
    induction s using Finset.induction_on with
    | empty => exact ⟨fs, p, .refl, by simp⟩
    | insert i s _ ih =>
      obtain ⟨fs', p', h1, h2⟩ := ih
      obtain ⟨fs'', h3⟩ := (concInv_of_reach h0 (h.trans h1)).finish h0 i
      refine ⟨fs'', _, h1.trans h3, fun j hj => ?_⟩
      by_cases hji : j = i
      · rw [hji, Function.update_self]
      · rw [Function.update_of_ne hji]
        exact h2 j ((Finset.mem_insert.1 hj).resolve_left hji)
  obtain ⟨fs', p', h1, h2⟩ := key Finset.univ
  have : p' = fun _ => .done := funext fun i => h2 i (Finset.mem_univ i)
  rw [this] at h1
  exact ⟨fs', h1⟩

/-! ## The groups of a log -/

/-- The files of the groups of a log meet the hypotheses. -/
theorem concDir_groups {groups : List (ℕ × ℕ)} {out : ℕ × ℕ → List UInt8} (h0 : RerunDir fs0 groups out) :
    ConcDir (ι := {g // g ∈ groups}) fs0 (fun g => g.1.1) (fun g => groupName g.1) fun g => out g.1 := by
  refine ⟨fun g g' h => ?_, fun g g' => ⟨pbin_ne_group _ _, tmp_ne_group _ _⟩, fun g => ?_, fun g data hd => h0.old g.1 g.2 data hd⟩
  · refine Subtype.ext (pbin_injective ?_)
    unfold pbinName withExtension
    rw [h]
  · obtain ⟨_, data, i1, i2, i3⟩ := h0.input g.1 g.2
    exact ⟨data, i1, i2, i3⟩

/-- C73, `prune_all` in parallel.  If a process with the command `prune` is started for each group of a log, in any order or
at the same time, the files at the end are those that `prune_all` leaves. -/
theorem C73_prune_all {groups : List (ℕ × ℕ)} {out : ℕ × ℕ → List UInt8} (h0 : RerunDir fs0 groups out) (fs fs' : FS)
    (h : ReflTransGen (PruneConc (ι := {g // g ∈ groups}) (fun g => g.1.1) fun g => groupName g.1)
      (fs0, fun _ => .stopped) (fs, fun _ => .done))
    (h' : ReflTransGen CrashStep (fs0, .stopped) (fs', .done)) : fs = fs' := by
  have hi := concInv_of_reach (concDir_groups h0) h
  have hi' := crashInv_of_reach h0 h'
  have hf := hi.final fun _ => rfl
  funext x
  by_cases hx : ∀ g ∈ groups, x ≠ pbinName g ∧ x ≠ tmpName g
  · exact (hi.base x fun g => hx g.1 g.2).trans (hi'.base x hx).symm
  · push Not at hx
    obtain ⟨g, hg, hx⟩ := hx
    have hp : fs' (pbinName g) = some (out g) := hi'.proc g hg
    by_cases h1 : x = pbinName g
    · rw [h1, hp]
      exact (hf ⟨g, hg⟩).1
    · rw [hx h1]
      refine (hf ⟨g, hg⟩).2.trans ?_
      rcases hi'.pbin g hg with hc | hc
      · have hc' : fs' (pbinName g) = none := hc.1
        rw [hp] at hc'
        simp at hc'
      · exact hc.2.symm

/-! ## A file with the extension `.tmp` -/

/-- C73, an input that is lost.  The hypothesis on the extension of the input is necessary: if the temporary file has the name of
the input, the command empties its input, and does nothing else. -/
theorem C73_destroys {k : ℕ} {file : Str} (ht : withExtension file extTmp = file) {fs : FS} {data : List UInt8}
    (hd : fs file = some data) (hne : data ≠ []) (hp : fs (withExtension file extPbin) = none) :
    (∃ b, PruneCmd k file (fs, .stopped) b) ∧
    ∀ b, ReflTransGen (PruneCmd k file) (fs, .stopped) b → b = (fs, .stopped) ∨
      b = (Function.update fs file (some []), .panicked) := by
  refine ⟨⟨_, .destroy hd hne hp ht⟩, fun b hb => ?_⟩
  induction hb with
  | refl => exact Or.inl rfl
  | tail _ hs ih =>
    rcases ih with rfl | rfl
    · right
      cases hs with
      | noInput hc =>
        rw [hd] at hc
        rcases hc with hc | hc
        · simp at hc
        · exact absurd (Option.some.inj hc) hne
      | skip _ _ hc =>
        rw [hp] at hc
        simp at hc
      | create _ _ hc => exact absurd ht hc
      | panicLate _ _ _ hc => exact absurd ht hc
      | destroy => rfl
    · cases hs

/-- `group_3_1.tmp`, the file that a killed command leaves, is such an input. -/
example : withExtension (tmpName (3, 1)) extTmp = tmpName (3, 1) := by decide +kernel

/-- Non-vacuity: a log with two groups, which two processes prune. -/
theorem C73_example : ∃ fs0 : FS, RerunDir fs0 [(3, 1), (3, 3)] (fun g => if g = (3, 1) then [3] else [255]) ∧
    ∃ fs fs', ReflTransGen (PruneConc (ι := {g // g ∈ [(3, 1), (3, 3)]}) (fun g => g.1.1) fun g => groupName g.1)
        (fs0, fun _ => .stopped) (fs, fun _ => .done) ∧
      ReflTransGen CrashStep (fs0, .stopped) (fs', .done) := by
  let fs0 : FS := fun x => if x = indexName then some (groupName (3, 1) ++ [10] ++ groupName (3, 3) ++ [10]) else
    if x = groupName (3, 1) then some [255, 3] else if x = groupName (3, 3) then some [255] else none
  have h0 : PruneDir fs0 [(3, 1), (3, 3)] (fun g => if g = (3, 1) then [3] else [255]) := by
    refine ⟨⟨groupName (3, 1) ++ [10] ++ groupName (3, 3) ++ [10], by decide +kernel, by decide +kernel⟩, by decide,
      fun g hg => ?_, fun g hg => ?_⟩
    · rcases List.mem_cons.1 hg with rfl | hg
      · exact ⟨by norm_num, [255, 3], by decide +kernel, by rw [if_pos rfl]; exact C37_example⟩
      · rw [List.mem_singleton.1 hg]
        exact ⟨by norm_num, [255], by decide +kernel, by decide +kernel⟩
    · rcases List.mem_cons.1 hg with rfl | hg
      · decide +kernel
      · rw [List.mem_singleton.1 hg]
        decide +kernel
  obtain ⟨_, fs, h1⟩ := C73_ends (concDir_groups h0.rerun) fs0 _ .refl
  obtain ⟨_, _, fs', h2⟩ := C38_recovers h0 fs0 .stopped .refl
  exact ⟨fs0, h0.rerun, fs, fs', h1, h2.lift id fun _ _ hs => CrashStep.step hs⟩

end Sortnet
