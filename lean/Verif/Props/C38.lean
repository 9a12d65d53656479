import Verif.Proof.PruneCrash
import Verif.Props.C37

/-!
# C38: `prune` is crash safe

`CrashStep` are the steps of `prune_all` on the files of the directory, in which output reaches a file in pieces of
arbitrary size, and the step by which the process is killed.  After being killed the process can be started again.
-/

namespace Sortnet

open Files Relation

variable {fs0 : FS} {groups : List (ℕ × ℕ)} {out : ℕ × ℕ → List UInt8}

/-- C38, no partial results.  Whenever and however often the process was killed and started again: it does not
panic; a `.pbin` file is missing or complete; no file except `.pbin` and `.tmp` files of groups differs from the
initial one. -/
theorem C38_never_partial (h0 : PruneDir fs0 groups out) (fs : FS) (p : Proc)
    (h : ReflTransGen CrashStep (fs0, .stopped) (fs, p)) :
    p ≠ .panicked ∧
    (∀ g ∈ groups, fs (pbinName g) = none ∨ fs (pbinName g) = some (out g)) ∧
    ∀ x, (∀ g ∈ groups, x ≠ pbinName g ∧ x ≠ tmpName g) → fs x = fs0 x := by
  have hi := crashInv_of_reach h0.rerun h
  refine ⟨?_, fun g hg => (hi.pbin g hg).imp And.left And.left, hi.base⟩
  rintro rfl
  exact hi.proc

/-- C38, same result.  When `prune_all` ends after any number of crashes, the files are the same as after a run
without crashes, and every group has its complete `.pbin` file. -/
theorem C38_same_result (h0 : PruneDir fs0 groups out) (fs fs' : FS)
    (h : ReflTransGen CrashStep (fs0, .stopped) (fs, .done))
    (h' : ReflTransGen PruneStep (fs0, .stopped) (fs', .done)) :
    fs = fs' ∧ ∀ g ∈ groups, fs (pbinName g) = some (out g) := by
  have hi := crashInv_of_reach h0.rerun h
  have hi' := crashInv_of_reach h0.rerun (h'.lift id fun _ _ hs => CrashStep.step hs)
  exact ⟨hi.done_unique hi', hi.proc⟩

/-- C38, recovery.  After any number of crashes, a run that is not killed again cannot go on forever, and it ends
regularly: whenever it has not ended there is a next step, and none of them is a panic. -/
theorem C38_recovers (h0 : PruneDir fs0 groups out) (fs : FS) (p : Proc)
    (h : ReflTransGen CrashStep (fs0, .stopped) (fs, p)) :
    (¬ ∃ r : ℕ → FS × Proc, r 0 = (fs, p) ∧ ∀ k, PruneStep (r k) (r (k + 1))) ∧
    (p ≠ .done → ∃ b, PruneStep (fs, p) b) ∧
    ∃ fs', ReflTransGen PruneStep (fs, p) (fs', .done) := by
  have hi := crashInv_of_reach h0.rerun h
  refine ⟨?_, prune_progress h0.rerun hi, prune_completes h0.rerun hi⟩
  rintro ⟨r, hr0, hr⟩
  have hacc := prune_acc h0.rerun hi
  rw [← hr0] at hacc
  have : ∀ a, Acc (fun b a => PruneStep a b) a → ∀ k, r k ≠ a := by
    intro a ha
    induction ha with
    | intro a _ ih =>
      rintro k rfl
      exact ih (r (k + 1)) (hr k) (k + 1) rfl
  exact this _ hacc 0 rfl

/-- The property depends on `drop(output_file)` succeeding (`prune.rs:111`): the destructor of `BufWriter`
ignores errors.  If writing the remaining bytes fails there, `prune` goes on and publishes an incomplete file. -/
def dropFails (fs : FS) (name : Str) : FS := fs.rename (withExtension name extTmp) (withExtension name extPbin)

/-- With an input or output error when the file is closed, an incomplete `.pbin` file is visible: the property does
not extend to input and output errors. -/
theorem C38_io_error (h0 : PruneDir fs0 groups out) (g : ℕ × ℕ) (gs : List (ℕ × ℕ)) (hg : groups = g :: gs) :
    ∃ fs, ReflTransGen CrashStep (fs0, .stopped) (fs, .writing (groupName g) (out g) (gs.map groupName)) ∧
      dropFails fs (groupName g) (pbinName g) = some [] := by
  have hm : g ∈ groups := by rw [hg]; simp
  obtain ⟨hb, data, i1, i2⟩ := h0.input g hm
  refine ⟨fs0.create (tmpName g), ?_, ?_⟩
  · obtain ⟨idx, hi, hl⟩ := h0.index
    refine .tail (.single (.step (.start hi))) ?_
    rw [hl, hg, List.map_cons]
    exact .step (.create (lineChannels_groupName hb) i1 (h0.fresh g hm) i2)
  · have : (fs0.create (tmpName g)).rename (tmpName g) (pbinName g) (pbinName g) = some [] := by
      unfold FS.rename
      rw [Function.update_of_ne (tmp_ne_pbin g g), Function.update_self]
      exact Function.update_self ..
    exact this

/-- Non-vacuity: a directory with one group, and an execution that is killed while the temporary file is written
and after it is complete; at the end the result is complete. -/
example : ∃ fs0 : FS, PruneDir fs0 [(3, 1)] (fun _ => [3]) ∧
    (∃ fs, ReflTransGen CrashStep (fs0, .stopped) (fs, .stopped) ∧ fs (tmpName (3, 1)) = some [3]) ∧
    ∃ fs, ReflTransGen CrashStep (fs0, .stopped) (fs, .done) ∧ fs (pbinName (3, 1)) = some [3] := by
  let fs0 : FS := fun x => if x = indexName then some (groupName (3, 1) ++ [10]) else
    if x = groupName (3, 1) then some [255, 3] else none
  have hidx : fs0 indexName = some (groupName (3, 1) ++ [10]) := if_pos rfl
  have hgrp : fs0 (groupName (3, 1)) = some [255, 3] := by
    unfold fs0
    rw [if_neg (groupName_ne_index _), if_pos rfl]
  have hpb : fs0 (pbinName (3, 1)) = none := by
    unfold fs0
    rw [if_neg (pbin_ne_index _).symm, if_neg (pbin_ne_group _ _).symm]
  have h0 : PruneDir fs0 [(3, 1)] (fun _ => [3]) := by
    refine ⟨⟨_, hidx, by decide +kernel⟩, by simp, fun g hg => ?_, fun g hg => ?_⟩
    · rw [List.mem_singleton.1 hg]
      exact ⟨by norm_num, [255, 3], hgrp, C37_example⟩
    · rw [List.mem_singleton.1 hg]
      exact hpb
  have hrun : ReflTransGen CrashStep (fs0, .stopped)
      ((fs0.create (tmpName (3, 1))).append (tmpName (3, 1)) [3], .writing (groupName (3, 1)) [] []) := by
    obtain ⟨idx, hi, hl⟩ := h0.index
    refine .tail (.tail (.single (.step (.start hi))) ?_) (.step (.write (now := [3]) (rest := []) (by simp)))
    rw [hl]
    exact .step (.create (lineChannels_groupName (g := (3, 1)) (by norm_num)) hgrp hpb C37_example)
  refine ⟨fs0, h0, ⟨_, hrun.tail .crash, ?_⟩, ?_⟩
  · unfold FS.append FS.create
    rw [Function.update_self, Function.update_self]
    rfl
  · obtain ⟨_, _, fs', h'⟩ := C38_recovers h0 _ _ (hrun.tail .crash)
    have h1 := (hrun.tail .crash).trans (h'.lift id fun _ _ hs => CrashStep.step hs)
    refine ⟨fs', h1, ?_⟩
    obtain ⟨_, _, fs2, h2⟩ := C38_recovers h0 fs0 .stopped .refl
    exact (C38_same_result h0 fs' fs2 h1 h2).2 _ (by simp)

end Sortnet
