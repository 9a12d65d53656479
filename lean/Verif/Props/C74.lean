import Verif.Proof.PruneRace
import Verif.Props.C37

/-!
# C74: several processes prune the same file

`PruneRace` (Model/PruneRace.lean) are the steps of processes, one for each `i`, that run `prune` for the same file, in any
order.  `RaceDir` (Spec/PruneRace.lean) says what is in the directory at the start.
-/

namespace Sortnet

open Files Relation

variable {ι : Type} [DecidableEq ι] {d0 : Disk} {n : ℕ} {name : Str} {data out : List UInt8}

/-- C74, the result.  If no process is killed and all of them have ended, some of them with a panic, then at least one has not
panicked, the `.pbin` file is complete, and the input is unchanged. -/
theorem C74_ends [Nonempty ι] (h0 : RaceDir d0 n name data out) (d : Disk) (p : ι → RaceProc)
    (h : ReflTransGen (PruneRace n name) (d0, fun _ => .stopped) (d, p)) (he : ∀ i, p i = .done ∨ p i = .panicked) :
    (∃ i, p i = .done) ∧ d.read (withExtension name extPbin) = some out ∧ d.read name = some data := by
  obtain ⟨j0, hi⟩ := raceInv_of_reach h0 h
  have hs := hi.ended _ (he (Classical.arbitrary ι))
  refine ⟨hi.first hs, ?_, hi.read⟩
  obtain ⟨j, hj⟩ := Option.isSome_iff_exists.1 hs
  obtain ⟨h1, h2⟩ := hi.pbin j hj
  unfold Disk.read
  rw [hj, Option.map_some]
  congr 1
  refine List.ext_getElem? fun k => ?_
  by_cases hk : k < out.length
  · rcases h2 k hk with hc | ⟨i, off, rest, hc, _⟩
    · exact hc
    · rcases he i with e | e <;> (dsimp only at hc; rw [e] at hc; simp at hc)
  · dsimp only at h1
    rw [List.getElem?_eq_none (by omega), List.getElem?_eq_none (by omega)]

/-- C74, no deadlock.  From any state that is reached, each process can get to its end by its own steps. -/
theorem C74_progress (h0 : RaceDir d0 n name data out) (d : Disk) (p : ι → RaceProc)
    (h : ReflTransGen (PruneRace n name) (d0, fun _ => .stopped) (d, p)) (i : ι) :
    ∃ d' q, (q = .done ∨ q = .panicked) ∧ ReflTransGen (PruneRace n name) (d, p) (d', Function.update p i q) := by
  obtain ⟨j0, hi⟩ := raceInv_of_reach h0 h
  exact hi.finish h0.output h0.ne i

/-- C74, what can go wrong.  Let the output consist of two parts.  There is an execution of two processes without kills in which
a process has ended and the `.pbin` file has zeros instead of the first part.  If now the other process is killed and is started
again, both have ended and the `.pbin` file stays like that. -/
theorem C74_damage (h0 : RaceDir d0 n name data out) {i i' : ι} (hii : i ≠ i') {first second : List UInt8}
    (ho : out = first ++ second) (h1 : first ≠ []) (h2 : second ≠ []) :
    ∃ d p, ReflTransGen (PruneRace n name) (d0, fun _ => .stopped) (d, p) ∧ p i = .done ∧
      d.read (withExtension name extPbin) = some (List.replicate first.length 0 ++ second) ∧
      ∃ p', ReflTransGen (PruneRaceKill n name) (d, p) (d, p') ∧ p' i = .done ∧ p' i' = .done := by
  have hr0 := (raceInv_of_reach (ι := ι) h0 .refl).choose_spec.read
  have hpt : withExtension name extPbin ≠ withExtension name extTmp := ext_ne name name
  -- both processes see that there is no output
  let p1 : ι → RaceProc := Function.update (fun _ => .stopped) i .checked
  let p2 := Function.update p1 i' .checked
  have s1 : PruneRace n name (d0, fun _ => .stopped) (d0, p1) := .step (.check hr0 h0.ne h0.pbin)
  have s2 : PruneRace n name (d0, p1) (d0, p2) := .step (by
    rw [show p1 i' = .stopped from Function.update_of_ne hii.symm _ _]
    exact .check hr0 h0.ne h0.pbin)
  have r2 : ReflTransGen (PruneRace n name) (d0, fun _ => .stopped) (d0, p2) := (ReflTransGen.single s1).tail s2
  -- the first one creates the temporary file and writes the first part
  have p2i : p2 i = .checked := by
    change Function.update p1 i' .checked i = _
    rw [Function.update_of_ne hii]
    exact Function.update_self ..
  obtain ⟨c1, c2⟩ := create_spec d0 (withExtension name extTmp)
  have s3 : PruneRace n name (d0, p2) ((d0.create (withExtension name extTmp)).1,
      Function.update p2 i (.writing (d0.create (withExtension name extTmp)).2 0 out)) := .step (by
    rw [p2i]
    exact .create hr0 h0.output)
  have hdir : (d0.create (withExtension name extTmp)).1.dir (withExtension name extPbin) = none := by
    unfold Disk.create
    cases d0.dir (withExtension name extTmp) with
    | none => exact (Function.update_of_ne hpt _ _).trans h0.pbin
    | some j => exact h0.pbin
  generalize d0.create (withExtension name extTmp) = c at *
  obtain ⟨d3, j⟩ := c
  dsimp only at *
  let p4 := Function.update p2 i (.writing j first.length second)
  have s4 : PruneRace n name (d3, Function.update p2 i (.writing j 0 out)) (d3.write j 0 first, p4) := by
    have : RaceStep n name (d3, Function.update p2 i (.writing j 0 out) i)
        (d3.write j 0 first, .writing j (0 + first.length) second) := by
      rw [Function.update_self, ho]
      exact .write h1
    have := PruneRace.step (p := Function.update p2 i (.writing j 0 out)) this
    rwa [Function.update_idem, Nat.zero_add] at this
  have r4 := (r2.tail s3).tail s4
  -- the second one empties the file
  have hr4 := (raceInv_of_reach h0 r4).choose_spec.read
  have p4i' : p4 i' = .checked := by
    change Function.update p2 i _ i' = _
    rw [Function.update_of_ne hii.symm]
    exact Function.update_self ..
  have hc5 : (d3.write j 0 first).create (withExtension name extTmp) =
      ({ d3.write j 0 first with ino := Function.update (d3.write j 0 first).ino j [] }, j) := by
    unfold Disk.create
    rw [show (d3.write j 0 first).dir (withExtension name extTmp) = some j from c1]
  have s5 : PruneRace n name (d3.write j 0 first, p4) (_, _) := .step (by
    rw [p4i']
    exact .create hr4 h0.output)
  rw [hc5] at s5
  dsimp only at s5
  generalize hd5 : ({ d3.write j 0 first with ino := Function.update (d3.write j 0 first).ino j [] } : Disk) = d5 at s5
  have c5 : d5.dir (withExtension name extTmp) = some j := by
    rw [← hd5]
    exact c1
  have e5 : d5.ino j = [] := by
    rw [← hd5]
    exact Function.update_self ..
  -- the first one writes the second part and ends
  let p5 := Function.update p4 i' (.writing j 0 out)
  have p5i : p5 i = .writing j first.length second := by
    change Function.update p4 i' _ i = _
    rw [Function.update_of_ne hii]
    exact Function.update_self ..
  have s6 : PruneRace n name (d5, p5) (d5.write j first.length second,
      Function.update p5 i (.writing j (first.length + second.length) [])) := .step (by
    rw [p5i]
    have := RaceStep.write (n := n) (name := name) (d := d5) (j := j) (off := first.length) (rest := []) h2
    rwa [List.append_nil] at this)
  let d7 : Disk := { d5.write j first.length second with
    dir := Function.update (Function.update d5.dir (withExtension name extPbin) (some j)) (withExtension name extTmp) none }
  have s7 : PruneRace n name (d5.write j first.length second,
      Function.update p5 i (.writing j (first.length + second.length) [])) (d7, Function.update p5 i .done) := by
    have : RaceStep n name (d5.write j first.length second,
        Function.update p5 i (.writing j (first.length + second.length) []) i) (d7, .done) := by
      rw [Function.update_self]
      refine .rename ?_
      unfold Disk.rename
      rw [show (d5.write j first.length second).dir (withExtension name extTmp) = some j from c5]
      rfl
    have := PruneRace.step (p := Function.update p5 i (.writing j (first.length + second.length) [])) this
    rwa [Function.update_idem] at this
  have hp7 : d7.dir (withExtension name extPbin) = some j := by
    change Function.update _ _ _ _ = _
    rw [Function.update_of_ne hpt, Function.update_self]
  have r7 := ((r4.tail s5).tail s6).tail s7
  have hr7 := (raceInv_of_reach h0 r7).choose_spec.read
  refine ⟨d7, _, r7, Function.update_self .., ?_,
    Function.update (Function.update (Function.update p5 i .done) i' .stopped) i' .done,
    (ReflTransGen.single PruneRaceKill.kill).tail (PruneRaceKill.step (PruneRace.step ?_)), ?_, Function.update_self ..⟩
  · unfold Disk.read
    rw [hp7, Option.map_some]
    change some (Function.update d5.ino j (Disk.splice (d5.ino j) first.length second) j) = _
    rw [Function.update_self, e5]
    unfold Disk.splice
    simp
  · rw [Function.update_self]
    exact .skip hr7 h0.ne (by rw [hp7]; rfl)
  · rw [Function.update_of_ne hii, Function.update_of_ne hii, Function.update_self]

/-- The damaged file differs from the right one unless the first part consists of zeros. -/
theorem C74_damage_differs {first second : List UInt8} (h : ∃ b ∈ first, b ≠ 0) :
    List.replicate first.length 0 ++ second ≠ first ++ second := by
  intro hc
  obtain ⟨b, hb, hne⟩ := h
  rw [List.append_left_inj] at hc
  rw [← hc] at hb
  exact hne (List.eq_of_mem_replicate hb)

/-- Non-vacuity: a directory with a file with two sets, of which one is kept, and a temporary file from an earlier run. -/
theorem C74_example : ∃ d0 : Disk, RaceDir d0 3 (groupName (3, 1)) [255, 3] [3] ∧
    d0.read (withExtension (groupName (3, 1)) extTmp) = some [7] := by
  refine ⟨⟨fun x => if x = groupName (3, 1) then some 0 else if x = tmpName (3, 1) then some 1 else none,
    fun j => if j = 0 then [255, 3] else [7], 2⟩, ⟨fun x j h => ?_, by decide +kernel, C37_example, by decide +kernel,
    by decide +kernel, by decide +kernel⟩, by decide +kernel⟩
  dsimp only at h ⊢
  split at h
  · cases h
    norm_num
  · split at h
    · cases h
      norm_num
    · simp at h

/-- Non-vacuity of `C74_damage`: a set with 4 channels takes two bytes.  The damaged file has the bytes `0` and `255`. -/
example : ∃ d0 : Disk, RaceDir d0 4 (groupName (4, 5)) [255, 255] ([255] ++ [255]) := by
  refine ⟨⟨fun x => if x = groupName (4, 5) then some 0 else none, fun _ => [255, 255], 1⟩, fun x j h => ?_,
    by decide +kernel, by decide +kernel, by decide +kernel, by decide +kernel, by decide +kernel⟩
  dsimp only at h ⊢
  split at h
  · cases h
    norm_num
  · simp at h

end Sortnet
