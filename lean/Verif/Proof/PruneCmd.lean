import Verif.Spec.PruneCmd
import Verif.Proof.PruneCrash

/-!
# Several `prune` commands at the same time
-/

namespace Sortnet

namespace Files

open Relation

theorem ext_ne (s t : Str) : withExtension s extPbin ≠ withExtension t extTmp := fun h => by
  have := congrArg List.getLast? h
  unfold withExtension at this
  rw [show extPbin = [112, 98, 105] ++ [110] by decide, show extTmp = [116, 109] ++ [112] by decide, ← List.append_assoc,
    ← List.append_assoc, List.getLast?_concat, List.getLast?_concat] at this
  simp at this

variable {ι : Type} [DecidableEq ι] {fs0 : FS} {n : ι → ℕ} {name : ι → Str} {out : ι → List UInt8}

/-- The output of a command. -/
abbrev pb (name : ι → Str) (i : ι) : Str := withExtension (name i) extPbin

/-- The temporary file of a command. -/
abbrev tm (name : ι → Str) (i : ι) : Str := withExtension (name i) extTmp

theorem ConcDir.pb_inj (h0 : ConcDir fs0 n name out) {i j : ι} (h : pb name i = pb name j) : i = j :=
  h0.sep i j (by simpa [pb, withExtension] using h)

theorem ConcDir.tm_inj (h0 : ConcDir fs0 n name out) {i j : ι} (h : tm name i = tm name j) : i = j :=
  h0.sep i j (by simpa [tm, withExtension] using h)

/-- What a process is doing. -/
def CmdOK (name : ι → Str) (out : ι → List UInt8) (fs : FS) (i : ι) : CmdProc → Prop
  | .stopped => True
  | .writing rest => fs (pb name i) = none ∧ ∃ w, fs (tm name i) = some w ∧ w ++ rest = out i
  | .done => fs (pb name i) = some (out i)
  | .panicked => False

structure ConcInv (fs0 : FS) (name : ι → Str) (out : ι → List UInt8) (st : FS × (ι → CmdProc)) : Prop where
  base : ∀ x, (∀ i, x ≠ pb name i ∧ x ≠ tm name i) → st.1 x = fs0 x
  pbin : ∀ i, st.1 (pb name i) = none ∧ fs0 (pb name i) = none ∨ st.1 (pb name i) = some (out i) ∧
    st.1 (tm name i) = if fs0 (pb name i) = none then none else fs0 (tm name i)
  proc : ∀ i, CmdOK name out st.1 i (st.2 i)

/-- A step that changes only the files of one command. -/
theorem ConcInv.change (h0 : ConcDir fs0 n name out) {fs fs' : FS} {p : ι → CmdProc} (h : ConcInv fs0 name out (fs, p)) {i : ι}
    {q : CmdProc} (hf : ∀ x, x ≠ pb name i → x ≠ tm name i → fs' x = fs x)
    (hp : fs' (pb name i) = none ∧ fs0 (pb name i) = none ∨ fs' (pb name i) = some (out i) ∧
      fs' (tm name i) = if fs0 (pb name i) = none then none else fs0 (tm name i))
    (hq : CmdOK name out fs' i q) : ConcInv fs0 name out (fs', Function.update p i q) := by
  have e1 : ∀ j, j ≠ i → fs' (pb name j) = fs (pb name j) := fun j hj =>
    hf _ (fun e => hj (h0.pb_inj e)) (ext_ne _ _)
  have e2 : ∀ j, j ≠ i → fs' (tm name j) = fs (tm name j) := fun j hj =>
    hf _ (ext_ne _ _).symm fun e => hj (h0.tm_inj e)
  refine ⟨fun x hx => (hf x (hx i).1 (hx i).2).trans (h.base x hx), fun j => ?_, fun j => ?_⟩
  · by_cases hj : j = i
    · subst hj
      exact hp
    · dsimp only
      rw [e1 j hj, e2 j hj]
      exact h.pbin j
  · by_cases hj : j = i
    · subst hj
      dsimp only
      rw [Function.update_self]
      exact hq
    · dsimp only
      rw [Function.update_of_ne hj]
      have := h.proc j
      dsimp only at this
      cases hpj : p j with
      | stopped => trivial
      | writing rest =>
        rw [hpj] at this
        obtain ⟨a, w, b, c⟩ := this
        exact ⟨(e1 j hj).trans a, w, (e2 j hj).trans b, c⟩
      | done =>
        rw [hpj] at this
        exact (e1 j hj).trans this
      | panicked =>
        rw [hpj] at this
        exact this

theorem ConcInv.input (h0 : ConcDir fs0 n name out) {fs : FS} {p : ι → CmdProc} (h : ConcInv fs0 name out (fs, p)) (i : ι) :
    fs (name i) = fs0 (name i) := h.base _ fun j => h0.ext i j

theorem ConcInv.step (h0 : ConcDir fs0 n name out) {fs fs' : FS} {p : ι → CmdProc} {i : ι} {q : CmdProc}
    (h : ConcInv fs0 name out (fs, p)) (hs : PruneCmd (n i) (name i) (fs, p i) (fs', q)) :
    ConcInv fs0 name out (fs', Function.update p i q) := by
  obtain ⟨data, i1, i2, i3⟩ := h0.input i
  rw [← h.input h0 i] at i1
  have hpb := h.pbin i
  have hpr := h.proc i
  dsimp only at hpb hpr
  generalize hpi : p i = r at hs hpr
  cases hs with
  | noInput hc =>
    rw [i1] at hc
    rcases hc with hc | hc
    · simp at hc
    · exact absurd (Option.some.inj hc) i2
  | skip hd hne hp =>
    refine h.change h0 (fun _ _ _ => rfl) hpb ?_
    rcases hpb with hc | hc
    · have hp' : (fs (pb name i)).isSome := hp
      rw [hc.1] at hp'
      simp at hp'
    · exact hc.1
  | @create _ data' o hd hp ht ho =>
    rw [i1] at hd
    obtain rfl := Option.some.inj hd
    change fs (pb name i) = none at hp
    have h00 : fs0 (pb name i) = none := by
      rcases hpb with hc | hc
      · exact hc.2
      · rw [hp] at hc
        simp at hc
    rw [i3 h00] at ho
    obtain rfl := Option.some.inj ho
    have e : (fs.create (tm name i)) (pb name i) = none := (Function.update_of_ne (ext_ne _ _) _ _).trans hp
    exact h.change h0 (fun x _ hx => Function.update_of_ne hx _ _) (Or.inl ⟨e, h00⟩)
      ⟨e, [], Function.update_self .., rfl⟩
  | @panicLate _ data' now hd hne hp ht ho =>
    rw [i1] at hd
    obtain rfl := Option.some.inj hd
    change fs (pb name i) = none at hp
    rcases hpb with hc | hc
    · rw [i3 hc.2] at ho
      simp at ho
    · rw [hp] at hc
      simp at hc
  | destroy hd hne hp ht => exact absurd ht.symm (h0.ext i i).2
  | @write _ now rest hne =>
    obtain ⟨a, w, b, c⟩ := hpr
    have e1 : (fs.append (tm name i) now) (pb name i) = none := (Function.update_of_ne (ext_ne _ _) _ _).trans a
    have e2 : (fs.append (tm name i) now) (tm name i) = some (w ++ now) := by
      unfold FS.append
      rw [Function.update_self, b]
      rfl
    refine h.change h0 (fun x _ hx => Function.update_of_ne hx _ _) (Or.inl ⟨e1, ?_⟩) ⟨e1, w ++ now, e2, ?_⟩
    · rcases hpb with hc | hc
      · exact hc.2
      · rw [a] at hc
        simp at hc
    · rw [List.append_assoc]
      exact c
  | rename =>
    obtain ⟨a, w, b, c⟩ := hpr
    rw [List.append_nil] at c
    subst c
    have e1 : (fs.rename (tm name i) (pb name i)) (pb name i) = some (out i) := by
      unfold FS.rename
      rw [Function.update_of_ne (ext_ne _ _), Function.update_self, b]
    have e2 : (fs.rename (tm name i) (pb name i)) (tm name i) = none := by
      unfold FS.rename
      rw [Function.update_self]
    have h00 : fs0 (pb name i) = none := by
      rcases hpb with hc | hc
      · exact hc.2
      · rw [a] at hc
        simp at hc
    refine h.change h0 (fun x hx hx' => ?_) (Or.inr ⟨e1, e2.trans (if_pos h00).symm⟩) e1
    exact (Function.update_of_ne hx' _ _).trans (Function.update_of_ne hx _ _)

theorem concInv_of_reach (h0 : ConcDir fs0 n name out) {st : FS × (ι → CmdProc)}
    (h : ReflTransGen (PruneConc n name) (fs0, fun _ => .stopped) st) : ConcInv fs0 name out st := by
  induction h with
  | refl =>
    refine ⟨fun _ _ => rfl, fun i => ?_, fun _ => trivial⟩
    cases hd : fs0 (pb name i) with
    | none => exact Or.inl ⟨hd, rfl⟩
    | some d =>
      refine Or.inr ⟨?_, by simp⟩
      dsimp only
      rw [hd, h0.old i d hd]
  | tail _ hs ih =>
    cases hs with
    | step hs => exact ih.step h0 hs
    | kill => exact ih.change h0 (fun _ _ _ => rfl) (ih.pbin _) trivial

/-- The files at the end. -/
theorem ConcInv.final {fs : FS} {p : ι → CmdProc} (h : ConcInv fs0 name out (fs, p)) (hd : ∀ i, p i = .done) :
    (∀ i, fs (pb name i) = some (out i) ∧
      fs (tm name i) = if fs0 (pb name i) = none then none else fs0 (tm name i)) := by
  intro i
  have := h.proc i
  dsimp only at this
  rw [hd i] at this
  have this' : fs (pb name i) = some (out i) := this
  refine ⟨this', ?_⟩
  rcases h.pbin i with hc | hc
  · have hc' : fs (pb name i) = none := hc.1
    rw [this'] at hc'
    simp at hc'
  · exact hc.2

/-- One process gets to its end. -/
theorem ConcInv.finish (h0 : ConcDir fs0 n name out) {fs : FS} {p : ι → CmdProc} (h : ConcInv fs0 name out (fs, p)) (i : ι) :
    ∃ fs', ReflTransGen (PruneConc n name) (fs, p) (fs', Function.update p i .done) := by
  have hw : ∀ (rest : List UInt8) (fs : FS) (p : ι → CmdProc), p i = .writing rest →
      ∃ fs', ReflTransGen (PruneConc n name) (fs, p) (fs', Function.update p i .done) := by
    intro rest fs p hp
    have hren : ∀ (fs : FS) (p : ι → CmdProc), p i = .writing [] →
        ∃ fs', PruneConc n name (fs, p) (fs', Function.update p i .done) := fun fs p hp =>
      ⟨_, .step (i := i) (by rw [hp]; exact .rename)⟩
    by_cases hr : rest = []
    · subst hr
      obtain ⟨fs', hf⟩ := hren fs p hp
      exact ⟨fs', .single hf⟩
    · have s1 : PruneConc n name (fs, p) (fs.append (tm name i) rest, Function.update p i (.writing [])) :=
        .step (i := i) (by
          rw [hp]
          have := PruneCmd.write (n := n i) (name := name i) (fs := fs) (rest := []) hr
          rwa [List.append_nil] at this)
      obtain ⟨fs', hf⟩ := hren (fs.append (tm name i) rest) (Function.update p i (.writing [])) (Function.update_self ..)
      rw [Function.update_idem] at hf
      exact ⟨fs', .tail (.single s1) hf⟩
  have hpr := h.proc i
  dsimp only at hpr
  cases hpi : p i with
  | stopped =>
    obtain ⟨data, i1, i2, i3⟩ := h0.input i
    rw [← h.input h0 i] at i1
    rcases h.pbin i with hc | hc
    · have s1 : PruneConc n name (fs, p) (fs.create (tm name i), Function.update p i (.writing (out i))) :=
        .step (i := i) (by rw [hpi]; exact .create i1 hc.1 (h0.ext i i).2.symm (i3 hc.2))
      obtain ⟨fs', hf⟩ := hw (out i) (fs.create (tm name i)) (Function.update p i (.writing (out i))) (Function.update_self ..)
      rw [Function.update_idem] at hf
      exact ⟨fs', .head s1 hf⟩
    · have hc' : fs (pb name i) = some (out i) := hc.1
      exact ⟨fs, .single (.step (i := i) (by
        rw [hpi]
        refine .skip i1 i2 ?_
        have : (fs (pb name i)).isSome := by rw [hc']; rfl
        exact this))⟩
  | writing rest => exact hw rest fs p hpi
  | done =>
    refine ⟨fs, ?_⟩
    rw [← hpi, Function.update_eq_self]
  | panicked =>
    rw [hpi] at hpr
    exact hpr.elim

end Files

end Sortnet
