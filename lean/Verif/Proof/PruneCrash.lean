import Verif.Proof.PruneFile
import Verif.Spec.Prune
import Mathlib.Logic.Relation

/-!
# Crash safety of `prune_all`
-/

namespace Sortnet

namespace Files

/-! ## Different names -/

/-- The last four characters. -/
def suffix4 (s : Str) : Str := s.drop (s.length - 4)

theorem suffix4_append (s t : Str) (h : t.length = 4) : suffix4 (s ++ t) = t := by
  unfold suffix4
  rw [List.length_append, h, Nat.add_sub_cancel, List.drop_left]

theorem suffix4_group (g : ℕ × ℕ) : suffix4 (groupName g) = [46, 98, 105, 110] := by
  rw [← stem_groupName, suffix4_append _ _ rfl]

theorem suffix4_pbin (g : ℕ × ℕ) : suffix4 (pbinName g) = [112, 98, 105, 110] := by
  rw [pbinName, withExtension, show extPbin = [112, 98, 105, 110] by decide, suffix4_append _ _ rfl]

theorem suffix4_tmp (g : ℕ × ℕ) : suffix4 (tmpName g) = [46, 116, 109, 112] := by
  rw [tmpName, withExtension, show extTmp = [116, 109, 112] by decide, List.append_assoc, suffix4_append _ _ rfl]
  rfl

theorem suffix4_index : suffix4 indexName = [46, 116, 120, 116] := by decide

theorem pbin_ne_group (g g' : ℕ × ℕ) : groupName g ≠ pbinName g' := fun h => by
  have := congrArg suffix4 h
  rw [suffix4_group, suffix4_pbin] at this
  simp at this

theorem tmp_ne_group (g g' : ℕ × ℕ) : groupName g ≠ tmpName g' := fun h => by
  have := congrArg suffix4 h
  rw [suffix4_group, suffix4_tmp] at this
  simp at this

theorem tmp_ne_pbin (g g' : ℕ × ℕ) : pbinName g ≠ tmpName g' := fun h => by
  have := congrArg suffix4 h
  rw [suffix4_pbin, suffix4_tmp] at this
  simp at this

theorem pbin_ne_index (g : ℕ × ℕ) : indexName ≠ pbinName g := fun h => by
  have := congrArg suffix4 h
  rw [suffix4_index, suffix4_pbin] at this
  simp at this

theorem tmp_ne_index (g : ℕ × ℕ) : indexName ≠ tmpName g := fun h => by
  have := congrArg suffix4 h
  rw [suffix4_index, suffix4_tmp] at this
  simp at this

theorem pbin_injective : Function.Injective pbinName := withExtension_groupName_injective _

theorem tmp_injective : Function.Injective tmpName := withExtension_groupName_injective _

/-! ## The invariant -/

/-- What the process is doing. -/
def ProcOK (groups : List (ℕ × ℕ)) (out : ℕ × ℕ → List UInt8) (fs : FS) : Proc → Prop
  | .stopped => True
  | .loop todo => ∃ gp gt, groups = gp ++ gt ∧ todo = gt.map groupName ∧ ∀ g ∈ gp, fs (pbinName g) = some (out g)
  | .writing name rest todo => ∃ gp g gt, groups = gp ++ g :: gt ∧ name = groupName g ∧ todo = gt.map groupName ∧
      (∀ g ∈ gp, fs (pbinName g) = some (out g)) ∧ fs (pbinName g) = none ∧
      ∃ w, fs (tmpName g) = some w ∧ w ++ rest = out g
  | .done => ∀ g ∈ groups, fs (pbinName g) = some (out g)
  | .panicked => False

/-- The temporary file of a group when its `.pbin` file exists. -/
def endTmp (fs0 : FS) (g : ℕ × ℕ) : Option (List UInt8) := if fs0 (pbinName g) = none then none else fs0 (tmpName g)

structure CrashInv (fs0 : FS) (groups : List (ℕ × ℕ)) (out : ℕ × ℕ → List UInt8) (st : FS × Proc) : Prop where
  base : ∀ x, (∀ g ∈ groups, x ≠ pbinName g ∧ x ≠ tmpName g) → st.1 x = fs0 x
  pbin : ∀ g ∈ groups, st.1 (pbinName g) = none ∧ fs0 (pbinName g) = none ∨
    st.1 (pbinName g) = some (out g) ∧ st.1 (tmpName g) = endTmp fs0 g
  proc : ProcOK groups out st.1 st.2

variable {fs0 : FS} {groups : List (ℕ × ℕ)} {out : ℕ × ℕ → List UInt8}

theorem pruneData_nil (n : ℕ) : pruneData n [] = none := by
  unfold pruneData
  rw [if_pos rfl]

theorem PruneDir.rerun (h : PruneDir fs0 groups out) : RerunDir fs0 groups out := by
  refine ⟨h.index, fun g hg => ?_, fun g hg data hd => ?_⟩
  · obtain ⟨hb, data, h1, h2⟩ := h.input g hg
    refine ⟨hb, data, h1, ?_, fun _ => h2⟩
    rintro rfl
    rw [pruneData_nil] at h2
    simp at h2
  · rw [h.fresh g hg] at hd
    simp at hd

theorem CrashInv.fresh {fs : FS} {p : Proc} (h : CrashInv fs0 groups out (fs, p)) {g : ℕ × ℕ} (hg : g ∈ groups)
    (hn : fs (pbinName g) = none) : fs0 (pbinName g) = none := by
  rcases h.pbin g hg with hc | ⟨hc, _⟩
  · exact hc.2
  · dsimp only at hc
    rw [hn] at hc
    simp at hc

theorem CrashInv.index (h0 : RerunDir fs0 groups out) {fs : FS} {p : Proc} (h : CrashInv fs0 groups out (fs, p)) :
    ∃ data, fs indexName = some data ∧ lines data = groups.map groupName := by
  obtain ⟨data, h1, h2⟩ := h0.index
  exact ⟨data, (h.base _ fun g _ => ⟨pbin_ne_index g, tmp_ne_index g⟩).trans h1, h2⟩

theorem CrashInv.input {fs : FS} {p : Proc} (h : CrashInv fs0 groups out (fs, p)) (g : ℕ × ℕ) :
    fs (groupName g) = fs0 (groupName g) :=
  h.base _ fun g' _ => ⟨pbin_ne_group g g', tmp_ne_group g g'⟩

theorem lines_index (groups : List (ℕ × ℕ)) :
    lines (groups.flatMap fun g => groupName g ++ [10]) = groups.map groupName := by
  have e : (groups.flatMap fun g => groupName g ++ [10]) = (groups.map groupName).flatMap fun s => s ++ [10] := by
    rw [List.flatMap_map]
  rw [e, lines_newlines]
  intro s hs
  obtain ⟨g, _, rfl⟩ := List.mem_map.1 hs
  exact groupName_line g

theorem CrashInv.write {fs : FS} {name : Str} {todo : List Str} {now rest : List UInt8}
    (h : CrashInv fs0 groups out (fs, .writing name (now ++ rest) todo)) :
    CrashInv fs0 groups out (fs.append (withExtension name extTmp) now, .writing name rest todo) := by
  obtain ⟨gp, g, gt, e1, rfl, e2, e3, e4, w, e5, e6⟩ := h.proc
  have hg : g ∈ groups := by rw [e1]; simp
  have hpb : ∀ g', (fs.append (withExtension (groupName g) extTmp) now) (pbinName g') = fs (pbinName g') := fun g' =>
    Function.update_of_ne (tmp_ne_pbin g' g) _ _
  refine ⟨fun x hx => ?_, fun g' hg' => ?_, gp, g, gt, e1, rfl, e2, fun g' hg' => ?_, ?_, w ++ now, ?_, ?_⟩
  · rw [← h.base x hx]
    exact Function.update_of_ne (hx g hg).2 _ _
  · dsimp only
    rw [hpb]
    rcases h.pbin g' hg' with hc | ⟨hc, hc'⟩
    · exact Or.inl hc
    · right
      refine ⟨hc, ?_⟩
      rw [← hc']
      refine Function.update_of_ne (fun e => ?_) _ _
      rw [tmp_injective e] at hc
      have e4' : fs (pbinName g) = none := e4
      have hc'' : fs (pbinName g) = some (out g) := hc
      rw [e4'] at hc''
      simp at hc''
  · exact (hpb g').trans (e3 g' hg')
  · exact (hpb g).trans e4
  · have e5' : fs (tmpName g) = some w := e5
    have : (fs.append (tmpName g) now) (tmpName g) = some (w ++ now) := by
      unfold FS.append
      rw [Function.update_self, e5']
      rfl
    exact this
  · rw [List.append_assoc]
    exact e6

theorem CrashInv.rename {fs : FS} {name : Str} {todo : List Str}
    (h : CrashInv fs0 groups out (fs, .writing name [] todo)) :
    CrashInv fs0 groups out
      (fs.rename (withExtension name extTmp) (withExtension name extPbin), .loop todo) := by
  obtain ⟨gp, g, gt, e1, rfl, e2, e3, e4, w, e5, e6⟩ := h.proc
  rw [List.append_nil] at e6
  subst e6
  change CrashInv fs0 groups out (fs.rename (tmpName g) (pbinName g), .loop todo)
  have e5' : fs (tmpName g) = some (out g) := e5
  have hg : g ∈ groups := by rw [e1]; simp
  have hpb : ∀ g', g' ≠ g → (fs.rename (tmpName g) (pbinName g)) (pbinName g') = fs (pbinName g') := fun g' hne => by
    unfold FS.rename
    rw [Function.update_of_ne (tmp_ne_pbin g' g), Function.update_of_ne fun e => hne (pbin_injective e)]
  have hself : (fs.rename (tmpName g) (pbinName g)) (pbinName g) = some (out g) := by
    unfold FS.rename
    rw [Function.update_of_ne (tmp_ne_pbin g g), Function.update_self, e5']
  have htmp : (fs.rename (tmpName g) (pbinName g)) (tmpName g) = none := by
    unfold FS.rename
    rw [Function.update_self]
  refine ⟨fun x hx => ?_, fun g' hg' => ?_, gp ++ [g], gt, by simpa using e1, e2, fun g' hg' => ?_⟩
  · rw [← h.base x hx]
    exact (Function.update_of_ne (hx g hg).2 _ _).trans (Function.update_of_ne (hx g hg).1 _ _)
  · by_cases hgg : g' = g
    · subst hgg
      exact Or.inr ⟨hself, htmp.trans (if_pos (h.fresh hg e4)).symm⟩
    · have htm : (fs.rename (tmpName g) (pbinName g)) (tmpName g') = fs (tmpName g') := by
        unfold FS.rename
        rw [Function.update_of_ne fun e => hgg (tmp_injective e), Function.update_of_ne (tmp_ne_pbin g g').symm]
      rcases h.pbin g' hg' with hc | ⟨hc, hc'⟩
      · exact Or.inl ⟨(hpb g' hgg).trans hc.1, hc.2⟩
      · exact Or.inr ⟨(hpb g' hgg).trans hc, htm.trans hc'⟩
  · rcases List.mem_append.1 hg' with hg' | hg'
    · by_cases hgg : g' = g
      · subst hgg
        exact hself
      · exact (hpb g' hgg).trans (e3 g' hg')
    · rw [List.mem_singleton.1 hg']
      exact hself

theorem CrashInv.step (h0 : RerunDir fs0 groups out) {a b : FS × Proc} (h : CrashInv fs0 groups out a)
    (hs : PruneStep a b) : CrashInv fs0 groups out b := by
  cases hs with
  | @start fs data hd =>
    refine ⟨h.base, h.pbin, ?_⟩
    obtain ⟨data', h1, h2⟩ := h.index h0
    rw [h1] at hd
    obtain rfl := Option.some.inj hd
    exact ⟨[], groups, rfl, h2, by simp⟩
  | @startPanic fs hd =>
    obtain ⟨data', h1, h2⟩ := h.index h0
    rw [h1] at hd
    simp at hd
  | @skip fs name todo n data hn hd hne hp =>
    refine ⟨h.base, h.pbin, ?_⟩
    obtain ⟨gp, gt, e1, e2, e3⟩ := h.proc
    cases gt with
    | nil => simp at e2
    | cons g gt =>
      rw [List.map_cons, List.cons.injEq] at e2
      obtain ⟨rfl, rfl⟩ := e2
      refine ⟨gp ++ [g], gt, by simpa using e1, rfl, fun g' hg' => ?_⟩
      rcases List.mem_append.1 hg' with hg' | hg'
      · exact e3 g' hg'
      · rw [List.mem_singleton.1 hg']
        rcases h.pbin g (by rw [e1]; simp) with hc | hc
        · have hp' : (fs (pbinName g)).isSome := hp
          have hc' : fs (pbinName g) = none := hc.1
          rw [hc'] at hp'
          simp at hp'
        · exact hc.1
  | @create fs name todo n data o hn hd hp ho =>
    obtain ⟨gp, gt, e1, e2, e3⟩ := h.proc
    cases gt with
    | nil => simp at e2
    | cons g gt =>
      rw [List.map_cons, List.cons.injEq] at e2
      obtain ⟨rfl, rfl⟩ := e2
      have hg : g ∈ groups := by rw [e1]; simp
      obtain ⟨hb, data', i1, ine, i2⟩ := h0.input g hg
      rw [lineChannels_groupName hb] at hn
      obtain rfl := Option.some.inj hn
      rw [h.input, i1] at hd
      obtain rfl := Option.some.inj hd
      rw [i2 (h.fresh hg hp)] at ho
      obtain rfl := Option.some.inj ho
      have hpb : ∀ g', (fs.create (withExtension (groupName g) extTmp)) (pbinName g') = fs (pbinName g') := fun g' =>
        Function.update_of_ne (tmp_ne_pbin g' g) _ _
      refine ⟨fun x hx => ?_, fun g' hg' => ?_, gp, g, gt, e1, rfl, rfl, fun g' hg' => ?_, ?_, [], ?_, rfl⟩
      · rw [← h.base x hx]
        exact Function.update_of_ne (hx g hg).2 _ _
      · dsimp only
        rw [hpb]
        rcases h.pbin g' hg' with hc | ⟨hc, hc'⟩
        · exact Or.inl hc
        · right
          refine ⟨hc, ?_⟩
          rw [← hc']
          refine Function.update_of_ne (fun e => ?_) _ _
          rw [tmp_injective e] at hc
          have hp' : fs (pbinName g) = none := hp
          have hc'' : fs (pbinName g) = some (out g) := hc
          rw [hp'] at hc''
          simp at hc''
      · exact (hpb g').trans (e3 g' hg')
      · exact (hpb g).trans hp
      · exact Function.update_self ..
  | @panic fs name todo hc =>
    obtain ⟨gp, gt, e1, e2, e3⟩ := h.proc
    cases gt with
    | nil => simp at e2
    | cons g gt =>
      rw [List.map_cons, List.cons.injEq] at e2
      obtain ⟨rfl, rfl⟩ := e2
      have hg : g ∈ groups := by rw [e1]; simp
      obtain ⟨hb, data', i1, ine, i2⟩ := h0.input g hg
      rw [lineChannels_groupName hb, h.input, i1] at hc
      rcases hc with hc | hc | hc
      · simp at hc
      · simp at hc
      · exact absurd (Option.some.inj hc) ine
  | @panicLate fs name todo n data now hn hd hp ho =>
    obtain ⟨gp, gt, e1, e2, e3⟩ := h.proc
    cases gt with
    | nil => simp at e2
    | cons g gt =>
      rw [List.map_cons, List.cons.injEq] at e2
      obtain ⟨rfl, rfl⟩ := e2
      have hg : g ∈ groups := by rw [e1]; simp
      obtain ⟨hb, data', i1, ine, i2⟩ := h0.input g hg
      rw [lineChannels_groupName hb] at hn
      obtain rfl := Option.some.inj hn
      rw [h.input, i1] at hd
      obtain rfl := Option.some.inj hd
      rw [i2 (h.fresh hg hp)] at ho
      simp at ho
  | @write fs name todo now rest hne => exact h.write
  | @rename fs name todo => exact h.rename
  | @finish fs =>
    refine ⟨h.base, h.pbin, ?_⟩
    obtain ⟨gp, gt, e1, e2, e3⟩ := h.proc
    have : gt = [] := by
      cases gt with
      | nil => rfl
      | cons _ _ => simp at e2
    subst this
    intro g hg
    exact e3 g (by rw [e1] at hg; simpa using hg)

theorem crashInv_of_reach (h0 : RerunDir fs0 groups out) {st : FS × Proc}
    (h : Relation.ReflTransGen CrashStep (fs0, .stopped) st) : CrashInv fs0 groups out st := by
  induction h with
  | refl =>
    refine ⟨fun _ _ => rfl, fun g hg => ?_, trivial⟩
    cases hd : fs0 (pbinName g) with
    | none => exact Or.inl ⟨hd, rfl⟩
    | some d =>
      refine Or.inr ⟨?_, ?_⟩
      · dsimp only
        rw [hd, h0.old g hg d hd]
      · unfold endTmp
        rw [if_neg (by rw [hd]; simp)]
  | tail _ hs ih =>
    cases hs with
    | step hs => exact ih.step h0 hs
    | crash => exact ⟨ih.base, ih.pbin, trivial⟩

/-! ## Termination -/

/-- Number of remaining steps, roughly. -/
def Proc.measure (groups : List (ℕ × ℕ)) (out : ℕ × ℕ → List UInt8) : FS × Proc → ℕ × ℕ
  | (_, .stopped) => (2 * groups.length + 3, 0)
  | (_, .loop todo) => (2 * todo.length + 2, 0)
  | (_, .writing _ rest todo) => (2 * todo.length + 3, rest.length)
  | (_, .done) => (0, 0)
  | (_, .panicked) => (0, 0)

theorem measure_step (h0 : RerunDir fs0 groups out) {a b : FS × Proc} (h : CrashInv fs0 groups out a)
    (hs : PruneStep a b) : Prod.Lex (· < ·) (· < ·) (Proc.measure groups out b) (Proc.measure groups out a) := by
  cases hs with
  | @start fs data hd =>
    obtain ⟨data', h1, h2⟩ := h.index h0
    rw [h1] at hd
    obtain rfl := Option.some.inj hd
    refine Prod.Lex.left _ _ ?_
    rw [h2, List.length_map]
    omega
  | startPanic => exact Prod.Lex.left _ _ (by omega)
  | skip => exact Prod.Lex.left _ _ (by simp)
  | create => exact Prod.Lex.left _ _ (by simp; omega)
  | panic => exact Prod.Lex.left _ _ (by omega)
  | panicLate => exact Prod.Lex.left _ _ (by omega)
  | @write fs name todo now rest hne =>
    refine Prod.Lex.right _ ?_
    have := List.length_pos_iff.2 hne
    rw [List.length_append]
    omega
  | rename => exact Prod.Lex.left _ _ (by omega)
  | finish => exact Prod.Lex.left _ _ (by omega)

theorem prune_acc (h0 : RerunDir fs0 groups out) {st : FS × Proc} (h : CrashInv fs0 groups out st) :
    Acc (fun b a => PruneStep a b) st := by
  have wf : WellFounded (Prod.Lex (· < ·) (· < ·) : ℕ × ℕ → ℕ × ℕ → Prop) := WellFounded.prod_lex wellFounded_lt wellFounded_lt
  have key : ∀ k : ℕ × ℕ, ∀ st, Proc.measure groups out st = k → CrashInv fs0 groups out st →
      Acc (fun b a => PruneStep a b) st := by
    intro k
    induction k using wf.induction with
    | _ k ih =>
      rintro st rfl hst
      exact ⟨_, fun b hb => ih _ (measure_step h0 hst hb) b rfl (hst.step h0 hb)⟩
  exact key _ st rfl h

theorem prune_progress (h0 : RerunDir fs0 groups out) {fs : FS} {p : Proc} (h : CrashInv fs0 groups out (fs, p))
    (hp : p ≠ .done) : ∃ b, PruneStep (fs, p) b := by
  cases p with
  | stopped => exact ⟨_, .start (h.index h0).choose_spec.1⟩
  | loop todo =>
    obtain ⟨gp, gt, e1, e2, e3⟩ := h.proc
    cases gt with
    | nil =>
      obtain rfl : todo = [] := e2
      exact ⟨_, .finish⟩
    | cons g gt =>
      obtain rfl : todo = groupName g :: gt.map groupName := e2
      have hg : g ∈ groups := by rw [e1]; simp
      obtain ⟨hb, data', i1, ine, i2⟩ := h0.input g hg
      rw [← h.input] at i1
      cases hpb : fs (pbinName g) with
      | none => exact ⟨_, .create (lineChannels_groupName hb) i1 hpb (i2 (h.fresh hg hpb))⟩
      | some d =>
        refine ⟨_, .skip (lineChannels_groupName hb) i1 ine ?_⟩
        · have : (fs (pbinName g)).isSome := by rw [hpb]; rfl
          exact this
  | writing name rest todo =>
    cases rest with
    | nil => exact ⟨_, .rename⟩
    | cons b rest => exact ⟨_, .write (now := [b]) (rest := rest) (by simp)⟩
  | done => exact absurd rfl hp
  | panicked => exact h.proc.elim

theorem prune_completes (h0 : RerunDir fs0 groups out) {st : FS × Proc} (h : CrashInv fs0 groups out st) :
    ∃ fs', Relation.ReflTransGen PruneStep st (fs', .done) := by
  have hacc := prune_acc h0 h
  induction hacc with
  | intro st _ ih =>
    obtain ⟨fs, p⟩ := st
    by_cases hp : p = .done
    · subst hp
      exact ⟨fs, .refl⟩
    · obtain ⟨b, hb⟩ := prune_progress h0 h hp
      obtain ⟨fs', hf⟩ := ih b hb (h.step h0 hb)
      exact ⟨fs', .head hb hf⟩

theorem CrashInv.done_unique {fs fs' : FS} (h : CrashInv fs0 groups out (fs, .done))
    (h' : CrashInv fs0 groups out (fs', .done)) : fs = fs' := by
  have hv : ∀ {fs}, CrashInv fs0 groups out (fs, .done) → ∀ g ∈ groups,
      fs (pbinName g) = some (out g) ∧ fs (tmpName g) = endTmp fs0 g := by
    intro fs h g hg
    have hd : fs (pbinName g) = some (out g) := h.proc g hg
    refine ⟨hd, ?_⟩
    rcases h.pbin g hg with hc | hc
    · have hc' : fs (pbinName g) = none := hc.1
      rw [hd] at hc'
      simp at hc'
    · exact hc.2
  funext x
  by_cases hx : ∀ g ∈ groups, x ≠ pbinName g ∧ x ≠ tmpName g
  · exact (h.base x hx).trans (h'.base x hx).symm
  · push Not at hx
    obtain ⟨g, hg, hx⟩ := hx
    by_cases h1 : x = pbinName g
    · rw [h1, (hv h g hg).1, (hv h' g hg).1]
    · rw [hx h1, (hv h g hg).2, (hv h' g hg).2]

end Files

end Sortnet
