import Verif.Proof.PruneCrash
import Verif.Proof.DumpCrash

/-!
# `prune_all` on an incomplete dump
-/

namespace Sortnet

namespace Files

open Search Relation

/-! ## Names -/

theorem groupName_concat (g : ℕ × ℕ) : ∃ t : Str, groupName g = t ++ [110] ∧ (110 : UInt8) ∉ t ∧ (116 : UInt8) ∉ t := by
  refine ⟨[103, 114, 111, 117, 112] ++ 95 :: (dec g.1 ++ 95 :: (dec g.2 ++ [46, 98, 105])), ?_, ?_, ?_⟩
  · rw [groupName_eq]
    simp
  all_goals
    intro h
    simp only [List.mem_append, List.mem_cons, List.not_mem_nil, or_false] at h
    rcases h with h | h | h | h | h | h
    · revert h; decide
    · revert h; decide
    · exact not_mem_dec (by decide) _ h
    · revert h; decide
    · exact not_mem_dec (by decide) _ h
    · revert h; decide

/-- An incomplete name of a group. -/
theorem cut_groupName {L : Str} {g : ℕ × ℕ} (h : L <+: groupName g) (hne : L ≠ groupName g) :
    (110 : UInt8) ∉ L ∧ (116 : UInt8) ∉ L := by
  obtain ⟨t, ht, h1, h2⟩ := groupName_concat g
  rw [ht] at h hne
  rcases List.prefix_concat_iff.1 h with h | h
  · exact absurd h hne
  · exact ⟨fun hc => h1 (h.subset hc), fun hc => h2 (h.subset hc)⟩

theorem mem_pbin (s : Str) : (110 : UInt8) ∈ withExtension s extPbin := by
  unfold withExtension
  exact List.mem_append_right _ (by decide)

theorem mem_tmp (s : Str) : (116 : UInt8) ∈ withExtension s extTmp := by
  unfold withExtension
  exact List.mem_append_right _ (by decide)

theorem suffix4_ext_pbin (s : Str) : suffix4 (withExtension s extPbin) = [112, 98, 105, 110] := by
  rw [withExtension, show extPbin = [112, 98, 105, 110] by decide, suffix4_append _ _ rfl]

theorem suffix4_ext_tmp (s : Str) : suffix4 (withExtension s extTmp) = [46, 116, 109, 112] := by
  rw [withExtension, show extTmp = [116, 109, 112] by decide, List.append_assoc, suffix4_append _ _ rfl]
  rfl

theorem group_ne_ext (g : ℕ × ℕ) (s : Str) : groupName g ≠ withExtension s extPbin ∧ groupName g ≠ withExtension s extTmp := by
  constructor
  · intro h
    have := congrArg suffix4 h
    rw [suffix4_group, suffix4_ext_pbin] at this
    simp at this
  · intro h
    have := congrArg suffix4 h
    rw [suffix4_group, suffix4_ext_tmp] at this
    simp at this

theorem index_ne_ext (s : Str) : indexName ≠ withExtension s extPbin ∧ indexName ≠ withExtension s extTmp := by
  constructor
  · intro h
    have := congrArg suffix4 h
    rw [suffix4_index, suffix4_ext_pbin] at this
    simp at this
  · intro h
    have := congrArg suffix4 h
    rw [suffix4_index, suffix4_ext_tmp] at this
    simp at this

theorem cut_ne_ext {L : Str} {g : ℕ × ℕ} (h : L <+: groupName g) (hne : L ≠ groupName g) (s : Str) :
    L ≠ withExtension s extPbin ∧ L ≠ withExtension s extTmp := by
  obtain ⟨h1, h2⟩ := cut_groupName h hne
  constructor
  · rintro rfl
    exact h1 (mem_pbin s)
  · rintro rfl
    exact h2 (mem_tmp s)

/-! ## The lines of an incomplete index -/

theorem index_prefix {groups : List (ℕ × ℕ)} {P : List UInt8} (h : P <+: groups.flatMap fun g => groupName g ++ [10]) :
    ∃ gs, gs <+: groups ∧ (P = (gs.flatMap fun g => groupName g ++ [10]) ∨
      ∃ g L, gs ++ [g] <+: groups ∧ L ≠ [] ∧ L <+: groupName g ∧ P = (gs.flatMap fun g => groupName g ++ [10]) ++ L) := by
  induction groups generalizing P with
  | nil =>
    rw [List.flatMap_nil, List.prefix_nil] at h
    exact ⟨[], List.prefix_rfl, Or.inl h⟩
  | cons g groups ih =>
    rw [List.flatMap_cons] at h
    rcases List.prefix_or_prefix_of_prefix h (List.prefix_append (groupName g ++ [10]) _) with hc | hc
    · rcases List.prefix_concat_iff.1 hc with hc | hc
      · exact ⟨[g], by simp, Or.inl (by simpa using hc)⟩
      · by_cases hn : P = []
        · exact ⟨[], List.nil_prefix, Or.inl (by simpa using hn)⟩
        · exact ⟨[], List.nil_prefix, Or.inr ⟨g, P, by simp, hn, hc, by simp⟩⟩
    · obtain ⟨Q, rfl⟩ := hc
      obtain ⟨gs, h1, h2⟩ := ih ((List.prefix_append_right_inj _).1 h)
      refine ⟨g :: gs, (List.cons_prefix_cons).2 ⟨rfl, h1⟩, ?_⟩
      rcases h2 with rfl | ⟨g', L, h3, h4, h5, rfl⟩
      · exact Or.inl (by simp)
      · exact Or.inr ⟨g', L, (List.cons_prefix_cons).2 ⟨rfl, h3⟩, h4, h5, by simp⟩

theorem split_newlines_append (l : List Str) (h : ∀ s ∈ l, (10 : UInt8) ∉ s) {L : Str} (hL : (10 : UInt8) ∉ L) :
    split 10 ((l.flatMap fun s => s ++ [10]) ++ L) = l ++ [L] := by
  induction l with
  | nil => exact split_of_not_mem hL
  | cons s l ih =>
    rw [List.flatMap_cons, List.append_assoc, List.append_assoc, List.singleton_append, split_append (h s List.mem_cons_self),
      ih (fun s hs => h s (List.mem_cons_of_mem _ hs)), List.cons_append]

theorem groupName_no_cr (g : ℕ × ℕ) : (13 : UInt8) ∉ groupName g := by
  rw [groupName_eq]
  intro h
  simp only [List.mem_append, List.mem_cons, List.not_mem_nil, or_false] at h
  rcases h with h | h | h | h | h | h
  · revert h; decide
  · revert h; decide
  · exact not_mem_dec (by decide) _ h
  · revert h; decide
  · exact not_mem_dec (by decide) _ h
  · revert h; decide

theorem stripCR_of_not_mem {s : Str} (h : (13 : UInt8) ∉ s) : stripCR s = s := by
  unfold stripCR
  rw [if_neg]
  intro hc
  exact h (List.mem_of_getLast? hc)

/-- The lines of an incomplete index: the names of the first groups, and perhaps an incomplete name. -/
theorem lines_prefix {groups : List (ℕ × ℕ)} {P : List UInt8} (h : P <+: groups.flatMap fun g => groupName g ++ [10]) :
    ∃ gs, gs <+: groups ∧ (lines P = gs.map groupName ∨
      ∃ g ∈ groups, ∃ L, L <+: groupName g ∧ L ≠ groupName g ∧ lines P = gs.map groupName ++ [L]) := by
  obtain ⟨gs, h1, h2⟩ := index_prefix h
  rcases h2 with rfl | ⟨g, L, h3, h4, h5, rfl⟩
  · exact ⟨gs, h1, Or.inl (lines_index gs)⟩
  · have hl : lines ((gs.flatMap fun g => groupName g ++ [10]) ++ L) = gs.map groupName ++ [L] := by
      have e : (gs.flatMap fun g => groupName g ++ [10]) = (gs.map groupName).flatMap fun s => s ++ [10] := by
        rw [List.flatMap_map]
      unfold lines
      rw [e, split_newlines_append]
      · dsimp only
        rw [if_neg (by simpa using h4), List.dropLast_concat, List.getLast?_concat, List.map_map]
        congr 1
        exact List.map_congr_left fun g _ => stripCR_of_not_mem (groupName_no_cr g)
      · intro s hs
        obtain ⟨g, _, rfl⟩ := List.mem_map.1 hs
        exact (groupName_line g).1
      · exact fun hc => (groupName_line g).1 (h5.subset hc)
    by_cases hL : L = groupName g
    · subst hL
      exact ⟨gs ++ [g], h3, Or.inl (by rw [hl]; simp)⟩
    · exact ⟨gs, h1, Or.inr ⟨g, h3.subset (by simp), L, h5, hL, hl⟩⟩

/-! ## Lines that `prune_all` cannot pass -/

/-- The line names a file that `prune` can process. -/
def GoodLine (fs : FS) (s : Str) : Prop := ∃ n data out, lineChannels s = some n ∧ fs s = some data ∧ pruneData n data = some out

/-- The state while a bad line has not been passed. -/
structure StuckInv (fs1 : FS) (P : List UInt8) (s0 : Str) (st : FS × Proc) : Prop where
  base : ∀ x, (∀ s, x ≠ withExtension s extPbin ∧ x ≠ withExtension s extTmp) → st.1 x = fs1 x
  pbin : fs1 s0 = none ∨ st.1 (withExtension s0 extPbin) = none
  proc : match st.2 with
    | .stopped => True
    | .loop todo => s0 ∈ todo ∧ todo ⊆ lines P
    | .writing name _ todo => s0 ∈ todo ∧ todo ⊆ lines P ∧ name ≠ s0 ∧ ∃ g, name = groupName g
    | .done => False
    | .panicked => True

theorem append_other {fs : FS} {name x : Str} {d : List UInt8} (h : x ≠ name) : fs.append name d x = fs x :=
  Function.update_of_ne h _ _

theorem create_other {fs : FS} {name x : Str} (h : x ≠ name) : fs.create name x = fs x := Function.update_of_ne h _ _

theorem ext_pbin_ne_tmp (s s' : Str) : withExtension s extPbin ≠ withExtension s' extTmp := by
  intro h
  have := congrArg suffix4 h
  rw [suffix4_ext_pbin, suffix4_ext_tmp] at this
  simp at this

section

variable {fs1 : FS} {P : List UInt8} {s0 : Str} (hI : fs1 indexName = some P)
  (hls : ∀ s ∈ lines P, ∀ s', s ≠ withExtension s' extPbin ∧ s ≠ withExtension s' extTmp)
  (hgr : ∀ s ∈ lines P, fs1 s ≠ none → ∃ g, s = groupName g)
  (hs0 : s0 ∈ lines P) (hbad : ¬ GoodLine fs1 s0)

include hgr hs0 in
theorem StuckInv.rename {fs : FS} {name : Str} {rest : List UInt8} {todo : List Str}
    (h : StuckInv fs1 P s0 (fs, .writing name rest todo)) :
    StuckInv fs1 P s0 (fs.rename (withExtension name extTmp) (withExtension name extPbin), .loop todo) := by
  have hproc := h.proc
  obtain ⟨p1, p2, p3, g, rfl⟩ := hproc
  have hren : ∀ x, x ≠ withExtension (groupName g) extPbin → x ≠ withExtension (groupName g) extTmp →
      fs.rename (withExtension (groupName g) extTmp) (withExtension (groupName g) extPbin) x = fs x := by
    intro x h1 h2
    unfold FS.rename
    rw [Function.update_of_ne h2, Function.update_of_ne h1]
  refine ⟨fun x hx => ?_, ?_, p1, p2⟩
  · exact (hren x (hx _).1 (hx _).2).trans (h.base x hx)
  · rcases h.pbin with hc | hc
    · exact Or.inl hc
    · by_cases hn : fs1 s0 = none
      · exact Or.inl hn
      · obtain ⟨g0, rfl⟩ := hgr s0 hs0 hn
        refine Or.inr ((hren _ (fun e => p3 ?_) (ext_pbin_ne_tmp _ _)).trans hc)
        rw [pbin_injective e]

include hI hls hgr hs0 hbad

theorem StuckInv.step {a b : FS × Proc} (h : StuckInv fs1 P s0 a) (hs : PruneStep a b) : StuckInv fs1 P s0 b := by
  have hbase : ∀ s ∈ lines P, a.1 s = fs1 s := fun s hs => h.base s (hls s hs)
  have hproc := h.proc
  cases hs with
  | @start fs data hd =>
    refine ⟨h.base, h.pbin, ?_⟩
    have : fs indexName = fs1 indexName := h.base _ index_ne_ext
    rw [this, hI] at hd
    obtain rfl := Option.some.inj hd
    exact ⟨hs0, fun _ h => h⟩
  | startPanic hd => exact ⟨h.base, h.pbin, trivial⟩
  | @skip fs name todo n data hn hd hne hp =>
    refine ⟨h.base, h.pbin, ?_, fun x hx => hproc.2 (List.mem_cons_of_mem _ hx)⟩
    rcases List.mem_cons.1 hproc.1 with rfl | hc
    · have hd' : fs1 s0 = some data := (hbase _ hs0).symm.trans hd
      rcases h.pbin with hc | hc
      · rw [hd'] at hc
        simp at hc
      · dsimp only at hc
        rw [hc] at hp
        simp at hp
    · exact hc
  | @create fs name todo n data out hn hd hp ho =>
    have hmem := hproc.2 (List.mem_cons_self (a := name) (l := todo))
    have hd' : fs1 name = some data := (hbase _ hmem).symm.trans hd
    have hne : name ≠ s0 := by
      rintro rfl
      exact hbad ⟨n, data, out, hn, hd', ho⟩
    obtain ⟨g, hg⟩ := hgr name hmem (by rw [hd']; simp)
    refine ⟨fun x hx => ?_, ?_, ?_, fun x hx => hproc.2 (List.mem_cons_of_mem _ hx), hne, g, hg⟩
    · exact (create_other (hx name).2).trans (h.base x hx)
    · rcases h.pbin with hc | hc
      · exact Or.inl hc
      · exact Or.inr ((create_other (ext_pbin_ne_tmp _ _)).trans hc)
    · rcases List.mem_cons.1 hproc.1 with hc | hc
      · exact absurd hc.symm hne
      · exact hc
  | panic => exact ⟨h.base, h.pbin, trivial⟩
  | @panicLate fs name todo n data now hn hd hp ho =>
    refine ⟨fun x hx => ?_, ?_, trivial⟩
    · exact (append_other (hx name).2).trans ((create_other (hx name).2).trans (h.base x hx))
    · rcases h.pbin with hc | hc
      · exact Or.inl hc
      · exact Or.inr ((append_other (ext_pbin_ne_tmp _ _)).trans ((create_other (ext_pbin_ne_tmp _ _)).trans hc))
  | @write fs name todo now rest hne =>
    refine ⟨fun x hx => ?_, ?_, hproc⟩
    · exact (append_other (hx name).2).trans (h.base x hx)
    · rcases h.pbin with hc | hc
      · exact Or.inl hc
      · exact Or.inr ((append_other (ext_pbin_ne_tmp _ _)).trans hc)
  | @rename fs name todo => exact h.rename hgr hs0
  | finish =>
    have := hproc.1
    simp at this

theorem stuckInv_of_reach (hfresh : ∀ g, fs1 (pbinName g) = none) {st : FS × Proc}
    (h : ReflTransGen LossStep (fs1, .stopped) st) : StuckInv fs1 P s0 st := by
  induction h with
  | refl =>
    refine ⟨fun _ _ => rfl, ?_, trivial⟩
    by_cases hn : fs1 s0 = none
    · exact Or.inl hn
    · obtain ⟨g, rfl⟩ := hgr s0 hs0 hn
      exact Or.inr (hfresh g)
  | tail _ hs ih =>
    cases hs with
    | crash hs =>
      cases hs with
      | step hs => exact ih.step hI hls hgr hs0 hbad hs
      | crash => exact ⟨ih.base, ih.pbin, trivial⟩
    | lose => exact ih.rename hgr hs0

end

/-- If `prune_all` ends, then all lines are good. -/
theorem good_of_done {fs1 : FS} {P : List UInt8} (hI : fs1 indexName = some P)
    (hls : ∀ s ∈ lines P, ∀ s', s ≠ withExtension s' extPbin ∧ s ≠ withExtension s' extTmp)
    (hgr : ∀ s ∈ lines P, fs1 s ≠ none → ∃ g, s = groupName g) (hfresh : ∀ g, fs1 (pbinName g) = none) {fs2 : FS}
    (h : ReflTransGen LossStep (fs1, .stopped) (fs2, .done)) (s : Str) (hs : s ∈ lines P) : GoodLine fs1 s := by
  by_contra hbad
  exact (stuckInv_of_reach hI hls hgr hs hbad hfresh h).proc

/-- Without an index `prune_all` does not end. -/
theorem index_of_done {fs1 fs2 : FS} (h : ReflTransGen LossStep (fs1, .stopped) (fs2, .done)) :
    ∃ P, fs1 indexName = some P := by
  by_contra hn
  have hn' : fs1 indexName = none := by
    cases e : fs1 indexName with
    | none => rfl
    | some P => exact absurd ⟨P, e⟩ hn
  have key : ∀ st, ReflTransGen LossStep (fs1, .stopped) st → st.1 = fs1 ∧ (st.2 = .stopped ∨ st.2 = .panicked) := by
    intro st h
    induction h with
    | refl => exact ⟨rfl, Or.inl rfl⟩
    | tail _ hs ih =>
      cases hs with
      | lose => simp at ih
      | crash hs =>
        cases hs with
        | crash => exact ⟨ih.1, Or.inl rfl⟩
        | step hs =>
          obtain ⟨rfl, ih⟩ := ih
          cases hs with
          | start hd => exact absurd ⟨_, hd⟩ hn
          | startPanic => exact ⟨rfl, Or.inr rfl⟩
          | skip => simp at ih
          | create => simp at ih
          | panic => simp at ih
          | panicLate => simp at ih
          | write => simp at ih
          | rename => simp at ih
          | finish => simp at ih
  rcases (key _ h).2 with hc | hc <;> simp at hc

end Files

end Sortnet
