import Verif.Spec.IndexLine
import Verif.Proof.DumpPrune
import Verif.Model.Fix

/-!
# The lines of `index.txt`
-/

namespace Sortnet

namespace Files

open Relation

theorem validUtf8_iff (s : Str) : validUtf8 s = true ↔ IsUtf8 s := by
  unfold validUtf8 IsUtf8
  rw [ByteArray.validateUTF8_eq_true_iff]
  constructor
  · rintro ⟨m, hm⟩
    refine ⟨m, ?_⟩
    unfold List.utf8Encode at hm
    exact List.toByteArray_inj.1 hm
  · rintro ⟨cs, rfl⟩
    exact ⟨cs, rfl⟩

theorem parseDigits_iff (s : Str) (acc n : ℕ) : parseDigits acc s = some n ↔
    (∀ b ∈ s, IsDigit b) ∧ n = acc * 10 ^ s.length + Nat.ofDigits 10 (s.reverse.map fun b => b.toNat - 48) := by
  induction s generalizing acc with
  | nil => simp [parseDigits, eq_comm]
  | cons b s ih =>
    rw [parseDigits]
    by_cases hb : 48 ≤ b.toNat ∧ b.toNat ≤ 57
    · rw [if_pos hb, ih, List.forall_mem_cons]
      have e : (10 * acc + (b.toNat - 48)) * 10 ^ s.length + Nat.ofDigits 10 (s.reverse.map fun b => b.toNat - 48) =
          acc * 10 ^ (b :: s).length + Nat.ofDigits 10 ((b :: s).reverse.map fun b => b.toNat - 48) := by
        rw [List.reverse_cons, List.map_append, Nat.ofDigits_append, List.length_map, List.length_reverse, List.map_singleton,
          Nat.ofDigits_singleton, List.length_cons, pow_succ]
        ring
      rw [e]
      exact ⟨fun h => ⟨⟨hb, h.1⟩, h.2⟩, fun h => ⟨h.1.2, h.2⟩⟩
    · rw [if_neg hb]
      constructor
      · intro h
        simp at h
      · intro h
        exact absurd (h.1 b List.mem_cons_self) hb

theorem parseUInt_iff (values : ℕ) (s : Str) (n : ℕ) : parseUInt values s = some n ↔ Numeral s n ∧ n < values := by
  have key : ∀ d : Str, d ≠ [] → (((parseDigits 0 d).bind fun n => if n < values then some n else none) = some n ↔
      ((∀ b ∈ d, IsDigit b) ∧ n = Nat.ofDigits 10 (d.reverse.map fun b => b.toNat - 48)) ∧ n < values) := by
    intro d _
    rw [Option.bind_eq_some_iff]
    constructor
    · rintro ⟨m, h1, h2⟩
      rw [parseDigits_iff, Nat.zero_mul, Nat.zero_add] at h1
      split at h2
      · cases h2
        exact ⟨h1, by assumption⟩
      · simp at h2
    · rintro ⟨h1, h2⟩
      refine ⟨n, ?_, if_pos h2⟩
      rw [parseDigits_iff, Nat.zero_mul, Nat.zero_add]
      exact h1
  have hplus : ¬ IsDigit 43 := by
    unfold IsDigit
    decide
  unfold parseUInt Numeral
  dsimp only
  cases s with
  | nil =>
    rw [stripPlus, if_pos rfl]
    constructor
    · intro h
      simp at h
    · rintro ⟨⟨d, h1, h2 | h2, _⟩, _⟩
      · exact absurd h2.symm h1
      · simp at h2
  | cons b s =>
    rw [stripPlus]
    by_cases hb : b = 43
    · subst hb
      rw [if_pos rfl]
      by_cases hs : s = []
      · rw [if_pos hs]
        constructor
        · intro h
          simp at h
        · rintro ⟨⟨d, h1, h2 | h2, h3, _⟩, _⟩
          · exact absurd (h3 43 (by rw [← h2]; exact List.mem_cons_self)) hplus
          · rw [List.cons_inj_right] at h2
            exact absurd (h2.symm.trans hs) h1
      · rw [if_neg hs, key s hs]
        constructor
        · rintro ⟨⟨h1, h2⟩, h3⟩
          exact ⟨⟨s, hs, Or.inr rfl, h1, h2⟩, h3⟩
        · rintro ⟨⟨d, h1, h2 | h2, h3, h4⟩, h5⟩
          · exact absurd (h3 43 (by rw [← h2]; exact List.mem_cons_self)) hplus
          · rw [List.cons_inj_right] at h2
            subst h2
            exact ⟨⟨h3, h4⟩, h5⟩
    · rw [if_neg hb, if_neg (List.cons_ne_nil _ _), key _ (List.cons_ne_nil _ _)]
      constructor
      · rintro ⟨⟨h1, h2⟩, h3⟩
        exact ⟨⟨b :: s, List.cons_ne_nil _ _, Or.inl rfl, h1, h2⟩, h3⟩
      · rintro ⟨⟨d, h1, h2 | h2, h3, h4⟩, h5⟩
        · subst h2
          exact ⟨⟨h3, h4⟩, h5⟩
        · rw [List.cons.injEq] at h2
          exact absurd h2.1 hb

/-- The first part of a string that is split. -/
theorem split_cases (c : UInt8) (s : Str) :
    (c ∉ s ∧ split c s = [s]) ∨ ∃ a t, c ∉ a ∧ s = a ++ c :: t ∧ split c s = a :: split c t := by
  by_cases h : c ∈ s
  · right
    obtain ⟨a, t, he, ha⟩ := List.eq_append_cons_of_mem h
    exact ⟨a, t, ha, he, by rw [he, split_append ha]⟩
  · exact Or.inl ⟨h, split_of_not_mem h⟩

theorem append_cons_inj {c : UInt8} {a a' t t' : Str} (h : c ∉ a) (h' : c ∉ a') (he : a ++ c :: t = a' ++ c :: t') :
    a = a' ∧ t = t' := by
  have h1 := split_append h t
  rw [he, split_append h' t'] at h1
  have : a' = a := (List.cons.inj h1).1
  subst this
  exact ⟨rfl, List.cons_inj_right _ |>.1 (List.append_cancel_left he)⟩

theorem split_head (c : UInt8) (s a : Str) : (split c s).head? = some a ↔ Upto c s a := by
  unfold Upto
  rcases split_cases c s with ⟨h1, h2⟩ | ⟨b, t, h1, rfl, h2⟩
  · rw [h2, List.head?_cons, Option.some_inj]
    constructor
    · rintro rfl
      exact ⟨h1, Or.inl rfl⟩
    · rintro ⟨h, h' | ⟨t, rfl⟩⟩
      · exact h'
      · exact absurd (List.mem_append_right _ List.mem_cons_self) h1
  · rw [h2, List.head?_cons, Option.some_inj]
    constructor
    · rintro rfl
      exact ⟨h1, Or.inr ⟨t, rfl⟩⟩
    · rintro ⟨h, h' | ⟨t', h'⟩⟩
      · rw [← h'] at h
        exact absurd (List.mem_append_right _ List.mem_cons_self) h
      · exact (append_cons_inj h1 h h').1

theorem split_next (c : UInt8) (s p : Str) (k : ℕ) : (split c s)[k + 1]? = some p ↔
    ∃ a t, c ∉ a ∧ s = a ++ c :: t ∧ (split c t)[k]? = some p := by
  rcases split_cases c s with ⟨h1, h2⟩ | ⟨b, t, h1, rfl, h2⟩
  · rw [h2]
    constructor
    · intro h
      simp at h
    · rintro ⟨a, t, _, rfl, _⟩
      exact absurd (List.mem_append_right _ List.mem_cons_self) h1
  · rw [h2, List.getElem?_cons_succ]
    constructor
    · intro h
      exact ⟨b, t, h1, rfl, h⟩
    · rintro ⟨a, t', ha, he, h⟩
      rw [(append_cons_inj h1 ha he).2]
      exact h

theorem split_second (s p : Str) : (split 95 s)[1]? = some p ↔ Second s p := by
  rw [split_next]
  unfold Second
  simp only [← split_head, List.head?_eq_getElem?]

theorem split_third (s p : Str) : (split 95 s)[2]? = some p ↔ Third s p := by
  rw [split_next]
  unfold Third
  simp only [split_second]

/-! ## Lines -/

/-- `prune_all` does not get past a line that has no number of channels. -/
structure BadInv (fs0 : FS) (good : List Str) (bad : Str) (rest : List Str) (st : FS × Proc) : Prop where
  base : ∀ x, (∀ s ∈ good, x ≠ withExtension s extPbin ∧ x ≠ withExtension s extTmp) → st.1 x = fs0 x
  proc : match st.2 with
    | .stopped => True
    | .loop todo => ∃ g', g' ⊆ good ∧ todo = g' ++ bad :: rest
    | .writing name _ todo => name ∈ good ∧ ∃ g', g' ⊆ good ∧ todo = g' ++ bad :: rest
    | .done => False
    | .panicked => True

theorem BadInv.step {fs0 : FS} {data : List UInt8} {good rest : List Str} {bad : Str} (hd : fs0 indexName = some data)
    (hl : lines data = good ++ bad :: rest) (hb : lineChannels bad = none) {a b : FS × Proc}
    (h : BadInv fs0 good bad rest a) (hs : PruneStep a b) : BadInv fs0 good bad rest b := by
  have hproc := h.proc
  cases hs with
  | @start fs data' hd' =>
    have : fs indexName = fs0 indexName := h.base _ fun s _ => index_ne_ext s
    rw [this, hd] at hd'
    obtain rfl := Option.some.inj hd'
    exact ⟨h.base, good, fun _ h => h, hl⟩
  | startPanic => exact ⟨h.base, trivial⟩
  | @skip fs name todo n data' hn =>
    obtain ⟨g', h1, h2⟩ := hproc
    cases g' with
    | nil =>
      rw [List.nil_append, List.cons.injEq] at h2
      rw [h2.1, hb] at hn
      simp at hn
    | cons s g' =>
      rw [List.cons_append, List.cons.injEq] at h2
      exact ⟨h.base, g', fun x hx => h1 (List.mem_cons_of_mem _ hx), h2.2⟩
  | @create fs name todo n data' out hn =>
    obtain ⟨g', h1, h2⟩ := hproc
    cases g' with
    | nil =>
      rw [List.nil_append, List.cons.injEq] at h2
      rw [h2.1, hb] at hn
      simp at hn
    | cons s g' =>
      rw [List.cons_append, List.cons.injEq] at h2
      obtain ⟨rfl, h2⟩ := h2
      have hm := h1 (List.mem_cons_self (a := name) (l := g'))
      exact ⟨fun x hx => (create_other (hx _ hm).2).trans (h.base x hx), hm, g', fun x hx => h1 (List.mem_cons_of_mem _ hx), h2⟩
  | panic => exact ⟨h.base, trivial⟩
  | @panicLate fs name todo n data' now hn =>
    obtain ⟨g', h1, h2⟩ := hproc
    cases g' with
    | nil =>
      rw [List.nil_append, List.cons.injEq] at h2
      rw [h2.1, hb] at hn
      simp at hn
    | cons s g' =>
      rw [List.cons_append, List.cons.injEq] at h2
      obtain ⟨rfl, h2⟩ := h2
      have hm := h1 (List.mem_cons_self (a := name) (l := g'))
      exact ⟨fun x hx => (append_other (hx _ hm).2).trans ((create_other (hx _ hm).2).trans (h.base x hx)), trivial⟩
  | @write fs name todo now rest' =>
    exact ⟨fun x hx => (append_other (hx _ hproc.1).2).trans (h.base x hx), hproc⟩
  | @rename fs name todo =>
    refine ⟨fun x hx => ?_, hproc.2⟩
    refine Eq.trans ?_ (h.base x hx)
    unfold FS.rename
    dsimp only
    rw [Function.update_of_ne (hx _ hproc.1).2, Function.update_of_ne (hx _ hproc.1).1]
  | finish =>
    obtain ⟨g', _, h2⟩ := hproc
    exact absurd h2.symm (by simp)

theorem badInv_of_reach {fs0 : FS} {data : List UInt8} {good rest : List Str} {bad : Str} (hd : fs0 indexName = some data)
    (hl : lines data = good ++ bad :: rest) (hb : lineChannels bad = none) {s : FS × Proc}
    (h : ReflTransGen CrashStep (fs0, .stopped) s) : BadInv fs0 good bad rest s := by
  induction h with
  | refl => exact ⟨fun _ _ => rfl, trivial⟩
  | tail _ hs ih =>
    cases hs with
    | step hs => exact ih.step hd hl hb hs
    | crash => exact ⟨ih.base, trivial⟩

end Files

end Sortnet
