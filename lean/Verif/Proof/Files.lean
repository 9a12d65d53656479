import Mathlib.Data.Nat.Digits.Lemmas
import Verif.Model.Dump

/-!
# Lemmas about strings, and about `dump_states`
-/

namespace Sortnet

namespace Files

/-! ## Decimal numbers -/

theorem parseDigits_map (ds : List ℕ) (h : ∀ d ∈ ds, d < 10) (acc : ℕ) :
    parseDigits acc (ds.map fun d => (48 + d).toUInt8) = some (ds.foldl (fun a d => 10 * a + d) acc) := by
  induction ds generalizing acc with
  | nil => rfl
  | cons d ds ih =>
    have hd := h d List.mem_cons_self
    have e : (48 + d).toUInt8.toNat = 48 + d := by
      rw [Nat.toUInt8_eq, UInt8.toNat_ofNat']
      omega
    rw [List.map_cons, parseDigits, e, if_pos (by omega), ih (fun d hd => h d (List.mem_cons_of_mem _ hd)),
      List.foldl_cons]
    congr 3
    omega

theorem digits_value (n : ℕ) : (Nat.digits 10 n).reverse.foldl (fun a d => 10 * a + d) 0 = n := by
  rw [List.foldl_reverse]
  have h := Nat.ofDigits_digits 10 n
  rw [Nat.ofDigits_eq_foldr] at h
  conv_rhs => rw [← h]
  congr 1
  funext d a
  simp [add_comm]

theorem parseDigits_dec (n : ℕ) : parseDigits 0 (dec n) = some n := by
  unfold dec
  split_ifs with h
  · subst h; decide
  · rw [parseDigits_map _ (fun d hd => Nat.digits_lt_base (by norm_num) (List.mem_reverse.1 hd)), digits_value]

theorem mem_dec {n : ℕ} {b : UInt8} (h : b ∈ dec n) : 48 ≤ b.toNat ∧ b.toNat ≤ 57 := by
  unfold dec at h
  split_ifs at h
  · rw [List.mem_singleton] at h
    subst h
    decide
  · obtain ⟨d, hd, rfl⟩ := List.mem_map.1 h
    have hd' : d < 10 := Nat.digits_lt_base (by norm_num) (List.mem_reverse.1 hd)
    rw [Nat.toUInt8_eq, UInt8.toNat_ofNat']
    omega

theorem dec_ne_nil (n : ℕ) : dec n ≠ [] := by
  unfold dec
  split_ifs with h
  · simp
  · simp [Nat.digits_ne_nil_iff_ne_zero.2 h]

theorem dec_injective : Function.Injective dec := by
  intro a b h
  have h1 := parseDigits_dec a
  rw [h, parseDigits_dec b] at h1
  exact (Option.some.inj h1).symm

theorem parseUInt_dec {values n : ℕ} (h : n < values) : parseUInt values (dec n) = some n := by
  have hd := parseDigits_dec n
  have hne := dec_ne_nil n
  have hm := fun b => mem_dec (n := n) (b := b)
  unfold parseUInt
  generalize dec n = s at hd hne hm
  have e : stripPlus s = s := by
    cases s with
    | nil => rfl
    | cons b s =>
      have := hm b List.mem_cons_self
      rw [stripPlus, if_neg]
      rintro rfl
      revert this
      decide
  dsimp only
  rw [e, if_neg hne, hd, Option.bind_some, if_pos h]

/-! ## Splitting -/

theorem split_of_not_mem {c : UInt8} {s : Str} (h : c ∉ s) : split c s = [s] := by
  induction s with
  | nil => rfl
  | cons b s ih =>
    rw [split, if_neg (fun e => h (by rw [e]; exact List.mem_cons_self)), ih (fun hm => h (List.mem_cons_of_mem _ hm))]

theorem split_append {c : UInt8} {s : Str} (h : c ∉ s) (t : Str) : split c (s ++ c :: t) = s :: split c t := by
  induction s with
  | nil => rw [List.nil_append, split, if_pos rfl]
  | cons b s ih =>
    rw [List.cons_append, split, if_neg (fun e => h (by rw [e]; exact List.mem_cons_self)),
      ih (fun hm => h (List.mem_cons_of_mem _ hm))]

theorem not_mem_dec {c : UInt8} (h : ¬ (48 ≤ c.toNat ∧ c.toNat ≤ 57)) (n : ℕ) : c ∉ dec n := fun hm => h (mem_dec hm)

theorem groupName_eq (g : ℕ × ℕ) : groupName g =
    [103, 114, 111, 117, 112] ++ 95 :: (dec g.1 ++ 95 :: (dec g.2 ++ [46, 98, 105, 110])) := by
  unfold groupName
  rw [show str ['g', 'r', 'o', 'u', 'p', '_'] = [103, 114, 111, 117, 112, 95] by decide,
    show str ['_'] = [95] by decide, show str ['.', 'b', 'i', 'n'] = [46, 98, 105, 110] by decide]
  simp

theorem split_groupName (g : ℕ × ℕ) :
    split 95 (groupName g) = [[103, 114, 111, 117, 112], dec g.1, dec g.2 ++ [46, 98, 105, 110]] := by
  rw [groupName_eq, split_append (by decide), split_append (not_mem_dec (by decide) _), split_of_not_mem]
  intro h
  rcases List.mem_append.1 h with h | h
  · exact not_mem_dec (by decide) _ h
  · revert h; decide

/-- ASCII strings are valid. -/
theorem validUtf8_ascii {s : Str} (h : ∀ b ∈ s, b.toNat < 128) : validUtf8 s = true := by
  unfold validUtf8
  rw [ByteArray.validateUTF8_eq_true_iff]
  induction s with
  | nil => exact ByteArray.isValidUTF8_empty
  | cons b s ih =>
    have hb := h b List.mem_cons_self
    have e : (b :: s).toByteArray = [b].toByteArray ++ s.toByteArray := by
      rw [← List.toByteArray_append]
      rfl
    rw [e]
    refine ByteArray.IsValidUTF8.append ?_ (ih fun b hb => h b (List.mem_cons_of_mem _ hb))
    have e2 : [b] = String.utf8EncodeChar (Char.ofNat b.toNat) := by
      have key : ∀ k : Fin 128, [UInt8.ofNat k.val] = String.utf8EncodeChar (Char.ofNat k.val) := by decide +kernel
      have := key ⟨b.toNat, hb⟩
      rwa [UInt8.ofNat_toNat] at this
    rw [e2]
    exact Char.isValidUTF8_toByteArray_utf8EncodeChar

theorem groupName_ascii (g : ℕ × ℕ) : ∀ b ∈ groupName g, b.toNat < 128 := by
  intro b h
  rw [groupName_eq] at h
  simp only [List.mem_append, List.mem_cons, List.not_mem_nil, or_false] at h
  have hd : ∀ n, b ∈ dec n → b.toNat < 128 := fun n hm => by
    have := (mem_dec hm).2
    omega
  rcases h with h | h | h | h | h | h
  · rcases h with rfl | rfl | rfl | rfl | rfl <;> decide
  · rw [h]; decide
  · exact hd _ h
  · rw [h]; decide
  · exact hd _ h
  · rcases h with rfl | rfl | rfl | rfl <;> decide

theorem lineChannels_groupName {g : ℕ × ℕ} (h : g.1 < 2 ^ 64) : lineChannels (groupName g) = some g.1 := by
  unfold lineChannels
  rw [if_pos (validUtf8_ascii (groupName_ascii g)), split_groupName]
  exact parseUInt_dec h

theorem lineBound_groupName {g : ℕ × ℕ} (h : g.2 < 256) : lineBound (groupName g) = some g.2 := by
  unfold lineBound
  rw [split_groupName]
  simp only [Option.bind_eq_bind, List.getElem?_cons_succ, List.getElem?_cons_zero, Option.bind_some]
  rw [split_append (not_mem_dec (by decide) _)]
  simp only [List.head?_cons, Option.bind_some]
  exact parseUInt_dec h

theorem groupName_injective : Function.Injective groupName := by
  intro a b h
  have h1 := congrArg (split 95) h
  rw [split_groupName, split_groupName] at h1
  simp only [List.cons.injEq, and_true, true_and] at h1
  exact Prod.ext (dec_injective h1.1) (dec_injective (List.append_cancel_right h1.2))

theorem groupName_ne_index (g : ℕ × ℕ) : groupName g ≠ indexName := by
  intro h
  have h1 := congrArg (split 95) h
  rw [split_groupName, show split 95 indexName = [[105, 110, 100, 101, 120, 46, 116, 120, 116]] by decide] at h1
  simp at h1

theorem stem_groupName (g : ℕ × ℕ) : stem (groupName g) ++ [46, 98, 105, 110] = groupName g := by
  have e : ∃ t, groupName g = t ++ [46, 98, 105, 110] ∧ t ≠ [] := by
    refine ⟨[103, 114, 111, 117, 112] ++ 95 :: (dec g.1 ++ 95 :: dec g.2), ?_, by simp⟩
    rw [groupName_eq]
    simp
  obtain ⟨t, h, hne⟩ := e
  rw [h]
  unfold stem
  have h2 : (List.dropWhile (fun x => decide (x ≠ 46)) (t ++ [46, 98, 105, 110]).reverse).tail = t.reverse := by
    rw [List.reverse_append]
    rfl
  rw [h2]
  cases hr : t.reverse with
  | nil => exact absurd (List.reverse_eq_nil_iff.1 hr) hne
  | cons x l =>
    dsimp only
    rw [← hr, List.reverse_reverse]

theorem withExtension_groupName_injective (ext : Str) :
    Function.Injective fun g => withExtension (groupName g) ext := by
  intro a b h
  unfold withExtension at h
  have h1 := List.append_cancel_right (List.append_cancel_right h)
  apply groupName_injective
  rw [← stem_groupName a, ← stem_groupName b, h1]

/-! ## Lines -/

theorem split_newlines (l : List Str) (h : ∀ s ∈ l, (10 : UInt8) ∉ s) :
    split 10 (l.flatMap fun s => s ++ [10]) = l ++ [[]] := by
  induction l with
  | nil => rfl
  | cons s l ih =>
    rw [List.flatMap_cons, List.append_assoc, List.singleton_append, split_append (h s List.mem_cons_self),
      ih (fun s hs => h s (List.mem_cons_of_mem _ hs)), List.cons_append]

theorem lines_newlines (l : List Str) (h : ∀ s ∈ l, (10 : UInt8) ∉ s ∧ s.getLast? ≠ some 13) :
    lines (l.flatMap fun s => s ++ [10]) = l := by
  unfold lines
  rw [split_newlines l fun s hs => (h s hs).1]
  dsimp only
  rw [List.getLast?_concat, if_pos rfl, List.dropLast_concat, List.append_nil]
  conv_rhs => rw [← List.map_id l]
  refine List.map_congr_left fun s hs => ?_
  unfold stripCR
  rw [if_neg (h s hs).2]
  rfl

theorem groupName_line (g : ℕ × ℕ) : (10 : UInt8) ∉ groupName g ∧ (groupName g).getLast? ≠ some 13 := by
  constructor
  · rw [groupName_eq]
    intro h
    simp only [List.mem_append, List.mem_cons, List.not_mem_nil, or_false] at h
    rcases h with h | h | h | h | h | h
    · revert h; decide
    · revert h; decide
    · exact not_mem_dec (by decide) _ h
    · revert h; decide
    · exact not_mem_dec (by decide) _ h
    · revert h; decide
  · rw [groupName_eq, List.getLast?_append, List.getLast?_cons, List.getLast?_append, List.getLast?_cons,
      List.getLast?_append]
    simp

/-! ## Chunks -/

theorem chunks_nil {α : Type} (k : ℕ) : chunks k ([] : List α) = [] := by
  rw [chunks, dif_pos (Or.inl rfl)]

theorem chunks_flatten {α : Type} {k : ℕ} (hk : 0 < k) (ls : List (List α)) (h : ∀ l ∈ ls, l.length = k) :
    chunks k ls.flatten = ls := by
  induction ls with
  | nil => exact chunks_nil k
  | cons l ls ih =>
    have hl := h l List.mem_cons_self
    rw [List.flatten_cons, chunks, dif_neg]
    · rw [List.take_append_of_le_length (by omega), List.take_of_length_le (by omega),
        List.drop_append_of_le_length (by omega), List.drop_of_length_le (by omega), List.nil_append,
        ih (fun l hl => h l (List.mem_cons_of_mem _ hl))]
    · rintro (e | e)
      · have := congrArg List.length e
        rw [List.length_append, List.length_nil] at this
        omega
      · omega

/-! ## `dump_states` -/

open Search

/-- The group of an entry. -/
def groupOf (e : ℕ × List UInt8 × State) : ℕ × ℕ := (e.1, e.2.2.lo)

/-- The state of the loop after some entries. -/
structure DumpInv (fs0 : FS) (done : List (ℕ × List UInt8 × State)) (st : FS × List (ℕ × ℕ)) : Prop where
  nodup : st.2.Nodup
  mem : ∀ g, g ∈ st.2 ↔ ∃ e ∈ done, groupOf e = g
  index : st.1 indexName = some (st.2.flatMap fun g => groupName g ++ [10])
  group : ∀ g ∈ st.2, st.1 (groupName g) = some ((done.filter fun e => groupOf e = g).flatMap fun e => e.2.1)
  other : ∀ x, x ≠ indexName → (∀ g ∈ st.2, x ≠ groupName g) → st.1 x = fs0 x

theorem DumpInv.step {fs0 : FS} {done : List (ℕ × List UInt8 × State)} {st : FS × List (ℕ × ℕ)}
    (h : DumpInv fs0 done st) (e : ℕ × List UInt8 × State) : DumpInv fs0 (done ++ [e]) (dumpEntry st e) := by
  obtain ⟨fs, groups⟩ := st
  obtain ⟨c, p, v⟩ := e
  have hmem : ∀ g, (∃ e ∈ done ++ [(c, p, v)], groupOf e = g) ↔ g ∈ groups ∨ g = (c, v.lo) := by
    intro g
    rw [h.mem g]
    constructor
    · rintro ⟨e, he, rfl⟩
      rcases List.mem_append.1 he with he | he
      · exact Or.inl ⟨e, he, rfl⟩
      · rw [List.mem_singleton] at he
        subst he
        exact Or.inr rfl
    · rintro (⟨e, he, rfl⟩ | rfl)
      · exact ⟨e, List.mem_append_left _ he, rfl⟩
      · exact ⟨(c, p, v), by simp, rfl⟩
  have hfil : ∀ g, ((done ++ [(c, p, v)]).filter fun e => groupOf e = g).flatMap (fun e => e.2.1) =
      ((done.filter fun e => groupOf e = g).flatMap fun e => e.2.1) ++ if (c, v.lo) = g then p else [] := by
    intro g
    rw [List.filter_append, List.flatMap_append]
    congr 1
    by_cases hg : (c, v.lo) = g
    · rw [if_pos hg, List.filter_cons, if_pos (by simp [groupOf, hg])]
      simp
    · rw [if_neg hg, List.filter_cons, if_neg (by simp [groupOf, hg])]
      simp
  have hidx : fs indexName = some (groups.flatMap fun g => groupName g ++ [10]) := h.index
  have hgrp : ∀ g ∈ groups, fs (groupName g) = some ((done.filter fun e => groupOf e = g).flatMap fun e => e.2.1) :=
    h.group
  unfold dumpEntry
  dsimp only
  split_ifs with hg
  · refine ⟨h.nodup, fun g => ?_, ?_, fun g hgg => ?_, fun x h1 h2 => ?_⟩
    · rw [hmem]
      constructor
      · exact Or.inl
      · rintro (h' | rfl)
        · exact h'
        · exact hg
    · unfold FS.append
      dsimp only
      rw [Function.update_of_ne (groupName_ne_index _).symm]
      exact hidx
    · rw [hfil]
      unfold FS.append
      by_cases e : (c, v.lo) = g
      · subst e
        dsimp only
        rw [Function.update_self, hgrp _ hg, if_pos rfl]
        rfl
      · dsimp only
        rw [Function.update_of_ne (fun h' => e (groupName_injective h'.symm)), hgrp g hgg, if_neg e,
          List.append_nil]
    · unfold FS.append
      dsimp only
      rw [Function.update_of_ne (h2 _ hg)]
      exact h.other x h1 h2
  · refine ⟨?_, fun g => ?_, ?_, fun g hgg => ?_, fun x h1 h2 => ?_⟩
    · rw [List.nodup_append']
      refine ⟨h.nodup, by simp, ?_⟩
      intro g h1 h2
      rw [List.mem_singleton] at h2
      subst h2
      exact hg h1
    · rw [hmem, List.mem_append, List.mem_singleton]
    · unfold FS.append FS.create
      dsimp only
      rw [Function.update_of_ne (groupName_ne_index _).symm, Function.update_of_ne (groupName_ne_index _).symm,
        Function.update_self, hidx, List.flatMap_append]
      simp
    · rw [hfil]
      unfold FS.append FS.create
      dsimp only
      rcases List.mem_append.1 hgg with hgg | hgg
      · have hne : (c, v.lo) ≠ g := by rintro rfl; exact hg hgg
        have hne' : groupName g ≠ groupName (c, v.lo) := fun h' => hne (groupName_injective h'.symm)
        rw [Function.update_of_ne hne', Function.update_of_ne hne', Function.update_of_ne (groupName_ne_index _),
          hgrp g hgg, if_neg hne, List.append_nil]
      · rw [List.mem_singleton] at hgg
        subst hgg
        rw [Function.update_self, Function.update_self, if_pos rfl]
        have : (done.filter fun e => groupOf e = (c, v.lo)) = [] := by
          rw [List.filter_eq_nil_iff]
          intro e he hc
          exact hg ((h.mem _).2 ⟨e, he, by simpa using hc⟩)
        rw [this]
        rfl
    · unfold FS.append FS.create
      dsimp only
      have h3 : x ≠ groupName (c, v.lo) := h2 _ (List.mem_append_right _ (List.mem_singleton.2 rfl))
      rw [Function.update_of_ne h3, Function.update_of_ne h3, Function.update_of_ne h1]
      exact h.other x h1 fun g hg => h2 g (List.mem_append_left _ hg)

theorem dump_inv (fs0 : FS) (es : List (ℕ × List UInt8 × State)) :
    DumpInv fs0 es (es.foldl dumpEntry (fs0.create indexName, [])) := by
  have key : ∀ (es done : List (ℕ × List UInt8 × State)) st, DumpInv fs0 done st →
      DumpInv fs0 (done ++ es) (es.foldl dumpEntry st) := by
    intro es
    induction es with
    | nil => intro done st h; simpa using h
    | cons e es ih =>
      intro done st h
      have := ih (done ++ [e]) _ (h.step e)
      rwa [List.append_assoc, List.singleton_append] at this
  refine key es [] _ ⟨by simp, by simp, ?_, by simp, fun x h1 _ => ?_⟩
  · unfold FS.create
    dsimp only
    rw [Function.update_self]
    rfl
  · unfold FS.create
    dsimp only
    rw [Function.update_of_ne h1]

end Files

end Sortnet
