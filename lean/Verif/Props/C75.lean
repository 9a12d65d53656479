import Verif.Proof.IndexLine

/-!
# C75: index files that are not as `search` writes them

Which lines of `index.txt` the commands accept, and what they do at a line that they do not accept.  The forms of the lines are
described in Spec/IndexLine.lean.
-/

namespace Sortnet

open Files Relation

/-- C75, the number of channels in a line. -/
theorem C75_channels (line : Str) (n : ℕ) :
    lineChannels line = some n ↔ IsUtf8 line ∧ n < 2 ^ 64 ∧ ∃ b, Second line b ∧ Numeral b n := by
  unfold lineChannels
  by_cases h : validUtf8 line = true
  · rw [if_pos h]
    have h' := (validUtf8_iff line).1 h
    constructor
    · intro hc
      obtain ⟨b, h1, h2⟩ := Option.bind_eq_some_iff.1 hc
      obtain ⟨h3, h4⟩ := (parseUInt_iff _ _ _).1 h2
      exact ⟨h', h4, b, (split_second _ _).1 h1, h3⟩
    · rintro ⟨_, h4, b, h1, h3⟩
      exact Option.bind_eq_some_iff.2 ⟨b, (split_second _ _).2 h1, (parseUInt_iff _ _ _).2 ⟨h3, h4⟩⟩
  · rw [if_neg h]
    constructor
    · intro hc
      simp at hc
    · rintro ⟨hc, _⟩
      exact absurd ((validUtf8_iff line).2 hc) h

/-- C75, the bound in a line. -/
theorem C75_bound (line : Str) (b : ℕ) :
    lineBound line = some b ↔ b < 256 ∧ ∃ c d, Third line c ∧ Upto 46 c d ∧ Numeral d b := by
  unfold lineBound
  constructor
  · intro h
    obtain ⟨c, h1, h⟩ := Option.bind_eq_some_iff.1 h
    obtain ⟨d, h2, h⟩ := Option.bind_eq_some_iff.1 h
    obtain ⟨h3, h4⟩ := (parseUInt_iff _ _ _).1 h
    exact ⟨h4, c, d, (split_third _ _).1 h1, (split_head _ _ _).1 h2, h3⟩
  · rintro ⟨h4, c, d, h1, h2, h3⟩
    exact Option.bind_eq_some_iff.2 ⟨c, (split_third _ _).2 h1,
      Option.bind_eq_some_iff.2 ⟨d, (split_head _ _ _).2 h2, (parseUInt_iff _ _ _).2 ⟨h3, h4⟩⟩⟩

/-- C75, the lines of a text.  A line ends with a newline, or with a carriage return and a newline; the last line may have no
end. -/
theorem C75_lines (l : List (Str × Bool)) (last : Str) (h : ∀ x ∈ l, (10 : UInt8) ∉ x.1 ∧ (x.2 = false → x.1.getLast? ≠ some 13))
    (hlast : (10 : UInt8) ∉ last) :
    lines ((l.flatMap fun x => x.1 ++ if x.2 then [13, 10] else [10]) ++ last) =
      l.map Prod.fst ++ if last = [] then [] else [last] := by
  have e : (l.flatMap fun x => x.1 ++ if x.2 then [13, 10] else [10]) =
      (l.map fun x => x.1 ++ if x.2 then [13] else []).flatMap fun s => s ++ [10] := by
    rw [List.flatMap_map]
    refine List.flatMap_congr fun x _ => ?_
    cases x.2 <;> simp
  unfold lines
  rw [e, split_newlines_append _ _ hlast]
  · dsimp only
    rw [List.dropLast_concat, List.getLast?_concat, List.map_map]
    congr 1
    · refine List.map_congr_left fun x hx => ?_
      rw [Function.comp_apply]
      cases hb : x.2 with
      | false =>
        rw [if_neg (by simp), List.append_nil]
        unfold stripCR
        rw [if_neg ((h x hx).2 hb)]
      | true =>
        rw [if_pos rfl]
        unfold stripCR
        rw [if_pos (by simp), List.dropLast_concat]
    · by_cases hl : last = []
      · rw [if_pos hl, if_pos (by rw [hl])]
      · rw [if_neg hl, if_neg (fun hc => hl (Option.some.inj hc))]
        rfl
  · intro s hs
    obtain ⟨x, hx, rfl⟩ := List.mem_map.1 hs
    intro hc
    rcases List.mem_append.1 hc with hc | hc
    · exact (h x hx).1 hc
    · revert hc
      cases x.2 <;> simp

/-- C75, `prune_all` at a line without a number of channels.  It never ends without a panic, however often it is started again
and whenever it is killed, and of all files it changes only `.pbin` and `.tmp` files of the lines before this one. -/
theorem C75_prune_stops {fs0 : FS} {data : List UInt8} {good rest : List Str} {bad : Str} (hd : fs0 indexName = some data)
    (hl : lines data = good ++ bad :: rest) (hb : lineChannels bad = none) (fs : FS) (p : Proc)
    (h : ReflTransGen CrashStep (fs0, .stopped) (fs, p)) :
    p ≠ .done ∧ ∀ x, (∀ s ∈ good, x ≠ withExtension s extPbin ∧ x ≠ withExtension s extTmp) → fs x = fs0 x := by
  have hi := badInv_of_reach hd hl hb h
  refine ⟨?_, hi.base⟩
  rintro rfl
  exact hi.proc

/-- C75, `gen_proof` and `fix_proof` panic if some line has no number of channels or no bound. -/
theorem C75_gen_stops {fs : FS} {data : List UInt8} {bad : Str} (hd : fs indexName = some data) (hl : bad ∈ lines data)
    (hb : lineChannels bad = none ∨ lineBound bad = none) : ProofGen.genProof fs = none ∧ Fix.fixProof fs = none := by
  have h1 : ∀ m, ProofGen.loadLine fs m bad = none := fun m => by
    unfold ProofGen.loadLine
    rcases hb with hb | hb
    · rw [hb]
      rfl
    · rw [hb]
      cases lineChannels bad <;> rfl
  have h2 : ∀ m, Fix.loadLine fs m bad = none := fun m => by
    unfold Fix.loadLine
    rcases hb with hb | hb
    · rw [hb]
      rfl
    · rw [hb]
      cases lineChannels bad <;> rfl
  constructor
  · unfold ProofGen.genProof ProofGen.genSteps ProofGen.load
    rw [hd]
    simp only [Option.bind_eq_bind, Option.bind_some, foldlM_none hl h1]
    rfl
  · unfold Fix.fixProof Fix.load
    rw [hd]
    simp only [Option.bind_eq_bind, Option.bind_some, foldlM_none hl h2]
    rfl

/-! ## Examples -/

/-- The channels may have a sign and leading zeros, and the rest of the line does not matter: `x_+003`. -/
example : lineChannels [120, 95, 43, 48, 48, 51] = some 3 := by decide +kernel

/-- A line that is empty, and a line that is not UTF-8: `\xff_3_1.bin`. -/
theorem C75_example : lineChannels [] = none ∧ lineChannels (255 :: [95, 51, 95, 49]) = none ∧
    lines (groupName (3, 1) ++ [13, 10] ++ [10] ++ groupName (3, 3)) = [groupName (3, 1)] ++ [] :: [groupName (3, 3)] := by
  decide +kernel

/-- An umlaut is valid UTF-8: `ü_3`. -/
example : lineChannels [195, 188, 95, 51] = some 3 := by decide +kernel

/-- A bound of 256 is not accepted. -/
example : lineBound (groupName (3, 256)) = none ∧ lineBound (groupName (3, 255)) = some 255 := by decide +kernel

end Sortnet
