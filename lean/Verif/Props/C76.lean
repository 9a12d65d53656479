import Verif.Spec.Logging
import Verif.Proof.Files
import Verif.Proof.IndexLine

/-!
# C76: the time and the memory in the log lines
-/

namespace Sortnet

open Files Logging

theorem dec_length_le {n k : ℕ} (hk : 0 < k) (h : n < 10 ^ k) : (dec n).length ≤ k := by
  unfold dec
  split
  · exact hk
  · rw [List.length_map, List.length_reverse]
    exact (Nat.digits_length_le_iff (by norm_num) n).2 h

theorem pad_length {c : UInt8} {w : ℕ} {s : Str} (h : s.length ≤ w) : (pad c w s).length = w := by
  unfold pad
  rw [List.length_append, List.length_replicate]
  omega

/-- The value of digits with leading zeros. -/
theorem parseDigits_pad (w n : ℕ) : parseDigits 0 (pad 48 w (dec n)) = some n := by
  unfold pad
  induction w - (dec n).length with
  | zero => exact parseDigits_dec n
  | succ k ih =>
    rw [List.replicate_succ, List.cons_append, parseDigits, if_pos (by decide)]
    exact ih

/-- C76, the form of the time: minutes in at least three columns, two digits for the seconds and three digits for the
milliseconds, which together are the elapsed time. -/
theorem C76_time (elapsed : ℕ) : ∃ m s ms : ℕ, ∃ ss mss : Str, fmtTime elapsed = pad 32 3 (dec m) ++ [58] ++ ss ++ [46] ++ mss ∧
    m * 60000 + s * 1000 + ms = elapsed ∧ s < 60 ∧ ms < 1000 ∧ ss.length = 2 ∧ mss.length = 3 ∧
    parseDigits 0 ss = some s ∧ parseDigits 0 mss = some ms := by
  refine ⟨elapsed / 60000, elapsed % 60000 / 1000, elapsed % 1000, _, _, rfl, by omega, by omega, by omega,
    pad_length (dec_length_le (by norm_num) (by omega)), pad_length (dec_length_le (by norm_num) (by omega)),
    parseDigits_pad _ _, parseDigits_pad _ _⟩

/-- C76, different times are displayed differently. -/
theorem C76_time_injective : Function.Injective fmtTime := by
  intro a b h
  have hlen : ∀ e : ℕ, (pad 48 2 (dec (e % 60000 / 1000))).length = 2 ∧ (pad 48 3 (dec (e % 1000))).length = 3 := fun e =>
    ⟨pad_length (dec_length_le (by norm_num) (by omega)), pad_length (dec_length_le (by norm_num) (by omega))⟩
  unfold fmtTime at h
  dsimp only at h
  obtain ⟨h, h3⟩ := List.append_inj' h (by rw [(hlen a).2, (hlen b).2])
  obtain ⟨h, -⟩ := List.append_inj' h rfl
  obtain ⟨h, h2⟩ := List.append_inj' h (by rw [(hlen a).1, (hlen b).1])
  obtain ⟨h1, -⟩ := List.append_inj' h rfl
  have e3 : a % 1000 = b % 1000 := by
    have := parseDigits_pad 3 (a % 1000)
    rw [h3, parseDigits_pad] at this
    exact (Option.some.inj this).symm
  have e2 : a % 60000 / 1000 = b % 60000 / 1000 := by
    have := parseDigits_pad 2 (a % 60000 / 1000)
    rw [h2, parseDigits_pad] at this
    exact (Option.some.inj this).symm
  have e1 : a / 60000 = b / 60000 := by
    have hf : ∀ e : ℕ, (pad 32 3 (dec e)).filter (fun c => decide (c ≠ 32)) = dec e := fun e => by
      unfold pad
      rw [List.filter_append, List.filter_replicate_of_neg (by simp), List.nil_append, List.filter_eq_self]
      intro c hc
      have := mem_dec hc
      simp only [decide_eq_true_eq]
      rintro rfl
      revert this
      decide
    apply dec_injective
    exact (hf _).symm.trans ((congrArg _ h1).trans (hf _))
  omega

theorem trim_line {space : Str} (hs : ∀ b ∈ space, isSpace b = true) (kb : ℕ) :
    trim (space ++ dec kb ++ [32, 107, 66]) = dec kb ++ [32, 107, 66] := by
  have h1 : ∀ (l t : Str), (∀ b ∈ l, isSpace b = true) → (l ++ t).dropWhile isSpace = t.dropWhile isSpace := by
    intro l t h
    induction l with
    | nil => rfl
    | cons b l ih =>
      rw [List.cons_append, List.dropWhile_cons, if_pos (h b List.mem_cons_self)]
      exact ih fun b hb => h b (List.mem_cons_of_mem _ hb)
  have h2 : (dec kb ++ [32, 107, 66]).dropWhile isSpace = dec kb ++ [32, 107, 66] := by
    have hne := dec_ne_nil kb
    have hm := fun b => mem_dec (n := kb) (b := b)
    generalize dec kb = d at hne hm
    cases d with
    | nil => exact absurd rfl hne
    | cons b d =>
      rw [List.cons_append, List.dropWhile_cons, if_neg]
      have := hm b List.mem_cons_self
      unfold isSpace
      simp only [Bool.or_eq_true, decide_eq_true_eq, Bool.and_eq_true]
      rintro (rfl | h)
      · revert this
        decide
      · omega
  unfold trim
  rw [List.append_assoc, h1 space _ hs, h2, List.reverse_append]
  rw [show ([32, 107, 66] : Str).reverse = [66, 107, 32] by decide, List.cons_append, List.dropWhile_cons,
    if_neg (by decide)]
  simp

/-- C76, the memory.  If a line with the peak memory, with tabs and blanks before the number, is the first of this kind in the
file, there is no panic, and the number
that is displayed is the number of whole units, where the unit is such that at least ten of them and at most 10240 are displayed
unless the memory is less than ten kilobytes or at least 10241 gigabytes. -/
theorem C76_mem {before after : List Str} {space : Str} {kb : ℕ} (hs : ∀ b ∈ space, b = 9 ∨ b = 32)
    (hkb : kb < 2 ^ 64) (hb : ∀ l ∈ before, ¬ str ['V', 'm', 'H', 'W', 'M', ':'] <+: l) (status : Str) (hu : validUtf8 status = true)
    (hl : lines status = before ++ memLine space kb :: after) :
    ∃ v u, memUsage status = some (v, some u) ∧ (u = 1 ∨ u = 1024 ∨ u = 1024 * 1024) ∧ v * u ≤ kb ∧ kb < (v + 1) * u ∧
      (v ≤ 10240 ∨ u = 1024 * 1024) ∧ (10 ≤ v ∨ u = 1) := by
  have hf : (lines status).filter (fun line => memPrefix.isPrefixOf line) =
      memLine space kb :: after.filter (fun line => memPrefix.isPrefixOf line) := by
    rw [hl, List.filter_append, List.filter_eq_nil_iff.2, List.nil_append, List.filter_cons, if_pos]
    · rw [List.isPrefixOf_iff_prefix]
      unfold memLine
      rw [List.append_assoc, List.append_assoc]
      exact List.prefix_append _ _
    · intro l hl
      rw [List.isPrefixOf_iff_prefix]
      exact hb l hl
  have hd : (memLine space kb).drop memPrefix.length = space ++ dec kb ++ [32, 107, 66] := by
    rw [show memLine space kb = memPrefix ++ space ++ dec kb ++ [32, 107, 66] from rfl]
    rw [List.append_assoc, List.append_assoc, List.drop_left, List.append_assoc]
  unfold memUsage
  rw [if_pos hu, hf]
  dsimp only
  rw [hd, trim_line (fun b hb => by rcases hs b hb with rfl | rfl <;> decide), if_neg (by rw [List.length_append]; simp), List.length_append,
    show ([32, 107, 66] : Str).length = 3 from rfl, Nat.add_sub_cancel, List.take_left, parseUInt_dec hkb]
  simp only [Option.bind_eq_bind, Option.bind_some]
  split
  · exact ⟨_, _, rfl, by omega, by omega, by omega, by omega, by omega⟩
  · split
    · exact ⟨_, _, rfl, by omega, by omega, by omega, by omega, by omega⟩
    · exact ⟨_, _, rfl, by omega, by omega, by omega, by omega, by omega⟩

/-- C76, the whole prefix of a line with the memory: the letter is the one of the unit, `k`, `M` or `G`, in which the number of
whole units is displayed. -/
theorem C76_line (elapsed : ℕ) {before after : List Str} {space : Str} {kb : ℕ} (hs : ∀ b ∈ space, b = 9 ∨ b = 32)
    (hkb : kb < 2 ^ 64) (hb : ∀ l ∈ before, ¬ str ['V', 'm', 'H', 'W', 'M', ':'] <+: l) (status : Str) (hu : validUtf8 status = true)
    (hl : lines status = before ++ memLine space kb :: after) :
    ∃ v u letter, logPrefix elapsed (some status) =
        some (fmtTime elapsed ++ str [' ', '['] ++ pad 32 4 (dec v) ++ str [' ', letter, ']', ':', ' ']) ∧
      ((letter = 'k' ∧ u = 1) ∨ (letter = 'M' ∧ u = 1024) ∨ (letter = 'G' ∧ u = 1024 * 1024)) ∧ v * u ≤ kb ∧ kb < (v + 1) * u ∧
      (v ≤ 10240 ∨ u = 1024 * 1024) ∧ (10 ≤ v ∨ u = 1) := by
  obtain ⟨v, u, hm, hu', h⟩ := C76_mem hs hkb hb status hu hl
  rcases hu' with rfl | rfl | rfl
  · exact ⟨v, _, 'k', by rw [logPrefix, hm]; rfl, by simp, h⟩
  · exact ⟨v, _, 'M', by rw [logPrefix, hm]; rfl, by simp, h⟩
  · exact ⟨v, _, 'G', by rw [logPrefix, hm]; rfl, by simp, h⟩

/-- C76, without a line with the peak memory there is no panic, and the memory is displayed as `0 ?`. -/
theorem C76_unknown (elapsed : ℕ) (status : Str) (hu : validUtf8 status = true)
    (hn : ∀ l ∈ lines status, ¬ str ['V', 'm', 'H', 'W', 'M', ':'] <+: l) : logPrefix elapsed (some status) =
      some (fmtTime elapsed ++ str [' ', '[', ' ', ' ', ' ', '0', ' ', '?', ']', ':', ' ']) := by
  have hf : (lines status).filter (fun line => memPrefix.isPrefixOf line) = [] := by
    rw [List.filter_eq_nil_iff]
    intro l hl
    rw [List.isPrefixOf_iff_prefix]
    exact hn l hl
  have hm : memUsage status = some (0, none) := by
    unfold memUsage
    rw [if_pos hu, hf]
  rw [logPrefix, hm]
  show some (fmtTime elapsed ++ [32, 91] ++ pad 32 4 (dec 0) ++ [32, 63, 93, 58, 32]) = _
  rw [List.append_assoc, List.append_assoc]
  congr 2

/-- C76, without the memory nothing but the time is displayed. -/
theorem C76_no_memory (elapsed : ℕ) : logPrefix elapsed none = some (fmtTime elapsed ++ str [':', ' ']) := rfl

/-- Non-vacuity: a file with one line that is not about the memory. -/
theorem C76_unknown_example : logPrefix 0 (some (str ['N', 'a', 'm', 'e', ':', ' ', 'x'] ++ [10])) =
    some (fmtTime 0 ++ str [' ', '[', ' ', ' ', ' ', '0', ' ', '?', ']', ':', ' ']) := by
  refine C76_unknown 0 _ (by decide +kernel) ?_
  have : lines (str ['N', 'a', 'm', 'e', ':', ' ', 'x'] ++ [10]) = [str ['N', 'a', 'm', 'e', ':', ' ', 'x']] := by decide +kernel
  rw [this]
  simp only [List.mem_singleton, forall_eq]
  decide

/-- Non-vacuity: a line with 12345 kilobytes, which are displayed as 12 megabytes, after one minute and 2.003 seconds. -/
theorem C76_example : logPrefix 62003 (some (str ['N', 'a', 'm', 'e', ':', ' ', 'x'] ++ [10] ++ memLine [9, 32] 12345 ++ [10])) =
    some (str [' ', ' ', '1', ':', '0', '2', '.', '0', '0', '3', ' ', '[', ' ', ' ', '1', '2', ' ', 'M', ']', ':', ' ']) := by
  decide +kernel

end Sortnet
