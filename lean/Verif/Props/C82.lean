import Verif.Proof.RefMsg
import Verif.Props.C80

/-!
# C82: what `snocheck -r` accepts, and what its messages say

`RefMsg.run bytes` is what `snocheck -r FILE` writes to the standard output, and its exit status, for a file with these bytes.
`RefSpec.RightStep` and `RefSpec.Says` are in Spec/RefStep.lean.
-/

namespace Sortnet

open Files Snocheck RefSpec

/-- The line `Right (w,b)`. -/
def rightText (w b : ℕ) : Str :=
  str ['R', 'i', 'g', 'h', 't', ' ', '('] ++ dec w ++ str [','] ++ dec b ++ str [')', '\n']

/-- The line `Left "step k: message"`. -/
def leftText (k : ℕ) (message : Str) : Str :=
  str ['L', 'e', 'f', 't', ' ', '"', 's', 't', 'e', 'p', ' '] ++ dec k ++ str [':', ' '] ++ message ++ str ['"', '\n']

/-- The messages. -/
def messages : List String :=
  ["wrong number of huffman witnesses", "set might already be sorted", "wrong number of successor witnesses",
   "witness step id out of bounds", "witness does not subsume target", "huffman bound too low", "successor bound too low"]

/-- The file says that it has `n` steps, all of which are right, and the last one is about `w` channels and the bound `b`. -/
def RefCertifies (bytes : List UInt8) (w b : ℕ) : Prop :=
  ∃ n s, Lazy.readLE 4 bytes = some n ∧ (∀ i, 0 ≤ i → i < n → RightStep (Lazy.stepFn bytes) i) ∧
    Lazy.stepFn bytes (n - 1) = some s ∧ s.vectSet.channels = w ∧ s.bound = b

/-- Step `k` is the first one that is not right, and `text` is true of it. -/
def FirstWrong (bytes : List UInt8) (k : ℕ) (text : String) : Prop :=
  ∃ n s, Lazy.readLE 4 bytes = some n ∧ (k : ℤ) < n ∧ (∀ i, 0 ≤ i → i < (k : ℤ) → RightStep (Lazy.stepFn bytes) i) ∧
    ¬ RightStep (Lazy.stepFn bytes) k ∧ Lazy.stepFn bytes k = some s ∧ Says (Lazy.stepFn bytes) k s text

theorem show_right (w b : ℕ) : str ['R', 'i', 'g', 'h', 't', ' '] ++ showPair w b ++ [10] = rightText w b := by
  unfold showPair showInt rightText
  rw [if_neg (by omega), if_neg (by omega)]
  simp only [Int.natAbs_natCast, List.append_assoc]
  rfl

/-- A character that is shown as it is. -/
def plain (c : UInt8) : Bool := decide (c ≠ 34 ∧ c ≠ 92 ∧ 32 ≤ c ∧ c < 127)

theorem showChars_plain (s : Str) (h : s.all plain = true) : s.flatMap RefMsg.showChar = s := by
  induction s with
  | nil => rfl
  | cons c s ih =>
    simp only [List.all_cons, Bool.and_eq_true, plain, decide_eq_true_eq] at h
    obtain ⟨⟨h1, h2, h3⟩, h4⟩ := h
    rw [List.flatMap_cons, ih h4, RefMsg.showChar, if_neg h1, if_neg h2, if_pos h3]
    rfl

theorem plain_dec (k : ℕ) : (dec k).all plain = true := by
  rw [List.all_eq_true]
  intro c hc
  have h := mem_dec hc
  simp only [plain, decide_eq_true_eq]
  refine ⟨?_, ?_, ?_, ?_⟩
  · rintro rfl; exact absurd h.1 (by decide)
  · rintro rfl; exact absurd h.2 (by decide)
  · rw [UInt8.le_iff_toNat_le]; exact le_trans (by decide) h.1
  · rw [UInt8.lt_iff_toNat_lt]; exact lt_of_le_of_lt h.2 (by decide)

theorem plain_messages : ∀ text ∈ messages, (str text.toList).all plain = true := by decide +kernel

theorem show_left (k : ℕ) (text : String) (ht : text ∈ messages) :
    str ['L', 'e', 'f', 't', ' '] ++
      RefMsg.showString (str ['s', 't', 'e', 'p', ' '] ++ showInt k ++ str [':', ' '] ++ str text.toList) ++ [10] =
      leftText k (str text.toList) := by
  unfold RefMsg.showString leftText showInt
  rw [if_neg (by omega), Int.natAbs_natCast, showChars_plain]
  · simp only [List.append_assoc]
    rfl
  · simp only [List.all_append, Bool.and_eq_true]
    exact ⟨⟨⟨by decide +kernel, plain_dec k⟩, by decide +kernel⟩, plain_messages text ht⟩

/-- C82, for every file there are three possibilities: it is accepted, or the first step that is not right is named, with a reason
that is true, or there is an exception and nothing is written. -/
theorem C82_output (bytes : List UInt8) :
    (∃ w b, RefCertifies bytes w b ∧ RefMsg.run bytes = ⟨rightText w b, 0⟩) ∨
    (∃ k text, FirstWrong bytes k text ∧ text ∈ messages ∧ RefMsg.run bytes = ⟨leftText k (str text.toList), 0⟩) ∨
    ((∀ w b, ¬ RefCertifies bytes w b) ∧ RefMsg.run bytes = ⟨[], 1⟩) := by
  rcases hn : Lazy.readLE 4 bytes with _ | n
  · right; right
    have : RefMsg.mainReference bytes = .error none := by unfold RefMsg.mainReference; rw [hn]; rfl
    unfold RefMsg.run
    rw [this]
    refine ⟨?_, rfl⟩
    rintro w b ⟨n, _, h, _⟩
    rw [hn] at h
    cases h
  have hc : (n.toNat : ℤ) = n := by have := RefMsg.readLE_nonneg hn; omega
  have e : RefMsg.mainReference bytes = RefMsg.checkProof n.toNat (Lazy.stepFn bytes) := by
    unfold RefMsg.mainReference; rw [hn]; rfl
  unfold RefMsg.run
  rw [e]
  rcases RefMsg.checkProof_cases n.toNat (Lazy.stepFn bytes) with ⟨h1, h2⟩ | ⟨k, h0, hk, h1, h2, h3⟩
  · rw [h2, hc]
    rcases hs : Lazy.stepFn bytes (n - 1) with _ | s
    · refine .inr (.inr ⟨?_, rfl⟩)
      rintro w b ⟨n', s, h, _, h', _⟩
      rw [hn] at h
      cases h
      rw [hs] at h'
      cases h'
    · left
      refine ⟨s.vectSet.channels, s.bound, ⟨n, s, hn, fun i hi hi' => h1 i hi (by omega), hs, rfl, rfl⟩, ?_⟩
      rw [← show_right]; rfl
  · rcases h3 with h3 | ⟨s, text, h4, h5, h6⟩
    · rw [h3]
      refine .inr (.inr ⟨?_, rfl⟩)
      rintro w b ⟨n', s, h, h', _⟩
      rw [hn] at h
      cases h
      exact h2 (h' k h0 (by omega))
    · right; left
      obtain ⟨k, rfl⟩ := Int.eq_ofNat_of_zero_le h0
      refine ⟨k, text, ⟨n, s, hn, by omega, h1, h2, h4, h5⟩, RefMsg.says_text h5, ?_⟩
      rw [h6, ← show_left k text (RefMsg.says_text h5)]

theorem rightText_inj {w b w' b' : ℕ} (h : rightText w b = rightText w' b') : w = w' ∧ b = b' := by
  unfold rightText at h
  simp only [List.append_assoc, List.append_cancel_left_eq] at h
  have hc : ∀ n, (44 : UInt8) ∉ dec n := fun n hn => absurd (mem_dec hn).1 (by decide)
  have hd : ∀ n, (41 : UInt8) ∉ dec n := fun n hn => absurd (mem_dec hn).1 (by decide)
  obtain ⟨h1, h2⟩ := append_sep_inj (hc _) (hc _) h
  obtain ⟨h3, _⟩ := append_sep_inj (hd _) (hd _) h2
  exact ⟨dec_injective h1, dec_injective h3⟩

theorem leftText_inj {k k' : ℕ} {m m' : Str} (h : leftText k m = leftText k' m') : k = k' ∧ m = m' := by
  unfold leftText at h
  simp only [List.append_assoc, List.append_cancel_left_eq] at h
  have hc : ∀ n, (58 : UInt8) ∉ dec n := fun n hn => absurd (mem_dec hn).2 (by decide)
  obtain ⟨h1, h2⟩ := append_sep_inj (hc _) (hc _) h
  have h3 : m ++ str ['"', '\n'] = m' ++ str ['"', '\n'] := by simpa using h2
  exact ⟨dec_injective h1, List.append_cancel_right h3⟩

theorem right_ne_left (w b k : ℕ) (m : Str) : rightText w b ≠ leftText k m := by
  intro h
  have : (rightText w b).head? = (leftText k m).head? := by rw [h]
  exact absurd this (show some _ ≠ some _ by decide)

/-- C82, exactly which files are accepted: those all of whose steps are right. -/
theorem C82_accepts_iff (bytes : List UInt8) (w b : ℕ) :
    (RefMsg.run bytes).stdout = rightText w b ↔ RefCertifies bytes w b := by
  rcases C82_output bytes with ⟨w', b', h1, h2⟩ | ⟨k, text, h1, _, h2⟩ | ⟨h1, h2⟩
  · rw [h2]
    constructor
    · intro h
      obtain ⟨rfl, rfl⟩ := rightText_inj h
      exact h1
    · rintro ⟨n, s, hn, _, hs, rfl, rfl⟩
      obtain ⟨n', s', hn', _, hs', rfl, rfl⟩ := h1
      rw [hn] at hn'
      cases hn'
      rw [hs] at hs'
      cases hs'
      rfl
  · rw [h2]
    constructor
    · intro h; exact absurd h.symm (right_ne_left _ _ _ _)
    · rintro ⟨n, s, hn, hr, _⟩
      obtain ⟨n', _, hn', hk, _, hw, _⟩ := h1
      rw [hn] at hn'
      cases hn'
      exact absurd (hr k (by omega) hk) hw
  · rw [h2]
    constructor
    · intro h; cases h
    · intro h; exact absurd h (h1 w b)

/-- C82, a line `Left "step k: m"` can be believed: `k` is the first step that is not right, and `m` is one of the messages and is true
of it. -/
theorem C82_left (bytes : List UInt8) (k : ℕ) (m : Str) (h : (RefMsg.run bytes).stdout = leftText k m) :
    ∃ text ∈ messages, m = str text.toList ∧ FirstWrong bytes k text := by
  rcases C82_output bytes with ⟨w', b', h1, h2⟩ | ⟨k', text, h1, ht, h2⟩ | ⟨_, h2⟩
  · rw [h2] at h; exact absurd h (right_ne_left _ _ _ _)
  · rw [h2] at h
    obtain ⟨rfl, rfl⟩ := leftText_inj h
    exact ⟨text, ht, rfl, h1⟩
  · rw [h2] at h
    cases h

/-- C82, an accepted file has the exit status 0, and so does one with a message; nothing is written exactly if the status is 1. -/
theorem C82_status (bytes : List UInt8) : (RefMsg.run bytes).stdout = [] ↔ (RefMsg.run bytes).status = 1 := by
  rcases C82_output bytes with ⟨w', b', h1, h2⟩ | ⟨k', text, h1, ht, h2⟩ | ⟨_, h2⟩ <;> rw [h2]
  · constructor <;> (intro h; cases h)
  · constructor <;> (intro h; cases h)
  · simp

/-- C82, finding: the message `step id out of bounds` (`Check.hs:32`) is never written.  The number of the step that is checked is in
bounds, and that of a witness is compared with it before. -/
theorem C82_never (bytes : List UInt8) (k : ℕ) : (RefMsg.run bytes).stdout ≠ leftText k (str "step id out of bounds".toList) := by
  intro h
  obtain ⟨text, ht, h1, _⟩ := C82_left bytes k _ h
  exact absurd h1 ((by decide +kernel : ∀ text ∈ messages, str "step id out of bounds".toList ≠ str text.toList) text ht)

/-- The text between the quotation marks. -/
def refMessage (bytes : List UInt8) : Str :=
  match RefMsg.mainReference bytes with
  | .error (some m) => m.flatMap RefMsg.showChar
  | _ => []

/-- C82, this is `snocheck -r` of C80, with the text that was left open there, and without its text the model of C65. -/
theorem C82_main (fs : FS) (f : Str) (bytes : List UInt8) (hf : fs f = some bytes) :
    Snocheck.main refMessage fs [str ['-', 'r'], f] = RefMsg.run bytes ∧
    RefMsg.forget (RefMsg.mainReference bytes) = Lazy.mainReference bytes := by
  refine ⟨?_, RefMsg.forget_mainReference bytes⟩
  have h := RefMsg.forget_mainReference bytes
  unfold Snocheck.main RefMsg.run
  dsimp only
  rw [if_pos rfl, hf]
  dsimp only
  rw [← h]
  unfold refMessage
  rcases RefMsg.mainReference bytes with (_ | m) | ⟨w, b⟩
  · rfl
  · simp only [RefMsg.forget, RefMsg.showString]
    congr 1
    simp only [List.append_assoc]
    rfl
  · rfl

/-- So whatever is printed by `snocheck -v` as `Just (w,b)` is printed by `snocheck -r` as `Right (w,b)`, for files as `gen_proof` writes
them (C65): no message is written about a step of a certificate that is accepted. -/
theorem C82_verified {bytes : List UInt8} (hlen : bytes.length < 2 ^ 60)
    (hbits : ∀ n i s, Lazy.readLE 4 bytes = some n → 0 ≤ i → i < n → Lazy.stepFn bytes i = some s →
      s.vectSet.channels < 3 → Lazy.CleanBits s)
    {w b : ℕ} (h : Lazy.mainVerified bytes = some (some ((w : ℤ), (b : ℤ)))) : RefMsg.run bytes = ⟨rightText w b, 0⟩ := by
  have h1 := C65_reference_of_verified hlen hbits h
  have h2 := RefMsg.forget_mainReference bytes
  rw [h1] at h2
  unfold RefMsg.run
  rcases hm : RefMsg.mainReference bytes with (_ | m) | ⟨w', b'⟩
  · rw [hm] at h2; cases h2
  · rw [hm] at h2; cases h2
  · rw [hm] at h2
    simp only [RefMsg.forget, Except.ok.injEq, Prod.mk.injEq, Int.toNat_natCast] at h2
    rw [h2.1, h2.2]
    dsimp only
    rw [show_right]

/-- A file with one step. -/
def oneStep (step : List UInt8) : List UInt8 :=
  [1, 0, 0, 0, 16, 0, 0, 0, 0, 0, 0, 0, step.length.toUInt8, 0, 0, 0] ++ step

/-- Non-vacuity: each of the seven messages is written for some file. -/
theorem C82_messages :
    (RefMsg.run (oneStep [2, 1, 0x0F, 0])).stdout = leftText 0 (str "wrong number of huffman witnesses".toList) ∧
    (RefMsg.run (oneStep [2, 1, 0x01, 2])).stdout = leftText 0 (str "set might already be sorted".toList) ∧
    (RefMsg.run (oneStep [2, 1, 0x0F, 2])).stdout = leftText 0 (str "wrong number of successor witnesses".toList) ∧
    (RefMsg.run (oneStep [2, 1, 0x0F, 2, 0, 0, 1, 0, 0, 0, 0])).stdout = leftText 0 (str "witness step id out of bounds".toList) ∧
    (RefMsg.run [2, 0, 0, 0, 28, 0, 0, 0, 0, 0, 0, 0, 5, 0, 0, 0, 33, 0, 0, 0, 0, 0, 0, 0, 11, 0, 0, 0,
      2, 1, 0x0F, 2, 2, 2, 1, 0x0F, 2, 0, 0, 1, 0, 0, 0, 0]).stdout =
      leftText 1 (str "witness does not subsume target".toList) ∧
    (RefMsg.run (oneStep [2, 5, 0x0F, 0, 2, 2])).stdout = leftText 0 (str "huffman bound too low".toList) ∧
    (RefMsg.run (oneStep [2, 5, 0x0F, 2, 2])).stdout = leftText 0 (str "successor bound too low".toList) := by decide +kernel

/-- Non-vacuity: a file that is accepted, and one with an exception. -/
theorem C82_example : RefMsg.run Decode.file3 = ⟨rightText 3 3, 0⟩ ∧ RefMsg.run [1, 0] = ⟨[], 1⟩ := by decide +kernel

end Sortnet
