import Mathlib.Data.Nat.Digits.Defs
import Mathlib.Data.List.SplitOn
import Mathlib.Logic.Function.Basic

/-!
# Strings and files

Strings are lists of bytes.
-/

namespace Sortnet

namespace Files

/-- Byte strings.  Models code at `search.rs:86,95`. -/
abbrev Str := List UInt8

/-- A string literal.  Models code at `search.rs:86,95`. -/
def str (l : List Char) : Str := l.map fun c => c.toNat.toUInt8

/-- Decimal representation of a number (`Display` of the integer types).  Models code at `search.rs:95`. -/
def dec (n : ℕ) : Str :=
  if n = 0 then [48] else (Nat.digits 10 n).reverse.map fun d => (48 + d).toUInt8

/-- The digits of `str::parse`, most significant first, with the value so far.
Models code at `prune.rs:120` and `proof.rs:30-32`. -/
def parseDigits (acc : ℕ) : Str → Option ℕ
  | [] => some acc
  | b :: s => if 48 ≤ b.toNat ∧ b.toNat ≤ 57 then parseDigits (10 * acc + (b.toNat - 48)) s else none

/-- Removes a plus sign.  Models code at `prune.rs:120` and `proof.rs:30-32`. -/
def stripPlus : Str → Str
  | [] => []
  | b :: s => if b = 43 then s else b :: s

/-- `str::parse` for an unsigned integer type with the given number of values: an optional plus sign and at
least one digit, and the number must be representable.  Models code at `prune.rs:120` and `proof.rs:30-32`. -/
def parseUInt (values : ℕ) (s : Str) : Option ℕ :=
  let s' := stripPlus s
  if s' = [] then none
  else (parseDigits 0 s').bind fun n => if n < values then some n else none

/-- `str::split` at one character.  Models code at `prune.rs:120` and `proof.rs:30-32`. -/
def split (c : UInt8) : Str → List Str
  | [] => [[]]
  | b :: s =>
    if b = c then [] :: split c s
    else match split c s with
      | [] => [[b]]
      | t :: ts => (b :: t) :: ts

/-- Removes a carriage return at the end of a line.  Models code at `prune.rs:118-119` and `proof.rs:28-29`. -/
def stripCR (s : Str) : Str := if s.getLast? = some 13 then s.dropLast else s

/-- `BufRead::lines`: split at newlines, with no last line if the text ends with a newline.  A carriage return is removed only
before a newline.  Models code at `prune.rs:118-119` and `proof.rs:28-29`. -/
def lines (s : Str) : List Str :=
  let ls := split 10 s
  ls.dropLast.map stripCR ++ (if ls.getLast? = some [] then [] else ls.getLast?.toList)

/-- `BufRead::lines` gives an error for a line that is not valid UTF-8.
Models code at `prune.rs:118-119` and `proof.rs:28-29`. -/
def validUtf8 (s : Str) : Bool := s.toByteArray.validateUTF8

/-- Position of the last dot that is not at the beginning, `Path::file_stem`.
Models code at `prune.rs:41,46` and `proof.rs:36`. -/
def stem (s : Str) : Str :=
  match (s.reverse.dropWhile (· ≠ 46)).tail with
  | [] => s
  | t => t.reverse

/-- `Path::with_extension` for a file name.  Models code at `prune.rs:41,46` and `proof.rs:36`. -/
def withExtension (s ext : Str) : Str := stem s ++ [46] ++ ext

/-- The files of a directory.  Models code at `prune.rs:37-113` and `search.rs:80-107`. -/
abbrev FS := Str → Option (List UInt8)

/-- `File::create`.  Models code at `prune.rs:47` and `search.rs:97`. -/
def FS.create (fs : FS) (name : Str) : FS := Function.update fs name (some [])

/-- Appending to a file.  Models code at `prune.rs:98`. -/
def FS.append (fs : FS) (name : Str) (data : List UInt8) : FS :=
  Function.update fs name ((fs name).map (· ++ data))

/-- `fs::rename` of an existing file.  Models code at `prune.rs:112`. -/
def FS.rename (fs : FS) (src dst : Str) : FS :=
  Function.update (Function.update fs dst (fs src)) src none

/-- `chunks(k)` of a slice; `k = 0` panics in Rust.  Models code at `prune.rs:29` and `proof.rs:46`. -/
def chunks {α : Type} (k : ℕ) (l : List α) : List (List α) :=
  if h : l = [] ∨ k = 0 then [] else l.take k :: chunks k (l.drop k)
termination_by l.length
decreasing_by
  rw [List.length_drop]
  have : 0 < l.length := List.length_pos_iff.2 (fun e => h (Or.inl e))
  omega

end Files

end Sortnet
