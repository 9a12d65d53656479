import Verif.Model.Files

/-!
# Model of the prefix of the log lines

The clock and `/proc/self/status` are inputs of the model.
-/

namespace Sortnet

namespace Logging

open Files

/-- Padding to a width, `{:3}` and `{:02}`. -/
def pad (c : UInt8) (width : ℕ) (s : Str) : Str := List.replicate (width - s.length) c ++ s

/-- The time in a log line, `logging.rs:9-12,17-18,34-35` with the format `{:3}:{:02}.{:03}`. -/
def fmtTime (elapsed : ℕ) : Str :=
  let minutes := elapsed / 60000
  let seconds := (elapsed % 60000) / 1000
  let millis := elapsed % 1000
  pad 32 3 (dec minutes) ++ [58] ++ pad 48 2 (dec seconds) ++ [46] ++ pad 48 3 (dec millis)

/-- `"VmHWM:"`.  Models code at `logging.rs:43`. -/
def memPrefix : Str := str ['V', 'm', 'H', 'W', 'M', ':']

/-- The ASCII characters of `char::is_whitespace`.  The other ones are left out: the kernel does not write them in these lines.
Models code at `logging.rs:50`. -/
def isSpace (b : UInt8) : Bool := b = 32 || (9 ≤ b.toNat && b.toNat ≤ 13)

/-- `str::trim`.  Models code at `logging.rs:50`. -/
def trim (s : Str) : Str := ((s.dropWhile isSpace).reverse.dropWhile isSpace).reverse

/-- `get_mem_usage`, `logging.rs:42-63`, for the contents of `/proc/self/status`: the number, and the unit in kilobytes; no unit is
`"?"`.  The whole result is `none` for a panic. -/
def memUsage (status : Str) : Option (ℕ × Option ℕ) :=
  if validUtf8 status then
    match (lines status).filter (fun line => memPrefix.isPrefixOf line) with
    | [] => some (0, none)
    | line :: _ => do
      let s := trim (line.drop memPrefix.length)
      if s.length < 3 then none
      else do
        let kb ← parseUInt (2 ^ 64) (s.take (s.length - 3))
        if kb > 10 * 1024 * 1024 then some (kb / (1024 * 1024), some (1024 * 1024))
        else if kb > 10 * 1024 then some (kb / 1024, some 1024)
        else some (kb, some 1)
  else none

/-- What is written before the message, `logging.rs:14-41` with the formats `{:3}:{:02}.{:03} [{:4} {}]: ` and
`{:3}:{:02}.{:03}: `. -/
def logPrefix (elapsed : ℕ) (status : Option Str) : Option Str :=
  match status with
  | none => some (fmtTime elapsed ++ [58, 32])
  | some status => do
    let (mem, unit) ← memUsage status
    let u : UInt8 := match unit with
      | none => 63
      | some u => if u = 1 then 107 else if u = 1024 then 77 else 71
    some (fmtTime elapsed ++ [32, 91] ++ pad 32 4 (dec mem) ++ [32, u, 93, 58, 32])

end Logging

end Sortnet
