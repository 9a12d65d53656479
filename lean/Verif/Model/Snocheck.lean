import Verif.Model.Files
import Verif.Model.LazyRef

/-!
# Model of the command line of `snocheck`, and of `verify_proof_cert.sh`

What is written to the standard output, and the exit status.  Strings are lists of bytes.
-/

namespace Sortnet

namespace Snocheck

open Files

/-- What a process has written to the standard output, and its exit status.  Models code at `Main.hs:12-28`. -/
structure Exit where
  stdout : Str
  status : ℕ
deriving DecidableEq

/-- `show` for `Integer` and `Int`, as the component of a pair.  Models code at `Main.hs:17,25`. -/
def showInt (k : ℤ) : Str := if k < 0 then 45 :: dec k.natAbs else dec k.natAbs

/-- `show` for a pair.  Models code at `Main.hs:17,25`. -/
def showPair (a b : ℤ) : Str := [40] ++ showInt a ++ [44] ++ showInt b ++ [41]

/-- `show` for `Maybe (Integer, Integer)`.  Models code at `Main.hs:17,25`. -/
def showMaybe : Option (ℤ × ℤ) → Str
  | none => str ['N', 'o', 't', 'h', 'i', 'n', 'g']
  | some (a, b) => str ['J', 'u', 's', 't', ' '] ++ showPair a b

/-- `Main.hs:26-28`. -/
def usage : Str :=
  str "usage (reference checker): snocheck -r PROOF".toList ++ [10] ++
  str "       (verified checker): snocheck -v PROOF".toList ++ [10]

/-- An uncaught exception: the message is written to the standard error.  `print` hands its text over when it is complete, so that
nothing is written if the exception occurs while the text is made.  Models code at `Main.hs:12-28`. -/
def uncaught : Exit := ⟨[], 1⟩

/-- `main`, `Main.hs:12-28`.  `msg` is the message after `Left`, which is not modelled.  `B.readFile` throws an exception if the file
cannot be read. -/
def main (msg : List UInt8 → Str) (fs : FS) (args : List Str) : Exit :=
  match args with
  | [o, f] =>
    if o = str ['-', 'r'] then
      match fs f with
      | none => uncaught
      | some bytes =>
        match Lazy.mainReference bytes with
        | .ok (w, b) => ⟨str ['R', 'i', 'g', 'h', 't', ' '] ++ showPair w b ++ [10], 0⟩
        | .error .left => ⟨str ['L', 'e', 'f', 't', ' ', '"'] ++ msg bytes ++ str ['"', '\n'], 0⟩
        | .error .crash => uncaught
    else if o = str ['-', 'v'] then
      match fs f with
      | none => uncaught
      | some bytes =>
        match Lazy.mainVerified bytes with
        | some r => ⟨showMaybe r ++ [10], 0⟩
        | none => uncaught
    else ⟨usage, 0⟩
  | _ => ⟨usage, 0⟩

/-- `verify_proof_cert.sh:4`. -/
def scriptUsage : Str := str "usage: bash verify_proof_cert.sh CERTBIN".toList ++ [10]

/-- `verify_proof_cert.sh:18-23`. -/
def banner : Str :=
  str "Running verified proof certificate checker...".toList ++ [10, 10] ++
  str "An output of `None` indicates verification failure.".toList ++ [10] ++
  str "An output of `Some (w,b)` indicates successful verification of the".toList ++ [10] ++
  str "lower bound b for w channels.".toList ++ [10, 10]

/-- `verify_proof_cert.sh`: with no or an empty argument it ends (lines 3-6); otherwise the checker is run (line 25), and its exit
status is that of the script.  `stack` is assumed to compile the program without errors and to write nothing else to the standard
output. -/
def script (msg : List UInt8 → Str) (fs : FS) (args : List Str) : Exit :=
  match args with
  | [] => ⟨scriptUsage, 1⟩
  | f :: _ =>
    if f = [] then ⟨scriptUsage, 1⟩
    else
      let e := main msg fs [str ['-', 'v'], f]
      ⟨banner ++ e.stdout, e.status⟩

end Snocheck

end Sortnet
