import Verif.Model.PruneFile

/-!
# Model of the command `prune`, run by several processes

The command prunes one file with any name.  Several processes may run at the same time in the same directory, for example one
for each group.
-/

namespace Sortnet

namespace Files

/-- What a process with the command `prune` is doing.
Models code at `sortnetopt.rs:116-119` and `prune.rs:37-113`. -/
inductive CmdProc where
  /-- not started, or killed and not yet started again -/
  | stopped
  /-- with some bytes of the output not yet in the file -/
  | writing (rest : List UInt8)
  | done
  | panicked

/-- One step of `cmd_prune`, `sortnetopt.rs:116-119`, which is `prune`, `prune.rs:37-113`, for the file `name`.  As in
`PruneStep`, the output reaches the file in arbitrary pieces at arbitrary times.  Looking for the output, creating the
temporary file and reading the input happen at once: this is right only if no other process uses these files.  For processes
with the same file see Model/PruneRace.lean. -/
inductive PruneCmd (n : ℕ) (name : Str) : FS × CmdProc → FS × CmdProc → Prop
  /-- `prune.rs:38-39`: no memory map of the input -/
  | noInput {fs : FS} (h : fs name = none ∨ fs name = some []) : PruneCmd n name (fs, .stopped) (fs, .panicked)
  /-- `prune.rs:41-45`: the output exists -/
  | skip {fs : FS} {data : List UInt8} (hd : fs name = some data) (hne : data ≠ [])
      (hp : (fs (withExtension name extPbin)).isSome) : PruneCmd n name (fs, .stopped) (fs, .done)
  /-- `prune.rs:46-47` -/
  | create {fs : FS} {data out : List UInt8} (hd : fs name = some data) (hp : fs (withExtension name extPbin) = none)
      (ht : withExtension name extTmp ≠ name) (ho : pruneData n data = some out) :
      PruneCmd n name (fs, .stopped) (fs.create (withExtension name extTmp), .writing out)
  /-- `prune.rs:49-109`: computing the output panics, with some bytes `now` in the temporary file -/
  | panicLate {fs : FS} {data now : List UInt8} (hd : fs name = some data) (hne : data ≠ [])
      (hp : fs (withExtension name extPbin) = none) (ht : withExtension name extTmp ≠ name) (ho : pruneData n data = none) :
      PruneCmd n name (fs, .stopped)
        ((fs.create (withExtension name extTmp)).append (withExtension name extTmp) now, .panicked)
  /-- `prune.rs:46-47,53-56`: the temporary file is the input file, which is emptied when it is created.  Then the first
  access to the memory map kills the process (`SIGBUS`). -/
  | destroy {fs : FS} {data : List UInt8} (hd : fs name = some data) (hne : data ≠ [])
      (hp : fs (withExtension name extPbin) = none) (ht : withExtension name extTmp = name) :
      PruneCmd n name (fs, .stopped) (fs.create name, .panicked)
  /-- some bytes reach the file -/
  | write {fs : FS} {now rest : List UInt8} (h : now ≠ []) : PruneCmd n name (fs, .writing (now ++ rest))
      (fs.append (withExtension name extTmp) now, .writing rest)
  /-- `prune.rs:111-112` -/
  | rename {fs : FS} : PruneCmd n name (fs, .writing [])
      (fs.rename (withExtension name extTmp) (withExtension name extPbin), .done)

/-- Processes with the command `prune`, where process `i` prunes the file `name i` with `n i` channels: one of them makes a
step, or is killed (and can be started again).  Models code at `sortnetopt.rs:116-119` and `prune.rs:37-113`. -/
inductive PruneConc {ι : Type} [DecidableEq ι] (n : ι → ℕ) (name : ι → Str) :
    FS × (ι → CmdProc) → FS × (ι → CmdProc) → Prop
  | step {fs fs' : FS} {p : ι → CmdProc} {i : ι} {q : CmdProc} (h : PruneCmd (n i) (name i) (fs, p i) (fs', q)) :
      PruneConc n name (fs, p) (fs', Function.update p i q)
  | kill {fs : FS} {p : ι → CmdProc} {i : ι} : PruneConc n name (fs, p) (fs, Function.update p i .stopped)

end Files

end Sortnet
