import Verif.Model.PruneFile

/-!
# Model of `prune` for the same file in several processes

Processes that open the same file share its contents even if the file is renamed meanwhile, so the files are modelled with
inodes here.
-/

namespace Sortnet

namespace Files

/-- A directory, and the contents of files by number.  The numbers from `next` on are not used.
Models code at `prune.rs:38-45`. -/
structure Disk where
  dir : Str → Option ℕ
  ino : ℕ → List UInt8
  next : ℕ

namespace Disk

/-- The contents of the file with this name.  Models code at `prune.rs:38-45`. -/
def read (d : Disk) (name : Str) : Option (List UInt8) := (d.dir name).map d.ino

/-- `File::create`: an existing file is emptied.  Models code at `prune.rs:47`. -/
def create (d : Disk) (name : Str) : Disk × ℕ :=
  match d.dir name with
  | some j => ({ d with ino := Function.update d.ino j [] }, j)
  | none => ({ dir := Function.update d.dir name (some d.next), ino := Function.update d.ino d.next [], next := d.next + 1 }, d.next)

/-- Writes bytes at a position of a list; a gap is filled with zeros.  Models code at `prune.rs:98`. -/
def splice (l : List UInt8) (off : ℕ) (now : List UInt8) : List UInt8 :=
  l.take off ++ List.replicate (off - l.length) 0 ++ now ++ l.drop (off + now.length)

/-- `write` to an open file at a position.  Models code at `prune.rs:98`. -/
def write (d : Disk) (j off : ℕ) (now : List UInt8) : Disk :=
  { d with ino := Function.update d.ino j (splice (d.ino j) off now) }

/-- `fs::rename`; `none` is an error.  Models code at `prune.rs:112`. -/
def rename (d : Disk) (src dst : Str) : Option Disk :=
  (d.dir src).map fun j => { d with dir := Function.update (Function.update d.dir dst (some j)) src none }

end Disk

/-- What a process is doing.  Models code at `prune.rs:37-113`. -/
inductive RaceProc where
  /-- not started, or killed and not yet started again -/
  | stopped
  /-- there was no output, `prune.rs:45` -/
  | checked
  /-- with an open file, the position in it, and the bytes that are not yet in the file -/
  | writing (j off : ℕ) (rest : List UInt8)
  | done
  | panicked

/-- One step of `prune`, `prune.rs:37-113`, for the file `name`.  The input is mapped into memory and is not changed by the other
processes if it is not the temporary file; the model reads it when the temporary file is created. -/
inductive RaceStep (n : ℕ) (name : Str) : Disk × RaceProc → Disk × RaceProc → Prop
  /-- `prune.rs:38-39`: no memory map of the input -/
  | noInput {d : Disk} (h : d.read name = none ∨ d.read name = some []) : RaceStep n name (d, .stopped) (d, .panicked)
  /-- `prune.rs:41-45`: the output exists -/
  | skip {d : Disk} {data : List UInt8} (hd : d.read name = some data) (hne : data ≠ [])
      (hp : (d.dir (withExtension name extPbin)).isSome) : RaceStep n name (d, .stopped) (d, .done)
  /-- `prune.rs:41-45`: the output does not exist -/
  | check {d : Disk} {data : List UInt8} (hd : d.read name = some data) (hne : data ≠ [])
      (hp : d.dir (withExtension name extPbin) = none) : RaceStep n name (d, .stopped) (d, .checked)
  /-- `prune.rs:46-47` -/
  | create {d : Disk} {data out : List UInt8} (hd : d.read name = some data) (ho : pruneData n data = some out) :
      RaceStep n name (d, .checked)
        ((d.create (withExtension name extTmp)).1, .writing (d.create (withExtension name extTmp)).2 0 out)
  /-- `prune.rs:49-109`: computing the output panics, with some bytes `now` in the temporary file -/
  | panicLate {d : Disk} {data now : List UInt8} (hd : d.read name = some data) (ho : pruneData n data = none) :
      RaceStep n name (d, .checked)
        ((d.create (withExtension name extTmp)).1.write (d.create (withExtension name extTmp)).2 0 now, .panicked)
  /-- some bytes reach the file -/
  | write {d : Disk} {j off : ℕ} {now rest : List UInt8} (h : now ≠ []) : RaceStep n name (d, .writing j off (now ++ rest))
      (d.write j off now, .writing j (off + now.length) rest)
  /-- `prune.rs:111-112` -/
  | rename {d d' : Disk} {j off : ℕ} (h : d.rename (withExtension name extTmp) (withExtension name extPbin) = some d') :
      RaceStep n name (d, .writing j off []) (d', .done)
  /-- `prune.rs:112`: there is no temporary file with this name any more -/
  | renamePanic {d : Disk} {j off : ℕ} (h : d.rename (withExtension name extTmp) (withExtension name extPbin) = none) :
      RaceStep n name (d, .writing j off []) (d, .panicked)

/-- Processes that prune the same file: one of them makes a step.  Models code at `prune.rs:37-113`. -/
inductive PruneRace {ι : Type} [DecidableEq ι] (n : ℕ) (name : Str) : Disk × (ι → RaceProc) → Disk × (ι → RaceProc) → Prop
  | step {d d' : Disk} {p : ι → RaceProc} {i : ι} {q : RaceProc} (h : RaceStep n name (d, p i) (d', q)) :
      PruneRace n name (d, p) (d', Function.update p i q)

/-- The same with kills.  Models code at `prune.rs:37-113`. -/
inductive PruneRaceKill {ι : Type} [DecidableEq ι] (n : ℕ) (name : Str) :
    Disk × (ι → RaceProc) → Disk × (ι → RaceProc) → Prop
  | step {a b : Disk × (ι → RaceProc)} (h : PruneRace n name a b) : PruneRaceKill n name a b
  | kill {d : Disk} {p : ι → RaceProc} {i : ι} : PruneRaceKill n name (d, p) (d, Function.update p i .stopped)

end Files

end Sortnet
