import Verif.Model.Fix

/-!
# Model of the writing of certificates by `gen-proof` and `fix-proof`, which can be stopped at any time

Conventions.
* Both commands write through a `BufWriter`, which hands the bytes to the system in arbitrary pieces at arbitrary times.  The
  bytes written by the program and not yet in the file are a component of the state.
* When a thread panics, the `BufWriter` is dropped while the stack is unwound, and hands over what it has.  Errors at this point,
  and at the normal end, are ignored by `BufWriter`; other write errors panic.
* A process can be killed in every state, and then started again.  The power does not fail: bytes that are handed to the system
  are in the file.
* No other process changes the files.
-/

namespace Sortnet

namespace Fix

open Files ProofGen

/-- What a process with the command `gen-proof` is doing.  Models code at `proof.rs:23-73`. -/
inductive GenPC where
  /-- not started, or killed and not yet started again -/
  | stopped
  /-- with some bytes of the certificate not yet in the file -/
  | writing (rest : List UInt8)
  | done
  | panicked

/-- One step of `gen_proof`, `proof.rs:23-73`. -/
inductive GenRun : FS × GenPC → FS × GenPC → Prop
  /-- `proof.rs:24-67`: reading the log or making the steps panics -/
  | panic {fs : FS} (h : genSteps fs = none) : GenRun (fs, .stopped) (fs, .panicked)
  /-- `proof.rs:70`: the file cannot be created -/
  | noCreate {fs : FS} : GenRun (fs, .stopped) (fs, .panicked)
  /-- `proof.rs:24-70`: the file is created, or emptied, when all the steps are there -/
  | create {fs : FS} {steps : List (List UInt8)} (h : genSteps fs = some steps) :
      GenRun (fs, .stopped) (fs.create proofName, .writing (writeProof steps))
  /-- `proof.rs:72,189-205`: some bytes reach the file -/
  | write {fs : FS} {now rest : List UInt8} (h : now ≠ []) :
      GenRun (fs, .writing (now ++ rest)) (fs.append proofName now, .writing rest)
  /-- a write error -/
  | error {fs : FS} {rest : List UInt8} : GenRun (fs, .writing rest) (fs, .panicked)
  /-- `proof.rs:73`: the end; what is still in the `BufWriter` is lost if the last write fails -/
  | finish {fs : FS} {lost : List UInt8} : GenRun (fs, .writing lost) (fs, .done)
  | kill {fs : FS} {p : GenPC} : GenRun (fs, p) (fs, .stopped)

/-- What a process with the command `fix-proof` is doing.  Models code at `fix.rs:13-82`. -/
inductive FixPC where
  /-- not started, or killed and not yet started again -/
  | stopped
  /-- `fix.rs:46`, with the sets of the log and the old file -/
  | count (m : Sets) (data : List UInt8)
  /-- `fix.rs:54`: before the entry `step` of the table, with the number of entries that follow, the lengths so far, and what has
  not been read -/
  | table (m : Sets) (step left : ℕ) (lengths : List ℕ) (data : List UInt8)
  /-- `fix.rs:67`: with the lengths of the steps that follow and what has not been read -/
  | steps (m : Sets) (lengths : List ℕ) (data : List UInt8)
  | done
  | panicked

/-- One step of `fix_proof`, `fix.rs:13-82`.  The second component of a state has the bytes in the `BufWriter`. -/
inductive FixRun : FS × List UInt8 × FixPC → FS × List UInt8 × FixPC → Prop
  /-- `fix.rs:14-38`: the log or the old certificate cannot be read -/
  | noInput {fs : FS} (h : load fs = none ∨ fs oldName = none) : FixRun (fs, [], .stopped) (fs, [], .panicked)
  /-- `fix.rs:41-43` -/
  | exists {fs : FS} (h : (fs proofName).isSome) : FixRun (fs, [], .stopped) (fs, [], .panicked)
  /-- `fix.rs:44`: the file cannot be created -/
  | noCreate {fs : FS} : FixRun (fs, [], .stopped) (fs, [], .panicked)
  /-- `fix.rs:14-44` -/
  | create {fs : FS} {m : Sets} {data : List UInt8} (hm : load fs = some m) (hd : fs oldName = some data)
      (hp : fs proofName = none) : FixRun (fs, [], .stopped) (fs.create proofName, [], .count m data)
  /-- `fix.rs:46` -/
  | countPanic {fs : FS} {buf : List UInt8} {m : Sets} {data : List UInt8} (h : readLE 4 data = none) :
      FixRun (fs, buf, .count m data) (fs, buf, .panicked)
  /-- `fix.rs:46-52` -/
  | count {fs : FS} {buf : List UInt8} {m : Sets} {n : ℕ} {data data' : List UInt8} (h : readLE 4 data = some (n, data')) :
      FixRun (fs, buf, .count m data) (fs, buf ++ le32 n, .table m 0 n [] data')
  /-- `fix.rs:55-56` -/
  | entryPanic {fs : FS} {buf : List UInt8} {m : Sets} {step left : ℕ} {lengths : List ℕ} {data : List UInt8}
      (h : (readLE 8 data).bind (fun r => readLE 4 r.2) = none) :
      FixRun (fs, buf, .table m step (left + 1) lengths data) (fs, buf, .panicked)
  /-- `fix.rs:55-64` -/
  | entry {fs : FS} {buf : List UInt8} {m : Sets} {step left offset len : ℕ} {lengths : List ℕ}
      {data data' data'' : List UInt8} (h1 : readLE 8 data = some (offset, data')) (h2 : readLE 4 data' = some (len, data'')) :
      FixRun (fs, buf, .table m step (left + 1) lengths data)
        (fs, buf ++ le64 (offset + step) ++ le32 (len + 1), .table m (step + 1) left (lengths ++ [len]) data'')
  /-- `fix.rs:54,67`: the end of the table -/
  | tableEnd {fs : FS} {buf : List UInt8} {m : Sets} {step : ℕ} {lengths : List ℕ} {data : List UInt8} :
      FixRun (fs, buf, .table m step 0 lengths data) (fs, buf, .steps m lengths data)
  /-- `fix.rs:68-76` -/
  | stepPanic {fs : FS} {buf : List UInt8} {m : Sets} {len : ℕ} {lengths : List ℕ} {data : List UInt8}
      (h : fixStep m data len = none) : FixRun (fs, buf, .steps m (len :: lengths) data) (fs, buf, .panicked)
  /-- `fix.rs:68-80` -/
  | step {fs : FS} {buf : List UInt8} {m : Sets} {len : ℕ} {lengths : List ℕ} {data data' out : List UInt8}
      (h : fixStep m data len = some (out, data')) :
      FixRun (fs, buf, .steps m (len :: lengths) data) (fs, buf ++ out, .steps m lengths data')
  /-- `fix.rs:82` -/
  | finish {fs : FS} {buf : List UInt8} {m : Sets} {data : List UInt8} :
      FixRun (fs, buf, .steps m [] data) (fs, buf, .done)
  /-- some bytes reach the file; also when the `BufWriter` is dropped, at the end or after a panic -/
  | flush {fs : FS} {now rest : List UInt8} {p : FixPC} (h : now ≠ []) :
      FixRun (fs, now ++ rest, p) (fs.append proofName now, rest, p)
  /-- a write error: after this the `BufWriter` may still hand over what it has -/
  | error {fs : FS} {buf : List UInt8} {p : FixPC} (h : p ≠ .stopped) (h' : p ≠ .done) : FixRun (fs, buf, p) (fs, buf, .panicked)
  | kill {fs : FS} {buf : List UInt8} {p : FixPC} : FixRun (fs, buf, p) (fs, [], .stopped)

end Fix

end Sortnet
