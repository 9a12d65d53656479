import Verif.Model.Dump

/-!
# Model of `Search::dump_states` with buffers, crashes and errors

In Model/Dump.lean all bytes are in the files when the function returns.  Here each `BufWriter` has a buffer, pieces of which
reach the file at arbitrary times (in fact when the buffer is full and when it is dropped; this includes more executions than
the code has).  The process can be killed, or fail with an error (`?`, `search.rs:84,86,96,97,102`), at any time: that is
not a step here, the files are then those of the state that was reached.
-/

namespace Sortnet

namespace Files

open Search

/-- An entry of the state map.  Models code at `search.rs:90-106`. -/
abbrev DumpItem := ℕ × List UInt8 × State

/-- Where `dump_states` is.  Models code at `search.rs:80-107`. -/
inductive DumpPc where
  /-- before `search.rs:86` -/
  | start
  /-- in the loops `search.rs:89-104`, with the remaining entries -/
  | loop (todo : List DumpItem)
  /-- between the lines `search.rs:96` and `search.rs:97` for a new group -/
  | create (e : DumpItem) (todo : List DumpItem)
  /-- after the loops; the writers are dropped, `search.rs:106-107` -/
  | drop
  /-- a writer was dropped, and writing its buffer failed: the destructor ignores errors -/
  | lost

/-- The state of `dump_states`.  Models code at `search.rs:80-107`. -/
structure DumpSt where
  /-- the files on disk -/
  fs : FS
  /-- the buffers of the writers, by file name; empty if there is no writer -/
  buf : Str → List UInt8
  /-- the keys of `group_files` -/
  groups : List (ℕ × ℕ)
  pc : DumpPc

/-- Appending to the buffer of a writer.  Models code at `search.rs:90-106`. -/
def DumpSt.write (st : DumpSt) (name : Str) (data : List UInt8) : Str → List UInt8 :=
  Function.update st.buf name (st.buf name ++ data)

/-- The state before `search.rs:86`. -/
def DumpSt.init (fs : FS) : DumpSt := { fs := fs, buf := fun _ => [], groups := [], pc := .start }

/-- One step of `dump_states`, `search.rs:86-107`, for a state map. -/
inductive DumpStep (m : StateMap) : DumpSt → DumpSt → Prop
  /-- `search.rs:86-90` -/
  | start {st : DumpSt} (h : st.pc = .start) :
      DumpStep m st { st with fs := st.fs.create indexName, pc := .loop m.drain }
  /-- `search.rs:92-93,102`: the group has a file -/
  | old {st : DumpSt} {e : DumpItem} {todo : List DumpItem} (h : st.pc = .loop (e :: todo))
      (hg : (e.1, e.2.2.lo) ∈ st.groups) :
      DumpStep m st { st with buf := st.write (groupName (e.1, e.2.2.lo)) e.2.1, pc := .loop todo }
  /-- `search.rs:94-96`: a line for a new group -/
  | line {st : DumpSt} {e : DumpItem} {todo : List DumpItem} (h : st.pc = .loop (e :: todo))
      (hg : (e.1, e.2.2.lo) ∉ st.groups) :
      DumpStep m st { st with buf := st.write indexName (groupName (e.1, e.2.2.lo) ++ [10]), pc := .create e todo }
  /-- `search.rs:97-98,102`: the file for a new group -/
  | create {st : DumpSt} {e : DumpItem} {todo : List DumpItem} (h : st.pc = .create e todo) :
      DumpStep m st
        { fs := st.fs.create (groupName (e.1, e.2.2.lo))
          buf := st.write (groupName (e.1, e.2.2.lo)) e.2.1
          groups := st.groups ++ [(e.1, e.2.2.lo)]
          pc := .loop todo }
  /-- a piece of a buffer reaches the file -/
  | flush {st : DumpSt} {name : Str} {now rest : List UInt8} (h : st.buf name = now ++ rest) :
      DumpStep m st { st with fs := st.fs.append name now, buf := Function.update st.buf name rest }
  /-- `search.rs:106` -/
  | finish {st : DumpSt} (h : st.pc = .loop []) : DumpStep m st { st with pc := .drop }
  /-- `search.rs:107`: the rest of a buffer cannot be written -/
  | lose {st : DumpSt} {name : Str} (h : st.pc = .drop ∨ st.pc = .lost) :
      DumpStep m st { st with buf := Function.update st.buf name [], pc := .lost }

end Files

end Sortnet
