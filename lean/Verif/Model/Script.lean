import Verif.Model.DumpCrash
import Verif.Model.PruneFile
import Verif.Model.ProofGen
import Verif.Model.LazyChecker
import Verif.Spec.StateHist

/-!
# Model of `search_and_verify.sh`
-/

namespace Sortnet

namespace Script

open Search Files ProofGen Relation

/-- The command `search N` without a limit and without a prefix (`sortnetopt.rs:101-114`) has returned the result `r`, and `m` is
the state map that it passes to `dump_states` (`search.rs:73-75`).  The execution of the search, the order of the calls of
`StateMap::set`, the hash functions and the number of shards are arbitrary. -/
def Searched (N r : ℕ) (m : StateMap) : Prop :=
  ∃ (hash : List ℕ → ℕ) (G : Global) (hash' : List UInt8 → ℕ) (threads : ℕ) (hist : List (OSet × State)),
    Run hash none ⟨N, allValues N⟩ G ∧ Returned G r ∧ (∀ e ∈ hist, 3 ≤ e.1.n ∧ e.1.n ≤ 11) ∧ lastSet hist = G.store ∧
    (StateMap.new threads).run hash' hist = some m ∧ m.len < 2 ^ 32

/-- How a run of the script ends.  Models code at `search_and_verify.sh:1-37`. -/
inductive Outcome where
  /-- A command was killed or failed, or the computer was turned off.  The script does not go on after a command that fails
  (`search_and_verify.sh:8`). -/
  | stopped
  /-- The checker was run: it has printed an answer, or ended with an exception (`none`). -/
  | checked (answer : Option (Option (ℤ × ℤ)))
deriving DecidableEq

/-- A run of `search_and_verify.sh` for `N` channels, which changes the files in `$DATADIR/_search_$CHANNELS` from `fs` to `fs'`.
The directories themselves, the compilation of the programs and the output of the script, except for that of the checker, are
not modelled.  All bytes of a file have been written when a command has ended; for lost bytes see C70, C72 and C60. -/
inductive ScriptRun (N : ℕ) (fs : FS) : (fs' : FS) → Outcome → Prop
  /-- `search_and_verify.sh:15-25`: the script ends before the states are dumped -/
  | search : ScriptRun N fs fs .stopped
  /-- `search_and_verify.sh:25`: while they are dumped -/
  | dump {r : ℕ} {m : StateMap} {st : DumpSt} (hs : Searched N r m) (hd : ReflTransGen (DumpStep m) (DumpSt.init fs) st) :
      ScriptRun N fs st.fs .stopped
  /-- `search_and_verify.sh:27-29`: before or in `prune-all` -/
  | prune {r : ℕ} {m : StateMap} {fs' : FS} {p : Proc} (hs : Searched N r m)
      (hp : ReflTransGen PruneStep (dumpStates m fs, .stopped) (fs', p)) : ScriptRun N fs fs' .stopped
  /-- `search_and_verify.sh:31-33`: before or in `gen-proof`, which may have written to `proof.bin` -/
  | gen {r : ℕ} {m : StateMap} {fs2 fs' : FS} (hs : Searched N r m)
      (hp : ReflTransGen PruneStep (dumpStates m fs, .stopped) (fs2, .done)) (hg : ∀ x, x ≠ proofName → fs' x = fs2 x) :
      ScriptRun N fs fs' .stopped
  /-- `search_and_verify.sh:35-37`, `verify_proof_cert.sh:25` -/
  | verify {r : ℕ} {m : StateMap} {fs2 fs' : FS} {file : List UInt8} (hs : Searched N r m)
      (hp : ReflTransGen PruneStep (dumpStates m fs, .stopped) (fs2, .done)) (hg : genProof fs2 = some fs')
      (hf : fs' proofName = some file) : ScriptRun N fs fs' (.checked (Lazy.mainVerified file))

/-- Any number of runs of the script for `N` channels one after the other.
Models code at `search_and_verify.sh:1-37`. -/
def Runs (N : ℕ) : FS → FS → Prop := ReflTransGen fun fs fs' => ∃ o, ScriptRun N fs fs' o

end Script

end Sortnet
