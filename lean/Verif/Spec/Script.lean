import Verif.Model.Script
import Verif.Spec.Cert
import Verif.Spec.Network

/-!
# Specification: what `search_and_verify.sh` leaves behind
-/

namespace Sortnet

namespace Script

open Search Files ProofGen Relation

/-- A run that ends before `prune-all` is started: while searching, or while the states are dumped. -/
inductive EarlyEnd (N : ℕ) (fs : FS) : FS → Prop
  | search : EarlyEnd N fs fs
  | dump {r : ℕ} {m : StateMap} {st : DumpSt} (hs : Searched N r m) (hd : ReflTransGen (DumpStep m) (DumpSt.init fs) st) :
      EarlyEnd N fs st.fs

/-- The contents of a correct `.pbin` file of the group `g` in the directory for `N` channels: sets on at most `N` channels that are
chained (as all reachable sets, C22), for which the bound in the name of the file is true.  If all vectors on `N` channels are among them, then the bound
is the minimum size of a sorting network. -/
structure GoodFile (N : ℕ) (g : ℕ × ℕ) (data : List UInt8) : Prop where
  channels : 3 ≤ g.1 ∧ g.1 ≤ N
  bound : g.2 ≤ 35
  sets : ∃ sets : List (Bitmap g.1), sets ≠ [] ∧ data = sets.flatMap Bitmap.packed ∧
    ∀ s ∈ sets, Chained s.toSet ∧ LB s.toSet g.2 ∧ ((⟨g.1, s⟩ : OSet) = ⟨N, allValues N⟩ → MinSize N g.2)

/-- Every log in the directory has fewer than `2 ^ 32` sets. -/
def SmallLog (fs : FS) : Prop := ∀ groups sets, LogDir fs groups sets → (logged groups sets).length < 2 ^ 32

/-- No set has two bounds in the files of the directory. -/
def OneBound (fs : FS) : Prop := ∀ groups sets, LogDir fs groups sets →
  ∀ A b b', (A, b) ∈ logged groups sets → (A, b') ∈ logged groups sets → b = b'

end Script

end Sortnet
