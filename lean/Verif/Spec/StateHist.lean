import Verif.Model.StateMap

/-!
# Specification: histories of the state map
-/

namespace Sortnet

namespace Search

/-- The states set by a history of calls `set`, oldest first: the last one for exactly that output set. -/
def lastSet (hist : List (OSet × State)) (A : OSet) : Option State :=
  (hist.reverse.find? fun e => e.1 = A).map (·.2)

/-- Executes a history of calls. -/
def StateMap.run (hash : List UInt8 → ℕ) (m : StateMap) : List (OSet × State) → Option StateMap
  | [] => some m
  | (A, v) :: hist => (m.set hash A v).bind fun m' => m'.run hash hist

end Search

end Sortnet
