import Verif.Model.StateMap

/-!
# The map represented by shards
-/

namespace Sortnet

namespace Search

variable {T : Type}

/-- The keys increase. -/
def BMap.Sorted (m : BMap T) : Prop := m.Pairwise fun a b => bytesLt a.1 b.1

/-- The map for a number of channels. -/
def OSMap.field (m : OSMap T) : ℕ → BMap T
  | 3 => m.m3
  | 4 => m.m4
  | 5 => m.m5
  | 6 => m.m6
  | 7 => m.m7
  | 8 => m.m8
  | 9 => m.m9
  | 10 => m.m10
  | 11 => m.m11
  | _ => []

variable (hash : List UInt8 → ℕ)

/-- Every set is in the shard of its hash, and the maps are sorted. -/
def ShardsOK (sh : List (OSMap T)) : Prop :=
  0 < sh.length ∧ ∀ i m, sh[i]? = some m → ∀ c, (m.field c).Sorted ∧
    ∀ e ∈ m.field c, ∃ s : Bitmap c, s.packed = e.1 ∧ shardOf hash sh.length e.1 = i

/-- The map represented by shards. -/
def shardsGet (sh : List (OSMap T)) (A : OSet) : Option T :=
  match sh[shardOf hash sh.length A.s.packed]? with
  | some m => (m.field A.n).get A.s.packed
  | none => none

end Search

end Sortnet
