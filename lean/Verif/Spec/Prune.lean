import Verif.Model.PruneFile

/-!
# Specification: the directory `prune_all` works on
-/

namespace Sortnet

namespace Files

/-- The output of `prune` for a group. -/
def pbinName (g : ℕ × ℕ) : Str := withExtension (groupName g) extPbin

/-- The temporary file of `prune` for a group. -/
def tmpName (g : ℕ × ℕ) : Str := withExtension (groupName g) extTmp

/-- A directory in which `prune_all` has something to do: the lines of the index are the names of distinct groups, there
is a file with output `out g`
for each group `g`, and no results yet. -/
structure PruneDir (fs : FS) (groups : List (ℕ × ℕ)) (out : ℕ × ℕ → List UInt8) : Prop where
  index : ∃ data, fs indexName = some data ∧ lines data = groups.map groupName
  nodup : groups.Nodup
  input : ∀ g ∈ groups, g.1 < 2 ^ 64 ∧ ∃ data, fs (groupName g) = some data ∧ pruneData g.1 data = some (out g)
  fresh : ∀ g ∈ groups, fs (pbinName g) = none

/-- A directory in which some `.pbin` files may exist already, with any contents: `out g` are these contents if there is a
`.pbin` file for the group `g`, and the output of `prune` if there is none. -/
structure RerunDir (fs : FS) (groups : List (ℕ × ℕ)) (out : ℕ × ℕ → List UInt8) : Prop where
  index : ∃ data, fs indexName = some data ∧ lines data = groups.map groupName
  input : ∀ g ∈ groups, g.1 < 2 ^ 64 ∧ ∃ data, fs (groupName g) = some data ∧ data ≠ [] ∧
    (fs (pbinName g) = none → pruneData g.1 data = some (out g))
  old : ∀ g ∈ groups, ∀ data, fs (pbinName g) = some data → out g = data

end Files

end Sortnet
