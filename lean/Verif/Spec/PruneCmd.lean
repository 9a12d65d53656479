import Verif.Model.PruneCmd

/-!
# Specification: the files that several `prune` commands work on
-/

namespace Sortnet

namespace Files

/-- Files `name i` in a directory such that the commands do not get in each other's way: they differ also without their
extensions, and no input is the output or the temporary file of a command.  Some `.pbin` files may exist already; `out i` is
the contents of the `.pbin` file if there is one, and the output of `prune` otherwise. -/
structure ConcDir {ι : Type} (fs : FS) (n : ι → ℕ) (name : ι → Str) (out : ι → List UInt8) : Prop where
  sep : ∀ i j, stem (name i) = stem (name j) → i = j
  ext : ∀ i j, name i ≠ withExtension (name j) extPbin ∧ name i ≠ withExtension (name j) extTmp
  input : ∀ i, ∃ data, fs (name i) = some data ∧ data ≠ [] ∧
    (fs (withExtension (name i) extPbin) = none → pruneData (n i) data = some (out i))
  old : ∀ i data, fs (withExtension (name i) extPbin) = some data → out i = data

end Files

end Sortnet
