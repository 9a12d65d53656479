import Verif.Model.PruneRace

/-!
# Specification: a file that several processes prune at the same time
-/

namespace Sortnet

namespace Files

/-- A directory with the file `name`, from which `prune` makes `out`, and without the output.  A temporary file may exist
already, but it is another file than the input. -/
structure RaceDir (d : Disk) (n : ℕ) (name : Str) (data out : List UInt8) : Prop where
  valid : ∀ x j, d.dir x = some j → j < d.next
  input : d.read name = some data
  output : pruneData n data = some out
  pbin : d.dir (withExtension name extPbin) = none
  ext : name ≠ withExtension name extTmp
  link : d.dir (withExtension name extTmp) ≠ d.dir name

end Files

end Sortnet
