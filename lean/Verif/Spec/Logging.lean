import Verif.Model.Logging

/-!
# Specification: the peak memory in `/proc/self/status`
-/

namespace Sortnet

open Files Logging

/-- A line of `/proc/self/status` with the peak memory, as the kernel writes it: `VmHWM:`, white space, the number, and ` kB`. -/
def memLine (space : Str) (kb : ℕ) : Str := str ['V', 'm', 'H', 'W', 'M', ':'] ++ space ++ dec kb ++ [32, 107, 66]

end Sortnet
