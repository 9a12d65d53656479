import Verif.Model.Subsume
import Mathlib.Data.List.Sort

/-!
# Model of the abstraction of an output set

Transcription of `output_set.rs:434-489` (`write_abstraction_into`, `abstraction`) and of the tests on
abstractions in `/repo/src/output_set/index.rs` (cited as `index.rs`).

`u16` values are natural numbers; the conversion `as u16` is reduction modulo `2^16`.
-/

namespace Sortnet

variable {n : ℕ}

/-- `PAIR_ABSTRACTION_GROUPS`, `output_set.rs:11`. -/
def pairAbstractionGroups : ℕ := 4

/-- `OutputSet::abstraction_len_for_channels`, `output_set.rs:87-89`.  For zero channels the
subtraction overflows (`none`). -/
def abstractionLen (n : ℕ) : Option ℕ :=
  if n = 0 then none else some (n * (n - 1) * pairAbstractionGroups)

/-- `slice.sort_unstable()`.  The elements are numbers, so the result does not depend on the
algorithm.  Models code at `output_set.rs:468`. -/
def sortAsc (l : List ℕ) : List ℕ := l.insertionSort (· ≤ ·)

/-- `slice.sort_unstable_by(|a, b| b.cmp(a))`.  Models code at `output_set.rs:456`. -/
def sortDesc (l : List ℕ) : List ℕ := l.insertionSort (· ≥ ·)

/-- `group_values` for one channel and one group after sorting, `output_set.rs:442-457`. -/
def Bitmap.groupValues (s : Bitmap n) (c : Fin n) (g : Fin 4) : List ℕ :=
  sortDesc (((List.finRange n).filter fun o => o ≠ c).map fun o => s.channelPairAbstraction c o g)

/-- The writes of `output_set.rs:458-464` for one channel. -/
def writeChannel (s : Bitmap n) (buf : ℕ → ℕ) (c : Fin n) : ℕ → ℕ :=
  (List.finRange 4).foldl (fun buf (g : Fin 4) =>
    ((s.groupValues c g).zipIdx).foldl (fun buf (p : ℕ × ℕ) =>
      Function.update buf (c.val + n * (g.val + pairAbstractionGroups * p.2)) (p.1 % 2 ^ 16)) buf) buf

/-- The loop `output_set.rs:441-465`. -/
def writeGroups (s : Bitmap n) : ℕ → ℕ := (List.finRange n).foldl (writeChannel s) fun _ => 0

/-- `for chunk in abstraction.chunks_mut(channels) { chunk.sort_unstable() }`, `output_set.rs:467-469`:
the entry `i` of the result. -/
def sortChunks (n : ℕ) (buf : ℕ → ℕ) (i : ℕ) : ℕ :=
  (sortAsc ((List.range n).map fun j => buf (i / n * n + j)))[i % n]?.getD 0

/-- The transposition of chunks of length `4 * channels`, `output_set.rs:471-480`: `chunk[i + j * 4] =
tmp[j + i * channels]`. -/
def transposeChunks (n : ℕ) (buf : ℕ → ℕ) (k : ℕ) : ℕ :=
  let base := k / (4 * n) * (4 * n)
  let i := k % (4 * n) % 4
  let j := k % (4 * n) / 4
  buf (base + (j + i * n))

/-- `OutputSet::abstraction`, `output_set.rs:438-489`; `none` is a panic: zero channels overflow in
`abstraction_len` (and would make `chunks_mut` panic), more than `MAX_CHANNELS` channels exceed the
capacity of the `CVec`s. -/
def Bitmap.abstraction (s : Bitmap n) : Option (List ℕ) := do
  let len ← abstractionLen n
  if n ≤ maxChannels then
    some ((List.range len).map (transposeChunks n (sortChunks n (writeGroups s))))
  else none

end Sortnet
