import Verif.Proof.Gnp
import Verif.Props.C29

/-!
# C48: generate-and-prune computes the optimum

`gnp` returns the sizes that are logged for the layers 1, 2, ...  `MinSize n k` (Spec/Network.lean) says that `k` is the
minimum size of a sorting network on `n` channels.
-/

namespace Sortnet

open Gnp

/-- C48.  For every number of channels from 2 to `MAX_CHANNELS`, every hash function used by the canonicalization, and every
order in which the hash sets are drained (it may be a different one each time), `gnp` terminates without a panic.  The
number of the last non-empty layer is the minimum size of a sorting network.  All layers before it are non-empty, it has
exactly one set, and the layer after it is the last one that is logged. -/
theorem C48_gnp {n : ℕ} (h2 : 2 ≤ n) (hn : n ≤ 11) (hash : List ℕ → ℕ)
    (order : ℕ → ℕ → List (Bitmap n) → List (Bitmap n)) (ho : ∀ layer i l, (order layer i l).Perm l) :
    ∃ (k : ℕ) (sizes : List ℕ), MinSize n k ∧ gnp hash n order = some (sizes ++ [0]) ∧ sizes.length = k ∧
      (∀ x ∈ sizes, 0 < x) ∧ ∀ x, sizes.getLast? = some x → x = 1 := by
  obtain ⟨k, hk⟩ := exists_isOpt (A := ⟨n, allValues n⟩) ⟨by dsimp only; rw [toSet_allValues]; exact chained_univ, hn⟩
  dsimp only at hk
  rw [toSet_allValues] at hk
  obtain ⟨sizes, h⟩ := gnp_spec (hash := hash) h2 hn ho hk
  exact ⟨k, sizes, isOpt_univ_iff.1 hk, h⟩

/-- With more channels than `MAX_CHANNELS` it panics. -/
theorem C48_too_many {n : ℕ} (hn : 11 < n) (hash : List ℕ → ℕ) (order : ℕ → ℕ → List (Bitmap n) → List (Bitmap n)) :
    gnp hash n order = none := by
  unfold gnp
  rw [if_pos (by unfold maxChannels; omega)]

/-- For example on three channels: three layers, the last one with one set. -/
theorem C48_example (hash : List ℕ → ℕ) (order : ℕ → ℕ → List (Bitmap 3) → List (Bitmap 3))
    (ho : ∀ layer i l, (order layer i l).Perm l) : ∃ a b, gnp hash 3 order = some [a, b, 1, 0] ∧ 0 < a ∧ 0 < b := by
  obtain ⟨k, sizes, hk, e, hl, hp, hlast⟩ := C48_gnp (by norm_num) (by norm_num) hash order ho
  have : k = 3 := (isOpt_univ_iff.2 hk).unique (isOpt_univ_iff.2 C29_three_four.1)
  subst this
  match sizes, hl, hp, hlast, e with
  | [a, b, c], _, hp, hlast, e =>
    have : c = 1 := hlast c rfl
    subst this
    exact ⟨a, b, e, hp a (by simp), hp b (by simp)⟩

end Sortnet
