import Verif.Props.C02
import Verif.Props.C08
import Verif.Props.C29
import Verif.Props.C35

/-!
# C57: what a bound for `n` channels says about `n + 1` channels

`README.md:5-9` claims that the lower bound of 35 for 11 inputs gives 39 for 12 inputs, and that both are
optimal.
-/

namespace Sortnet

open KnownBounds

/-- A network with 12 channels and 39 comparators (it is not part of the repository; the README refers to
the known ones). -/
def net12 : List (Fin 12 × Fin 12) :=
  [(0,8),(1,7),(2,6),(3,11),(4,10),(5,9),(0,1),(2,5),(3,4),(6,9),(7,8),(10,11),(0,2),(1,6),(5,10),(9,11),
   (0,3),(1,2),(4,6),(5,7),(8,11),(9,10),(1,4),(3,5),(6,8),(7,10),(1,3),(2,5),(6,9),(8,10),(2,3),(4,5),
   (6,7),(8,9),(4,6),(5,7),(3,4),(5,6),(7,8)]

theorem sorting12 : SortingNetwork 12 net12 := sortingNetwork_of_check (by decide +kernel)

/-- `n + 1` copies of the same bound are merged optimally into `b + ⌈log₂ (n + 1)⌉`. -/
theorem isOptMerge_replicate (n b : ℕ) :
    IsOptMerge (List.replicate (n + 1) b) (b + Nat.clog 2 (n + 1)) := by
  rw [isOptMerge_iff (by simp)]
  intro K
  have e : psum (List.replicate (n + 1) b) = (n + 1) * 2 ^ b := by simp [psum]
  rw [e]
  constructor
  · intro h
    have h1 : n + 1 ≤ 2 ^ (K - b) := (Nat.clog_le_iff_le_pow (by norm_num)).1 (by omega)
    calc (n + 1) * 2 ^ b ≤ 2 ^ (K - b) * 2 ^ b := Nat.mul_le_mul_right _ h1
      _ = 2 ^ K := by rw [← pow_add]; congr 1; omega
  · intro h
    have hbK : b ≤ K := by
      have : 2 ^ b ≤ 2 ^ K := le_trans (Nat.le_mul_of_pos_left _ (by omega)) h
      exact (Nat.pow_le_pow_iff_right (by norm_num)).1 this
    have h1 : n + 1 ≤ 2 ^ (K - b) := by
      have h2 : (n + 1) * 2 ^ b ≤ 2 ^ (K - b) * 2 ^ b := by
        rw [← pow_add]; rwa [Nat.sub_add_cancel hbK]
      exact Nat.le_of_mul_le_mul_right h2 (by positivity)
    have := (Nat.clog_le_iff_le_pow (b := 2) (by norm_num)).2 h1
    omega

/-- C57.  If every sorting network on `n` channels has at least `b` comparators, every sorting network on
`n + 1` channels has at least `b + ⌈log₂ (n + 1)⌉`. -/
theorem C57_next_width (n b : ℕ) (h : LowerSizeBound n b) : LowerSizeBound (n + 1) (b + Nat.clog 2 (n + 1)) := by
  rw [← LB_univ_iff] at h ⊢
  refine C08_math (A := Set.univ) true (List.finRange (n + 1)) (List.replicate (n + 1) b)
    (List.nodup_finRange _) (by simp [List.finRange_succ]) (fun _ _ => trivial) ?_ (isOptMerge_replicate n b)
  have : ∀ l : List (Fin (n + 1)),
      List.Forall₂ (fun c b => LB (removeChannel c '' {x ∈ (Set.univ : Set (Fin (n + 1) → Bool)) | x c = true}) b)
        l (List.replicate l.length b) := by
    intro l
    induction l with
    | nil => exact .nil
    | cons c l ih =>
      refine .cons ?_ ih
      have e : removeChannel c '' {x ∈ (Set.univ : Set (Fin (n + 1) → Bool)) | x c = true} = Set.univ := by
        ext y
        simp only [Set.mem_univ, iff_true]
        refine ⟨c.insertNth true y, ⟨trivial, by simp⟩, ?_⟩
        funext i
        simp [removeChannel]
      rw [e]
      exact h
  simpa using this (List.finRange (n + 1))

/-- The program's own way of computing the bound: `max_plus_1_huffman` of `n + 1` copies of `b`. -/
theorem C57_huffman (n b : ℕ) (hb : b < 256) (w : ℕ) (h : maxPlus1Huffman (List.replicate (n + 1) b) = some w) :
    w = b + Nat.clog 2 (n + 1) := by
  have hne : List.replicate (n + 1) b ≠ [] := by simp
  rw [maxPlus1Huffman_spec _ hne (by intro x hx; rw [List.mem_replicate] at hx; omega)
    ((isOptMerge_iff hne).1 (isOptMerge_replicate n b))] at h
  split_ifs at h
  exact (Option.some.inj h).symm

/-- `README.md:5-9`: a lower bound of 35 comparators for 11 channels makes 35 and 39 the minimum sizes of
sorting networks with 11 and 12 channels. -/
theorem C57_twelve (h : LowerSizeBound 11 35) : MinSize 11 35 ∧ MinSize 12 39 :=
  ⟨⟨⟨net11, by decide +kernel, sorting11, by decide +kernel⟩, h⟩,
    ⟨net12, by decide +kernel, sorting12, by decide +kernel⟩, C57_next_width 11 35 h⟩

/-- A file for which `snocheck -v` prints `Just (w, b)` also proves the bound for one more channel. -/
theorem C57_checked (u : Decode.Undef) (v : Checker.Undef) (bytes : List UInt8) (w b : ℤ)
    (h : Decode.mainVerified u v bytes = some (w, b)) :
    LowerSizeBound (w.toNat + 1) (b.toNat + Nat.clog 2 (w.toNat + 1)) :=
  C57_next_width _ _ (Decode.C02_verified_pipeline_sound u v bytes w b h).1

/-- The headline of `README.md:5-9`: a file for which `snocheck -v` prints `Just (11,35)` makes 35 and 39
the minimum sizes of sorting networks with 11 and 12 channels. -/
theorem C57_checked_twelve (u : Decode.Undef) (v : Checker.Undef) (bytes : List UInt8)
    (h : Decode.mainVerified u v bytes = some (11, 35)) : MinSize 11 35 ∧ MinSize 12 39 :=
  C57_twelve (Decode.C02_verified_pipeline_sound u v bytes 11 35 h).1

/-- The same from the search alone: what `search` returns for all vectors on 11 channels plus 4 is a lower
bound for 12 channels, and 35 makes 39 the minimum. -/
theorem C57_search (hash : List ℕ → ℕ) (G : Search.Global)
    (h : Search.Run hash none ⟨11, allValues 11⟩ G) (r : ℕ) (hr : Search.Returned G r) :
    LowerSizeBound 12 (r + 4) ∧ (r = 35 → MinSize 12 39) := by
  have h1 := C29_sorting_network hash 11 (by omega) G h r hr
  have e : Nat.clog 2 (11 + 1) = 4 := by decide +kernel
  refine ⟨e ▸ C57_next_width 11 r h1.2, ?_⟩
  rintro rfl
  exact (C57_twelve h1.2).2

/-- Non-vacuity: the accepted certificate of C02 for three channels gives five comparators for four channels,
and five for four channels give eight for five. -/
example : LowerSizeBound 4 5 ∧ LowerSizeBound 5 8 := by
  have e1 : Nat.clog 2 (3 + 1) = 2 := by decide +kernel
  have e2 : Nat.clog 2 (4 + 1) = 3 := by decide +kernel
  have h := C57_checked _ _ _ _ _ Decode.file3_accepted
  have h1 : LowerSizeBound 4 5 := by simpa [e1] using h
  exact ⟨h1, by simpa [e2] using C57_next_width 4 5 h1⟩

/-- `max_plus_1_huffman` of twelve times 35 is 39. -/
example : maxPlus1Huffman (List.replicate 12 35) = some 39 := by decide +kernel

end Sortnet
