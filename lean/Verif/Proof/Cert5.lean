import Verif.Props.C57

/-!
# A certificate for five channels

A complete certificate for the verified checker (`checker/snocheck/src/Verified/Checker.hs`), evaluated by the kernel.  It is not
part of the repository.  Together with C57 it gives the least size of sorting networks with 3, 4, 5 and 6 channels.
-/

namespace Sortnet

open Checker KnownBounds

namespace Cert5

/-- The bits of a number, least significant first. -/
def bits (x : ℕ) : List Bool := (List.range 5).map fun i => x.testBit i

/-- A step of the certificate: the vectors as numbers, the bound and the witnesses. -/
def row (vs : List ℕ) (b : ℕ) (ws : List (Option ProofWitness)) : ProofStep := ⟨5, vs.map bits, b, .successor ws⟩

/-- A witness. -/
def wit (id : ℕ) (inv : Bool) (perm : List ℤ) : Option ProofWitness := some ⟨id, inv, perm⟩

/-- The steps of the certificate, found by a search outside Lean. -/
def steps : List ProofStep :=
  [row [0, 4, 16, 20, 24, 28, 30, 31] 2 [none, none],
   row [0, 8, 16, 24, 26, 28, 30, 31] 2 [none, none],
   row [0, 8, 16, 24, 28, 29, 30, 31] 2 [none, none],
   row [0, 16, 18, 24, 26, 28, 30, 31] 2 [none, none],
   row [0, 2, 16, 18, 24, 26, 28, 30, 31] 3 [wit 0 false [0, 1, 2, 3, 4], wit 1 false [0, 1, 2, 3, 4], wit 3 false [0,
     1, 2, 3, 4]],
   row [0, 4, 16, 20, 22, 24, 28, 30, 31] 3 [wit 0 false [0, 1, 2, 3, 4], wit 1 false [0, 1, 2, 3, 4], wit 3 false [0,
     2, 3, 1, 4]],
   row [0, 4, 16, 20, 24, 28, 29, 30, 31] 3 [wit 0 false [0, 1, 2, 3, 4], wit 2 false [0, 1, 2, 3, 4], wit 1 true [3,
     4, 1, 2, 0]],
   row [0, 16, 18, 20, 22, 24, 26, 28, 30, 31] 3 [wit 3 false [0, 2, 3, 1, 4], wit 3 false [0, 2, 1, 3, 4], wit 3
     false [0, 1, 2, 3, 4]],
   row [0, 1, 16, 17, 24, 25, 28, 29, 30, 31] 4 [wit 4 false [0, 1, 2, 3, 4], wit 6 false [0, 1, 2, 3, 4], wit 6 true
     [2, 4, 3, 0, 1], wit 4 true [1, 4, 3, 2, 0]],
   row [0, 4, 16, 20, 21, 24, 28, 29, 30, 31] 4 [wit 5 false [0, 1, 2, 3, 4], wit 6 false [0, 1, 2, 3, 4], wit 6 true
     [2, 4, 3, 0, 1], wit 5 true [2, 4, 1, 3, 0]],
   row [0, 2, 6, 16, 18, 22, 24, 26, 28, 30, 31] 4 [wit 5 false [0, 1, 2, 3, 4], wit 5 false [0, 1, 3, 4, 2], wit 4
     false [0, 1, 2, 3, 4], wit 7 false [0, 1, 2, 3, 4], wit 4 false [0, 1, 2, 3, 4]],
   row [0, 2, 10, 16, 18, 24, 26, 27, 28, 30, 31] 4 [wit 4 false [0, 1, 2, 3, 4], wit 6 false [0, 1, 2, 3, 4], wit 5
     false [0, 3, 1, 4, 2], wit 5 true [4, 3, 2, 1, 0], wit 4 false [0, 1, 2, 3, 4]],
   row [0, 2, 16, 18, 20, 22, 24, 26, 28, 30, 31] 4 [wit 5 false [0, 1, 2, 3, 4], wit 5 false [0, 1, 3, 2, 4], wit 4
     false [0, 1, 2, 3, 4], wit 7 false [0, 1, 2, 3, 4]],
   row [0, 2, 8, 10, 14, 16, 18, 24, 26, 28, 30, 31] 4 [wit 4 false [0, 2, 3, 4, 1], wit 4 false [0, 3, 2, 4, 1], wit
     5 false [0, 3, 1, 2, 4], wit 4 false [0, 1, 2, 3, 4], wit 4 false [0, 1, 2, 3, 4]],
   row [0, 1, 16, 17, 20, 21, 24, 25, 28, 29, 30, 31] 5 [wit 12 false [0, 1, 2, 3, 4], wit 9 false [0, 1, 2, 3, 4],
     wit 9 false [0, 1, 3, 2, 4], wit 8 false [0, 1, 2, 3, 4], wit 12 true [1, 4, 2, 3, 0]],
   row [0, 2, 3, 16, 18, 19, 24, 26, 27, 28, 30, 31] 5 [wit 10 false [0, 1, 2, 3, 4], wit 9 false [0, 1, 2, 3, 4], wit
     11 false [0, 1, 2, 3, 4], wit 11 true [1, 3, 4, 0, 2], wit 9 false [0, 2, 1, 3, 4], wit 10 true [1, 2, 4, 3, 0]],
   row [0, 2, 8, 10, 11, 16, 18, 24, 26, 27, 28, 30, 31] 5 [wit 13 false [0, 1, 2, 3, 4], wit 9 false [0, 1, 2, 4, 3],
     wit 9 false [1, 3, 0, 4, 2], wit 9 false [1, 3, 0, 2, 4], wit 9 false [0, 3, 1, 2, 4], wit 9 false [0, 2, 1, 3,
     4]],
   row [0, 4, 5, 12, 13, 16, 20, 21, 24, 28, 29, 30, 31] 5 [wit 10 false [0, 3, 4, 2, 1], wit 11 false [2, 0, 4, 3,
     1], wit 9 false [0, 1, 3, 4, 2], wit 9 false [0, 1, 2, 3, 4], wit 12 true [1, 4, 2, 3, 0], wit 9 false [0, 1, 2,
     3, 4]],
   row [0, 4, 8, 12, 13, 16, 20, 24, 25, 28, 29, 30, 31] 5 [wit 13 false [0, 2, 1, 3, 4], wit 9 false [0, 1, 2, 4, 3],
     wit 9 false [0, 1, 3, 4, 2], wit 9 false [0, 1, 3, 2, 4], wit 9 false [0, 1, 3, 2, 4], wit 9 false [0, 1, 2, 3,
     4]],
   row [0, 1, 8, 9, 16, 17, 24, 25, 26, 27, 28, 29, 30, 31] 5 [wit 9 false [1, 3, 0, 2, 4], wit 9 false [1, 0, 3, 2,
     4], wit 8 false [0, 1, 2, 3, 4], wit 9 false [3, 0, 1, 4, 2], wit 9 false [3, 0, 1, 2, 4], wit 8 false [0, 1, 2,
     3, 4]],
   row [0, 2, 6, 8, 10, 14, 16, 18, 22, 24, 26, 28, 30, 31] 5 [wit 10 false [0, 3, 4, 1, 2], wit 12 false [0, 2, 3, 4,
     1], wit 13 false [0, 1, 2, 3, 4], wit 12 false [0, 2, 3, 1, 4], wit 13 false [0, 1, 2, 4, 3], wit 10 false [0, 1,
     2, 3, 4]],
   row [0, 2, 3, 8, 10, 11, 16, 18, 19, 24, 26, 27, 28, 30, 31] 6 [wit 20 false [0, 1, 2, 3, 4], wit 17 false [0, 1,
     2, 3, 4], wit 16 false [0, 1, 2, 3, 4], wit 17 true [4, 3, 2, 1, 0], wit 16 false [0, 1, 2, 4, 3], wit 17 true
     [4, 3, 2, 0, 1], wit 15 false [0, 1, 2, 3, 4]],
   row [0, 1, 2, 3, 16, 17, 18, 19, 24, 25, 26, 27, 28, 29, 30, 31] 6 [wit 15 false [0, 1, 2, 3, 4], wit 14 false [1,
     0, 2, 3, 4], wit 14 false [0, 1, 2, 3, 4], wit 19 false [1, 0, 2, 3, 4], wit 19 false [0, 1, 2, 3, 4], wit 14
     false [2, 0, 1, 3, 4], wit 14 false [0, 2, 1, 3, 4]],
   row [0, 1, 4, 5, 12, 13, 16, 17, 20, 21, 24, 25, 28, 29, 30, 31] 6 [wit 20 false [0, 3, 1, 2, 4], wit 17 false [0,
     1, 2, 3, 4], wit 18 false [0, 1, 2, 3, 4], wit 14 false [0, 1, 2, 4, 3], wit 17 false [0, 1, 4, 3, 2], wit 14
     false [0, 1, 2, 3, 4], wit 14 false [0, 1, 2, 3, 4]],
   row [0, 1, 4, 5, 16, 17, 20, 21, 22, 23, 24, 25, 28, 29, 30, 31] 6 [wit 17 false [1, 3, 4, 0, 2], wit 16 true [1,
     3, 0, 4, 2], wit 16 false [0, 2, 4, 1, 3], wit 14 false [0, 1, 2, 3, 4], wit 19 false [0, 1, 2, 3, 4], wit 17
     true [3, 2, 0, 4, 1], wit 14 false [0, 1, 2, 3, 4]],
   row [0, 1, 4, 5, 6, 7, 16, 17, 20, 21, 22, 23, 24, 25, 28, 29, 30, 31] 7 [wit 21 false [2, 3, 4, 0, 1], wit 21 true
     [3, 4, 2, 1, 0], wit 21 false [2, 0, 1, 3, 4], wit 23 false [0, 1, 2, 3, 4], wit 24 false [0, 3, 1, 4, 2], wit 21
     true [3, 1, 0, 4, 2], wit 24 false [0, 1, 2, 3, 4], wit 23 true [0, 2, 3, 4, 1]],
   row [0, 1, 2, 3, 8, 9, 10, 11, 16, 17, 18, 19, 24, 25, 26, 27, 28, 29, 30, 31] 7 [wit 21 false [0, 1, 2, 3, 4], wit
     23 false [1, 0, 2, 3, 4], wit 23 false [0, 1, 2, 3, 4], wit 24 false [3, 0, 1, 4, 2], wit 24 false [0, 3, 1, 4,
     2], wit 24 false [3, 0, 1, 2, 4], wit 24 false [0, 3, 1, 2, 4], wit 22 false [0, 1, 2, 3, 4]],
   row [0, 1, 2, 3, 4, 5, 6, 7, 16, 17, 18, 19, 20, 21, 22, 23, 24, 25, 26, 27, 28, 29, 30, 31] 8 [wit 25 false [1, 2,
     0, 3, 4], wit 25 false [1, 0, 2, 3, 4], wit 25 false [0, 1, 2, 3, 4], wit 26 false [2, 0, 1, 3, 4], wit 26 false
     [0, 2, 1, 3, 4], wit 26 false [0, 1, 2, 3, 4], wit 26 true [3, 0, 1, 4, 2], wit 26 true [0, 3, 1, 4, 2], wit 26
     true [0, 1, 3, 4, 2]],
   row [0, 1, 2, 3, 4, 5, 6, 7, 8, 9, 10, 11, 12, 13, 14, 15, 16, 17, 18, 19, 20, 21, 22, 23, 24, 25, 26, 27, 28, 29,
     30, 31] 9 [wit 27 false [3, 4, 0, 1, 2], wit 27 false [3, 0, 4, 1, 2], wit 27 false [0, 3, 4, 1, 2], wit 27 false
     [3, 0, 1, 4, 2], wit 27 false [0, 3, 1, 4, 2], wit 27 false [0, 1, 3, 4, 2], wit 27 false [3, 0, 1, 2, 4], wit 27
     false [0, 3, 1, 2, 4], wit 27 false [0, 1, 3, 2, 4], wit 27 false [0, 1, 2, 3, 4]]]

/-- The certificate. -/
def cert : ProofCert where
  length := 29
  step := fun i => steps.getD i.toNat (row [] 0 [])

theorem accepted : checkProofGetBound ⟨false, 0⟩ cert = some (5, 9) := by decide +kernel

end Cert5

theorem lowerSizeBound_five : LowerSizeBound 5 9 := (C01_checker_sound _ _ _ _ Cert5.accepted).1

theorem lowerSizeBound_two : LowerSizeBound 2 1 := by
  intro cn h
  rcases cn with _ | ⟨c, l⟩
  · have := h ![true, false] (show (0 : Fin 2) ≤ 1 by decide)
    exact absurd this (by decide)
  · simp

theorem lowerSizeBound_three : LowerSizeBound 3 3 := C57_next_width 2 1 lowerSizeBound_two

theorem lowerSizeBound_four : LowerSizeBound 4 5 := C57_next_width 3 3 lowerSizeBound_three

theorem lowerSizeBound_six : LowerSizeBound 6 12 := C57_next_width 5 9 lowerSizeBound_five

end Sortnet
