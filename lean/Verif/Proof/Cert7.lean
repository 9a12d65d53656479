import Verif.Props.C57

/-!
# A certificate for seven channels

A complete certificate for the verified checker (`checker/snocheck/src/Verified/Checker.hs`), evaluated by the kernel.  It is not
part of the repository; it was found by a search outside Lean.  With C57 it gives the least size of sorting networks with up to
eight channels.
-/

namespace Sortnet

open Checker KnownBounds

namespace Cert7

/-- The first `n` bits of a number, least significant first. -/
def bits (n x : ℕ) : List Bool := (List.range n).map fun i => x.testBit i

/-- The vectors on `n` channels with the numbers of the bits of `mask`. -/
def vects (n mask : ℕ) : List (List Bool) := ((List.range (2 ^ n)).filter fun x => mask.testBit x).map (bits n)

/-- A witness. -/
def wit (id : ℕ) (inv : Bool) (perm : List ℤ) : Option ProofWitness := some ⟨id, inv, perm⟩

/-- A step by successors. -/
def suc (n mask b : ℕ) (ws : List (Option ProofWitness)) : ProofStep := ⟨n, vects n mask, b, .successor ws⟩

/-- A step by the Huffman bound. -/
def huf (pol : Bool) (n mask b : ℕ) (ws : List (Option ProofWitness)) : ProofStep := ⟨n, vects n mask, b, .huffman pol ws⟩

/-- The steps of the certificate. -/
def steps : List ProofStep :=
  [huf false 3 0xff 3 [none, none, none],
   huf false 3 0xdd 2 [none, none],
   huf false 4 0xdd55 4 [wit 1 false [0,2,1], none, wit 1 false [0,1,2]],
   huf false 4 0xdd11 3 [none, wit 1 false [0,1,2]],
   huf true 4 0xfb51 4 [wit 1 false [0,1,2], wit 1 false [0,2,1], none],
   huf true 5 0xd5451101 4 [wit 4 false [0,1,2,3]],
   huf false 4 0xf131 3 [wit 1 false [2,0,1], none],
   huf false 5 0xf1311101 4 [none, wit 6 false [0,1,2,3]],
   huf false 5 0xdd051101 4 [none, wit 6 false [1,3,0,2]],
   suc 5 0xdd0d1101 5 [wit 5 false [0,1,2,3,4], wit 7 false [0,1,2,3,4], wit 8 false [0,1,2,3,4], wit 7 true [4,2,3,1,0],
     wit 8 true [4,1,3,2,0], wit 5 true [4,1,3,2,0]],
   huf false 5 0xf1315111 5 [none, wit 6 false [1,0,2,3], wit 6 false [0,1,2,3]],
   huf false 5 0xdf015501 5 [wit 4 true [3,1,2,0], none],
   huf false 4 0xd555 3 [none, none, none],
   huf true 4 0xfbf3 5 [wit 1 false [0,1,2], wit 0 false [0,1,2], none, wit 1 false [2,0,1]],
   huf true 5 0xd5455505 5 [wit 13 false [0,1,2,3]],
   suc 5 0xdd0d5505 6 [wit 14 false [0,1,2,3,4], wit 10 false [0,1,2,3,4], wit 11 true [3,1,4,0,2], wit 11 false
     [0,1,2,3,4], wit 9 false [0,1,2,3,4], wit 10 false [0,4,1,3,2], wit 11 false [0,4,2,1,3]],
   huf false 5 0xd545d545 6 [wit 2 false [0,1,3,2], wit 2 false [0,1,3,2], none],
   huf false 5 0xf131f131 6 [wit 4 false [1,0,3,2], wit 2 true [1,3,0,2], none],
   suc 5 0xdd0ddd0d 7 [wit 16 false [0,1,2,3,4], wit 17 false [0,1,2,3,4], wit 17 false [1,3,0,2,4], wit 16 true
     [1,2,3,0,4], wit 15 false [0,1,2,3,4], wit 15 true [1,4,3,2,0], wit 15 false [2,3,0,1,4], wit 15 true [3,2,1,4,0]],
   huf false 5 0xd151d151 5 [wit 12 false [0,1,2,3], wit 3 false [0,1,3,2], none],
   huf false 5 0xf111f111 5 [wit 12 true [1,2,0,3], wit 12 true [1,2,0,3], none],
   suc 5 0xd1d1d1d1 6 [wit 19 false [0,1,2,3,4], wit 20 false [0,1,2,3,4], wit 19 true [2,1,3,0,4], wit 19 false
     [0,1,2,4,3], wit 20 false [0,1,2,4,3], wit 19 true [2,1,3,4,0], wit 9 false [0,1,4,2,3]],
   suc 5 0xd5d5d5d5 7 [wit 21 false [0,1,2,3,4], wit 16 false [0,1,2,3,4], wit 17 false [1,0,3,2,4], wit 17 false
     [1,3,0,2,4], wit 16 false [0,1,2,4,3], wit 17 false [1,0,3,4,2], wit 17 false [1,3,0,4,2], wit 15 false [0,1,4,2,3]],
   suc 5 0xdddddddd 8 [wit 22 false [0,1,2,3,4], wit 22 true [1,2,0,3,4], wit 22 false [0,1,3,2,4], wit 22 true
     [1,2,3,0,4], wit 18 false [0,1,2,3,4], wit 22 false [0,1,3,4,2], wit 22 true [1,2,3,4,0], wit 18 false [0,1,2,4,3],
     wit 18 false [0,1,4,2,3]],
   suc 5 0xffffffff 9 [wit 23 false [0,1,2,3,4], wit 23 false [0,2,1,3,4], wit 23 false [2,0,1,3,4], wit 23 false
     [0,2,3,1,4], wit 23 false [2,0,3,1,4], wit 23 false [2,3,0,1,4], wit 23 false [0,2,3,4,1], wit 23 false [2,0,3,4,1],
     wit 23 false [2,3,0,4,1], wit 23 false [2,3,4,0,1]],
   huf false 6 0xdddddddddddddddd 11 [wit 24 false [0,1,2,3,4], none, wit 23 false [0,1,2,3,4], wit 23 false [0,1,2,3,4],
     wit 23 false [0,1,2,3,4]],
   huf false 5 0xd501d501 5 [wit 2 false [0,1,3,2], none],
   huf false 6 0xdd0ddd0ddd0ddd0d 10 [wit 23 false [2,0,1,3,4], wit 23 false [0,1,2,3,4], none, wit 18 false [0,1,2,3,4]],
   huf true 6 0xd1d100d151510051 8 [wit 18 false [0,1,2,3,4], none],
   huf false 6 0xf333000151110001 7 [wit 15 false [2,0,1,4,3], none],
   huf false 6 0xf131003151110011 7 [wit 9 false [2,0,1,4,3], wit 10 false [0,1,2,3,4], none],
   huf false 6 0xf531313101010001 7 [none, wit 15 false [2,0,3,1,4]],
   huf false 6 0xf171303100110011 7 [wit 11 false [2,0,1,4,3], none, wit 11 false [2,0,3,1,4]],
   huf true 6 0xfb0b000b51010001 7 [none, wit 9 false [2,0,1,4,3], wit 9 false [1,0,2,3,4]],
   huf true 7 0xd5450045000000451101000100000001 7 [wit 33 false [0,1,2,3,4,5]],
   huf true 6 0xf131003111010001 6 [none, wit 9 false [0,1,2,3,4]],
   huf true 6 0xf131003100000031 6 [none, wit 9 false [2,3,0,1,4]],
   huf false 7 0xf1310031000000311101000100000001 7 [none, wit 36 false [0,1,2,3,4,5]],
   huf true 5 0xf3230023 5 [none, wit 4 false [2,1,0,3]],
   huf true 6 0xdd05040500000405 6 [wit 38 false [0,1,2,3,4], none],
   huf false 7 0xdd050405000004051101000100000001 7 [none, wit 39 false [0,1,2,3,4,5]],
   huf true 7 0xdf010301000003011101000100000001 7 [none, wit 35 false [0,1,2,3,4,5]],
   huf false 6 0xdd0d000511010001 6 [wit 9 false [0,1,2,3,4], none],
   huf false 7 0xdd0d0005000400051101000100000001 7 [wit 42 false [0,1,2,3,4,5], none],
   huf false 7 0xdd0d000d000000051101000100000001 7 [none, wit 36 true [2,0,5,4,3,1]],
   suc 7 0xdd0d000d0000000d1101000100000001 8 [wit 34 false [0,1,2,3,4,5,6], wit 37 false [0,1,2,3,4,5,6], wit 40 false
     [0,1,2,3,4,5,6], wit 41 false [0,1,2,3,4,5,6], wit 43 false [0,1,2,3,4,5,6], wit 41 true [6,3,5,4,1,2,0], wit 44
     false [0,1,2,3,4,5,6], wit 37 true [6,2,5,4,3,1,0], wit 44 true [6,1,5,4,3,2,0], wit 43 true [6,1,5,4,3,2,0], wit 40
     true [6,1,5,4,3,2,0], wit 34 true [6,1,5,4,3,2,0]],
   huf false 5 0xf1310011 4 [none, wit 6 false [0,1,2,3]],
   huf false 7 0xdd050d05000004051101010100000001 8 [wit 30 false [1,3,0,2,5,4], none],
   huf false 5 0xf1f11111 6 [wit 2 true [1,3,2,0], none, wit 2 true [1,3,0,2]],
   huf false 5 0xdd011101 4 [wit 3 false [0,1,2,3], none],
   huf false 5 0xd1d11111 5 [wit 3 false [0,1,2,3], none, wit 3 false [0,1,3,2]],
   huf false 6 0xdd0d000111010001 6 [wit 9 false [0,1,2,3,4], none],
   huf false 5 0xdd011d01 5 [wit 4 true [3,0,2,1], none],
   huf false 6 0xdd011d0100000101 6 [none, wit 52 false [0,1,2,3,4]],
   huf true 5 0xf1b15111 6 [wit 2 false [0,1,3,2], wit 2 false [0,1,2,3], none],
   huf true 6 0xd501450111010101 6 [wit 54 false [0,1,2,3,4]],
   huf false 6 0xf101310111010101 6 [wit 49 true [4,3,1,2,0], none, wit 49 true [4,3,1,0,2]],
   huf false 6 0xdd01050111010101 6 [none, wit 49 false [0,1,2,3,4], wit 46 false [1,3,0,4,2]],
   huf false 6 0xdf01010111010101 6 [wit 49 false [0,1,2,3,4], wit 49 false [0,1,2,3,4], none],
   huf false 6 0xdd010d0101010101 6 [wit 49 true [4,1,3,2,0], none, wit 49 true [4,1,3,0,2]],
   suc 6 0xdd010d0111010101 7 [wit 55 false [0,1,2,3,4,5], wit 56 false [0,1,2,3,4,5], wit 57 false [0,1,2,3,4,5], wit 58
     false [0,1,2,3,4,5], wit 51 false [0,1,2,3,4,5], wit 59 false [0,1,2,3,4,5], wit 36 true [5,4,2,3,0,1], wit 53 false
     [0,1,2,3,4,5]],
   huf false 5 0xf1f10011 5 [none, wit 2 true [1,3,0,2]],
   huf false 7 0xdf010f01000003011101010100000001 8 [wit 60 false [0,1,2,3,4,5], none],
   huf true 6 0xfbbb000b51110001 8 [none, wit 15 true [3,1,4,0,2], wit 9 false [1,0,2,3,4], wit 9 false [1,0,2,3,4]],
   huf true 7 0xd5454545000000451101010100000001 8 [wit 63 false [0,1,2,3,4,5]],
   huf true 6 0xf131313111010101 7 [none, wit 21 false [0,1,3,4,2]],
   huf false 7 0xf1313131000000311101010100000001 8 [none, wit 29 true [5,4,0,2,3,1]],
   huf false 7 0xdd0d0d0d000000051101010100000001 8 [none, wit 29 false [0,5,1,2,3,4]],
   suc 7 0xdd0d0d0d0000000d1101010100000001 9 [wit 64 false [0,1,2,3,4,5,6], wit 66 false [0,1,2,3,4,5,6], wit 47 false
     [0,1,2,3,4,5,6], wit 62 false [0,1,2,3,4,5,6], wit 47 false [0,1,2,4,3,5,6], wit 62 false [0,1,2,4,3,5,6], wit 45
     false [0,1,2,3,4,5,6], wit 67 false [0,1,2,3,4,5,6], wit 66 true [6,2,5,3,4,1,0], wit 67 true [6,1,5,3,4,2,0], wit 47
     true [6,1,5,3,4,2,0], wit 47 true [6,1,5,4,3,2,0], wit 64 true [6,1,5,3,4,2,0]],
   huf false 7 0xdd050d050d000d051101010101000101 9 [none, wit 60 false [0,1,2,3,4,5], wit 60 false [2,4,0,3,1,5]],
   suc 5 0xffbf5111 7 [wit 21 false [0,1,3,4,2], wit 54 false [0,1,2,3,4], wit 54 false [0,1,2,3,4], wit 54 false
     [0,1,3,2,4], wit 54 false [0,1,3,2,4], wit 15 true [1,4,3,2,0], wit 54 false [0,1,4,3,2], wit 16 true [2,1,3,4,0],
     wit 16 true [1,2,4,3,0]],
   huf true 6 0xd555455511010101 7 [wit 70 false [0,1,2,3,4]],
   huf false 6 0xdf1f0d0f00010001 7 [none, wit 16 false [4,1,0,2,3]],
   huf false 6 0xdf0f1d0f00000101 7 [none, wit 16 false [4,1,0,2,3]],
   suc 6 0xdf0f0d0f11010101 8 [wit 60 false [0,1,2,3,4,5], wit 71 false [0,1,2,3,4,5], wit 72 true [4,5,3,1,0,2], wit 60
     false [0,1,2,3,4,5], wit 60 false [0,1,2,3,4,5], wit 60 false [0,1,2,4,3,5], wit 60 false [0,1,2,4,3,5], wit 31 true
     [4,3,5,2,0,1], wit 32 false [0,3,1,4,2,5], wit 72 false [0,1,2,3,4,5], wit 73 false [0,1,2,3,4,5]],
   huf false 7 0xdf010f010d000f011101010101000101 9 [wit 74 false [0,1,2,3,4,5], none, wit 31 false [0,2,1,5,3,4]],
   huf false 6 0xdd0d05050d040505 7 [none, wit 61 true [2,0,4,1,3], wit 61 true [2,0,4,3,1]],
   huf false 7 0xdd0d05050d0405051101010101000101 9 [none, wit 60 false [0,1,2,4,3,5], wit 76 false [0,1,2,3,4,5]],
   huf false 7 0xdf0f01010f0301011101010101000101 9 [none, wit 60 false [0,1,2,4,3,5], wit 32 false [0,3,1,2,5,4]],
   huf false 6 0xdd1d0d0d00010001 7 [none, wit 15 false [2,3,0,1,4]],
   huf false 7 0xdd1d0d0d0d010d0d0001000100000001 9 [none, wit 63 true [5,0,4,1,2,3]],
   huf false 7 0xdd0d1d0d0d000d0d0000010100000101 9 [none, none, wit 28 false [3,4,0,2,1,5]],
   huf true 6 0xfbbbb0bb51111011 9 [wit 52 true [3,0,1,2,4], wit 18 false [0,3,2,4,1], none, wit 21 false [1,0,3,4,2], wit
     9 false [1,0,3,2,4]],
   huf true 7 0xd5454545450045451101010101000101 9 [wit 82 false [0,1,2,3,4,5]],
   huf true 6 0xf131313131003131 8 [none, wit 18 false [0,1,3,2,4]],
   huf false 7 0xf1313131310031311101010101000101 9 [none, none, wit 84 false [0,1,2,3,4,5]],
   huf false 7 0xdd0d0d0d0d000d0d0101010101000101 9 [none, none, wit 84 false [0,2,1,3,4,5]],
   suc 7 0xdd0d0d0d0d000d0d1101010101000101 10 [wit 83 false [0,1,2,3,4,5,6], wit 85 false [0,1,2,3,4,5,6], wit 69 false
     [0,1,2,3,4,5,6], wit 75 false [0,1,2,3,4,5,6], wit 77 false [0,1,2,3,4,5,6], wit 78 false [0,1,2,3,4,5,6], wit 68
     false [0,1,2,3,5,4,6], wit 69 false [0,1,2,5,4,3,6], wit 75 false [0,1,2,5,4,3,6], wit 68 false [0,1,2,3,4,5,6], wit
     68 false [0,1,2,3,4,5,6], wit 86 false [0,1,2,3,4,5,6], wit 80 false [0,1,2,3,4,5,6], wit 81 false [0,1,2,3,4,5,6],
     wit 80 false [0,1,2,5,4,3,6]],
   huf false 7 0xdddd000d00dd000d1111000100110001 10 [wit 28 false [0,1,5,3,4,2], none, wit 28 false [3,4,1,0,2,5]],
   huf true 6 0xd545d54511011101 8 [wit 18 false [0,2,3,4,1], none],
   huf false 7 0xd545d5450000d5451101110100001101 10 [none, wit 89 false [0,1,2,3,4,5], wit 84 false [1,3,4,5,0,2]],
   huf false 6 0xf1f100f111110011 8 [none, wit 48 false [0,1,2,3,4], wit 15 true [1,4,0,3,2]],
   huf false 6 0xf131f13111011101 8 [wit 48 false [0,1,2,3,4], none, wit 54 false [1,0,2,4,3]],
   huf false 7 0xf131f1310000f1311101110100001101 10 [none, wit 92 false [0,1,2,3,4,5], wit 91 false [0,1,2,5,3,4]],
   huf false 6 0xdd05dd0511011101 8 [wit 21 false [0,1,3,4,2], none, wit 54 false [0,4,1,2,3]],
   huf false 7 0xdd05dd050000dd051101110100001101 10 [none, wit 94 false [0,1,2,3,4,5], wit 91 false [0,2,1,5,3,4]],
   suc 7 0xdd0ddd0d0000dd0d1101110100001101 11 [wit 90 false [0,1,2,3,4,5,6], wit 93 false [0,1,2,3,4,5,6], wit 95 false
     [0,1,2,3,4,5,6], wit 93 true [6,2,3,1,5,4,0], wit 90 false [0,1,4,5,2,3,6], wit 93 false [0,1,4,5,2,3,6], wit 87
     false [0,1,2,3,4,5,6], wit 88 false [0,1,2,3,4,5,6], wit 95 false [0,1,4,5,2,3,6], wit 93 true [6,2,5,4,3,1,0], wit
     88 false [0,1,3,5,2,4,6], wit 87 true [6,1,3,4,5,2,0], wit 95 true [6,1,3,2,5,4,0], wit 90 true [6,1,3,2,5,4,0], wit
     95 true [6,1,5,4,3,2,0], wit 90 true [6,1,5,4,3,2,0]],
   huf false 6 0xf131f13151115111 9 [wit 18 false [0,2,3,4,1], wit 54 false [0,1,2,3,4], none, wit 54 false [1,0,2,4,3]],
   huf false 7 0xf131f1310000f1315111511100005111 11 [wit 91 false [0,1,2,3,4,5], none, wit 97 false [0,1,2,3,4,5], wit 91
     false [0,1,2,5,3,4]],
   huf true 6 0xd5d500d555550055 9 [wit 23 false [2,3,0,1,4], none],
   huf true 6 0xdfdf00df05050005 9 [wit 18 false [4,0,2,3,1], wit 18 false [0,4,2,3,1], none],
   huf false 5 0xf5015501 5 [wit 2 false [0,2,1,3], none],
   huf false 6 0xf501110155011101 7 [wit 101 false [0,1,2,3,4], wit 101 false [0,1,2,3,4], none],
   huf false 6 0xff01130105010101 7 [none, wit 61 false [0,3,1,4,2], wit 61 false [0,1,3,4,2]],
   huf false 5 0xff570011 6 [none, wit 13 true [2,0,3,1]],
   huf false 5 0xff015701 6 [wit 13 true [2,0,3,1], none],
   huf false 6 0xff01570100001101 7 [none, wit 105 false [0,1,2,3,4]],
   huf false 6 0xdd01150155011101 7 [wit 101 false [0,2,1,3,4], wit 101 false [0,2,1,3,4], none],
   huf false 6 0xff13000155110001 7 [wit 54 false [0,1,3,2,4], none],
   suc 6 0xff01130155011101 8 [wit 107 false [0,1,2,3,4,5], wit 102 false [0,1,2,3,4,5], wit 60 false [2,0,1,3,5,4], wit
     102 false [0,1,2,3,4,5], wit 103 false [1,0,2,3,5,4], wit 108 false [0,1,2,3,4,5], wit 32 true [2,5,4,1,3,0], wit 103
     false [0,1,2,3,4,5], wit 102 true [3,4,5,2,1,0], wit 106 false [0,1,2,3,4,5]],
   huf true 6 0xd501d50155015501 8 [wit 22 true [1,2,0,3,4], none],
   huf false 7 0xd501d5010000d5015501550100005501 10 [wit 99 false [0,1,2,3,4,5], wit 110 false [0,1,2,3,4,5], none],
   huf false 6 0xdf01df0105010501 8 [wit 105 false [0,4,1,2,3], none, wit 104 false [0,3,1,4,2]],
   huf false 7 0xdf01df010000df010501050100000501 10 [wit 109 false [0,5,2,1,4,3], none, wit 84 true [3,4,5,1,2,0]],
   huf false 7 0xff011301330013015501110111001101 10 [wit 112 true [3,5,4,0,2,1], wit 109 false [0,1,2,3,4,5], none],
   huf true 6 0xf1f1d0f151515051 9 [wit 70 false [0,4,1,2,3], wit 105 true [3,0,4,1,2], wit 54 false [0,1,2,3,4], none],
   huf true 7 0xdf010f010d000f015501050105000501 10 [none, wit 115 false [0,1,2,3,4,5]],
   huf false 7 0xdf01ff01000013015501550100001101 10 [wit 112 false [0,1,4,2,3,5], wit 112 false [0,1,2,3,4,5], none],
   huf true 6 0xdfdf000f55550005 9 [wit 22 true [3,1,2,0,4], wit 18 false [0,4,2,3,1], none],
   huf false 7 0xdf01df0100000f015501550100000501 10 [wit 118 false [0,1,2,3,4,5], wit 112 false [0,1,2,3,4,5], none],
   huf false 7 0xdf01df010000df010000550100005501 10 [wit 112 true [3,1,4,5,0,2], none, wit 84 true [3,4,5,1,2,0]],
   huf true 6 0xd5d555d500000055 8 [wit 22 true [3,4,1,2,0], none],
   huf true 6 0xd555555500000505 7 [wit 22 true [3,1,4,2,0]],
   suc 6 0xdf0f5d0f00000505 8 [wit 102 false [0,5,1,4,2,3], wit 122 false [0,1,2,3,4,5], wit 102 false [1,0,4,5,2,3], wit
     102 false [0,5,1,4,2,3], wit 31 true [4,2,5,0,3,1], wit 102 false [0,5,1,4,2,3], wit 60 false [0,1,2,4,5,3], wit 102
     false [1,4,0,5,2,3], wit 60 false [2,4,0,1,5,3], wit 79 false [0,1,2,4,3,5], wit 79 false [2,4,0,1,3,5]],
   suc 6 0xdfdf55df00000055 9 [wit 123 false [2,3,1,0,4,5], wit 121 false [0,1,2,3,4,5], wit 84 true [3,2,0,5,4,1], wit
     110 false [0,5,4,1,2,3], wit 112 false [0,2,4,5,1,3], wit 123 false [0,1,2,3,4,5], wit 110 false [0,5,4,1,2,3], wit
     92 true [5,2,4,3,0,1], wit 109 false [0,5,1,2,4,3], wit 94 true [3,2,4,5,1,0], wit 110 true [3,1,4,5,2,0], wit 84
     true [3,0,2,5,4,1]],
   huf false 7 0xdf01df015501df010000000000005501 10 [none, wit 124 false [0,4,3,5,2,1]],
   huf true 6 0xdf55455555550055 9 [wit 23 false [2,3,0,1,4], none],
   huf false 7 0xdf015501450055015501550100005501 10 [wit 126 false [0,1,2,3,4,5], wit 121 false [0,4,3,5,1,2], none],
   huf false 6 0xdfdf000155550001 8 [wit 70 true [4,1,2,3,0], none],
   huf false 7 0xdfdf000100df00015555000100550001 10 [wit 128 false [0,1,2,3,4,5], none, wit 84 true [3,4,5,2,1,0]],
   huf false 7 0xdf01dfdf000000015501555500000001 10 [wit 118 false [0,1,2,4,3,5], none],
   suc 7 0xdf01df010000df015501550100005501 11 [wit 111 false [0,1,2,3,4,5,6], wit 111 false [0,1,2,3,4,5,6], wit 95 true
     [3,6,1,0,5,4,2], wit 127 false [0,1,2,3,4,5,6], wit 114 false [0,1,2,3,4,5,6], wit 116 false [0,1,2,3,4,5,6], wit 129
     false [0,1,2,3,4,5,6], wit 116 true [3,4,5,2,6,0,1], wit 117 false [0,1,2,3,4,5,6], wit 119 false [0,1,2,3,4,5,6],
     wit 130 false [0,1,2,3,4,5,6], wit 93 true [6,2,3,1,5,4,0], wit 113 false [0,1,2,3,4,5,6], wit 111 true
     [3,1,6,2,5,4,0], wit 120 false [0,1,2,3,4,5,6], wit 125 false [0,1,2,3,4,5,6]],
   huf false 7 0xf1310031000000315111001100000011 8 [none, wit 60 false [2,0,3,1,5,4], wit 36 false [0,1,2,3,4,5]],
   huf false 7 0xdf010301000003015501010100000101 8 [none, wit 60 false [2,1,0,3,5,4], none],
   huf false 7 0xdd0f0001000300015505000100010001 8 [wit 79 false [2,3,0,1,5,4], wit 79 false [2,3,0,1,5,4], none],
   huf false 7 0xdd0d000f000000015505000500000001 8 [wit 60 false [2,3,0,1,5,4], none],
   huf true 6 0xfb0b000bf3030003 8 [none, wit 21 false [3,0,1,2,4], wit 15 false [1,0,2,3,4], none],
   huf true 7 0xd5450045000000455505000500000005 8 [wit 136 false [0,1,2,3,4,5]],
   huf false 7 0xdd050405000004055505000500000005 8 [none, wit 65 false [1,3,0,2,5,4], wit 39 false [0,1,2,3,4,5]],
   huf false 7 0xdd0d0005000400055505000500000005 8 [none, wit 31 false [1,3,0,2,5,4], none],
   huf false 7 0xdd0d000d000000055505000500000005 8 [none, wit 60 false [2,3,0,1,5,4], wit 36 true [2,0,5,4,3,1]],
   suc 7 0xdd0d000d0000000d5505000500000005 9 [wit 137 false [0,1,2,3,4,5,6], wit 132 false [0,1,2,3,4,5,6], wit 138 false
     [0,1,2,3,4,5,6], wit 133 false [0,1,2,3,4,5,6], wit 139 false [0,1,2,3,4,5,6], wit 134 false [0,1,2,3,4,5,6], wit 140
     false [0,1,2,3,4,5,6], wit 135 false [0,1,2,3,4,5,6], wit 45 false [0,1,2,3,4,5,6], wit 132 false [0,6,1,3,4,5,2],
     wit 133 false [0,6,2,1,4,5,3], wit 134 false [0,6,2,3,1,5,4], wit 135 false [0,6,2,3,4,1,5]],
   huf false 7 0xdf010f01000003015501050100000101 9 [wit 79 false [2,3,0,1,5,4], wit 102 false [0,2,1,3,4,5], none],
   huf false 6 0xf131313151111111 8 [wit 15 false [2,0,1,4,3], none, wit 61 true [2,4,0,3,1], wit 101 false [1,0,3,2,4]],
   huf false 7 0xf1313131000000315111111100000011 9 [none, wit 143 false [0,1,2,3,4,5], wit 29 true [5,4,0,2,3,1]],
   huf false 7 0xdd050d05000004055505050500000005 9 [none, wit 143 false [1,3,0,2,5,4], none],
   huf false 7 0xdd0d0d0f000000015505050500000001 9 [wit 143 false [0,2,1,3,4,5], none],
   huf true 6 0xfbbb000bf3330003 9 [none, wit 22 true [3,1,2,0,4], wit 101 false [2,0,1,3,4], wit 15 false [1,0,2,3,4],
     wit 26 false [4,0,1,2,3]],
   huf true 7 0xd5454545000000455505050500000005 9 [wit 147 false [0,1,2,3,4,5]],
   huf false 7 0xdd0d0d0d000000055505050500000005 9 [none, wit 143 false [0,2,1,3,4,5], wit 29 false [0,5,1,2,3,4]],
   suc 7 0xdd0d0d0d0000000d5505050500000005 10 [wit 148 false [0,1,2,3,4,5,6], wit 144 false [0,1,2,3,4,5,6], wit 145
     false [0,1,2,3,4,5,6], wit 142 false [0,1,2,3,4,5,6], wit 145 false [0,1,2,4,3,5,6], wit 142 false [0,1,2,4,3,5,6],
     wit 141 false [0,1,2,3,4,5,6], wit 149 false [0,1,2,3,4,5,6], wit 146 false [0,1,2,3,4,5,6], wit 68 false
     [0,1,2,3,4,5,6], wit 144 false [0,6,1,3,4,5,2], wit 142 false [0,6,2,1,4,5,3], wit 142 false [0,6,2,4,1,5,3], wit 146
     false [0,6,2,3,4,1,5]],
   huf false 7 0xdf0f01010f0301015505010105010101 10 [none, wit 84 false [0,4,1,3,5,2], wit 102 false [0,2,1,4,3,5], wit
     107 false [2,1,0,4,3,5]],
   huf false 7 0xdd0d05050d0405055505050505000505 10 [none, wit 143 false [1,3,0,2,5,4], wit 143 false [1,3,0,5,2,4], wit
     76 false [0,1,2,3,4,5]],
   huf false 7 0xf1313131310031315111111111001111 10 [none, wit 143 false [0,1,2,3,4,5], wit 143 false [0,1,2,3,4,5], wit
     84 false [0,1,2,3,4,5]],
   huf true 6 0xfbbbb0bbf3333033 10 [none, wit 23 false [2,1,0,3,4], wit 101 false [2,0,1,3,4], wit 22 false [1,0,3,4,2],
     wit 101 false [2,0,3,1,4], wit 104 true [2,4,0,3,1]],
   huf true 7 0xd5454545450045455505050505000505 10 [wit 154 false [0,1,2,3,4,5]],
   suc 7 0xdd0d0d0d0d000d0d5505050505000505 11 [wit 155 false [0,1,2,3,4,5,6], wit 153 false [0,1,2,3,4,5,6], wit 125 true
     [3,1,6,0,5,4,2], wit 116 false [0,1,2,3,4,5,6], wit 152 false [0,1,2,3,4,5,6], wit 151 false [0,1,2,3,4,5,6], wit 150
     false [0,1,2,3,5,4,6], wit 125 true [3,1,6,4,5,0,2], wit 116 false [0,1,2,5,4,3,6], wit 150 false [0,1,2,3,4,5,6],
     wit 150 false [0,1,2,3,4,5,6], wit 87 false [0,1,2,3,4,5,6], wit 153 false [0,6,1,3,4,5,2], wit 116 false
     [0,6,2,1,4,5,3], wit 151 false [0,6,2,3,1,5,4], wit 116 false [0,6,2,5,4,1,3]],
   huf false 7 0xdddd000d00dd000d5555000500550005 11 [none, wit 118 true [4,2,1,5,0,3], wit 121 false [0,1,3,4,5,2], wit
     109 false [0,5,2,1,3,4]],
   huf false 7 0xdf01ff11000003015501551100000101 10 [wit 128 false [0,1,2,3,4,5], wit 128 false [0,1,2,4,3,5], none],
   huf false 7 0xd545d5d5000000455505555500000005 10 [none, wit 99 false [0,1,2,4,3,5], none],
   huf false 6 0xdd05dd5555055555 9 [wit 101 false [0,1,3,2,4], none, wit 22 false [0,1,3,4,2], wit 101 false [0,2,1,3,4],
     wit 54 false [0,4,1,2,3]],
   huf false 7 0xdd05dd55000004055505555500000005 10 [none, wit 160 false [0,1,2,3,4,5], none],
   huf false 7 0xdd0ddddf000000015505555500000001 10 [wit 160 false [0,1,2,3,4,5], none],
   suc 7 0xdd0ddddd0000000d5505555500000005 11 [wit 159 false [0,1,2,3,4,5,6], wit 120 false [4,0,6,1,2,3,5], wit 161
     false [0,1,2,3,4,5,6], wit 158 false [0,1,2,3,4,5,6], wit 150 false [0,1,2,3,4,5,6], wit 159 false [0,1,4,3,2,5,6],
     wit 120 false [4,0,2,1,6,3,5], wit 150 false [0,1,2,3,4,5,6], wit 150 false [0,1,3,2,4,5,6], wit 127 true
     [3,1,5,4,6,0,2], wit 162 false [0,1,2,3,4,5,6], wit 87 true [6,1,3,4,5,2,0], wit 120 false [4,5,0,1,2,3,6], wit 158
     false [0,6,2,1,4,5,3], wit 120 false [4,5,2,1,0,3,6], wit 162 false [0,6,2,3,4,1,5]],
   huf true 6 0xd545d54555055505 9 [wit 23 false [2,0,1,3,4], none],
   huf false 7 0xd545d5450000d5455505550500005505 11 [none, wit 143 false [1,2,3,0,5,4], wit 164 false [0,1,2,3,4,5], wit
     84 false [1,3,4,5,0,2]],
   suc 7 0xdd0ddd0d0000dd0d5505550500005505 12 [wit 165 false [0,1,2,3,4,5,6], wit 98 false [0,1,2,3,4,5,6], wit 131 true
     [3,1,6,0,5,4,2], wit 131 false [0,1,2,3,4,5,6], wit 165 false [0,1,4,5,2,3,6], wit 98 false [0,1,4,5,2,3,6], wit 156
     false [0,1,2,3,4,5,6], wit 157 false [0,1,2,3,4,5,6], wit 131 true [3,1,5,4,6,0,2], wit 131 false [0,1,4,5,2,3,6],
     wit 157 false [0,1,3,5,2,4,6], wit 163 false [0,1,2,3,4,5,6], wit 96 false [0,1,2,3,4,5,6], wit 98 false
     [0,6,1,3,4,5,2], wit 131 false [0,6,2,1,4,5,3], wit 98 false [0,6,4,5,1,3,2], wit 131 false [0,6,4,5,2,1,3]],
   huf true 6 0xd101d10151015101 7 [wit 21 false [0,1,2,3,4], none],
   huf false 7 0xd101d1010000d1015101510100005101 9 [wit 108 true [4,3,1,5,0,2], wit 167 false [0,1,2,3,4,5], none],
   huf false 6 0xf101f10111011101 7 [wit 61 false [0,1,2,3,4], none, wit 50 true [2,4,1,0,3]],
   huf false 7 0xf101f1010000f1011101110100001101 9 [wit 103 false [0,2,3,1,4,5], none, wit 60 true [3,5,1,0,4,2]],
   huf false 7 0xd101510140005101d101510140005101 9 [wit 167 false [0,2,3,1,5,4], wit 167 false [0,1,2,3,5,4], none],
   huf false 7 0xf101110130001101f101110130001101 9 [wit 169 false [0,1,3,2,5,4], wit 169 false [0,1,2,3,5,4], none],
   huf false 7 0xdd0101010d000101dd0101010d000101 9 [wit 169 false [0,2,1,3,5,4], wit 169 true [3,2,5,0,1,4], none],
   huf false 7 0xd1d1000100d10001d1d1000100d10001 9 [wit 169 false [0,2,3,1,5,4], wit 167 true [3,2,1,5,0,4], none],
   suc 7 0xd101d1010000d101d101d1010000d101 10 [wit 171 false [0,1,2,3,4,5,6], wit 172 false [0,1,2,3,4,5,6], wit 173
     false [0,1,2,3,4,5,6], wit 174 false [0,1,2,3,4,5,6], wit 174 true [4,2,1,0,5,3,6], wit 173 true [3,4,1,0,5,2,6], wit
     172 true [3,2,4,0,5,1,6], wit 171 true [3,2,1,4,5,0,6], wit 168 false [0,1,2,3,4,5,6], wit 170 false [0,1,2,3,4,5,6],
     wit 170 true [3,2,6,0,5,4,1], wit 168 true [3,2,1,6,5,4,0], wit 141 false [2,3,4,5,0,1,6], wit 141 true
     [5,4,3,2,1,6,0]],
   huf false 7 0xf501f5010000f5011101110100001101 10 [wit 109 false [0,2,5,1,4,3], none, wit 28 true [2,5,1,0,4,3]],
   huf false 7 0xf501110131001101f501110131001101 10 [wit 97 false [0,1,5,2,3,4], none, none],
   huf false 7 0xd501550140005501d501550140005501 10 [wit 164 false [0,1,5,2,3,4], wit 110 false [0,1,2,3,5,4], none],
   huf false 7 0xd5d5000100d50001d5d5000100d50001 10 [wit 143 false [0,2,5,1,3,4], wit 110 true [3,1,2,5,0,4], none],
   suc 7 0xd501d5010000d501d501d5010000d501 11 [wit 175 false [0,1,2,3,4,5,6], wit 178 false [0,1,2,3,4,5,6], wit 177
     false [0,1,2,3,4,5,6], wit 177 false [0,2,1,3,4,5,6], wit 179 false [0,1,2,3,4,5,6], wit 179 true [4,1,2,0,5,3,6],
     wit 177 true [3,4,2,0,5,1,6], wit 177 true [3,2,4,0,5,1,6], wit 178 true [3,1,2,4,5,0,6], wit 111 false
     [0,1,2,3,4,5,6], wit 176 false [0,1,2,3,4,5,6], wit 176 false [0,2,1,3,4,5,6], wit 111 true [3,1,2,6,5,4,0], wit 150
     false [2,3,4,5,0,1,6], wit 150 true [5,3,4,2,1,6,0]],
   huf false 7 0xdd45dd450000dd450505050500000505 11 [none, wit 109 false [0,5,2,1,4,3], wit 112 true [3,0,5,1,4,2], wit
     100 true [5,0,1,2,4,3]],
   huf false 7 0xf555110131111101f555110131111101 11 [wit 143 false [0,1,5,2,3,4], wit 118 true [4,5,2,3,0,1], wit 128
     true [4,5,1,2,0,3], none],
   huf false 7 0xdd4505050d040505dd4505050d040505 11 [wit 143 false [0,1,5,2,3,4], wit 97 false [0,5,1,2,3,4], wit 112
     true [3,0,5,1,2,4], none],
   huf false 6 0xf555f55511013111 9 [wit 15 true [3,1,2,4,0], wit 54 false [0,1,4,3,2], none, wit 22 false [0,3,1,2,4]],
   huf false 7 0xf555f555000011011101311100001101 10 [none, wit 184 false [0,1,2,3,4,5], wit 121 true [5,1,4,3,2,0]],
   huf true 6 0xd151f151d151f151 9 [wit 23 false [0,1,2,3,4], none, none],
   huf false 7 0xd151f15100001101d151f15100001101 10 [none, wit 186 false [0,1,2,3,4,5], none],
   huf false 7 0xd5f5005500110001d5f5005500110001 10 [none, wit 97 false [0,3,5,1,2,4], none],
   suc 7 0xd545f55500001101d545f55500001101 11 [wit 178 false [0,1,4,5,2,3,6], wit 187 false [0,1,2,3,4,5,6], wit 177 true
     [3,4,2,0,5,1,6], wit 177 true [3,4,2,0,5,1,6], wit 178 false [0,1,4,5,2,3,6], wit 177 false [1,0,4,5,2,3,6], wit 177
     false [1,2,0,5,4,3,6], wit 188 false [0,1,2,3,4,5,6], wit 178 true [3,4,1,2,5,0,6], wit 178 true [3,4,1,2,5,0,6], wit
     159 false [0,3,2,1,4,5,6], wit 185 false [0,1,2,3,4,5,6], wit 185 true [5,2,6,4,3,0,1], wit 116 true [3,4,1,6,5,2,0],
     wit 116 false [2,1,4,5,0,3,6], wit 159 true [5,2,3,4,1,6,0]],
   huf false 7 0xd545dd4500000505d545dd4500000505 11 [wit 128 false [0,1,5,2,4,3], wit 128 false [0,5,1,2,4,3], wit 186
     false [0,2,1,3,4,5], none],
   huf false 7 0xd545554540005545d545554540005545 11 [wit 164 false [0,1,5,2,3,4], wit 164 false [0,1,5,2,3,4], wit 164
     false [0,1,2,3,5,4], none],
   huf false 6 0xd5d50055d5d50055 9 [wit 54 false [0,4,1,2,3], wit 54 false [0,4,1,2,3], wit 22 false [0,1,2,3,4], none],
   huf false 7 0xd545d54500005545d545d54500005545 11 [wit 192 false [0,1,2,3,4,5], wit 192 false [0,1,2,3,4,5], wit 164
     false [0,1,2,3,4,5], none],
   suc 7 0xd545d5450000d545d545d5450000d545 12 [wit 180 false [0,1,3,2,4,5,6], wit 180 false [0,1,2,3,4,5,6], wit 180
     false [0,1,2,3,4,5,6], wit 191 false [0,1,2,3,4,5,6], wit 182 false [0,1,2,3,4,5,6], wit 183 false [0,1,2,3,4,5,6],
     wit 182 false [0,3,2,1,4,5,6], wit 193 false [0,1,2,3,4,5,6], wit 189 false [0,1,2,3,4,5,6], wit 190 false
     [0,1,2,3,4,5,6], wit 189 false [0,3,2,1,4,5,6], wit 165 false [0,1,2,3,4,5,6], wit 131 true [3,6,1,2,5,4,0], wit 181
     false [0,1,2,3,4,5,6], wit 131 true [3,2,1,6,5,4,0], wit 156 false [2,3,4,5,0,1,6], wit 163 true [5,2,3,4,1,6,0]],
   huf false 7 0xf131f1310000f131f131f1310000f131 12 [wit 27 false [4,0,1,2,3,5], wit 192 true [1,2,0,4,3,5], wit 192
     false [3,0,4,1,2,5], none],
   suc 7 0xdd0ddd0d0000dd0ddd0ddd0d0000dd0d 13 [wit 194 false [0,1,2,3,4,5,6], wit 195 false [0,1,2,3,4,5,6], wit 195
     false [1,3,0,2,4,5,6], wit 194 true [1,2,3,0,5,4,6], wit 194 false [0,1,4,5,2,3,6], wit 195 false [0,1,4,5,2,3,6],
     wit 194 false [4,5,0,1,2,3,6], wit 195 false [4,5,0,1,2,3,6], wit 195 false [1,3,4,5,0,2,6], wit 194 true
     [1,2,5,4,3,0,6], wit 195 false [4,5,1,3,0,2,6], wit 194 true [5,4,1,2,3,0,6], wit 166 false [0,1,2,3,4,5,6], wit 166
     true [1,6,3,2,5,4,0], wit 166 false [2,3,0,1,4,5,6], wit 166 true [3,2,1,6,5,4,0], wit 166 false [2,3,4,5,0,1,6], wit
     166 true [3,2,5,4,1,6,0]],
   huf false 6 0xdd55dd55dd55dd55 10 [wit 70 false [0,1,4,2,3], none, wit 70 false [0,4,1,2,3], wit 22 false [0,1,3,2,4],
     wit 22 false [0,1,3,2,4]],
   huf false 7 0xdd0d11010d0d0101dd0d11010d0d0101 11 [wit 94 false [0,1,2,5,3,4], wit 192 false [3,4,0,1,2,5], wit 94
     false [0,1,2,3,5,4], none],
   huf false 6 0xff111111ff111111 9 [none, wit 105 false [0,1,2,3,4], wit 22 true [1,2,3,0,4], wit 48 false [0,1,3,2,4]],
   huf false 7 0xff0f110111011101ff0f110111011101 11 [wit 199 false [0,1,2,3,4,5], wit 192 true [1,2,4,3,0,5], wit 192
     true [1,2,4,3,0,5], none],
   huf true 6 0xd511d511d511d511 9 [wit 23 false [0,2,1,3,4], none, none],
   huf false 7 0xd5451101d5451101d5451101d5451101 11 [wit 201 false [0,1,2,3,4,5], wit 201 false [0,2,1,3,4,5], none, wit
     89 false [0,1,2,3,5,4]],
   huf false 7 0xf1311101f1311101f1311101f1311101 11 [wit 199 false [0,1,3,4,2,5], wit 201 false [1,0,3,2,4,5], none, wit
     92 false [0,1,2,3,5,4]],
   huf false 7 0xdd051101dd051101dd051101dd051101 11 [wit 201 false [0,1,2,3,4,5], wit 201 false [0,2,1,3,4,5], none, wit
     94 false [0,1,2,3,5,4]],
   suc 7 0xdd0d1101dd0d1101dd0d1101dd0d1101 12 [wit 202 false [0,1,2,3,4,5,6], wit 203 false [0,1,2,3,4,5,6], wit 204
     false [0,1,2,3,4,5,6], wit 203 true [4,2,3,1,0,5,6], wit 204 true [4,1,3,2,0,5,6], wit 202 true [4,1,3,2,0,5,6], wit
     180 false [0,1,4,5,3,2,6], wit 200 false [0,1,2,3,4,5,6], wit 198 false [0,1,2,3,4,5,6], wit 198 true
     [4,1,3,5,0,2,6], wit 180 false [0,1,4,5,2,3,6], wit 180 false [0,1,4,5,3,6,2], wit 200 false [0,1,2,3,4,6,5], wit 198
     false [0,1,2,3,4,6,5], wit 198 true [4,1,3,5,0,6,2], wit 180 false [0,1,4,5,2,6,3], wit 96 false [0,1,2,3,6,4,5]],
   huf false 7 0xdd0d55050d0d0505dd0d55050d0d0505 12 [wit 192 false [3,0,1,4,2,5], wit 192 false [0,1,3,2,4,5], wit 192
     false [3,4,0,1,2,5], wit 192 false [0,1,3,4,2,5], none],
   huf false 7 0xdddd5555000d0005dddd5555000d0005 12 [wit 192 true [4,1,2,3,0,5], wit 192 true [4,3,1,2,0,5], wit 197
     false [0,1,2,4,3,5], none],
   huf false 7 0xf1315111f1315111f1315111f1315111 12 [wit 201 false [0,1,3,2,4,5], none, wit 201 false [1,0,3,2,4,5], wit
     97 false [0,1,2,3,5,4], wit 97 false [0,1,2,3,5,4]],
   huf true 6 0xff551311ff551311 10 [wit 23 false [0,2,3,1,4], wit 70 true [4,2,0,1,3], wit 18 false [0,2,1,3,4], none],
   huf false 7 0xff01550113011101ff01550113011101 11 [wit 209 false [0,1,2,3,4,5], none, wit 192 true [4,1,2,0,3,5], wit
     109 false [0,1,2,3,5,4]],
   huf true 6 0xdf550f05df550f05 10 [wit 23 false [2,0,3,1,4], wit 23 false [0,2,1,3,4], none],
   huf false 7 0xdf0155010f010501df0155010f010501 11 [wit 211 false [0,1,2,3,4,5], wit 128 false [2,1,0,4,5,3], wit 128
     false [0,1,2,4,5,3], none],
   huf true 6 0xd555d555d555d555 10 [wit 24 false [0,1,2,3,4], none, none],
   huf false 7 0xd5015501d5015501d5015501d5015501 11 [wit 213 false [0,1,2,3,4,5], none, wit 110 false [0,1,2,3,5,4], wit
     110 false [0,1,2,3,5,4]],
   huf true 6 0xdf05df05df05df05 10 [wit 23 false [2,0,1,3,4], wit 23 false [0,2,1,3,4], none, none],
   huf false 7 0xdf010501df010501df010501df010501 11 [wit 215 false [0,1,2,3,4,5], wit 201 true [2,1,3,0,4,5], none, wit
     112 false [0,1,2,3,5,4]],
   huf false 7 0xdfdf555500010001dfdf555500010001 11 [none, wit 215 false [0,1,2,4,3,5], none],
   suc 7 0xdf015501df015501df015501df015501 12 [wit 214 false [0,1,2,3,4,5,6], wit 214 false [0,1,2,3,4,5,6], wit 204 true
     [3,4,1,0,2,5,6], wit 203 true [4,2,3,1,0,5,6], wit 216 false [0,1,2,3,4,5,6], wit 214 true [3,1,4,2,0,5,6], wit 190
     false [0,2,4,5,1,3,6], wit 210 false [0,1,2,3,4,5,6], wit 212 false [0,1,2,3,4,5,6], wit 217 false [0,1,2,3,4,5,6],
     wit 182 true [4,2,3,0,5,1,6], wit 190 false [0,2,4,5,1,6,3], wit 210 false [0,1,2,3,4,6,5], wit 212 false
     [0,1,2,3,4,6,5], wit 217 false [0,1,2,3,4,6,5], wit 182 true [4,2,3,0,5,6,1], wit 131 false [0,1,2,3,6,4,5]],
   huf false 7 0xd5455505d5455505d5455505d5455505 12 [none, wit 213 false [0,1,2,3,4,5], wit 201 false [0,2,1,3,4,5], wit
     164 false [0,1,2,3,5,4], wit 164 false [0,1,2,3,5,4]],
   suc 7 0xdd0d5505dd0d5505dd0d5505dd0d5505 13 [wit 219 false [0,1,2,3,4,5,6], wit 208 false [0,1,2,3,4,5,6], wit 218 true
     [3,1,4,0,2,5,6], wit 218 false [0,1,2,3,4,5,6], wit 205 false [0,1,2,3,4,5,6], wit 208 false [0,4,1,3,2,5,6], wit 218
     false [0,4,2,1,3,5,6], wit 194 false [0,1,4,5,2,3,6], wit 195 false [1,0,4,5,3,2,6], wit 206 false [0,1,2,3,4,5,6],
     wit 207 false [0,1,2,3,4,5,6], wit 195 false [1,3,4,5,0,2,6], wit 194 false [0,1,4,5,2,6,3], wit 195 false
     [1,0,4,5,3,6,2], wit 206 false [0,1,2,3,4,6,5], wit 207 false [0,1,2,3,4,6,5], wit 195 false [1,3,4,5,0,6,2], wit 166
     false [0,1,2,3,6,4,5]],
   huf false 7 0xd1015101d1015101d1015101d1015101 10 [wit 201 false [0,1,3,2,4,5], none, wit 167 false [0,1,2,3,5,4], wit
     167 false [0,1,2,3,5,4]],
   huf false 6 0xf101f101f101f101 8 [wit 22 true [1,2,0,3,4], none, none],
   huf false 7 0xf1011101f1011101f1011101f1011101 10 [wit 222 false [0,1,2,3,4,5], wit 222 false [0,1,2,3,4,5], none, wit
     169 false [0,1,2,3,5,4]],
   suc 7 0xd101d101d101d101d101d101d101d101 11 [wit 221 false [0,1,2,3,4,5,6], wit 223 false [0,1,2,3,4,5,6], wit 223 true
     [3,2,4,0,1,5,6], wit 221 true [3,2,1,4,0,5,6], wit 221 false [0,1,2,3,5,4,6], wit 223 false [0,1,2,3,5,4,6], wit 223
     true [3,2,4,0,5,1,6], wit 221 true [3,2,1,4,5,0,6], wit 175 false [0,1,2,3,4,5,6], wit 221 false [0,1,2,3,5,6,4], wit
     223 false [0,1,2,3,5,6,4], wit 223 true [3,2,4,0,5,6,1], wit 221 true [3,2,1,4,5,6,0], wit 175 false [0,1,2,3,4,6,5],
     wit 175 false [0,1,2,3,6,4,5]],
   huf false 7 0xf5011101f5011101f5011101f5011101 11 [wit 201 false [0,1,2,3,4,5], wit 201 true [3,2,1,0,4,5], none,
     none],
   suc 7 0xd501d501d501d501d501d501d501d501 12 [wit 224 false [0,1,2,3,4,5,6], wit 214 false [0,1,2,3,4,5,6], wit 225
     false [0,1,2,3,4,5,6], wit 225 false [0,2,1,3,4,5,6], wit 214 true [3,1,2,4,0,5,6], wit 214 false [0,1,2,3,5,4,6],
     wit 225 false [0,1,2,3,5,4,6], wit 225 false [0,2,1,3,5,4,6], wit 214 true [3,1,2,4,5,0,6], wit 180 false
     [0,1,2,3,4,5,6], wit 214 false [0,1,2,3,5,6,4], wit 225 false [0,1,2,3,5,6,4], wit 225 false [0,2,1,3,5,6,4], wit 214
     true [3,1,2,4,5,6,0], wit 180 false [0,1,2,3,4,6,5], wit 180 false [0,1,2,3,6,4,5]],
   huf false 7 0xdd450505dd450505dd450505dd450505 12 [wit 222 false [0,1,2,3,4,5], wit 201 false [0,2,1,3,4,5], wit 215
     true [3,0,1,2,4,5], none, wit 112 true [3,0,5,1,2,4]],
   suc 7 0xd545d545d545d545d545d545d545d545 13 [wit 226 false [0,1,3,2,4,5,6], wit 226 false [0,1,2,3,4,5,6], wit 226
     false [0,1,2,3,4,5,6], wit 219 false [0,1,2,3,4,5,6], wit 218 true [3,4,1,2,0,5,6], wit 227 false [0,1,2,3,4,5,6],
     wit 218 true [3,2,1,4,0,5,6], wit 219 false [0,1,2,3,5,4,6], wit 218 true [3,4,1,2,5,0,6], wit 227 false
     [0,1,2,3,5,4,6], wit 218 true [3,2,1,4,5,0,6], wit 194 false [0,1,2,3,4,5,6], wit 219 false [0,1,2,3,5,6,4], wit 218
     true [3,4,1,2,5,6,0], wit 227 false [0,1,2,3,5,6,4], wit 218 true [3,2,1,4,5,6,0], wit 194 false [0,1,2,3,4,6,5], wit
     194 false [0,1,2,3,6,4,5]],
   huf false 7 0xf131f131f131f131f131f131f131f131 13 [wit 25 false [2,0,1,3,4,5], wit 215 false [0,2,3,1,4,5], none, wit
     201 false [1,0,3,2,4,5], wit 201 false [1,0,3,2,4,5]],
   suc 7 0xdd0ddd0ddd0ddd0ddd0ddd0ddd0ddd0d 14 [wit 228 false [0,1,2,3,4,5,6], wit 229 false [0,1,2,3,4,5,6], wit 229
     false [1,3,0,2,4,5,6], wit 228 true [1,2,3,0,4,5,6], wit 220 false [0,1,2,3,4,5,6], wit 220 true [1,4,3,2,0,5,6], wit
     220 false [2,3,0,1,4,5,6], wit 220 true [3,2,1,4,0,5,6], wit 220 false [0,1,2,3,5,4,6], wit 220 true [1,4,3,2,5,0,6],
     wit 220 false [2,3,0,1,5,4,6], wit 220 true [3,2,1,4,5,0,6], wit 196 false [0,1,2,3,4,5,6], wit 220 false
     [0,1,2,3,5,6,4], wit 220 true [1,4,3,2,5,6,0], wit 220 false [2,3,0,1,5,6,4], wit 220 true [3,2,1,4,5,6,0], wit 196
     false [0,1,2,3,4,6,5], wit 196 false [0,1,2,3,6,4,5]],
   huf false 7 0xf111f111f111f111f111f111f111f111 12 [wit 215 false [0,2,3,1,4,5], wit 215 false [0,2,3,1,4,5], none, wit
     199 false [0,1,3,4,2,5], wit 199 false [0,1,3,4,2,5]],
   suc 7 0xd1d1d1d1d1d1d1d1d1d1d1d1d1d1d1d1 13 [wit 226 false [0,1,3,2,4,5,6], wit 231 false [0,1,2,3,4,5,6], wit 226
     false [0,1,2,3,4,5,6], wit 226 false [0,1,3,4,2,5,6], wit 231 false [0,1,2,4,3,5,6], wit 226 false [0,1,2,4,3,5,6],
     wit 205 false [0,1,4,2,3,5,6], wit 226 false [0,1,3,4,5,2,6], wit 231 false [0,1,2,4,5,3,6], wit 226 false
     [0,1,2,4,5,3,6], wit 205 false [0,1,4,2,5,3,6], wit 205 false [0,1,4,5,2,3,6], wit 226 false [0,1,3,4,5,6,2], wit 231
     false [0,1,2,4,5,6,3], wit 226 false [0,1,2,4,5,6,3], wit 205 false [0,1,4,2,5,6,3], wit 205 false [0,1,4,5,2,6,3],
     wit 205 false [0,1,4,5,6,2,3]],
   suc 7 0xd5d5d5d5d5d5d5d5d5d5d5d5d5d5d5d5 14 [wit 232 false [0,1,2,3,4,5,6], wit 228 false [0,1,2,3,4,5,6], wit 229
     false [1,0,3,2,4,5,6], wit 229 false [1,3,0,2,4,5,6], wit 228 false [0,1,2,4,3,5,6], wit 229 false [1,0,3,4,2,5,6],
     wit 229 false [1,3,0,4,2,5,6], wit 220 false [0,1,4,2,3,5,6], wit 228 false [0,1,2,4,5,3,6], wit 229 false
     [1,0,3,4,5,2,6], wit 229 false [1,3,0,4,5,2,6], wit 220 false [0,1,4,2,5,3,6], wit 220 false [0,1,4,5,2,3,6], wit 228
     false [0,1,2,4,5,6,3], wit 229 false [1,0,3,4,5,6,2], wit 229 false [1,3,0,4,5,6,2], wit 220 false [0,1,4,2,5,6,3],
     wit 220 false [0,1,4,5,2,6,3], wit 220 false [0,1,4,5,6,2,3]],
   suc 7 0xdddddddddddddddddddddddddddddddd 15 [wit 233 false [0,1,2,3,4,5,6], wit 233 true [1,2,0,3,4,5,6], wit 233 false
     [0,1,3,2,4,5,6], wit 233 true [1,2,3,0,4,5,6], wit 230 false [0,1,2,3,4,5,6], wit 233 false [0,1,3,4,2,5,6], wit 233
     true [1,2,3,4,0,5,6], wit 230 false [0,1,2,4,3,5,6], wit 230 false [0,1,4,2,3,5,6], wit 233 false [0,1,3,4,5,2,6],
     wit 233 true [1,2,3,4,5,0,6], wit 230 false [0,1,2,4,5,3,6], wit 230 false [0,1,4,2,5,3,6], wit 230 false
     [0,1,4,5,2,3,6], wit 233 false [0,1,3,4,5,6,2], wit 233 true [1,2,3,4,5,6,0], wit 230 false [0,1,2,4,5,6,3], wit 230
     false [0,1,4,2,5,6,3], wit 230 false [0,1,4,5,2,6,3], wit 230 false [0,1,4,5,6,2,3]],
   suc 7 0xffffffffffffffffffffffffffffffff 16 [wit 234 false [0,1,2,3,4,5,6], wit 234 false [0,2,1,3,4,5,6], wit 234
     false [2,0,1,3,4,5,6], wit 234 false [0,2,3,1,4,5,6], wit 234 false [2,0,3,1,4,5,6], wit 234 false [2,3,0,1,4,5,6],
     wit 234 false [0,2,3,4,1,5,6], wit 234 false [2,0,3,4,1,5,6], wit 234 false [2,3,0,4,1,5,6], wit 234 false
     [2,3,4,0,1,5,6], wit 234 false [0,2,3,4,5,1,6], wit 234 false [2,0,3,4,5,1,6], wit 234 false [2,3,0,4,5,1,6], wit 234
     false [2,3,4,0,5,1,6], wit 234 false [2,3,4,5,0,1,6], wit 234 false [0,2,3,4,5,6,1], wit 234 false [2,0,3,4,5,6,1],
     wit 234 false [2,3,0,4,5,6,1], wit 234 false [2,3,4,0,5,6,1], wit 234 false [2,3,4,5,0,6,1], wit 234 false
     [2,3,4,5,6,0,1]]]

/-- The certificate. -/
def cert : ProofCert where
  length := 236
  step := fun i => steps.getD i.toNat (suc 0 0 0 [])

theorem accepted : checkProofGetBound ⟨false, 0⟩ cert = some (7, 16) := by decide +kernel

end Cert7

theorem lowerSizeBound_seven : LowerSizeBound 7 16 := (C01_checker_sound _ _ _ _ Cert7.accepted).1

theorem lowerSizeBound_eight : LowerSizeBound 8 19 := C57_next_width 7 16 lowerSizeBound_seven

end Sortnet
