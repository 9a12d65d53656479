"""Makes Cert7.lean from the output c7.txt of gen_cert.cpp."""
import sys,textwrap
lines=[l.strip() for l in open('c7.txt')]
rows=[]
for l in lines:
    h,v,w=l.split('|')
    n,b,kind,pol=map(int,h.split())
    vs=list(map(int,v.split()))
    mask=sum(1<<x for x in vs)
    ws=[]
    for q in w.strip().split(';'):
        q=q.split()
        if not q: continue
        if q[0]=='-1': ws.append("none")
        else: ws.append("wit %s %s [%s]"%(q[0],"true" if q[1]=='1' else "false",",".join(q[2:])))
    k="suc" if kind==1 else ("huf "+("true" if pol else "false"))
    rows.append("%s %d 0x%x %d [%s]"%(k,n,mask,b,", ".join(ws)))
out=[]
for i,r in enumerate(rows):
    out+=textwrap.wrap(r+("," if i<len(rows)-1 else "]"),width=122,initial_indent="   ",subsequent_indent="     ",break_long_words=False)
body="\n".join(out).strip()
s='''import Verif.Props.C57

/-!
# A certificate for seven channels

A complete certificate for the verified checker (`checker/snocheck/src/Verified/Checker.hs`), evaluated by the kernel.  It is not
part of the repository; it was found by a search outside Lean.  With C57 it gives the least size of sorting networks with up to
eight channels.
-/

namespace Sortnet

open Checker KnownBounds

namespace Cert7

/-- The first `n` bits of a number, least significant first. -/
def bits (n x : ℕ) : List Bool := (List.range n).map fun i => x.testBit i

/-- The vectors on `n` channels with the numbers of the bits of `mask`. -/
def vects (n mask : ℕ) : List (List Bool) := ((List.range (2 ^ n)).filter fun x => mask.testBit x).map (bits n)

/-- A witness. -/
def wit (id : ℕ) (inv : Bool) (perm : List ℤ) : Option ProofWitness := some ⟨id, inv, perm⟩

/-- A step by successors. -/
def suc (n mask b : ℕ) (ws : List (Option ProofWitness)) : ProofStep := ⟨n, vects n mask, b, .successor ws⟩

/-- A step by the Huffman bound. -/
def huf (pol : Bool) (n mask b : ℕ) (ws : List (Option ProofWitness)) : ProofStep := ⟨n, vects n mask, b, .huffman pol ws⟩

/-- The steps of the certificate. -/
def steps : List ProofStep :=
  ['''+body+'''

/-- The certificate. -/
def cert : ProofCert where
  length := %d
  step := fun i => steps.getD i.toNat (suc 0 0 0 [])

theorem accepted : checkProofGetBound ⟨false, 0⟩ cert = some (7, 16) := by decide +kernel

end Cert7

theorem lowerSizeBound_seven : LowerSizeBound 7 16 := (C01_checker_sound _ _ _ _ Cert7.accepted).1

theorem lowerSizeBound_eight : LowerSizeBound 8 19 := C57_next_width 7 16 lowerSizeBound_seven

end Sortnet
'''%len(rows)
open('Cert7.lean','w').write(s)
