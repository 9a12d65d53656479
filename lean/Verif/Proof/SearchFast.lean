import Verif.Proof.SearchExec

/-!
# A faster scheduler that executes the model

As in SearchExec.lean, with the sets stored as numbers and with the workers of the pending queue.  `codeC` is `code` with
`canonicalize` as a parameter.
-/

namespace Sortnet

namespace Search

open Prog

/-- `buildEdges`, with `canonicalize` as a parameter. -/
def buildEdgesC (cn : OSet → Option OSet) (A : OSet) : List (Fin A.n × Fin A.n) → Edges → Prog Edges
  | [], E => ret E
  | (i, j) :: ps, E =>
    match successor A i j with
    | none => buildEdgesC cn A ps E
    | some T => do
      let C ← ofOption (cn T)
      let r ← E.addEdge C
      buildEdgesC cn A ps r.1

/-- `buildPruned`, with `canonicalize` as a parameter. -/
def buildPrunedC (cn : OSet → Option OSet) (A : OSet) (pol : Bool) :
    List (Fin A.n) → Edges → Prog (Edges × List ℕ)
  | [], E => ret (E, [])
  | c :: cs, E => do
    let T ← ofOption (prune A pol c)
    let C ← ofOption (cn T)
    let r ← E.addEdge C
    let rest ← buildPrunedC cn A pol cs r.1
    ret (rest.1, r.2 :: rest.2)

/-- `codeEdges`, with `canonicalize` as a parameter. -/
def codeEdgesC (cn : OSet → Option OSet) (level : ℕ) (A : OSet) (state : State) : Prog Exit := do
  let E ← buildEdgesC cn A (pairs A.n) Edges.empty
  ret (.goto (.edgesLoop level A state E))

/-- `codeHuffman`, with `canonicalize` as a parameter. -/
def codeHuffmanC (cn : OSet → Option OSet) (level : ℕ) (A : OSet) (state : State) : Prog Exit :=
  if state.hhi > state.lo then ret (.call (.huffman level A) (fun new => .afterHuffman level A state new))
  else codeEdgesC cn level A state

/-- `codeShortcut`, with `canonicalize` as a parameter. -/
def codeShortcutC (cn : OSet → Option OSet) (level : ℕ) (A : OSet) (state : State) (pol : Bool)
    (otherwise : Prog Exit) : Prog Exit :=
  match extremal A pol with
  | [c] => do
    let T ← ofOption (prune A pol c)
    let P ← ofOption (cn T)
    let prunedState ← Prog.get P ret
    ret (.goto (.pruned level A state P prunedState))
  | _ => otherwise

/-- `code`, with `canonicalize` as a parameter. -/
def codeC (cn : OSet → Option OSet) : PC → Prog Exit
  | .start limit A => do
    let state ← Prog.get A ret
    ret (.goto (.main limit A state))
  | .main limit A state =>
    if state.lo = state.hi ∨ (∃ l ∈ limit, state.lo ≥ l) then ret (.done state)
    else ret (.call (.improve 0 state A) (fun st => .main limit A st))
  | .improve level prev A => do
    let state ← Prog.get A ret
    if state ≠ prev then ret (.done state)
    else if state.lo = state.hi then ret (.done state)
    else
      Prog.lock A fun locked =>
        if locked then ret (.goto (.locked level prev A)) else ret (.goto (.improve level prev A))
  | .locked level prev A => do
    let state ← Prog.get A ret
    if state ≠ prev then ret (.done state)
    else if state.lo = state.hi then ret (.done state)
    else
      codeShortcutC cn level A state false
        (codeShortcutC cn level A state true (codeHuffmanC cn level A state))
  | .pruned level A state P prunedState =>
    if prunedState.hi < state.hi then
      let state' := { state with hi := prunedState.hi, hhi := prunedState.hi }
      Prog.set A state'
        (if state'.lo = state'.hi then ret (.done state')
         else codePrunedLower level A state' P prunedState)
    else codePrunedLower level A state P prunedState
  | .afterHuffman level A state new =>
    if new.lo > state.lo then ret (.done new) else codeEdgesC cn level A new
  | .edgesLoop level A state E => do
    let m ← ofOption (listMin (E.targets.map fun t => t.state.hi))
    let combinedUpper := (m + 1) % 256
    if combinedUpper < state.hi then
      let state' := { state with hi := combinedUpper, hhi := min combinedUpper state.hhi }
      Prog.set A state'
        (if state'.lo = state'.hi then ret (.done state') else codeEdgesLower level A state' E)
    else codeEdgesLower level A state E
  | .huffman level A => do
    let state ← Prog.get A ret
    if state.hhi ≤ state.lo then ret (.done state)
    else do
      let q0 ← buildPrunedC cn A false (extremal A false) Edges.empty
      let q1 ← buildPrunedC cn A true (extremal A true) q0.1
      ret (.goto (.huffLoop level A state q1.1 (fun pol => if pol then q1.2 else q0.2)
        (fun _ => state.hhi)))
  | .huffLoop level A state E ids uh =>
    if state.hhi > state.lo then do
      let q0 ← huffPol A false ids state E uh
      if q0.1 then ret (.done q0.2.1)
      else do
        let q1 ← huffPol A true ids q0.2.1 q0.2.2.1 q0.2.2.2
        if q1.1 then ret (.done q1.2.1)
        else codeHuffRest level A q1.2.1 q1.2.2.1 ids q1.2.2.2
    else ret (.done state)
  | .nextLoop level order E block r => do
    let p ← Edges.pollLoop E.active E false 0
    let E1 := p.1
    assert (E1.active.all fun id => E1.retainOk id)
    let E2 : Edges := { targets := E1.targets, active := E1.active.filter E1.open }
    if p.2.1 ∨ E2.active = [] then ret (.goto (r.resume E2))
    else if block ∧ p.2.2 > 0 then Prog.pending (codeSpawn level order E2 r)
    else codeSpawn level order E2 r

/-- `moveSingletons`, with a bound on the number of iterations. -/
def moveSingletonsF {n : ℕ} : ℕ → Canon.St n → Bool → Option (Canon.St n × Bool)
  | 0, _, _ => none
  | k + 1, st, prune => do
    let r ← Canon.moveSingleton st
    if r.2 then moveSingletonsF k r.1 true else some (r.1, prune)

/-- `loop`, with a bound on the number of iterations. -/
def loopF {n : ℕ} (hash : List ℕ → ℕ) : ℕ → Canon.St n → Option (Canon.St n)
  | 0, _ => none
  | k + 1, st => do
    let st ← Canon.pruneUsingFingerprints st
    let r ← moveSingletonsF 20 st false
    let st ← if r.2 then Canon.prune hash true r.1 else some r.1
    if st.fixed = st.used then some st
    else
      let st ← Canon.individualize hash st
      let st ← Canon.prune hash false st
      if st.fixed = st.used then some st
      else
        let st ← Canon.refine hash st
        loopF hash k st

/-- `run`, with a bound on the number of iterations. -/
def runF {n : ℕ} (hash : List ℕ → ℕ) (st : Canon.St n) : Option (Canon.Cand n) := do
  let st ← if st.used > 0 then do
      let st ← Canon.initializePartitions st
      loopF hash 20 st
    else some st
  st.layer.head?

/-- `canonicalize`, with a bound on the number of iterations. -/
def canonicalizeF {n : ℕ} (hash : List ℕ → ℕ) (s : Bitmap n) : Option (Bitmap n) :=
  if n = 0 then some s
  else if n > maxChannels then none
  else do
    let st ← Canon.new s true
    let c ← runF hash st
    some c.bitmap

/-- A bitmap as a number. -/
def encode {n : ℕ} (s : Bitmap n) : ℕ := s.toList.foldr (fun b a => 2 * a + b.toNat) 0

/-- The bitmap of a number. -/
def decode (n m : ℕ) : Bitmap n := fun x => m.testBit x.toNat

/-- The set of a number, which is evaluated. -/
def ofCode (n : ℕ) : ℕ → OSet
  | 0 => ⟨n, decode n 0⟩
  | k + 1 => ⟨n, decode n (k + 1)⟩

/-- `canonicalize` of the set of a number. -/
def canonF (hash : List ℕ → ℕ) (A : OSet) : Option OSet :=
  (canonicalizeF hash A.s).map fun s => ofCode A.n (encode s)

/-- `canon`. -/
def canonM (hash : List ℕ → ℕ) (A : OSet) : Option OSet :=
  match canonF hash (ofCode A.n (encode A.s)) with
  | some B => some B
  | none => canon hash A

/-- An action of task `i`, with the given `code`. -/
def actC (hash : List ℕ → ℕ) (cd : PC → Prog Exit) (N i : ℕ) (G : Global) : Option Global :=
  match G.tasks i with
  | none => none
  | some t =>
    match t.status with
    | .run (.spawn level prev A k) owned stack =>
      if (G.tasks N).isNone then some { G with
        tasks := Function.update
          (Function.update G.tasks i
            (some { t with status := .run (k ⟨N, A, prev⟩) (.handle ⟨N, A, prev⟩ :: owned) stack })) N
          (some { status := .sleep (cd (.improve level prev A)) [] []
                  root := .improve level prev A
                  scheduled := false, queued := false, cancelled := false }) }
      else none
    | .run (.ret (.goto pc)) owned stack => some (G.setStatus i t (.run (cd pc) owned stack))
    | .run (.ret (.call pc k)) owned stack => some (G.setStatus i t (.run (cd pc) [] (⟨owned, k⟩ :: stack)))
    | .unwind v [] (f :: stack) => some (G.setStatus i t (.run (cd (f.k v)) f.owned stack))
    | _ => act hash N i G

/-- A worker takes task `i` from the pending queue. -/
def workerC (i : ℕ) (G : Global) : Option Global :=
  match G.tasks i with
  | none => none
  | some t => if t.queued && !t.scheduled && !t.cancelled then
      some { G with tasks := Function.update G.tasks i (some { t with scheduled := true }) }
    else none

/-! ## It follows the model -/

variable {hash : List ℕ → ℕ}

theorem buildEdgesC_eq (A : OSet) (ps : List (Fin A.n × Fin A.n)) (E : Edges) :
    buildEdgesC (canon hash) A ps E = buildEdges hash A ps E := by
  induction ps generalizing E with
  | nil => rfl
  | cons p ps ih =>
    obtain ⟨i, j⟩ := p
    unfold buildEdgesC buildEdges
    simp only [ih]
    rfl

theorem buildPrunedC_eq (A : OSet) (pol : Bool) (cs : List (Fin A.n)) (E : Edges) :
    buildPrunedC (canon hash) A pol cs E = buildPruned hash A pol cs E := by
  induction cs generalizing E with
  | nil => rfl
  | cons c cs ih =>
    unfold buildPrunedC buildPruned
    simp only [ih]

theorem codeEdgesC_eq (level : ℕ) (A : OSet) (state : State) :
    codeEdgesC (canon hash) level A state = codeEdges hash level A state := by
  unfold codeEdgesC codeEdges
  rw [buildEdgesC_eq]

theorem codeC_eq : codeC (canon hash) = code hash := by
  funext pc
  cases pc with
  | locked level prev A =>
    unfold codeC code codeShortcutC codeShortcut codeHuffmanC codeHuffman
    simp only [codeEdgesC_eq]
    rfl
  | afterHuffman level A state new =>
    unfold codeC code
    simp only [codeEdgesC_eq]
  | huffman level A =>
    unfold codeC code
    simp only [buildPrunedC_eq]
  | _ => rfl

theorem moveSingletonsF_sound {n : ℕ} (k : ℕ) (st : Canon.St n) (b : Bool) {r : Canon.St n × Bool}
    (h : moveSingletonsF k st b = some r) : Canon.moveSingletons st b = some r := by
  induction k generalizing st b with
  | zero => cases h
  | succ k ih =>
    rw [moveSingletonsF] at h
    rw [Canon.moveSingletons]
    cases e : Canon.moveSingleton st with
    | none => rw [e] at h; cases h
    | some q =>
      rw [e] at h
      simp only [Option.bind_eq_bind, Option.bind_some] at h ⊢
      split at h
      · next hq => rw [if_pos hq]; exact ih _ _ h
      · next hq => rw [if_neg hq]; exact h

theorem loopF_sound {n : ℕ} (k : ℕ) (st : Canon.St n) {r : Canon.St n} (h : loopF hash k st = some r) :
    Canon.loop hash st = some r := by
  induction k generalizing st with
  | zero => cases h
  | succ k ih =>
    rw [loopF] at h
    rw [Canon.loop]
    simp only [Option.bind_eq_bind] at h ⊢
    obtain ⟨st1, h1, h⟩ := Option.bind_eq_some_iff.1 h
    obtain ⟨q, h2, h⟩ := Option.bind_eq_some_iff.1 h
    rw [h1, Option.bind_some, moveSingletonsF_sound _ _ _ h2, Option.bind_some]
    have rest : ∀ st3 : Canon.St n, (if st3.fixed = st3.used then some st3 else (Canon.individualize hash st3).bind fun st =>
          (Canon.prune hash false st).bind fun st =>
            if st.fixed = st.used then some st else (Canon.refine hash st).bind fun st => loopF hash k st) = some r →
        (if st3.fixed = st3.used then some st3 else (Canon.individualize hash st3).bind fun st =>
          (Canon.prune hash false st).bind fun st =>
            if st.fixed = st.used then some st else (Canon.refine hash st).bind fun st => Canon.loop hash st) = some r := by
      intro st3 h
      split at h
      · next hq => rw [if_pos hq]; exact h
      · next hq =>
        rw [if_neg hq]
        obtain ⟨st4, h4, h⟩ := Option.bind_eq_some_iff.1 h
        obtain ⟨st5, h5, h⟩ := Option.bind_eq_some_iff.1 h
        rw [h4, Option.bind_some, h5, Option.bind_some]
        split at h
        · next hq => rw [if_pos hq]; exact h
        · next hq =>
          rw [if_neg hq]
          obtain ⟨st6, h6, h⟩ := Option.bind_eq_some_iff.1 h
          rw [h6, Option.bind_some]
          exact ih _ h
    split at h
    · next hq =>
      rw [if_pos hq]
      obtain ⟨st3, h3, h⟩ := Option.bind_eq_some_iff.1 h
      rw [h3, Option.bind_some]
      exact rest _ h
    · next hq =>
      rw [if_neg hq]
      exact rest _ h

theorem canonicalizeF_sound {n : ℕ} (s : Bitmap n) {t : Bitmap n} (h : canonicalizeF hash s = some t) :
    ∃ p, s.canonicalize hash true = some (t, p) := by
  unfold canonicalizeF at h
  unfold Bitmap.canonicalize
  split at h
  · next h0 => cases h; rw [if_pos h0]; exact ⟨_, rfl⟩
  · next h0 =>
    rw [if_neg h0]
    split at h
    · cases h
    · next h1 =>
      rw [if_neg h1]
      simp only [Option.bind_eq_bind] at h ⊢
      obtain ⟨st, h2, h⟩ := Option.bind_eq_some_iff.1 h
      obtain ⟨c, h3, h⟩ := Option.bind_eq_some_iff.1 h
      cases h
      rw [h2, Option.bind_some]
      have : Canon.run hash st = some c := by
        unfold runF at h3
        unfold Canon.run
        simp only [Option.bind_eq_bind] at h3 ⊢
        split at h3
        · next hu =>
          rw [if_pos hu]
          obtain ⟨st5, h5, h4⟩ := Option.bind_eq_some_iff.1 h3
          obtain ⟨st6, h6, h4⟩ := Option.bind_eq_some_iff.1 h4
          rw [h5, Option.bind_some, loopF_sound _ _ h6]
          exact h4
        · next hu => rw [if_neg hu]; exact h3
      rw [this]
      exact ⟨_, rfl⟩

theorem testBit_foldr (l : List Bool) (k : ℕ) :
    (l.foldr (fun (b : Bool) a => 2 * a + b.toNat) 0).testBit k = (l[k]?).getD false := by
  induction l generalizing k with
  | nil => simp
  | cons b l ih =>
    rw [List.foldr_cons]
    cases k with
    | zero => cases b <;> simp [Nat.testBit_zero]
    | succ k =>
      rw [Nat.testBit_succ, List.getElem?_cons_succ, ← ih]
      congr 1
      cases b <;> simp <;> omega

theorem decode_encode {n : ℕ} (s : Bitmap n) : decode n (encode s) = s := by
  funext x
  unfold decode encode
  rw [testBit_foldr]
  unfold Bitmap.toList indices
  have hx : x.toNat < 2 ^ n := x.isLt
  simp [hx]

theorem ofCode_encode (A : OSet) : ofCode A.n (encode A.s) = A := by
  have : ∀ m, ofCode A.n m = ⟨A.n, decode A.n m⟩ := by intro m; cases m <;> rfl
  rw [this, decode_encode]

theorem canonM_eq : canonM hash = canon hash := by
  funext A
  unfold canonM
  rw [ofCode_encode]
  split
  · next B h =>
    unfold canonF at h
    obtain ⟨s, hs, h⟩ := Option.map_eq_some_iff.1 h
    subst h
    obtain ⟨p, hp⟩ := canonicalizeF_sound _ hs
    unfold canon
    rw [hp]
    exact congrArg some (ofCode_encode ⟨A.n, s⟩)
  · rfl

theorem actC_sound {N i : ℕ} {G G' : Global} (h : actC hash (code hash) N i G = some G') : act hash N i G = some G' := by
  unfold actC at h
  split at h
  · cases h
  · next t ht =>
    split at h
    · next hs => unfold act; rw [ht]; dsimp only; rw [hs]; exact h
    · next hs => unfold act; rw [ht]; dsimp only; rw [hs]; exact h
    · next hs => unfold act; rw [ht]; dsimp only; rw [hs]; exact h
    · next hs => unfold act; rw [ht]; dsimp only; rw [hs]; exact h
    · exact h

theorem workerC_sound {i : ℕ} {G G' : Global} (h : workerC i G = some G') : Act hash i G G' := by
  unfold workerC at h
  split at h
  · cases h
  · next t ht =>
    split at h
    · next hq =>
      cases h
      simp only [Bool.and_eq_true, Bool.not_eq_true'] at hq
      exact .worker ht hq.1.1 hq.1.2
    · cases h

end Search

end Sortnet
