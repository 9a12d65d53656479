import Verif.Model.PruneFile

/-!
# Model of the generation of proof certificates, `/repo/src/proof.rs`

Conventions.
* `none` is a panic.  For `encodeProof`, which is defined by an arbitrary recursion, it could also be an infinite
  recursion; the theorems show that it is not.
* A `HashMap` is a list of pairs, a `BTreeMap` such a list ordered by key.  `Arc` pointers are left out.
* Bounds are `u8` in the code; an overflow of an addition is a panic here (in a build without overflow checks the
  result would be wrapped).
* The order in which the hash map is iterated, and the threads of the parallel iterator, do not matter: the closure
  only reads, and its results go into a hash map.
-/

namespace Sortnet

namespace ProofGen

open Search Files Index

/-! ## Maps -/

/-- `HashMap::get`.  Models code at `proof.rs:144,149,156,224`. -/
def mapGet {β : Type} (m : List (OSet × β)) (A : OSet) : Option β := (m.find? fun e => decide (e.1 = A)).map Prod.snd

/-- `HashMap::insert`.  Models code at `proof.rs:102,182`. -/
def mapInsert {β : Type} (m : List (OSet × β)) (A : OSet) (v : β) : List (OSet × β) :=
  (A, v) :: m.filter fun e => decide (e.1 ≠ A)

/-- The map `pruned_indexes`.  Models code at `proof.rs:24,41-43,89`. -/
abbrev Indexes := List ((n : ℕ) × OutputSetIndex n)

/-- `pruned_indexes.get(&channels)`, `proof.rs:211-213`. -/
def Indexes.get (m : Indexes) (n : ℕ) : Option (OutputSetIndex n) :=
  match m with
  | [] => none
  | ⟨k, idx⟩ :: m => if h : k = n then some (h ▸ idx) else Indexes.get m n

/-- `pruned_indexes.entry(channels).or_insert_with(...)` followed by changes `f` of the entry, `proof.rs:41-53`. -/
def Indexes.modify (n : ℕ) (f : OutputSetIndex n → Option (OutputSetIndex n)) (m : Indexes) : Option Indexes :=
  match m with
  | [] => do
    let idx ← OutputSetIndex.new n
    let idx ← f idx
    some [⟨n, idx⟩]
  | ⟨k, idx0⟩ :: m =>
    if h : k = n then do
      let idx ← f (h ▸ idx0)
      some (⟨n, idx⟩ :: m)
    else if n < k then do
      let idx ← OutputSetIndex.new n
      let idx ← f idx
      some (⟨n, idx⟩ :: ⟨k, idx0⟩ :: m)
    else do
      let m ← Indexes.modify n f m
      some (⟨k, idx0⟩ :: m)

/-! ## Loading the log -/

/-- The body of the loop `proof.rs:46-53`. -/
def insertPacked (n bound : ℕ) (idx : OutputSetIndex n) (packed : List UInt8) : Option (OutputSetIndex n) := do
  let outputSet ← fromPacked n packed
  let abs ← outputSet.abstraction
  idx.insertNew .lowerInvert outputSet abs bound

/-- The body of the loop `proof.rs:28-54`.  The memory map of an empty file fails. -/
def loadLine (fs : FS) (m : Indexes) (line : Str) : Option Indexes := do
  let channels ← lineChannels line
  let bound ← lineBound line
  let data ← fs (withExtension line extPbin)
  if data = [] then none
  else m.modify channels fun idx => (chunks (packedLen channels) data).foldlM (insertPacked channels bound) idx

/-- `proof.rs:24-54`. -/
def load (fs : FS) : Option Indexes := do
  let data ← fs indexName
  (lines data).foldlM (loadLine fs) []

/-! ## Finding proof steps -/

/-- A witness, `proof.rs:81,84`: whether to invert, the permutation, and the subsuming set. -/
structure PWitness where
  invert : Bool
  perm : List ℕ
  target : OSet

/-- `ProofStep`, `proof.rs:76-86`. -/
inductive PStep where
  | trivial
  | notSorted
  | huffman (pol : Bool) (witnesses : List (Option PWitness))
  | successors (witnesses : List (Option PWitness))

/-- The fields of `GenProof` that are set up before encoding, `proof.rs:88-91`. -/
structure GenProof where
  prunedIndexes : Indexes
  outputSets : List (OSet × ℕ)
  steps : List (OSet × PStep)

/-- `for_each` of one index in `GenProof::new`, `proof.rs:99-104`. -/
def addSets (m : List (OSet × ℕ)) (e : (n : ℕ) × OutputSetIndex n) : Option (List (OSet × ℕ)) := do
  let es ← e.2.forEach .lowerInvert
  some (es.foldl (fun m x => mapInsert m ⟨e.1, x.1⟩ x.2.2) m)

/-- `GenProof::new`, `proof.rs:97-112`. -/
def GenProof.new (prunedIndexes : Indexes) : Option GenProof := do
  let outputSets ← prunedIndexes.foldlM addSets []
  some { prunedIndexes := prunedIndexes, outputSets := outputSets, steps := [] }

/-- The search for a subsuming set, `proof.rs:211-216`; without an index for the channels the abstraction is not
computed. -/
def GenProof.subsuming (g : GenProof) (target : OSet) : Option (Option (OutputSetIndex.Hit target.n)) :=
  match g.prunedIndexes.get target.n with
  | none => some none
  | some idx => do
    let abs ← target.s.abstraction
    idx.lookupSubsuming .lowerInvert target.s abs

/-- `GenProof::lookup_witness`, `proof.rs:207-230`. -/
def GenProof.lookupWitness (g : GenProof) (target : OSet) : Option (ℕ × Option PWitness) := do
  match ← g.subsuming target with
  | some (bound, (invert, perm), outputSet) =>
    let _ ← mapGet g.outputSets ⟨target.n, outputSet⟩
    some (bound, some { invert := invert, perm := (List.finRange target.n).map fun i => (perm i : ℕ),
                        target := ⟨target.n, outputSet⟩ })
  | none => some (if target.s.isSorted then 0 else 1, none)

/-- `GenProof::trivial_step`, `proof.rs:232-240`. -/
def trivialStep (bound : ℕ) (target : OSet) : Option PStep :=
  if bound = 0 then some .trivial
  else if bound = 1 ∧ target.s.isSorted = false then some .notSorted
  else none

/-- The loop over the extremal channels, `proof.rs:260-267`: bounds and witnesses. -/
def GenProof.huffmanWitnesses (g : GenProof) (target : OSet) (pol : Bool) :
    Option (List (ℕ × Option PWitness)) :=
  (extremal target pol).mapM fun c => do
    let pruned ← prune target pol c
    g.lookupWitness pruned

/-- The body of the loop over the polarities, `proof.rs:256-275`; the inner `none` means to go on. -/
def GenProof.huffmanPol (g : GenProof) (bound : ℕ) (target : OSet) (pol : Bool) : Option (Option PStep) := do
  let r ← g.huffmanWitnesses target pol
  let huffmanBound ← maxPlus1Huffman (r.map Prod.fst)
  some (if huffmanBound ≥ bound then some (.huffman pol (r.map Prod.snd)) else none)

/-- `pols`, `proof.rs:253-254`: sorted by the number of extremal channels. -/
def polOrder (target : OSet) : List Bool :=
  if (extremal target true).length < (extremal target false).length then [true, false] else [false, true]

/-- The loop over the polarities: the first result.  Models code at `proof.rs:253-278`. -/
def GenProof.huffmanPols (g : GenProof) (bound : ℕ) (target : OSet) : List Bool → Option (Option PStep)
  | [] => some none
  | pol :: pols => do
    match ← g.huffmanPol bound target pol with
    | some s => some (some s)
    | none => g.huffmanPols bound target pols

/-- `GenProof::huffman_step`, `proof.rs:242-279`. -/
def GenProof.huffmanStep (g : GenProof) (bound : ℕ) (target : OSet) : Option (Option PStep) :=
  g.huffmanPols bound target (polOrder target)

/-- The loop over the pairs of channels, `proof.rs:283-294`; the inner `none` is the early return. -/
def GenProof.successorLoop (g : GenProof) (bound : ℕ) (target : OSet) (ws : List (Option PWitness)) :
    List (Fin target.n × Fin target.n) → Option (Option (List (Option PWitness)))
  | [] => some (some ws)
  | (i, j) :: rest =>
    match successor target i j with
    | none => g.successorLoop bound target ws rest
    | some next => do
      let (successorBound, witness) ← g.lookupWitness next
      if 255 < successorBound + 1 then none
      else if successorBound + 1 < bound then some none
      else g.successorLoop bound target (ws ++ [witness]) rest

/-- `GenProof::successor_step`, `proof.rs:281-297`. -/
def GenProof.successorStep (g : GenProof) (bound : ℕ) (target : OSet) : Option (Option PStep) := do
  let r ← g.successorLoop bound target [] (pairs target.n)
  some (r.map .successors)

/-- The closure of `prove_all`, `proof.rs:128-139`; no step is a panic. -/
def GenProof.findStep (g : GenProof) (e : OSet × ℕ) : Option (OSet × PStep) :=
  match trivialStep e.2 e.1 with
  | some s => some (e.1, s)
  | none => do
    match ← g.huffmanStep e.2 e.1 with
    | some s => some (e.1, s)
    | none =>
      match ← g.successorStep e.2 e.1 with
      | some s => some (e.1, s)
      | none => none

/-- `GenProof::prove_all`, `proof.rs:114-141`. -/
def GenProof.proveAll (g : GenProof) : Option GenProof := do
  let steps ← g.outputSets.mapM g.findStep
  some { g with steps := steps }

/-! ## Encoding -/

/-- `write_u32::<LittleEndian>` of a value cast to `u32`.  Models code at `proof.rs:174,191,198`. -/
def le32 (x : ℕ) : List UInt8 := (List.range 4).map fun i => UInt8.ofNat (x / 2 ^ (8 * i))

/-- `write_u64::<LittleEndian>`.  Models code at `proof.rs:197`. -/
def le64 (x : ℕ) : List UInt8 := (List.range 8).map fun i => UInt8.ofNat (x / 2 ^ (8 * i))

/-- The fields of `GenProof` that are changed when encoding, `proof.rs:92-93`. -/
structure Enc where
  stepIds : List (OSet × ℕ)
  stepData : List (List UInt8)

/-- The bytes of a witness, `proof.rs:172-177`. -/
def witnessBytes : Option (PWitness × ℕ) → List UInt8
  | some (w, id) => UInt8.ofNat w.invert.toNat :: (w.perm.map fun p => UInt8.ofNat p) ++ le32 id
  | none => [2]

/-- The bytes before the witnesses, `proof.rs:151-153,159,163`. -/
def stepHead (target : OSet) (bound : ℕ) (kind : ℕ) : List UInt8 :=
  UInt8.ofNat target.n :: UInt8.ofNat bound :: target.s.packed ++ [UInt8.ofNat kind]

/-- The witnesses of a step with the byte for its kind, `proof.rs:156-166`; `none` for a step that is not encoded. -/
def PStep.kind : PStep → Option (ℕ × List (Option PWitness))
  | .trivial => none
  | .notSorted => none
  | .huffman pol ws => some (pol.toNat, ws)
  | .successors ws => some (2, ws)

/-- `GenProof::encode_proof`, `proof.rs:143-187`. -/
def GenProof.encodeProof (g : GenProof) (target : OSet) (st : Enc) : Option (Option ℕ × Enc) :=
  match mapGet st.stepIds target with
  | some id => some (some id, st)
  | none => do
    let bound ← mapGet g.outputSets target
    let step ← mapGet g.steps target
    match step.kind with
    | none => some (none, st)
    | some (kind, ws) => do
      let (data, st) ← ws.foldlM (fun (acc : List UInt8 × Enc) w => do
        match w with
        | none => some (acc.1 ++ witnessBytes none, acc.2)
        | some w =>
          let (id, st) ← GenProof.encodeProof g w.target acc.2
          some (acc.1 ++ witnessBytes (id.map fun id => (w, id)), st)) (stepHead target bound kind, st)
      let id := st.stepData.length
      some (some id, { stepIds := mapInsert st.stepIds target id, stepData := st.stepData ++ [data] })
partial_fixpoint

/-- The table of offsets and lengths, `proof.rs:196-200`. -/
def offsetTable (offset : ℕ) : List (List UInt8) → List UInt8
  | [] => []
  | step :: steps => le64 offset ++ le32 step.length ++ offsetTable (offset + step.length) steps

/-- `GenProof::write_proof`, `proof.rs:189-205`. -/
def writeProof (steps : List (List UInt8)) : List UInt8 :=
  le32 steps.length ++ offsetTable (4 + 12 * steps.length) steps ++ steps.flatten

/-- `"proof.bin"`.  Models code at `proof.rs:69`. -/
def proofName : Str := str ['p', 'r', 'o', 'o', 'f', '.', 'b', 'i', 'n']

/-- The steps that `gen_proof` writes, `proof.rs:24-65`. -/
def genSteps (fs : FS) : Option (List (List UInt8)) := do
  let m ← load fs
  let maxChannels ← (m.map Sigma.fst).getLast?
  let g ← GenProof.new m
  let g ← g.proveAll
  let (_, st) ← g.encodeProof ⟨maxChannels, allValues maxChannels⟩ { stepIds := [], stepData := [] }
  some st.stepData

/-- `gen_proof`, `proof.rs:23-73`, on the files of the input directory. -/
def genProof (fs : FS) : Option FS := do
  let steps ← genSteps fs
  some ((fs.create proofName).append proofName (writeProof steps))

end ProofGen

end Sortnet
