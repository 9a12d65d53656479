import Verif.Proof.ProofSteps

/-!
# Proofs about `encode_proof`
-/

namespace Sortnet

namespace ProofGen

open Search Files Index

theorem le32_eq (x : ℕ) : le32 x = leBytes 4 x := by
  simp only [le32, leBytes, List.range_succ, List.range_zero, List.nil_append, List.map_append, List.map_cons,
    List.map_nil, List.cons_append, Nat.div_div_eq_div_mul]
  norm_num

theorem le64_eq (x : ℕ) : le64 x = leBytes 8 x := by
  simp only [le64, leBytes, List.range_succ, List.range_zero, List.nil_append, List.map_append, List.map_cons,
    List.map_nil, List.cons_append, Nat.div_div_eq_div_mul]
  norm_num

/-- The kind of a step in the certificate and its witnesses. -/
def PStep.certKind : PStep → Option (CertKind × List (Option PWitness))
  | .trivial => none
  | .notSorted => none
  | .huffman pol ws => some (.huffman pol, ws)
  | .successors ws => some (.successors, ws)

/-- The byte for the kind of a step. -/
def kindByte : CertKind → ℕ
  | .huffman pol => pol.toNat
  | .successors => 2

theorem kind_certKind (s : PStep) : s.kind = s.certKind.map fun p => (kindByte p.1, p.2) := by
  cases s <;> rfl

theorem certKind_witnesses {s : PStep} {k : CertKind} {ws : List (Option PWitness)} (h : s.certKind = some (k, ws)) :
    s.witnesses = ws := by
  cases s with
  | trivial => simp [PStep.certKind] at h
  | notSorted => simp [PStep.certKind] at h
  | huffman pol ws => cases h; rfl
  | successors ws => cases h; rfl

theorem certStep_bytes (c : CertStep) : c.bytes = stepHead c.set c.bound (kindByte c.kind) ++ c.refs.flatMap refBytes := by
  obtain ⟨A, b, k, refs⟩ := c
  unfold CertStep.bytes stepHead
  cases k <;> simp [kindByte]

/-- A reference in the certificate for a witness; `cs` are the steps it may refer to. -/
def RefOK (g : GenProof) (cs : List CertStep) : Option PWitness → Option CertRef → Prop
  | none, none => True
  | none, some _ => False
  | some w, none => ∃ s, mapGet g.steps w.target = some s ∧ s.certKind = none
  | some w, some r => r.invert = w.invert ∧ r.perm = w.perm ∧ (cs[r.id]?).map CertStep.set = some w.target

theorem RefOK.mono {g : GenProof} {cs cs' : List CertStep} (h : cs <+: cs') {w : Option PWitness} {r : Option CertRef}
    (hr : RefOK g cs w r) : RefOK g cs' w r := by
  cases w with
  | none => cases r <;> exact hr
  | some w =>
    cases r with
    | none => exact hr
    | some r =>
      obtain ⟨h1, h2, h3⟩ := hr
      refine ⟨h1, h2, ?_⟩
      obtain ⟨t, rfl⟩ := h
      cases hc : cs[r.id]? with
      | none => rw [hc] at h3; simp at h3
      | some c =>
        have hlt : r.id < cs.length := by
          by_contra hcon
          rw [List.getElem?_eq_none (by omega)] at hc
          simp at hc
        rw [List.getElem?_append_left hlt]
        exact h3

/-- The state while encoding. -/
structure EncInv (g : GenProof) (cs : List CertStep) (st : Enc) : Prop where
  data : st.stepData = cs.map CertStep.bytes
  nodup : (cs.map CertStep.set).Nodup
  ids : ∀ A i, mapGet st.stepIds A = some i ↔ (cs[i]?).map CertStep.set = some A
  step : ∀ i c, cs[i]? = some c → ∃ s ws, mapGet g.outputSets c.set = some c.bound ∧ mapGet g.steps c.set = some s ∧
    s.certKind = some (c.kind, ws) ∧ List.Forall₂ (RefOK g (cs.take i)) ws c.refs

theorem EncInv.nil (g : GenProof) : EncInv g [] ⟨[], []⟩ := by
  refine ⟨rfl, by simp, ?_, ?_⟩
  · intro A i; simp [mapGet]
  · intro i c h; simp at h

theorem EncInv.push {g : GenProof} {cs : List CertStep} {st : Enc} (h : EncInv g cs st) {c : CertStep}
    (hnew : ∀ d ∈ cs, d.set ≠ c.set) {s : PStep} {ws : List (Option PWitness)}
    (h1 : mapGet g.outputSets c.set = some c.bound) (h2 : mapGet g.steps c.set = some s)
    (h3 : s.certKind = some (c.kind, ws)) (h4 : List.Forall₂ (RefOK g cs) ws c.refs) :
    EncInv g (cs ++ [c]) ⟨mapInsert st.stepIds c.set cs.length, st.stepData ++ [c.bytes]⟩ := by
  refine ⟨by rw [h.data]; simp, ?_, ?_, ?_⟩
  · rw [List.map_append, List.map_singleton, List.nodup_append]
    refine ⟨h.nodup, by simp, ?_⟩
    intro x hx y hy
    rw [List.mem_singleton] at hy
    obtain ⟨d, hd, rfl⟩ := List.mem_map.1 hx
    rw [hy]
    exact hnew d hd
  · intro A i
    rw [mapGet_insert]
    rcases Nat.lt_trichotomy i cs.length with hi | hi | hi
    · rw [List.getElem?_append_left hi, ← h.ids]
      split
      · rename_i hA
        subst hA
        constructor
        · intro e; cases e; omega
        · intro e
          rw [h.ids] at e
          rw [List.getElem?_eq_getElem hi] at e
          exact absurd (Option.some.inj e) (hnew _ (List.getElem_mem hi))
      · rfl
    · subst hi
      rw [List.getElem?_concat_length]
      simp only [Option.map_some, Option.some.injEq]
      split
      · rename_i hA; simp [hA]
      · rename_i hA
        rw [h.ids, List.getElem?_eq_none (Nat.le_refl _)]
        simp [hA]
    · rw [List.getElem?_eq_none (by simp; omega)]
      split
      · simp; omega
      · rw [h.ids, List.getElem?_eq_none (by omega)]
  · intro i d hd
    rcases Nat.lt_trichotomy i cs.length with hi | hi | hi
    · rw [List.getElem?_append_left hi] at hd
      rw [List.take_append_of_le_length (by omega)]
      exact h.step i d hd
    · subst hi
      rw [List.getElem?_concat_length] at hd
      cases hd
      rw [List.take_append_of_le_length (Nat.le_refl _), List.take_of_length_le (Nat.le_refl _)]
      exact ⟨s, ws, h1, h2, h3, h4⟩
    · rw [List.getElem?_eq_none (by simp; omega)] at hd
      simp at hd

/-- What encoding the step for a set does. -/
def EncOK (g : GenProof) (A : OSet) : Prop := ∀ cs st, EncInv g cs st →
  ∃ r cs' st', g.encodeProof A st = some (r, st') ∧ EncInv g cs' st' ∧ cs <+: cs' ∧
    (∀ c ∈ cs', c ∈ cs ∨ rank c.set ≤ rank A) ∧
    (r = none → cs' = cs ∧ ∃ s, mapGet g.steps A = some s ∧ s.certKind = none) ∧
    ∀ id, r = some id → (cs'[id]?).map CertStep.set = some A ∧ (A ∈ cs.map CertStep.set ∨ id + 1 = cs'.length)

/-- The body of the loop over the witnesses. -/
def encWitness (g : GenProof) (acc : List UInt8 × Enc) (w : Option PWitness) : Option (List UInt8 × Enc) :=
  match w with
  | none => some (acc.1 ++ witnessBytes none, acc.2)
  | some w => (g.encodeProof w.target acc.2).bind fun r => some (acc.1 ++ witnessBytes (r.1.map fun id => (w, id)), r.2)

theorem encodeProof_eq (g : GenProof) (A : OSet) (st : Enc) : g.encodeProof A st =
    match mapGet st.stepIds A with
    | some id => some (some id, st)
    | none => (mapGet g.outputSets A).bind fun bound => (mapGet g.steps A).bind fun step =>
      match step.kind with
      | none => some (none, st)
      | some (kind, ws) => (ws.foldlM (encWitness g) (stepHead A bound kind, st)).bind fun r =>
          some (some r.2.stepData.length, { stepIds := mapInsert r.2.stepIds A r.2.stepData.length, stepData := r.2.stepData ++ [r.1] }) := by
  rw [GenProof.encodeProof]
  rfl

theorem encLoop {g : GenProof} {A : OSet} (ws : List (Option PWitness))
    (hws : ∀ w, some w ∈ ws → rank w.target < rank A ∧ EncOK g w.target) (cs : List CertStep) (st : Enc)
    (h : EncInv g cs st) (data : List UInt8) :
    ∃ refs cs' st', ws.foldlM (encWitness g) (data, st) = some (data ++ refs.flatMap refBytes, st') ∧ EncInv g cs' st' ∧
      cs <+: cs' ∧ (∀ c ∈ cs', c ∈ cs ∨ rank c.set < rank A) ∧ List.Forall₂ (RefOK g cs') ws refs := by
  induction ws generalizing cs st data with
  | nil => exact ⟨[], cs, st, by simp, h, List.prefix_rfl, fun c hc => Or.inl hc, List.Forall₂.nil⟩
  | cons w ws ih =>
    have ih := ih fun w hw => hws w (List.mem_cons_of_mem _ hw)
    rw [List.foldlM_cons]
    cases w with
    | none =>
      obtain ⟨refs, cs', st', e, h1, h2, h3, h4⟩ := ih cs st h (data ++ witnessBytes none)
      refine ⟨none :: refs, cs', st', ?_, h1, h2, h3, List.Forall₂.cons trivial h4⟩
      rw [encWitness]
      refine Eq.trans e ?_
      rw [List.flatMap_cons, ← List.append_assoc]
      rfl
    | some w =>
      obtain ⟨hr, hok⟩ := hws w List.mem_cons_self
      obtain ⟨r, cs1, st1, e1, g1, g2, g3, g4, g5⟩ := hok cs st h
      obtain ⟨refs, cs', st', e, h1, h2, h3, h4⟩ := ih cs1 st1 g1 (data ++ witnessBytes (r.map fun id => (w, id)))
      refine ⟨(r.map fun id => ⟨w.invert, w.perm, id⟩) :: refs, cs', st', ?_, h1, g2.trans h2, ?_, List.Forall₂.cons ?_ h4⟩
      · rw [encWitness, e1]
        refine Eq.trans e ?_
        rw [List.flatMap_cons, ← List.append_assoc]
        congr 4
        cases r with
        | none => rfl
        | some id => simp only [Option.map_some, witnessBytes, refBytes, CertRef.bytes, le32_eq, List.cons_append]
      · intro c hc
        rcases h3 c hc with hc | hc
        · rcases g3 c hc with hc | hc
          · exact Or.inl hc
          · exact Or.inr (lt_of_le_of_lt hc hr)
        · exact Or.inr hc
      · refine RefOK.mono h2 ?_
        cases r with
        | none => exact (g4 rfl).2
        | some id => exact ⟨rfl, rfl, (g5 id rfl).1⟩

theorem PRep.encode {g : GenProof} {L : List (OSet × ℕ)} (h : PRep g L) (A : OSet) (hA : ∃ b, (A, b) ∈ L) : EncOK g A := by
  induction A using rank_wf.induction with
  | _ A ih =>
    intro cs st hinv
    rw [encodeProof_eq]
    cases hid : mapGet st.stepIds A with
    | some id =>
      have := (hinv.ids A id).1 hid
      refine ⟨some id, cs, st, rfl, hinv, List.prefix_rfl, fun c hc => Or.inl hc, by simp, ?_⟩
      intro id' e
      cases e
      refine ⟨this, Or.inl ?_⟩
      cases hc : cs[id]? with
      | none => rw [hc] at this; simp at this
      | some c =>
        rw [hc] at this
        exact List.mem_map.2 ⟨c, List.mem_of_getElem? hc, Option.some.inj this⟩
    | none =>
      have hnot : ∀ c ∈ cs, c.set ≠ A := by
        rintro c hc rfl
        obtain ⟨i, hi, rfl⟩ := List.getElem_of_mem hc
        have := (hinv.ids cs[i].set i).2 (by rw [List.getElem?_eq_getElem hi]; rfl)
        rw [hid] at this
        simp at this
      obtain ⟨b0, hb0⟩ := hA
      obtain ⟨b, hb⟩ := h.out.cover _ hb0
      have hb := mapGet_of_nodup h.out.nodup hb
      obtain ⟨s, hs, hok⟩ := h.steps A b hb
      dsimp only at hb ⊢
      rw [hb, hs]
      simp only [Option.bind_some]
      rw [kind_certKind]
      cases hk : s.certKind with
      | none =>
        exact ⟨none, cs, st, rfl, hinv, List.prefix_rfl, fun c hc => Or.inl hc, fun _ => ⟨rfl, s, rfl, hk⟩, by simp⟩
      | some p =>
        obtain ⟨k, ws⟩ := p
        simp only [Option.map_some]
        have hws := certKind_witnesses hk
        obtain ⟨refs, cs', st', e, h1, h2, h3, h4⟩ := encLoop (g := g) (A := A) ws (fun w hw => by
          obtain ⟨g1, g2⟩ := hok.witness (hws ▸ hw)
          exact ⟨g1, ih w.target g1 g2⟩) cs st hinv (stepHead A b (kindByte k))
        rw [e]
        have hlen : st'.stepData.length = cs'.length := by rw [h1.data]; simp
        have hpush := h1.push (c := ⟨A, b, k, refs⟩) (s := s) (ws := ws) (by
          intro d hd
          rcases h3 d hd with hd | hd
          · exact hnot d hd
          · intro he
            rw [he] at hd
            exact absurd hd (lt_irrefl _)) hb hs hk h4
        refine ⟨some cs'.length, cs' ++ [⟨A, b, k, refs⟩], _, ?_, hpush, h2.trans (List.prefix_append _ _), ?_, by simp, ?_⟩
        · simp only [Option.bind_some, hlen]
          rw [certStep_bytes]
        · intro c hc
          rcases List.mem_append.1 hc with hc | hc
          · rcases h3 c hc with hc | hc
            · exact Or.inl hc
            · exact Or.inr hc.le
          · rw [List.mem_singleton] at hc
            rw [hc]
            exact Or.inr (le_refl _)
        · intro id hid
          obtain rfl := Option.some.inj hid
          rw [List.getElem?_concat_length]
          exact ⟨rfl, Or.inr (by simp)⟩

end ProofGen

end Sortnet
