import Verif.Proof.ProofLoad

/-!
# Proofs about finding proof steps and encoding them
-/

namespace Sortnet

namespace ProofGen

open Search Files Index

/-- The successors of a set. -/
def succs (A : OSet) : List OSet := (pairs A.n).filterMap fun p => successor A p.1 p.2

/-- A step that proves the bound. -/
def StepOK (L : List (OSet × ℕ)) (A : OSet) (b : ℕ) : PStep → Prop
  | .trivial => b = 0
  | .notSorted => b = 1 ∧ A.s.isSorted = false
  | .huffman pol ws => b ≠ 0 ∧ ∃ rs, List.Forall₂ (fun c r => ∃ T, prune A pol c = some T ∧ WitOK L T r) (extremal A pol) rs ∧
      ws = rs.map Prod.snd ∧ ∃ v, maxPlus1Huffman (rs.map Prod.fst) = some v ∧ b ≤ v
  | .successors ws => b ≠ 0 ∧ ∃ rs, List.Forall₂ (fun T r => WitOK L T r ∧ b ≤ r.1 + 1) (succs A) rs ∧ ws = rs.map Prod.snd

theorem trivialStep_ok {L : List (OSet × ℕ)} {A : OSet} {b : ℕ} {s : PStep} (h : trivialStep b A = some s) :
    StepOK L A b s := by
  unfold trivialStep at h
  split at h
  · cases h; assumption
  · split at h
    · cases h; assumption
    · simp at h

theorem trivialStep_none {A : OSet} {b : ℕ} (h : trivialStep b A = none) : b ≠ 0 ∧ (b = 1 → A.s.isSorted = true) := by
  unfold trivialStep at h
  split at h
  · simp at h
  · split at h
    · simp at h
    · rename_i h1 h2
      refine ⟨h1, fun hb => ?_⟩
      cases hs : A.s.isSorted
      · exact absurd ⟨hb, hs⟩ h2
      · rfl

section

variable {g : GenProof} {L : List (OSet × ℕ)} (h : GRep g L)
include h

theorem GRep.huffmanWitnesses (A : OSet) (pol : Bool) : ∃ rs, g.huffmanWitnesses A pol = some rs ∧
    List.Forall₂ (fun c r => ∃ T, prune A pol c = some T ∧ WitOK L T r) (extremal A pol) rs := by
  unfold GenProof.huffmanWitnesses
  have key : ∀ cs : List (Fin A.n), (∀ c ∈ cs, c ∈ extremal A pol) → ∃ rs, (cs.mapM fun c => do
      let pruned ← prune A pol c
      g.lookupWitness pruned) = some rs ∧ List.Forall₂ (fun c r => ∃ T, prune A pol c = some T ∧ WitOK L T r) cs rs := by
    intro cs
    induction cs with
    | nil => intro _; exact ⟨[], rfl, List.Forall₂.nil⟩
    | cons c cs ih =>
      intro hcs
      obtain ⟨rs, e1, h1⟩ := ih fun c hc => hcs c (List.mem_cons_of_mem _ hc)
      obtain ⟨T, hT⟩ := prune_some (hcs c List.mem_cons_self)
      obtain ⟨r, e2, h2⟩ := h.lookupWitness T
      refine ⟨r :: rs, ?_, List.Forall₂.cons ⟨T, hT, h2⟩ h1⟩
      rw [List.mapM_cons, hT]
      simp only [Option.bind_eq_bind, Option.bind_some, e2] at e1 ⊢
      rw [e1]
      rfl
  exact key _ fun _ hc => hc

theorem GRep.huffmanPol {A : OSet} {b : ℕ} {pol : Bool} (hb : b ≠ 0) {r : Option PStep}
    (e : g.huffmanPol b A pol = some r) : ∀ s, r = some s → StepOK L A b s := by
  obtain ⟨rs, e1, h1⟩ := h.huffmanWitnesses A pol
  unfold GenProof.huffmanPol at e
  rw [e1] at e
  simp only [Option.bind_eq_bind, Option.bind_some] at e
  cases hv : maxPlus1Huffman (rs.map Prod.fst) with
  | none => rw [hv] at e; simp at e
  | some v =>
    rw [hv] at e
    simp only [Option.bind_some, Option.some.injEq] at e
    intro s hs
    rw [hs] at e
    split at e
    · rename_i hle
      cases e
      exact ⟨hb, rs, h1, rfl, v, hv, hle⟩
    · simp at e

theorem GRep.huffmanPols {A : OSet} {b : ℕ} (hb : b ≠ 0) (pols : List Bool) {r : Option PStep}
    (e : g.huffmanPols b A pols = some r) : ∀ s, r = some s → StepOK L A b s := by
  induction pols with
  | nil =>
    rw [GenProof.huffmanPols] at e
    cases e
    simp
  | cons pol pols ih =>
    rw [GenProof.huffmanPols] at e
    cases hp : g.huffmanPol b A pol with
    | none => rw [hp] at e; simp at e
    | some r' =>
      rw [hp] at e
      simp only [Option.bind_eq_bind, Option.bind_some] at e
      cases r' with
      | none => exact ih e
      | some s' =>
        dsimp only at e
        cases e
        exact h.huffmanPol hb hp

theorem GRep.successorLoop {A : OSet} {b : ℕ} (ps : List (Fin A.n × Fin A.n)) (ws : List (Option PWitness))
    {ws' : List (Option PWitness)} (e : g.successorLoop b A ws ps = some (some ws')) :
    ∃ rs, List.Forall₂ (fun T r => WitOK L T r ∧ b ≤ r.1 + 1) (ps.filterMap fun p => successor A p.1 p.2) rs ∧
      ws' = ws ++ rs.map Prod.snd := by
  induction ps generalizing ws with
  | nil =>
    rw [GenProof.successorLoop] at e
    cases e
    exact ⟨[], List.Forall₂.nil, by simp⟩
  | cons p ps ih =>
    obtain ⟨i, j⟩ := p
    rw [GenProof.successorLoop] at e
    cases hs : successor A i j with
    | none =>
      rw [hs] at e
      dsimp only at e
      rw [List.filterMap_cons]
      simp only [hs]
      exact ih ws e
    | some T =>
      rw [hs] at e
      dsimp only at e
      obtain ⟨r, e2, h2⟩ := h.lookupWitness T
      rw [e2] at e
      simp only [Option.bind_eq_bind, Option.bind_some] at e
      split at e
      · simp at e
      · split at e
        · simp at e
        · rename_i h3 h4
          obtain ⟨rs, h5, h6⟩ := ih _ e
          rw [List.filterMap_cons]
          simp only [hs]
          exact ⟨r :: rs, List.Forall₂.cons ⟨h2, by omega⟩ h5, by simp [h6]⟩

theorem GRep.findStep {e e' : OSet × ℕ} {s : PStep} (hf : g.findStep e = some (e'.1, s)) (he : e' = e) :
    StepOK L e.1 e.2 s := by
  subst he
  unfold GenProof.findStep at hf
  split at hf
  · rename_i s' hs
    simp only [Option.some.injEq, Prod.mk.injEq] at hf
    obtain ⟨_, rfl⟩ := hf
    exact trivialStep_ok hs
  · rename_i hs
    have hb := (trivialStep_none hs).1
    cases hh : g.huffmanStep e'.2 e'.1 with
    | none => rw [hh] at hf; simp at hf
    | some r =>
      rw [hh] at hf
      simp only [Option.bind_eq_bind, Option.bind_some] at hf
      cases r with
      | some s' =>
        simp only [Option.some.injEq, Prod.mk.injEq] at hf
        obtain ⟨_, rfl⟩ := hf
        exact h.huffmanPols hb _ hh _ rfl
      | none =>
        dsimp only at hf
        unfold GenProof.successorStep at hf
        cases hl : g.successorLoop e'.2 e'.1 [] (pairs e'.1.n) with
        | none => rw [hl] at hf; simp at hf
        | some r =>
          rw [hl] at hf
          simp only [Option.bind_eq_bind, Option.bind_some] at hf
          cases r with
          | none => simp at hf
          | some ws =>
            simp only [Option.map_some, Option.some.injEq, Prod.mk.injEq] at hf
            obtain ⟨_, rfl⟩ := hf
            obtain ⟨rs, h1, h2⟩ := h.successorLoop _ _ hl
            exact ⟨hb, rs, h1, by simpa using h2⟩

end

theorem findStep_fst {g : GenProof} {e : OSet × ℕ} {r : OSet × PStep} (hf : g.findStep e = some r) : r.1 = e.1 := by
  unfold GenProof.findStep at hf
  split at hf
  · cases hf; rfl
  · cases hh : g.huffmanStep e.2 e.1 with
    | none => rw [hh] at hf; simp at hf
    | some s =>
      rw [hh] at hf
      simp only [Option.bind_eq_bind, Option.bind_some] at hf
      cases s with
      | some s => cases hf; rfl
      | none =>
        cases hk : g.successorStep e.2 e.1 with
        | none => rw [hk] at hf; simp at hf
        | some s =>
          rw [hk] at hf
          simp only [Option.bind_some] at hf
          cases s with
          | none => simp at hf
          | some s => cases hf; rfl

/-- All steps have been found. -/
structure PRep (g : GenProof) (L : List (OSet × ℕ)) : Prop extends GRep g L where
  steps : ∀ A b, mapGet g.outputSets A = some b → ∃ s, mapGet g.steps A = some s ∧ StepOK L A b s
  first : ∀ A b t, mapGet g.outputSets A = some b → trivialStep b A = some t → mapGet g.steps A = some t

theorem mapM_forall₂ {α β : Type} {f : α → Option β} {l : List α} {l' : List β} (h : l.mapM f = some l') :
    List.Forall₂ (fun a b => f a = some b) l l' := by
  induction l generalizing l' with
  | nil =>
    rw [List.mapM_nil] at h
    cases h
    exact List.Forall₂.nil
  | cons a l ih =>
    rw [List.mapM_cons] at h
    cases ha : f a with
    | none => rw [ha] at h; simp at h
    | some b =>
      rw [ha] at h
      simp only [Option.bind_eq_bind, Option.bind_some] at h
      cases hl : l.mapM f with
      | none => rw [hl] at h; simp at h
      | some l'' =>
        rw [hl] at h
        cases h
        exact List.Forall₂.cons ha (ih hl)

theorem GRep.proveAll {g g' : GenProof} {L : List (OSet × ℕ)} (h : GRep g L) (e : g.proveAll = some g') :
    PRep g' L ∧ g'.outputSets = g.outputSets := by
  unfold GenProof.proveAll at e
  cases hs : g.outputSets.mapM g.findStep with
  | none => rw [hs] at e; simp at e
  | some steps =>
    rw [hs] at e
    cases e
    have key : ∀ A b, mapGet g.outputSets A = some b → ∃ s, mapGet steps A = some s ∧ StepOK L A b s ∧
        ∀ t, trivialStep b A = some t → s = t := ?_
    · exact ⟨⟨⟨h.idx, h.out⟩, fun A b hb => by obtain ⟨s, h1, h2, _⟩ := key A b hb; exact ⟨s, h1, h2⟩,
        fun A b t hb ht => by obtain ⟨s, h1, _, h3⟩ := key A b hb; rw [h1, h3 t ht]⟩, rfl⟩
    have h2 := mapM_forall₂ hs
    have hnd := h.out.nodup
    clear hs
    generalize g.outputSets = o at h2 hnd
    induction h2 with
    | nil => intro A b hb; simp [mapGet] at hb
    | @cons e r o steps h3 h4 ih =>
      intro A b hb
      rw [mapGet_cons] at hb
      have hfst := findStep_fst h3
      rw [mapGet_cons, hfst]
      split at hb
      · rename_i hA
        cases hb
        rw [if_pos hA]
        subst hA
        refine ⟨r.2, rfl, h.findStep (e := e) (e' := e) (s := r.2) (by rw [h3, ← hfst]) rfl, ?_⟩
        intro t ht
        unfold GenProof.findStep at h3
        rw [ht] at h3
        cases h3
        rfl
      · rename_i hA
        rw [if_neg hA]
        exact ih (by rw [List.map_cons, List.nodup_cons] at hnd; exact hnd.2) A b hb

/-! ## Witnesses have smaller rank -/

theorem rank_subsumes {n : ℕ} {s t : Bitmap n} {π : Equiv.Perm (Fin n)} {inv : Bool}
    (h : permSet π (if inv then complSet s.toSet else s.toSet) ⊆ t.toSet) : rank ⟨n, s⟩ ≤ rank ⟨n, t⟩ := by
  have hc : (vecs (permSet π (if inv then complSet s.toSet else s.toSet))).card = (vecs s.toSet).card := by
    rw [vecs_permSet_card]; cases inv
    · rfl
    · exact vecs_complSet_card _
  have hs : spread (permSet π (if inv then complSet s.toSet else s.toSet)) = spread s.toSet := by
    rw [spread_permSet]; cases inv
    · rfl
    · exact spread_complSet _
  have hsub : vecs (permSet π (if inv then complSet s.toSet else s.toSet)) ⊆ vecs t.toSet := by
    intro v hv
    rw [mem_vecs] at hv ⊢
    exact h hv
  have hle := Finset.card_le_card hsub
  unfold rank
  rw [Prod.Lex.toLex_le_toLex]
  refine Or.inr ⟨rfl, ?_⟩
  rw [Prod.Lex.toLex_le_toLex]
  dsimp only
  rw [hc] at hle
  rcases Nat.lt_or_ge (vecs s.toSet).card (vecs t.toSet).card with hlt | hge
  · exact Or.inl hlt
  · refine Or.inr ⟨by omega, ?_⟩
    have heq := Finset.eq_of_subset_of_card_le hsub (by rw [hc]; exact hge)
    have hset : permSet π (if inv then complSet s.toSet else s.toSet) = t.toSet := by
      ext v
      rw [← mem_vecs, heq, mem_vecs]
    rw [← hs, hset]

theorem WitOK.rank_le {L : List (OSet × ℕ)} {T : OSet} {r : ℕ × Option PWitness} (h : WitOK L T r) {w : PWitness}
    (hw : r.2 = some w) : rank w.target ≤ rank T ∧ (w.target, r.1) ∈ L := by
  obtain ⟨s, π, h1, h2, _, h4⟩ := h.wit w hw
  refine ⟨?_, h2⟩
  rw [h1]
  exact rank_subsumes h4

theorem mem_pairs_ne {n : ℕ} {p : Fin n × Fin n} (h : p ∈ pairs n) : p.1 ≠ p.2 := by
  unfold pairs at h
  simp only [List.mem_flatMap, List.mem_map, List.mem_filter, decide_eq_true_eq] at h
  obtain ⟨i, _, j, ⟨_, hj⟩, rfl⟩ := h
  exact fun e => absurd hj (by dsimp only at e; rw [e]; exact lt_irrefl _)

theorem rank_succs {A T : OSet} (h : T ∈ succs A) : rank T < rank A := by
  obtain ⟨p, hp, he⟩ := List.mem_filterMap.1 h
  exact rank_successor (mem_pairs_ne hp) he

theorem forall₂_mem_right {α β : Type} {R : α → β → Prop} {l : List α} {l' : List β} (h : List.Forall₂ R l l') {b : β}
    (hb : b ∈ l') : ∃ a ∈ l, R a b := by
  induction h with
  | nil => simp at hb
  | cons h1 h2 ih =>
    rcases List.mem_cons.1 hb with rfl | hb
    · exact ⟨_, List.mem_cons_self, h1⟩
    · obtain ⟨a, ha, hr⟩ := ih hb
      exact ⟨a, List.mem_cons_of_mem _ ha, hr⟩

/-- The witnesses of a step. -/
def PStep.witnesses : PStep → List (Option PWitness)
  | .trivial => []
  | .notSorted => []
  | .huffman _ ws => ws
  | .successors ws => ws

theorem StepOK.witness {L : List (OSet × ℕ)} {A : OSet} {b : ℕ} {s : PStep} (h : StepOK L A b s) {w : PWitness}
    (hw : some w ∈ s.witnesses) : rank w.target < rank A ∧ ∃ c, (w.target, c) ∈ L := by
  cases s with
  | trivial => simp [PStep.witnesses] at hw
  | notSorted => simp [PStep.witnesses] at hw
  | huffman pol ws =>
    obtain ⟨_, rs, h1, rfl, _⟩ := h
    obtain ⟨r, hr, he⟩ := List.mem_map.1 hw
    obtain ⟨c, hc, T, hT, hwit⟩ := forall₂_mem_right h1 hr
    obtain ⟨g1, g2⟩ := hwit.rank_le he
    exact ⟨lt_of_le_of_lt g1 (rank_prune hT), _, g2⟩
  | successors ws =>
    obtain ⟨_, rs, h1, rfl⟩ := h
    obtain ⟨r, hr, he⟩ := List.mem_map.1 hw
    obtain ⟨T, hT, hwit, _⟩ := forall₂_mem_right h1 hr
    obtain ⟨g1, g2⟩ := hwit.rank_le he
    exact ⟨lt_of_le_of_lt g1 (rank_succs hT), _, g2⟩

end ProofGen

end Sortnet
