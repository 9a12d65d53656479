import Verif.Props.C33
import Verif.Proof.ProofTargets

/-!
# The log of a search is complete: a proof step is found for each of its sets
-/

namespace Sortnet

namespace ProofGen

open Search Files Index

/-- A log that covers the states in the map. -/
structure LogOf (σ : Store) (L : List (OSet × ℕ)) : Prop where
  mem : ∀ A b, (A, b) ∈ L → ∃ v, σ A = some v ∧ v.lo = b
  cover : ∀ A v, σ A = some v → ∃ s : Bitmap A.n, (⟨A.n, s⟩, v.lo) ∈ L ∧ SubsumesInv s.toSet A.s.toSet

theorem permSet_permSet {n : ℕ} (π τ : Equiv.Perm (Fin n)) (X : Set (Fin n → Bool)) :
    permSet π (permSet τ X) = permSet (π.trans τ) X := by
  unfold permSet
  rw [Set.image_image]
  rfl

theorem complSet_permSet {n : ℕ} (π : Equiv.Perm (Fin n)) (X : Set (Fin n → Bool)) :
    complSet (permSet π X) = permSet π (complSet X) := by
  unfold permSet complSet
  rw [Set.image_image, Set.image_image]
  rfl

theorem permSet_mono {n : ℕ} {π : Equiv.Perm (Fin n)} {X Y : Set (Fin n → Bool)} (h : X ⊆ Y) : permSet π X ⊆ permSet π Y :=
  Set.image_mono h

theorem complSet_mono {n : ℕ} {X Y : Set (Fin n → Bool)} (h : X ⊆ Y) : complSet X ⊆ complSet Y :=
  Set.image_mono h

theorem subsumesInv_trans_equiv {n : ℕ} {X Y Z : Set (Fin n → Bool)} (h : SubsumesInv X Y) (h' : PermInvEquiv Y Z) :
    SubsumesInv X Z := by
  rcases h with ⟨π, h⟩ | ⟨π, h⟩ <;> rcases h' with ⟨τ, rfl⟩ | ⟨τ, rfl⟩
  · exact Or.inl ⟨τ.trans π, by rw [← permSet_permSet]; exact permSet_mono h⟩
  · refine Or.inr ⟨τ.trans π, ?_⟩
    rw [← permSet_permSet, ← complSet_permSet]
    exact permSet_mono (complSet_mono h)
  · exact Or.inr ⟨τ.trans π, by rw [← permSet_permSet]; exact permSet_mono h⟩
  · refine Or.inl ⟨τ.trans π, ?_⟩
    rw [← permSet_permSet]
    refine permSet_mono ?_
    have := complSet_mono h
    rw [complSet_permSet, complSet_complSet] at this
    exact this

/-- Canonical forms keep the number of channels. -/
theorem canon_shape {hash : List ℕ → ℕ} {n : ℕ} {s : Bitmap n} {C : OSet} (hn : n ≤ 11) (h : canon hash ⟨n, s⟩ = some C) :
    ∃ t : Bitmap n, C = ⟨n, t⟩ ∧ PermInvEquiv t.toSet s.toSet := by
  unfold canon at h
  dsimp only at h
  rw [Option.map_eq_some_iff] at h
  obtain ⟨x, hx, rfl⟩ := h
  refine ⟨x.1, rfl, canon_equiv (hash := hash) hn ?_⟩
  unfold canon
  dsimp only
  rw [hx]
  rfl

theorem sorted_canon {hash : List ℕ → ℕ} {T C : OSet} (hT : OK T) (h : canon hash T = some C) :
    C.s.isSorted = T.s.isSorted := by
  obtain ⟨hC, _, _, hu⟩ := canon_of_eq hT h
  rw [Bool.eq_iff_iff, sorted_iff hC, sorted_iff hT, ← UB_zero_iff, ← UB_zero_iff]
  exact hu 0

section

variable {hash : List ℕ → ℕ} {σ : Store} {L : List (OSet × ℕ)} (hσ : SInv hash σ)
  (hpos : ∀ A v, σ A = some v → 1 ≤ v.lo) (hL : LogOf σ L)

include hσ hL in
theorem LogOf.le {A : OSet} {b : ℕ} (h : (A, b) ∈ L) : b ≤ 35 ∧ b = (σ.get A).lo ∧ OK A ∧ A.s.isSorted = false := by
  obtain ⟨v, hv, rfl⟩ := hL.mem A b h
  obtain ⟨hA, _, hs⟩ := hσ.dom A v hv
  have e : σ.get A = v := by simp [Store.get, hv]
  have h1 := (hσ.lb A hA).le_UB (hσ.ub A hA)
  have h2 := hσ.top A hA
  rw [e] at h1 h2
  exact ⟨by omega, by rw [e], hA, hs⟩

include hσ hpos hL in
theorem LogOf.lookup {T C : OSet} {r : ℕ × Option PWitness} (h : WitOK L T r) (hT : OK T) (hC : canon hash T = some C) :
    (σ.get C).lo ≤ r.1 ∧ r.1 ≤ 35 := by
  have hr : ∀ w, r.2 = some w → 1 ≤ r.1 ∧ r.1 ≤ 35 := by
    intro w hw
    obtain ⟨s, π, _, h2, _⟩ := h.wit w hw
    refine ⟨?_, (hL.le hσ h2).1⟩
    obtain ⟨v, hv, e⟩ := hL.mem _ _ h2
    rw [← e]
    exact hpos _ v hv
  constructor
  · obtain ⟨n, s⟩ := T
    obtain ⟨t, rfl, heq⟩ := canon_shape hT.2 hC
    cases hv : σ ⟨n, t⟩ with
    | some v =>
      have e : σ.get ⟨n, t⟩ = v := by simp [Store.get, hv]
      rw [e]
      obtain ⟨s', h1, h2⟩ := hL.cover _ v hv
      exact h.best s' v.lo h1 (subsumesInv_trans_equiv h2 heq)
    | none =>
      have e : σ.get ⟨n, t⟩ = defaultState ⟨n, t⟩ := by simp [Store.get, hv]
      rw [e]
      have hd := default_lo ⟨n, t⟩
      cases hw : r.2 with
      | some w => have := (hr w hw).1; omega
      | none =>
        rw [h.fallback hw]
        have hs := sorted_canon hT hC
        split
        · rename_i h3
          dsimp only at hs h3
          rw [h3] at hs
          have := hd.2 hs
          omega
        · exact hd.1
  · cases hw : r.2 with
    | some w => exact (hr w hw).2
    | none =>
      rw [h.fallback hw]
      split <;> omega

variable {g : GenProof} (hg : GRep g L)

theorem extremal_length (A : OSet) (pol : Bool) : (extremal A pol).length ≤ A.n := by
  unfold extremal
  exact (List.length_filter_le _ _).trans (by simp)

include hσ hpos hL hg in
/-- The loop over the extremal channels of one polarity does not panic, and succeeds if the rule applies. -/
theorem huffmanPol_total {A : OSet} (hA : OK A) (b : ℕ) (pol : Bool) :
    ∃ r, g.huffmanPol b A pol = some r ∧ (HuffJust hash (fun B => (σ.get B).lo) A pol b → ∃ s, r = some s) := by
  obtain ⟨rs, e, h⟩ := hg.huffmanWitnesses A pol
  have hle : ∀ x ∈ rs, x.1 ≤ 35 := by
    intro x hx
    obtain ⟨c, hc, T, hT, hw⟩ := forall₂_mem_right h hx
    have hTok := prune_ok hA hT
    obtain ⟨C, hC, _⟩ := canon_spec (hash := hash) hTok
    exact (hL.lookup hσ hpos hw hTok hC).2
  obtain ⟨v, hv, _⟩ := huffman_some (bs := rs.map Prod.fst) (by
      have := h.length_eq
      rw [List.length_map, ← this]
      exact (extremal_length A pol).trans hA.2) (by
      intro b hb
      obtain ⟨x, hx, rfl⟩ := List.mem_map.1 hb
      exact hle x hx)
  unfold GenProof.huffmanPol
  rw [e]
  simp only [Option.bind_eq_bind, Option.bind_some, hv]
  refine ⟨_, rfl, ?_⟩
  rintro ⟨bs, h1, h2, h3⟩
  have hbs : List.Forall₂ (· ≤ ·) bs (rs.map Prod.fst) := by
    clear e hv h2 h3 hle
    generalize extremal A pol = cs at h h1
    induction h generalizing bs with
    | nil => cases h1; exact List.Forall₂.nil
    | cons hd _ ih =>
      cases h1 with
      | cons g1 g2 =>
        rw [List.map_cons]
        refine List.Forall₂.cons ?_ (ih _ g2)
        obtain ⟨T, C, a1, a2, a3⟩ := g1
        obtain ⟨T', b1, b2⟩ := hd
        rw [a1] at b1
        cases b1
        exact a3.trans (hL.lookup hσ hpos b2 (prune_ok hA a1) a2).1
  have hbv : b ≤ v := by
    by_cases hne : bs = []
    · subst hne
      cases hbs' : rs.map Prod.fst with
      | nil =>
        rw [hbs', h3] at hv
        cases hv
        exact Nat.le_refl _
      | cons _ _ => rw [hbs'] at hbs; cases hbs
    · have hne' : rs.map Prod.fst ≠ [] := by
        intro h0
        rw [h0] at hbs
        cases hbs
        exact hne rfl
      rw [maxPlus1Huffman_spec _ hne h2 isPsumLog_clog] at h3
      rw [maxPlus1Huffman_spec _ hne' (by
        intro x hx
        obtain ⟨y, hy, rfl⟩ := List.mem_map.1 hx
        have := hle y hy
        omega) isPsumLog_clog] at hv
      split at h3
      · split at hv
        · cases h3; cases hv
          exact IsPsumLog.mono (psum_le_psum hbs) isPsumLog_clog isPsumLog_clog
        · simp at hv
      · simp at h3
  rw [if_pos hbv]
  exact ⟨_, rfl⟩

include hσ hpos hL hg in
theorem huffmanPols_total {A : OSet} (hA : OK A) (b : ℕ) (pols : List Bool) :
    ∃ r, g.huffmanPols b A pols = some r ∧
      ((∃ pol ∈ pols, HuffJust hash (fun B => (σ.get B).lo) A pol b) → ∃ s, r = some s) := by
  induction pols with
  | nil => exact ⟨none, rfl, by simp⟩
  | cons pol pols ih =>
    obtain ⟨r, e, h⟩ := huffmanPol_total hσ hpos hL hg hA b pol
    obtain ⟨r', e', h'⟩ := ih
    rw [GenProof.huffmanPols, e]
    simp only [Option.bind_eq_bind, Option.bind_some]
    cases r with
    | some s => exact ⟨some s, rfl, fun _ => ⟨s, rfl⟩⟩
    | none =>
      refine ⟨r', e', ?_⟩
      rintro ⟨p, hp, hj⟩
      rcases List.mem_cons.1 hp with rfl | hp
      · obtain ⟨s, hs⟩ := h hj
        simp at hs
      · exact h' ⟨p, hp, hj⟩

include hσ hpos hL hg in
theorem successorLoop_total {A : OSet} (hA : OK A) (b : ℕ)
    (hj : SuccJust hash (fun B => (σ.get B).lo) A b) (ps : List (Fin A.n × Fin A.n)) (hps : ∀ p ∈ ps, p.2 < p.1)
    (ws : List (Option PWitness)) : ∃ ws', g.successorLoop b A ws ps = some (some ws') := by
  induction ps generalizing ws with
  | nil => exact ⟨ws, rfl⟩
  | cons p ps ih =>
    obtain ⟨i, j⟩ := p
    have ih := ih fun p hp => hps p (List.mem_cons_of_mem _ hp)
    rw [GenProof.successorLoop]
    cases hs : successor A i j with
    | none => exact ih ws
    | some T =>
      dsimp only
      obtain ⟨r, e, hw⟩ := hg.lookupWitness T
      have hij : j < i := hps (i, j) List.mem_cons_self
      have hTok := successor_ok hA (Fin.ne_of_gt hij) hs
      obtain ⟨C, hC, _⟩ := canon_spec (hash := hash) hTok
      obtain ⟨h1, h2⟩ := hL.lookup hσ hpos hw hTok hC
      have h3 := hj.2 i j hij T C hs hC
      dsimp only at h3
      rw [e]
      simp only [Option.bind_eq_bind, Option.bind_some]
      rw [if_neg (by omega), if_neg (by omega)]
      exact ih _

theorem mem_pairs_lt {n : ℕ} {p : Fin n × Fin n} (h : p ∈ pairs n) : p.2 < p.1 := by
  unfold pairs at h
  simp only [List.mem_flatMap, List.mem_map, List.mem_filter, decide_eq_true_eq] at h
  obtain ⟨i, _, j, ⟨_, hj⟩, rfl⟩ := h
  exact hj

theorem mem_polOrder (A : OSet) (pol : Bool) : pol ∈ polOrder A := by
  unfold polOrder
  split <;> cases pol <;> simp

include hσ hpos hL hg in
/-- A proof step is found for every set of the log. -/
theorem findStep_total {e : OSet × ℕ} (he : e ∈ L) : ∃ r, g.findStep e = some r := by
  obtain ⟨A, b⟩ := e
  obtain ⟨h35, hb, hA, hs⟩ := hL.le hσ he
  unfold GenProof.findStep
  dsimp only
  cases ht : trivialStep b A with
  | some s => exact ⟨_, rfl⟩
  | none =>
    obtain ⟨hb0, hb1⟩ := trivialStep_none ht
    obtain ⟨r, e1, h1⟩ := huffmanPols_total hσ hpos hL hg hA b (polOrder A)
    dsimp only
    unfold GenProof.huffmanStep
    rw [e1]
    simp only [Option.bind_eq_bind, Option.bind_some]
    cases r with
    | some s => exact ⟨_, rfl⟩
    | none =>
      have hj := hσ.just A hA
      rw [← hb] at hj
      rcases hj with ⟨h2, _⟩ | ⟨pol, hh⟩ | hj
      · have := hb1 (by omega)
        rw [hs] at this
        simp at this
      · obtain ⟨s, h3⟩ := h1 ⟨pol, mem_polOrder A pol, hh⟩
        simp at h3
      · obtain ⟨ws, e2⟩ := successorLoop_total hσ hpos hL hg hA b hj (pairs A.n) (fun p hp => mem_pairs_lt hp) []
        unfold GenProof.successorStep
        dsimp only
        rw [e2]
        exact ⟨_, rfl⟩

include hσ hpos hL hg in
theorem proveAll_total : ∃ g', g.proveAll = some g' := by
  have : ∀ es : List (OSet × ℕ), (∀ e ∈ es, e ∈ L) → ∃ steps, es.mapM g.findStep = some steps := by
    intro es
    induction es with
    | nil => intro _; exact ⟨[], rfl⟩
    | cons e es ih =>
      intro h
      obtain ⟨r, hr⟩ := findStep_total hσ hpos hL hg (h e List.mem_cons_self)
      obtain ⟨rs, hrs⟩ := ih fun e he => h e (List.mem_cons_of_mem _ he)
      exact ⟨r :: rs, by rw [List.mapM_cons, hr, hrs]; rfl⟩
  obtain ⟨steps, hs⟩ := this g.outputSets hg.out.sub
  unfold GenProof.proveAll
  rw [hs]
  exact ⟨_, rfl⟩

end

end ProofGen

end Sortnet
