import Verif.Proof.AcceptFile
import Verif.Theory.Standard
import Verif.Proof.Huffman

/-! # The rules of Spec/Accept.lean are complete -/

namespace Sortnet.Accept

open Checker (ProofWitness ProofStep ProofCert)

variable {n : ℕ}

theorem afterCmp_ofFn (c : Fin n × Fin n) (x : Fin n → Bool) :
    afterCmp ((c.1 : ℕ), (c.2 : ℕ)) (List.ofFn x) = List.ofFn (applyCmp c x) := by
  have h1 : (List.ofFn x).getD c.1 false = x c.1 := by simp [List.getD_eq_getElem?_getD]
  have h2 : (List.ofFn x).getD c.2 false = x c.2 := by simp [List.getD_eq_getElem?_getD]
  unfold afterCmp
  dsimp only
  rw [h1, h2]
  apply List.ext_getElem (by simp)
  intro i hi _
  rw [List.length_set, List.length_set, List.length_ofFn] at hi
  rw [List.getElem_set, List.getElem_set, List.getElem_ofFn, List.getElem_ofFn, applyCmp]
  by_cases e2 : (c.2 : ℕ) = i
  · rw [if_pos e2, if_pos (Fin.ext e2.symm)]
    rfl
  · rw [if_neg e2, if_neg fun h => e2 (congrArg Fin.val h).symm]
    by_cases e1 : (c.1 : ℕ) = i
    · rw [if_pos e1, if_pos (Fin.ext e1.symm)]
      rfl
    · rw [if_neg e1, if_neg fun h => e1 (congrArg Fin.val h).symm]

/-- Fewer than `k` standard comparators leave more than `n + 1` vectors. -/
def Needs (V : List (Fin n → Bool)) (k : ℕ) : Prop :=
  ∀ cn : List (Fin n × Fin n), Standard cn → cn.length < k → n + 1 < (run cn '' {x | x ∈ V}).ncard

theorem Needs.next {V : List (Fin n → Bool)} {k : ℕ} (h : Needs V (k + 1)) {c : Fin n × Fin n} (hc : c.1 < c.2) :
    Needs (V.map (applyCmp c)) k := by
  intro cn hs hl
  have := h (c :: cn) (by
    intro d hd
    rcases List.mem_cons.1 hd with rfl | hd
    · exact hc
    · exact hs d hd) (by rw [List.length_cons]; omega)
  have e : run cn '' {x | x ∈ V.map (applyCmp c)} = run (c :: cn) '' {x | x ∈ V} := by
    ext y
    simp only [Set.mem_image, Set.mem_setOf_eq, List.mem_map]
    constructor
    · rintro ⟨_, ⟨x, hx, rfl⟩, rfl⟩
      exact ⟨x, hx, rfl⟩
    · rintro ⟨x, hx, rfl⟩
      exact ⟨_, ⟨x, hx, rfl⟩, rfl⟩
  rwa [e]

theorem setOf_ofFn (V : List (Fin n → Bool)) : {v | v ∈ V.map List.ofFn} = List.ofFn '' {x | x ∈ V} := by
  ext v
  simp

theorem ncard_ofFn (V : List (Fin n → Bool)) : {v | v ∈ V.map List.ofFn}.ncard = {x | x ∈ V}.ncard := by
  rw [setOf_ofFn, Set.ncard_image_of_injective _ List.ofFn_injective]

theorem image_afterCmp (c : Fin n × Fin n) (V : List (Fin n → Bool)) :
    afterCmp ((c.1 : ℕ), (c.2 : ℕ)) '' {v | v ∈ V.map List.ofFn} = {v | v ∈ (V.map (applyCmp c)).map List.ofFn} := by
  ext v
  simp only [Set.mem_image, Set.mem_setOf_eq, List.mem_map]
  constructor
  · rintro ⟨_, ⟨x, hx, rfl⟩, rfl⟩
    exact ⟨_, ⟨x, hx, rfl⟩, (afterCmp_ofFn c x).symm⟩
  · rintro ⟨_, ⟨x, hx, rfl⟩, rfl⟩
    exact ⟨_, ⟨x, hx, rfl⟩, afterCmp_ofFn c x⟩

/-- The steps of a list. -/
def stepsOf (S : List ProofStep) (i : ℤ) : ProofStep := S[i.toNat]?.getD ⟨0, [], 0, .successor []⟩

theorem stepsOf_append {S T : List ProofStep} {i : ℤ} (h0 : 0 ≤ i) (h1 : i < S.length) : stepsOf (S ++ T) i = stepsOf S i := by
  unfold stepsOf
  rw [List.getElem?_append_left (by omega)]

def Good (S : List ProofStep) : Prop := ∀ i : ℤ, 0 ≤ i → i < S.length → StepFollows (stepsOf S) i (stepsOf S i)

theorem SameStep.refl (s : ProofStep) : SameStep s s := ⟨rfl, rfl, rfl, fun _ => Iff.rfl⟩

theorem Good.snoc {S : List ProofStep} (h : Good S) {s : ProofStep} (hs : StepFollows (stepsOf S) S.length s) :
    Good (S ++ [s]) := by
  intro i h0 h1
  rw [List.length_append, List.length_singleton] at h1
  by_cases hi : i < S.length
  · rw [stepsOf_append h0 hi]
    refine (h i h0 hi).congr (fun j hj0 hj1 => ?_) (.refl _)
    rw [stepsOf_append hj0 (by omega)]
    exact .refl _
  · have e : i = S.length := by omega
    subst e
    have : stepsOf (S ++ [s]) S.length = s := by simp [stepsOf]
    rw [this]
    refine hs.congr (fun j hj0 hj1 => ?_) (.refl _)
    rw [stepsOf_append hj0 hj1]
    exact .refl _

/-- The set `V` is in `S` with the bound `k`. -/
def Has (S : List ProofStep) (V : List (Fin n → Bool)) (k : ℕ) : Prop :=
  ∃ j : ℤ, 0 ≤ j ∧ j < S.length ∧ (stepsOf S j).vectList = V.map List.ofFn ∧ (stepsOf S j).bound = k

theorem Has.append {S : List ProofStep} {V : List (Fin n → Bool)} {k : ℕ} (h : Has S V k) (T : List ProofStep) :
    Has (S ++ T) V k := by
  obtain ⟨j, h0, h1, h2, h3⟩ := h
  refine ⟨j, h0, by rw [List.length_append]; omega, ?_, ?_⟩ <;> rwa [stepsOf_append h0 h1]

theorem shows_none (steps : ℤ → ProofStep) (limit : ℤ) (n : ℕ) (A : Set (List Bool)) : ∃ b, Shows steps limit n A none b := by
  by_cases h : A.ncard ≤ n + 1
  · exact ⟨_, .few h⟩
  · exact ⟨_, .many (by omega)⟩

theorem view_id (i : ℤ) {v : List Bool} (h : v.length = n) :
    view ⟨i, false, (List.range n).map fun (p : ℕ) => (p : ℤ)⟩ v = v := by
  unfold view
  apply List.ext_getElem (by simp [h])
  intro k hk hk'
  simp [List.getD_eq_getElem?_getD, hk']

theorem Has.shows {S : List ProofStep} {V : List (Fin n → Bool)} {k : ℕ} (h : Has S V k) :
    ∃ w, Shows (stepsOf S) S.length n {v | v ∈ V.map List.ofFn} (some w) k := by
  obtain ⟨j, h0, h1, h2, h3⟩ := h
  have key := Shows.step (steps := stepsOf S) (limit := S.length) (n := n) (A := {v | v ∈ V.map List.ofFn})
    ⟨j, false, (List.range n).map fun (p : ℕ) => (p : ℤ)⟩ h0 h1 ?_ ?_
  · dsimp only at key
    rw [h3, Int.toNat_natCast] at key
    exact ⟨_, key⟩
  · rw [List.map_map]
    have : (Int.toNat ∘ fun (p : ℕ) => (p : ℤ)) = id := funext fun p => Int.toNat_natCast p
    rw [this, List.map_id]
  · intro v hv
    dsimp only at hv
    rw [h2] at hv
    have hl : v.length = n := by
      obtain ⟨x, _, rfl⟩ := List.mem_map.1 hv
      exact List.length_ofFn
    refine ⟨hl, ?_⟩
    rw [view_id _ hl]
    exact hv

theorem mem_usefulCmps {V : Set (List Bool)} {c : ℕ × ℕ} (h : c ∈ usefulCmps n V) : c.1 < c.2 ∧ c.2 < n := by
  unfold usefulCmps at h
  rw [List.mem_filter, List.mem_flatMap] at h
  obtain ⟨⟨i, hi, hc⟩, -⟩ := h
  obtain ⟨j, hj, rfl⟩ := List.mem_map.1 hc
  exact ⟨List.mem_range.1 hj, List.mem_range.1 hi⟩

theorem forall₂_of_forall {α β : Type*} {R : α → β → Prop} : ∀ {l : List α}, (∀ a ∈ l, ∃ b, R a b) → ∃ l', List.Forall₂ R l l'
  | [], _ => ⟨[], .nil⟩
  | a :: l, h => by
    obtain ⟨b, hb⟩ := h a (by simp)
    obtain ⟨l', hl'⟩ := forall₂_of_forall (l := l) fun a ha => h a (by simp [ha])
    exact ⟨b :: l', .cons hb hl'⟩

/-- All standard comparators. -/
def allCmps (n : ℕ) : List (Fin n × Fin n) :=
  (List.finRange n).flatMap fun i => ((List.finRange n).map fun j => (j, i)).filter fun c => c.1 < c.2

theorem mem_allCmps (c : Fin n × Fin n) : c ∈ allCmps n ↔ c.1 < c.2 := by
  obtain ⟨j, i⟩ := c
  simp [allCmps]

theorem add_step {S : List ProofStep} (h : Good S) {V : List (Fin n → Bool)} {k : ℕ} (hV : Needs V (k + 1))
    (hS : ∀ c ∈ allCmps n, 0 < k → Has S (V.map (applyCmp c)) k) :
    ∃ s, Good (S ++ [s]) ∧ s.width = (n : ℤ) ∧ s.bound = ((k + 1 : ℕ) : ℤ) ∧ s.vectList = V.map List.ofFn := by
  have hw : ∃ ws, List.Forall₂ (fun c w => ∃ b : ℕ, Shows (stepsOf S) S.length n
      (afterCmp c '' {v | v ∈ V.map List.ofFn}) w b ∧ ((k + 1 : ℕ) : ℤ) ≤ b + 1) (usefulCmps n {v | v ∈ V.map List.ofFn}) ws := by
    apply forall₂_of_forall
    rintro ⟨j, i⟩ hc
    obtain ⟨hji, hi⟩ := mem_usefulCmps hc
    dsimp only at hji hi
    let c : Fin n × Fin n := (⟨j, by omega⟩, ⟨i, hi⟩)
    have e : afterCmp (j, i) '' {v | v ∈ V.map List.ofFn} = {v | v ∈ (V.map (applyCmp c)).map List.ofFn} := image_afterCmp c V
    rw [e]
    by_cases hk : 0 < k
    · obtain ⟨w, hw⟩ := (hS c ((mem_allCmps c).2 hji) hk).shows
      exact ⟨some w, k, hw, by push_cast; omega⟩
    · obtain ⟨b, hb⟩ := shows_none (stepsOf S) S.length n {v | v ∈ (V.map (applyCmp c)).map List.ofFn}
      exact ⟨none, b, hb, by push_cast; omega⟩
  obtain ⟨ws, hws⟩ := hw
  refine ⟨⟨n, V.map List.ofFn, (k + 1 : ℕ), .successor ws⟩, h.snoc ⟨?_, ?_, ?_, ?_⟩, rfl, rfl, rfl⟩
  · intro v hv
    obtain ⟨x, _, rfl⟩ := List.mem_map.1 hv
    simp
  · push_cast
    omega
  · dsimp only
    rw [ncard_ofFn, Int.toNat_natCast]
    have := hV [] (by intro c hc; simp at hc) (by simp)
    have e : run ([] : List (Fin n × Fin n)) '' {x | x ∈ V} = {x | x ∈ V} := by
      ext y
      simp [run]
    rwa [e] at this
  · exact hws

theorem grow : ∀ (k : ℕ) (Vs : List (List (Fin n → Bool))) (S : List ProofStep), (∀ V ∈ Vs, Needs V k) → Good S →
    ∃ T, Good (S ++ T) ∧ ∀ V ∈ Vs, 0 < k → Has (S ++ T) V k
  | 0, _, S, _, h => ⟨[], by rwa [List.append_nil], fun _ _ h => absurd h (by omega)⟩
  | k + 1, [], S, _, h => ⟨[], by rwa [List.append_nil], fun _ h => absurd h (by simp)⟩
  | k + 1, V :: Vs, S, hV, h => by
    obtain ⟨T, hT, hhas⟩ := grow k ((allCmps n).map fun c => V.map (applyCmp c)) S (by
      intro W hW
      obtain ⟨c, hc, rfl⟩ := List.mem_map.1 hW
      exact (hV V (by simp)).next ((mem_allCmps c).1 hc)) h
    obtain ⟨s, hs, -, hb, hv⟩ := add_step hT (hV V (by simp)) fun c hc hk => hhas _ (List.mem_map_of_mem hc) hk
    obtain ⟨T', hT', hhas'⟩ := grow (k + 1) Vs (S ++ T ++ [s]) (fun W hW => hV W (by simp [hW])) hs
    refine ⟨T ++ [s] ++ T', by simpa using hT', fun W hW _ => ?_⟩
    rcases List.mem_cons.1 hW with rfl | hW
    · have : Has (S ++ T ++ [s]) W (k + 1) := by
        have e : stepsOf (S ++ T ++ [s]) ((S ++ T).length : ℕ) = s := by
          rw [stepsOf, Int.toNat_natCast, List.getElem?_append_right le_rfl]
          simp
        exact ⟨((S ++ T).length : ℕ), by omega, by simp, by rw [e, hv],
          by rw [e, hb]⟩
      simpa using this.append T'
    · simpa using hhas' W hW (by omega)
termination_by k Vs => (k, Vs.length)

theorem needs_all {b : ℕ} (h : LowerSizeBound n b) : Needs (Finset.univ : Finset (Fin n → Bool)).toList b := by
  intro cn hs hl
  by_contra hcon
  have hsub : sortedVec n '' (Finset.range (n + 1) : Set ℕ) ⊆ run cn '' {x | x ∈ (Finset.univ : Finset (Fin n → Bool)).toList} := by
    rintro _ ⟨k, _, rfl⟩
    exact ⟨sortedVec n k, by simp, run_standard_monotone hs (sortedVec_monotone n k)⟩
  have hcard : (sortedVec n '' (Finset.range (n + 1) : Set ℕ)).ncard = n + 1 := by
    rw [Set.ncard_image_of_injOn, Set.ncard_coe_finset, Finset.card_range]
    intro a ha b hb hab
    rw [Finset.mem_coe, Finset.mem_range] at ha hb
    rw [← weight_sortedVec (n := n) (k := a) (by omega), ← weight_sortedVec (n := n) (k := b) (by omega), hab]
  have he := Set.eq_of_subset_of_ncard_le hsub (by omega) (Set.toFinite _)
  have : SortingNetwork n cn := by
    intro x
    have hx : run cn x ∈ run cn '' {x | x ∈ (Finset.univ : Finset (Fin n → Bool)).toList} := ⟨x, by simp, rfl⟩
    rw [← he] at hx
    obtain ⟨k, _, hk⟩ := hx
    rw [← hk]
    exact sortedVec_monotone n k
  have := h cn this
  omega

theorem certifies_of_good {S : List ProofStep} {s : ProofStep} (h : Good (S ++ [s])) :
    Certifies ⟨((S ++ [s]).length : ℕ), stepsOf (S ++ [s])⟩ s.width s.bound := by
  have e : stepsOf (S ++ [s]) ((((S ++ [s]).length : ℕ) : ℤ) - 1) = s := by
    have : (((S ++ [s]).length : ℕ) : ℤ) - 1 = (S.length : ℕ) := by simp
    rw [this, stepsOf, Int.toNat_natCast, List.getElem?_append_right le_rfl]
    simp
  exact ⟨by simp, h, congrArg ProofStep.width e, congrArg ProofStep.bound e⟩

theorem good_nil : Good [] := fun i h0 h1 => absurd h1 (by simp; omega)

/-- The bound 0. -/
theorem certifies_zero (hn : 0 < n) : ∃ cert, Certifies cert n 0 := by
  let V := ((Finset.univ : Finset (Fin n → Bool)).toList).map List.ofFn
  have hV : ∀ v : List Bool, v ∈ V ↔ v.length = n := by
    intro v
    constructor
    · intro hv
      obtain ⟨x, _, rfl⟩ := List.mem_map.1 hv
      simp
    · intro hv
      subst hv
      exact List.mem_map.2 ⟨v.get, by simp, List.ofFn_get v⟩
  have hne : extremalChannels n true {v | v ∈ V} ≠ [] := by
    intro h
    have : (0 : ℕ) ∈ extremalChannels n true {v | v ∈ V} := by
      unfold extremalChannels
      rw [List.mem_filter]
      refine ⟨List.mem_range.2 hn, @decide_eq_true _ (Classical.propDecidable _) ?_⟩
      exact (hV _).2 (by simp [extremal])
    rw [h] at this
    simp at this
  obtain ⟨bs, hbs⟩ := forall₂_of_forall (l := extremalChannels n true {v | v ∈ V})
    (R := fun c b => Shows (stepsOf []) 0 (n - 1) (pruned true c {v | v ∈ V}) none b)
    (fun c _ => shows_none _ _ _ _)
  have hlen := hbs.length_eq
  have hbne : bs ≠ [] := by
    rintro rfl
    exact hne (List.length_eq_zero_iff.1 hlen)
  have hopt := (isOptMerge_iff hbne).2 (Checker.sucmaxValueBoundHuffman_spec ⟨false, 0⟩ bs hbne)
  have hgood : Good ([] ++ [⟨n, V, 0, .huffman true (List.replicate bs.length none)⟩]) := by
    apply good_nil.snoc
    refine ⟨fun v hv => by simpa using (hV v).1 hv, by simpa using hn, by simpa using hbne, bs, _, hopt, by simp, ?_, ?_⟩
    · simpa using hlen.symm
    · dsimp only
      rw [Int.toNat_natCast]
      clear hopt hbne hne hlen
      generalize extremalChannels n true {v | v ∈ V} = cs at hbs
      induction hbs with
      | nil => exact .nil
      | cons h _ ih => exact .cons h ih
  exact ⟨_, certifies_of_good hgood⟩

/-- Every true bound has a certificate. -/
theorem certifies_complete (hn : 0 < n) {b : ℕ} (h : LowerSizeBound n b) : ∃ cert, Certifies cert n b := by
  cases b with
  | zero => exact certifies_zero hn
  | succ k =>
    have hV := needs_all h
    obtain ⟨T, hT, hhas⟩ := grow k ((allCmps n).map fun c => (Finset.univ : Finset (Fin n → Bool)).toList.map (applyCmp c)) [] (by
      intro W hW
      obtain ⟨c, hc, rfl⟩ := List.mem_map.1 hW
      exact hV.next ((mem_allCmps c).1 hc)) good_nil
    obtain ⟨s, hs, hw, hb, -⟩ := add_step hT hV fun c hc hk => hhas _ (List.mem_map_of_mem hc) hk
    have := certifies_of_good hs
    rw [hw, hb] at this
    exact ⟨_, this⟩

/-- No step is about less than one channel. -/
theorem StepFollows.width_pos {steps : ℤ → ProofStep} {limit : ℤ} {s : ProofStep} (h : StepFollows steps limit s) :
    0 < s.width := by
  obtain ⟨h1, h2⟩ := h
  cases hw : s.witnesses with
  | huffman pol ws =>
    rw [hw] at h2
    exact h2.1
  | successor ws =>
    rw [hw] at h2
    by_contra hcon
    have h3 := h2.2.1
    have h0 : s.width.toNat = 0 := by omega
    have hs : {v | v ∈ s.vectList} ⊆ {[]} := fun v hv => List.length_eq_zero_iff.1 ((h1 v hv).trans h0)
    have := Set.ncard_le_ncard hs (Set.finite_singleton _)
    rw [Set.ncard_singleton] at this
    omega

end Sortnet.Accept
