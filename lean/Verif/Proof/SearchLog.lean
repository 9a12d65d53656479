import Verif.Props.C29
import Verif.Props.C30
import Verif.Props.C36
import Verif.Props.C38
import Verif.Props.C39
import Verif.Proof.ProofComplete
import Verif.Proof.SearchVisited
import Verif.Theory.Univ

/-!
# The log written after a search for all vectors
-/

namespace Sortnet

open Search

variable {hash : List ℕ → ℕ}

/-! ## The history of a run -/

theorem Search.Reach.steps {limit : Option ℕ} {A : OSet} {G : Global} (h : Reach hash limit A G) :
    Relation.ReflTransGen (Step hash) (Search.init hash limit A) G := by
  induction h with
  | init => exact .refl
  | step _ hs ih => exact ih.tail hs

/-- Stored lower bounds are positive. -/
theorem Search.Run.pos {limit : Option ℕ} {initial : OSet} (h0 : Chained initial.s.toSet) (hn : initial.n ≤ 11)
    {G : Global} (h : Run hash limit initial G) {A : OSet} {v : State} (hA : G.store A = some v) : 1 ≤ v.lo := by
  obtain ⟨A0, e0, hr⟩ := h
  have h1 := (C30_monotone hash limit initial h0 hn _ G ⟨A0, e0, .init⟩ hr.steps A).1
  obtain ⟨_, _, _, β, hG, _⟩ := Run.inv h0 hn ⟨A0, e0, hr⟩
  obtain ⟨_, _, hs⟩ := hG.sinv.dom A v hA
  have e : G.store.get A = v := by simp [Store.get, hA]
  rw [e] at h1
  refine le_trans ?_ h1
  show 1 ≤ (defaultState A).lo
  unfold defaultState
  rw [hs]
  simp only [Bool.false_eq_true, if_false]
  split <;> simp

theorem lastSet_append (hist : List (OSet × State)) (A : OSet) (v : State) :
    lastSet (hist ++ [(A, v)]) = Store.set (lastSet hist) A v := by
  funext B
  unfold lastSet Store.set
  rw [List.reverse_append, List.reverse_singleton, List.singleton_append, List.find?_cons]
  by_cases h : A = B
  · subst h; simp
  · have h' : ¬ B = A := fun e => h e.symm
    simp [h, h']

theorem release_store (G : Global) (r : Res) : (G.release r).store = G.store := by
  unfold Global.release
  split
  · rfl
  · rfl

/-- The contents of the state map are the result of calls of `set`. -/
theorem Search.Reach.history {limit : Option ℕ} {A0 : OSet} {G : Global} (h : Reach hash limit A0 G) :
    ∃ hist : List (OSet × State), (∀ e ∈ hist, 3 ≤ e.1.n ∧ e.1.n ≤ 11) ∧ lastSet hist = G.store := by
  induction h with
  | init => exact ⟨[], by simp, rfl⟩
  | step _ hs ih =>
    obtain ⟨hist, h1, h2⟩ := ih
    obtain ⟨i, ha⟩ := hs
    cases ha with
    | set ht e hok =>
      rename_i _ A v _ _ _
      refine ⟨hist ++ [(A, v)], ?_, ?_⟩
      · intro e he
        rcases List.mem_append.1 he with he | he
        · exact h1 e he
        · rw [List.mem_singleton] at he
          subst he
          exact hok
      · rw [lastSet_append, h2]
    | _ => exact ⟨hist, h1, by first | exact h2 | (rw [release_store]; exact h2)⟩

/-! ## The set of all vectors is the only one of its size with its bound -/

theorem UB_permInvEquiv {n : ℕ} {X Y : Set (Fin n → Bool)} (h : PermInvEquiv X Y) {k : ℕ} : UB X k ↔ UB Y k := by
  rcases h with ⟨π, rfl⟩ | ⟨π, rfl⟩
  · exact (UB_permSet π).symm
  · exact UB_complSet.symm.trans (UB_permSet π).symm

theorem permInvEquiv_univ {n : ℕ} {X : Set (Fin n → Bool)} (h : PermInvEquiv X Set.univ) : X = Set.univ := by
  have key : ∀ (π : Equiv.Perm (Fin n)) (Y : Set (Fin n → Bool)), permSet π Y = Set.univ → Y = Set.univ := by
    intro π Y h
    refine Set.eq_univ_of_forall fun x => ?_
    have : x ∘ π ∈ permSet π Y := by rw [h]; exact Set.mem_univ _
    rw [mem_permSet] at this
    simpa [Function.comp_assoc] using this
  rcases h with ⟨π, h⟩ | ⟨π, h⟩
  · exact key π _ h
  · refine Set.eq_univ_of_forall fun x => ?_
    have : vnot x ∈ complSet X := by rw [key π _ h]; exact Set.mem_univ _
    rw [mem_complSet] at this
    simpa using this

theorem canon_allValues {N : ℕ} (hN : N ≤ 11) {A : OSet} (h : canon hash ⟨N, allValues N⟩ = some A) :
    A = ⟨N, allValues N⟩ := by
  obtain ⟨t, rfl, ht⟩ := ProofGen.canon_shape hN h
  rw [toSet_allValues] at ht
  have := permInvEquiv_univ ht
  rw [← toSet_allValues] at this
  rw [Bitmap.toSet_injective this]

/-- Every set the search works on has fewer channels, is the initial set, or needs a comparator less. -/
theorem visited_shape {N r : ℕ} (hN : N ≤ 11) (hs : ¬ IsChain (· ≤ ·) (Set.univ : Set (Fin N → Bool)))
    (hr : UB (Set.univ : Set (Fin N → Bool)) (r + 1)) {B : OSet} (h : Visited hash ⟨N, allValues N⟩ B) :
    B.n < N ∨ B = ⟨N, allValues N⟩ ∨ ∃ t : Bitmap N, B = ⟨N, t⟩ ∧ UB t.toSet r := by
  induction h with
  | init => exact Or.inr (Or.inl rfl)
  | @successor A T C i j hA hij hT hC ih =>
    have hne : i ≠ j := Fin.ne_of_gt hij
    have key : ∀ s : Bitmap N, A = ⟨N, s⟩ → ∃ t : Bitmap N, C = ⟨N, t⟩ ∧ UB t.toSet r := by
      rintro s rfl
      obtain ⟨_, t, rfl, ht⟩ := successor_toSet hne hT
      dsimp only at t ht hC
      obtain ⟨t', rfl, ht'⟩ := ProofGen.canon_shape hN hC
      refine ⟨t', rfl, ?_⟩
      rw [UB_permInvEquiv ht', ht]
      exact (UB_image_univ hr hs (c := (j, i)) (Ne.symm hne)).mono (Set.image_mono (Set.subset_univ _))
    rcases ih with hlt | rfl | ⟨s, rfl, _⟩
    · left
      obtain ⟨_, t, rfl, ht⟩ := successor_toSet hne hT
      obtain ⟨t', rfl, ht'⟩ := ProofGen.canon_shape (by omega) hC
      exact hlt
    · exact Or.inr (Or.inr (key _ rfl))
    · exact Or.inr (Or.inr (key _ rfl))
  | @prune A T C pol c hA hT hC ih =>
    left
    have hAn : A.n ≤ N := by
      rcases ih with hlt | rfl | ⟨s, rfl, _⟩
      · omega
      · exact Nat.le_refl _
      · exact Nat.le_refl _
    obtain ⟨n, s⟩ := A
    cases n with
    | zero => exact c.elim0
    | succ n =>
      unfold Search.prune at hT
      dsimp only at hT hAn
      rw [Option.map_eq_some_iff] at hT
      obtain ⟨t, _, rfl⟩ := hT
      obtain ⟨t', rfl, _⟩ := ProofGen.canon_shape (by omega) hC
      dsimp only
      omega

theorem not_chain_univ {N : ℕ} (h : 2 ≤ N) : ¬ IsChain (· ≤ ·) (Set.univ : Set (Fin N → Bool)) := by
  intro hc
  have h01 : (⟨0, by omega⟩ : Fin N) ≠ ⟨1, by omega⟩ := by simp
  rcases hc.total (Set.mem_univ (oneHot (⟨0, by omega⟩ : Fin N))) (Set.mem_univ (oneHot ⟨1, by omega⟩)) with h | h
  · exact h01 (oneHot_le_iff.1 h)
  · exact h01 (oneHot_le_iff.1 h).symm

theorem allValues_unsorted {N : ℕ} (h : 2 ≤ N) : (allValues N).isSorted = false := by
  have h1 := C13_is_sorted (allValues N) (by rw [toSet_allValues]; exact chained_univ)
  rw [toSet_allValues] at h1
  cases hc : (allValues N).isSorted with
  | false => rfl
  | true => exact absurd (h1.1 hc) (not_chain_univ h)

/-- The final state of a search for all vectors. -/
theorem final_store {N : ℕ} (h3 : 3 ≤ N) (hN : N ≤ 11) {G : Global} (h : Run hash none ⟨N, allValues N⟩ G) {r : ℕ}
    (hr : Returned G r) :
    (∃ v, G.store ⟨N, allValues N⟩ = some v ∧ v.lo = r) ∧
    ∀ A v, G.store A = some v → A.n ≤ N ∧ (A.n = N → v.lo = r → A = ⟨N, allValues N⟩) := by
  have h0 : Chained (⟨N, allValues N⟩ : OSet).s.toSet := by dsimp only; rw [toSet_allValues]; exact chained_univ
  obtain ⟨A, hA, hok, β, hG, _⟩ := h.inv h0 hN
  obtain rfl := canon_allValues hN hA
  have hopt := C29_exact hash _ h0 hN G h r hr
  have hroot : ∃ v, G.store ⟨N, allValues N⟩ = some v ∧ v.lo = r := by
    obtain ⟨t, v, ht, hs, rfl⟩ := hr
    obtain ⟨t', ht', hroot, _⟩ := hG.main
    rw [ht] at ht'
    cases ht'
    have hd := hG.task 0 t ht
    rw [hs, hroot] at hd
    obtain ⟨hk, hlim⟩ := hd.1 G.store (Rely.refl _ _) hG.sinv
    have e : v.lo = v.hi := by
      rcases hlim with e | ⟨l, hl, _⟩
      · exact e
      · simp at hl
    have h1 := hk.lo
    have h2 := hk.hi
    have h3' := (hG.sinv.lb _ hok).le_UB hopt.2
    cases hst : G.store ⟨N, allValues N⟩ with
    | some w =>
      have e' : G.store.get ⟨N, allValues N⟩ = w := by simp [Store.get, hst]
      rw [e'] at h1 h3'
      exact ⟨w, rfl, by omega⟩
    | none =>
      exfalso
      have e' : G.store.get ⟨N, allValues N⟩ = defaultState ⟨N, allValues N⟩ := by simp [Store.get, hst]
      rw [e'] at h1 h2
      have h4 : (defaultState ⟨N, allValues N⟩).lo ≤ 1 := (default_lo _).1
      have h5 : 3 ≤ (defaultState ⟨N, allValues N⟩).hi := by
        have hso := allValues_unsorted (N := N) (by omega)
        unfold defaultState
        dsimp only
        rw [hso]
        simp only [Bool.false_eq_true, if_false]
        rw [if_neg (by omega)]
        dsimp only
        interval_cases N <;> simp [knownBounds]
      omega
  refine ⟨hroot, ?_⟩
  intro A v hv
  obtain ⟨A0, hA0, hreach⟩ := h
  obtain rfl := canon_allValues hN hA0
  dsimp only at hopt
  rw [toSet_allValues] at hopt
  have hr1 : 1 ≤ r := (LB_one (not_chain_univ (by omega))).le_UB hopt.2
  rcases visited_shape (r := r - 1) hN (not_chain_univ (by omega)) (by rw [Nat.sub_add_cancel hr1]; exact hopt.2)
    (hreach.visited hv) with hlt | rfl | ⟨t, rfl, hu⟩
  · exact ⟨by omega, by omega⟩
  · exact ⟨Nat.le_refl _, fun _ _ => rfl⟩
  · refine ⟨Nat.le_refl _, fun _ hvr => ?_⟩
    exfalso
    obtain ⟨hokA, _, _⟩ := hG.sinv.dom _ v hv
    have h1 := (hG.sinv.lb _ hokA).le_UB hu
    have e' : G.store.get ⟨N, t⟩ = v := by simp [Store.get, hv]
    rw [e'] at h1
    omega

end Sortnet
