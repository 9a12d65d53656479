import Verif.Model.Gnp
import Verif.Theory.Chain
import Verif.Proof.SearchSpec
import Verif.Proof.IndexHistory
import Verif.Props.C17

/-!
# Proofs about generate-and-prune
-/

namespace Sortnet

namespace Gnp

open Search Index

variable {n : ℕ} {hash : List ℕ → ℕ}

/-- `t` is a successor of `s`. -/
def Succ (hash : List ℕ → ℕ) (s t : Bitmap n) : Prop :=
  ∃ i j : Fin n, j < i ∧ ∃ B : Bitmap n, successor ⟨n, s⟩ i j = some ⟨n, B⟩ ∧ ∃ p, B.canonicalize hash false = some (t, p)

theorem mem_setInsert {l : List (Bitmap n)} {t u : Bitmap n} : u ∈ setInsert l t ↔ u ∈ l ∨ u = t := by
  unfold setInsert
  split
  · rename_i h
    obtain ⟨v, hv, e⟩ := List.any_eq_true.1 h
    rw [decide_eq_true_eq] at e
    have := OSet.toList_inj e
    subst this
    exact ⟨Or.inl, fun h => h.elim id fun h => h ▸ hv⟩
  · simp

theorem mem_pairs' {n : ℕ} {c : Fin n × Fin n} : c ∈ pairs n ↔ c.2 < c.1 := by
  unfold pairs
  simp only [List.mem_flatMap, List.mem_finRange, true_and, List.mem_map, List.mem_filter, decide_eq_true_eq]
  constructor
  · rintro ⟨i, j, h, rfl⟩; exact h
  · intro h; exact ⟨c.1, c.2, h, rfl⟩

theorem successors_spec (hn : n ≤ 11) (s : Bitmap n) :
    ∃ l, successors hash s = some l ∧ ∀ t, t ∈ l ↔ Succ hash s t := by
  have key : ∀ (cs : List (Fin n × Fin n)) (l : List (Bitmap n)),
      ∃ l', cs.foldlM (addSuccessor hash s) l = some l' ∧ ∀ t, t ∈ l' ↔ t ∈ l ∨ ∃ c ∈ cs, ∃ B : Bitmap n,
        successor ⟨n, s⟩ c.1 c.2 = some ⟨n, B⟩ ∧ ∃ p, B.canonicalize hash false = some (t, p) := by
    intro cs
    induction cs with
    | nil => intro l; exact ⟨l, rfl, by simp⟩
    | cons c cs ih =>
      intro l
      rw [List.foldlM_cons]
      by_cases hr : (s.applyComparator c.1 c.2).2 = true
      · obtain ⟨t0, p0, e0, _⟩ := C17_witness hn hash (s.applyComparator c.1 c.2).1 false
        have e1 : addSuccessor hash s l c = some (setInsert l t0) := by
          unfold addSuccessor
          dsimp only
          rw [if_pos hr, e0]
          rfl
        have e2 : successor ⟨n, s⟩ c.1 c.2 = some ⟨n, (s.applyComparator c.1 c.2).1⟩ := by
          unfold successor
          dsimp only
          rw [if_pos hr]
        obtain ⟨l', e3, h3⟩ := ih (setInsert l t0)
        refine ⟨l', by rw [e1]; exact e3, fun t => ?_⟩
        rw [h3, mem_setInsert]
        simp only [List.mem_cons, exists_eq_or_imp]
        rw [or_assoc]
        refine or_congr_right (or_congr_left ?_)
        rw [e2]
        constructor
        · rintro rfl
          exact ⟨_, rfl, p0, e0⟩
        · rintro ⟨B, hB, p, hp⟩
          cases hB
          rw [e0] at hp
          cases hp
          rfl
      · have e1 : addSuccessor hash s l c = some l := by
          unfold addSuccessor
          dsimp only
          rw [if_neg hr]
        have e2 : successor ⟨n, s⟩ c.1 c.2 = none := by
          unfold successor
          dsimp only
          rw [if_neg hr]
        obtain ⟨l', e3, h3⟩ := ih l
        refine ⟨l', by rw [e1]; exact e3, fun t => ?_⟩
        rw [h3]
        simp only [List.mem_cons, exists_eq_or_imp]
        rw [e2]
        simp
  obtain ⟨l, e, h⟩ := key (pairs n) []
  refine ⟨l, e, fun t => ?_⟩
  rw [h]
  constructor
  · rintro (h | ⟨c, hc, h⟩)
    · simp at h
    · exact ⟨c.1, c.2, mem_pairs'.1 hc, h⟩
  · rintro ⟨i, j, hji, h⟩
    exact Or.inr ⟨(i, j), mem_pairs'.2 hji, h⟩

/-! ## Layers -/

/-- The index `idx` is the result of inserting the sets of `H`. -/
structure Holds (idx : OutputSetIndex n) (C H : List (Bitmap n × ℕ)) : Prop where
  rep : Rep idx C
  anti : Antichain .lower C
  cov : Covers .lower C H

theorem insertAll_spec (h2 : 2 ≤ n) (hn : n ≤ 11) (l : List (Bitmap n)) {idx : OutputSetIndex n}
    {C H : List (Bitmap n × ℕ)} (h : Holds idx C H) :
    ∃ idx' C', insertAll idx l = some idx' ∧ Holds idx' C' (H ++ l.map fun t => (t, 0)) := by
  unfold insertAll
  induction l generalizing idx C H with
  | nil => exact ⟨idx, C, rfl, by simpa using h⟩
  | cons t l ih =>
    obtain ⟨i, r, g1⟩ := insert_total h2 hn h.rep h.anti.nodup .lower t 0
    obtain ⟨C', k1, k2, _, _, _, k6⟩ := insert_covers h2 hn h.rep g1
    obtain ⟨i', C'', m1, m2⟩ := ih (H := H ++ [(t, 0)]) ⟨k1, k6 h.anti, k2.trans (h.cov.append _)⟩
    refine ⟨i', C'', ?_, by simpa using m2⟩
    rw [List.foldlM_cons, abstraction_absOf (by omega) hn]
    simp only [Option.bind_eq_bind, Option.bind_some]
    rw [g1]
    exact m1

theorem addSets_spec (h2 : 2 ≤ n) (hn : n ≤ 11) {order : ℕ → List (Bitmap n) → List (Bitmap n)}
    (ho : ∀ i l, (order i l).Perm l) (es : List (Bitmap n × List ℕ × ℕ)) (i : ℕ) {idx : OutputSetIndex n}
    {C H : List (Bitmap n × ℕ)} (h : Holds idx C H) :
    ∃ idx' C' H', addSets hash order i es idx = some idx' ∧ Holds idx' C' H' ∧
      ∀ p, p ∈ H' ↔ p ∈ H ∨ p.2 = 0 ∧ ∃ e ∈ es, Succ hash e.1 p.1 := by
  induction es generalizing i idx C H with
  | nil => exact ⟨idx, C, H, rfl, h, by simp⟩
  | cons e es ih =>
    obtain ⟨l, e1, hl⟩ := successors_spec (hash := hash) hn e.1
    obtain ⟨idx1, C1, e2, h3⟩ := insertAll_spec h2 hn (order i l) h
    obtain ⟨idx2, C2, H2, e4, h4, h5⟩ := ih (i + 1) h3
    refine ⟨idx2, C2, H2, ?_, h4, fun p => ?_⟩
    · rw [addSets, addSet, e1]
      simp only [Option.bind_eq_bind, Option.bind_some]
      rw [e2]
      exact e4
    · rw [h5, List.mem_append]
      simp only [List.mem_cons, exists_eq_or_imp, List.mem_map, (ho i l).mem_iff, hl]
      constructor
      · rintro ((h | ⟨t, ht, rfl⟩) | ⟨h, h'⟩)
        · exact Or.inl h
        · exact Or.inr ⟨rfl, Or.inl ht⟩
        · exact Or.inr ⟨h, Or.inr h'⟩
      · rintro (h | ⟨h, h' | h'⟩)
        · exact Or.inl (Or.inl h)
        · exact Or.inl (Or.inr ⟨p.1, h', by rw [← h]⟩)
        · exact Or.inr ⟨h, h'⟩

theorem nextLayer_spec (h2 : 2 ≤ n) (hn : n ≤ 11) {order : ℕ → List (Bitmap n) → List (Bitmap n)}
    (ho : ∀ i l, (order i l).Perm l) {idx : OutputSetIndex n} {C : List (Bitmap n × ℕ)} (h : Rep idx C) :
    ∃ idx' C' H', nextLayer hash order idx = some idx' ∧ Holds idx' C' H' ∧
      ∀ p, p ∈ H' ↔ p.2 = 0 ∧ ∃ q ∈ C, Succ hash q.1 p.1 := by
  obtain ⟨idx0, e0, r0⟩ := new_rep h2 hn
  obtain ⟨D, hD, e1⟩ := forEach_spec h .lower
  obtain ⟨idx', C', H', e2, h3, h4⟩ := addSets_spec (hash := hash) h2 hn ho (D.map fun p => (p.1, absOf p.1, p.2)) 0
    (H := []) ⟨r0, List.Pairwise.nil, Covers.refl _ _⟩
  refine ⟨idx', C', H', ?_, h3, fun p => ?_⟩
  · unfold nextLayer
    rw [e0, e1]
    exact e2
  · rw [h4]
    simp [hD.mem_iff]

/-! ## Bounds -/

theorem Succ.spec (hn : n ≤ 11) {s t : Bitmap n} (hs : Chained s.toSet) (h : Succ hash s t) :
    Chained t.toSet ∧ (∀ k, UB t.toSet k → UB s.toSet (k + 1)) ∧ (s.toSet.Nonempty → t.toSet.Nonempty) := by
  obtain ⟨i, j, hji, B, hB, p, hp⟩ := h
  obtain ⟨t', p', e, ⟨π, _, hset⟩, hinv, _, hu⟩ := C17_witness hn hash B false
  rw [hp] at e
  cases e
  have hok : OK ⟨n, s⟩ := ⟨hs, hn⟩
  refine ⟨?_, fun k hk => successor_ub hji.ne' hB ((hu k).1 hk), ?_⟩
  swap
  · intro hne
    obtain ⟨_, B', e', hB'⟩ := successor_toSet hji.ne' hB
    cases e'
    rw [hset]
    dsimp only at hB'
    have : B.toSet.Nonempty := by rw [hB']; exact hne.image _
    split
    · exact (this.image _).image _
    · exact this.image _
  have hc := (successor_ok hok hji.ne' hB).1
  dsimp only at hc
  rw [hset]
  split
  · exact hc.complSet.permSet π
  · exact hc.permSet π

/-- A successor that needs one comparator less. -/
theorem exists_succ_ub (hn : n ≤ 11) {s : Bitmap n} (hs : Chained s.toSet) {k : ℕ} (hu : UB s.toSet (k + 1))
    (hc : ¬ IsChain (· ≤ ·) s.toSet) : ∃ t, Succ hash s t ∧ UB t.toSet k := by
  have hok : OK ⟨n, s⟩ := ⟨hs, hn⟩
  have hsort : (⟨n, s⟩ : OSet).s.isSorted = false := by
    rw [← Bool.not_eq_true, sorted_iff hok]
    exact hc
  by_contra hcon
  push Not at hcon
  have : LB s.toSet (k + 1 + 1) := by
    refine successor_lb hok hsort fun i j hji B hB => ?_
    obtain ⟨_, t, rfl, _⟩ := successor_toSet hji.ne' hB
    obtain ⟨t', p', e, _, _, _, hu'⟩ := C17_witness hn hash t false
    exact fun cn hcn => by
      by_contra hlt
      exact hcon t' ⟨i, j, hji, t, hB, p', e⟩ ((hu' k).2 ⟨cn, by dsimp only at hlt; omega, hcn⟩)
  have := this.le_UB hu
  omega

/-- A sorted set has no successors. -/
theorem not_succ_of_chain {s t : Bitmap n} (hc : IsChain (· ≤ ·) s.toSet) : ¬ Succ hash s t := by
  rintro ⟨i, j, hji, B, hB, _⟩
  unfold successor at hB
  dsimp only at hB
  split at hB
  · rename_i hf
    obtain ⟨⟨v, hv, h1, h2⟩, w, hw, h3, h4⟩ := (applyComparator_flag s hji.ne').1 hf
    rcases hc.total hv hw with h | h
    · have a := h i; have b := h j
      simp only [h1, h2, h3, h4] at a b
      exact absurd b (by simp)
    · have a := h i; have b := h j
      simp only [h1, h2, h3, h4] at a b
      exact absurd a (by simp)
  · simp at hB

/-- The layer with number `k`, if `m` comparators are needed to sort all vectors. -/
structure Layer (m k : ℕ) (idx : OutputSetIndex n) (C : List (Bitmap n × ℕ)) : Prop where
  rep : Rep idx C
  anti : Antichain .lower C
  zero : ∀ p ∈ C, p.2 = 0
  chained : ∀ p ∈ C, Chained p.1.toSet
  ne : ∀ p ∈ C, p.1.toSet.Nonempty
  lb : ∀ p ∈ C, ∀ u, UB p.1.toSet u → m ≤ u + k
  ub : ∃ p ∈ C, UB p.1.toSet (m - k)

theorem Layer.next (h2 : 2 ≤ n) (hn : n ≤ 11) {order : ℕ → List (Bitmap n) → List (Bitmap n)}
    (ho : ∀ i l, (order i l).Perm l) {m k : ℕ} (hk : k < m) {idx : OutputSetIndex n} {C : List (Bitmap n × ℕ)}
    (h : Layer m k idx C) : ∃ idx' C', nextLayer hash order idx = some idx' ∧ Layer m (k + 1) idx' C' := by
  obtain ⟨idx', C', H', e, h3, h4⟩ := nextLayer_spec (hash := hash) h2 hn ho h.rep
  refine ⟨idx', C', e, h3.rep, h3.anti, ?_, ?_, ?_, ?_, ?_⟩
  · intro p hp
    exact ((h4 p).1 (h3.cov.sub p hp)).1
  · intro p hp
    obtain ⟨_, q, hq, hs⟩ := (h4 p).1 (h3.cov.sub p hp)
    exact (hs.spec hn (h.chained q hq)).1
  · intro p hp
    obtain ⟨_, q, hq, hs⟩ := (h4 p).1 (h3.cov.sub p hp)
    exact (hs.spec hn (h.chained q hq)).2.2 (h.ne q hq)
  · intro p hp u hu
    obtain ⟨_, q, hq, hs⟩ := (h4 p).1 (h3.cov.sub p hp)
    have := h.lb q hq _ ((hs.spec hn (h.chained q hq)).2.1 u hu)
    omega
  · obtain ⟨q, hq, hu⟩ := h.ub
    obtain ⟨t, ht, htu⟩ := exists_succ_ub (hash := hash) hn (h.chained q hq) (k := m - (k + 1))
      (by rw [show m - (k + 1) + 1 = m - k by omega]; exact hu) (by
        intro hc
        have := h.lb q hq 0 (UB_zero hc)
        omega)
    obtain ⟨p, hp, hd⟩ := h3.cov.cov (t, 0) ((h4 _).2 ⟨rfl, q, hq, ht⟩)
    obtain ⟨π, hπ⟩ := hd.1
    exact ⟨p, hp, (UB_permSet π).1 (htu.mono hπ)⟩

/-- The last layer has exactly one set, which is sorted, and the layer after it is empty. -/
theorem Layer.last (h2 : 2 ≤ n) (hn : n ≤ 11) {order : ℕ → List (Bitmap n) → List (Bitmap n)}
    (ho : ∀ i l, (order i l).Perm l) {m : ℕ} {idx : OutputSetIndex n} {C : List (Bitmap n × ℕ)}
    (h : Layer m m idx C) : C.length = 1 ∧ ∃ idx', nextLayer hash order idx = some idx' ∧ Rep idx' [] := by
  obtain ⟨p, hp, hu⟩ := h.ub
  rw [Nat.sub_self, UB_zero_iff] at hu
  have hC : C = [p] := by
    obtain ⟨l1, l2, rfl⟩ := List.append_of_mem hp
    have ha := h.anti
    unfold Antichain at ha
    have hdom : ∀ q ∈ l1 ++ p :: l2, Dominates .lower p q := fun q hq =>
      ⟨subsumes_of_chain hu (h.chained q hq) (h.ne q hq), by
        show q.2 ≤ p.2
        rw [h.zero q hq, h.zero p hp]⟩
    rw [List.pairwise_append, List.pairwise_cons] at ha
    have e1 : l1 = [] := List.eq_nil_iff_forall_not_mem.2 fun q hq =>
      (ha.2.2 q hq p List.mem_cons_self).2 (hdom q (List.mem_append_left _ hq))
    have e2 : l2 = [] := List.eq_nil_iff_forall_not_mem.2 fun q hq =>
      (ha.2.1.1 q hq).1 (hdom q (List.mem_append_right _ (List.mem_cons_of_mem _ hq)))
    rw [e1, e2]; rfl
  subst hC
  obtain ⟨idx', C', H', e, h3, h4⟩ := nextLayer_spec (hash := hash) h2 hn ho h.rep
  have : C' = [] := List.eq_nil_iff_forall_not_mem.2 fun q hq => by
    obtain ⟨_, q', hq', hs⟩ := (h4 q).1 (h3.cov.sub q hq)
    rw [List.mem_singleton.1 hq'] at hs
    exact not_succ_of_chain hu hs
  subst this
  exact ⟨rfl, idx', e, h3.rep⟩

/-! ## The loop -/

theorem loop_layers (h2 : 2 ≤ n) (hn : n ≤ 11) {order : ℕ → ℕ → List (Bitmap n) → List (Bitmap n)}
    (ho : ∀ k i l, (order k i l).Perm l) {m : ℕ} : ∀ (d k : ℕ), k + d = m → ∀ (idx : OutputSetIndex n)
    (C : List (Bitmap n × ℕ)), Layer m k idx C →
    ∃ sizes, loop hash order k idx = some (sizes ++ [0]) ∧ sizes.length = d ∧ (∀ x ∈ sizes, 0 < x) ∧
      ∀ x, sizes.getLast? = some x → x = 1 := by
  intro d
  induction d with
  | zero =>
    intro k hk idx C h
    have hkm : k = m := by omega
    subst hkm
    obtain ⟨hC, idx', e, hr⟩ := h.last (hash := hash) h2 hn (ho k)
    refine ⟨[], ?_, rfl, by simp, by simp⟩
    rw [loop, isEmpty_spec h.rep, if_neg (by
      intro he
      rw [List.isEmpty_iff.1 he] at hC
      simp at hC), e]
    simp only [Option.bind_eq_bind, Option.bind_some]
    rw [loop, isEmpty_spec hr, if_pos (by rfl), len_spec hr]
    rfl
  | succ d ih =>
    intro k hk idx C h
    obtain ⟨idx', C', e, h'⟩ := h.next (hash := hash) h2 hn (ho k) (by omega)
    obtain ⟨sizes, e1, l1, p1, q1⟩ := ih (k + 1) (by omega) idx' C' h'
    refine ⟨idx'.len :: sizes, ?_, by simp [l1], ?_, ?_⟩
    · obtain ⟨p, hp, _⟩ := h.ub
      rw [loop, isEmpty_spec h.rep, if_neg (by
        intro he
        rw [List.isEmpty_iff.1 he] at hp
        simp at hp), e]
      simp only [Option.bind_eq_bind, Option.bind_some]
      rw [e1]
      rfl
    · intro x hx
      rcases List.mem_cons.1 hx with rfl | hx
      · obtain ⟨p, hp, _⟩ := h'.ub
        rw [len_spec h'.rep]
        exact List.length_pos_of_mem hp
      · exact p1 x hx
    · intro x hx
      cases sizes with
      | nil =>
        have hkm : k + 1 = m := by simp at l1; omega
        subst hkm
        have := (h'.last (hash := hash) h2 hn (ho 0)).1
        rw [List.getLast?_singleton, len_spec h'.rep] at hx
        simp only [Option.some.injEq] at hx
        omega
      | cons y ys => rw [List.getLast?_cons_cons] at hx; exact q1 x hx

theorem exists_isOpt {A : OSet} (hA : OK A) : ∃ m, IsOpt A.s.toSet m := by
  classical
  have h : ∃ m, UB A.s.toSet m := ⟨_, default_ub hA⟩
  refine ⟨Nat.find h, ?_, Nat.find_spec h⟩
  intro cn hcn
  exact Nat.find_min' h ⟨cn, le_rfl, hcn⟩

theorem gnp_spec (h2 : 2 ≤ n) (hn : n ≤ 11) {order : ℕ → ℕ → List (Bitmap n) → List (Bitmap n)}
    (ho : ∀ k i l, (order k i l).Perm l) {m : ℕ} (hm : IsOpt (Set.univ : Set (Fin n → Bool)) m) :
    ∃ sizes, gnp hash n order = some (sizes ++ [0]) ∧ sizes.length = m ∧ (∀ x ∈ sizes, 0 < x) ∧
      ∀ x, sizes.getLast? = some x → x = 1 := by
  obtain ⟨idx0, e0, r0⟩ := new_rep h2 hn
  obtain ⟨idx1, C1, e1, h1⟩ := insertAll_spec h2 hn [allValues n] (H := [])
    ⟨r0, List.Pairwise.nil, Covers.refl _ _⟩
  have hC1 : ∀ p ∈ C1, p = (allValues n, 0) := fun p hp => by simpa using h1.cov.sub p hp
  have hL : Layer m 0 idx1 C1 := by
    refine ⟨h1.rep, h1.anti, ?_, ?_, ?_, ?_, ?_⟩
    · intro p hp; rw [hC1 p hp]
    · intro p hp; rw [hC1 p hp, toSet_allValues]; exact chained_univ
    · intro p hp; rw [hC1 p hp, toSet_allValues]; exact Set.univ_nonempty
    · intro p hp u hu
      rw [hC1 p hp, toSet_allValues] at hu
      exact hm.1.le_UB hu
    · obtain ⟨p, hp, _⟩ := h1.cov.cov (allValues n, 0) (by simp)
      refine ⟨p, hp, ?_⟩
      rw [hC1 p hp, toSet_allValues]
      exact hm.2
  obtain ⟨sizes, e2, h3⟩ := loop_layers (hash := hash) h2 hn ho m 0 (by omega) idx1 C1 hL
  refine ⟨sizes, ?_, h3⟩
  unfold gnp
  unfold insertAll at e1
  simp only [List.foldlM_cons, List.foldlM_nil] at e1
  rw [if_neg (by unfold maxChannels; omega), e0]
  cases ha : (allValues n).abstraction with
  | none => rw [ha] at e1; simp at e1
  | some a =>
    rw [ha] at e1
    simp only [Option.bind_eq_bind, Option.bind_some] at e1 ⊢
    cases hi : idx0.insert .lower (allValues n) a 0 with
    | none => rw [hi] at e1; simp at e1
    | some r =>
      rw [hi] at e1
      simp only [Option.bind_some, Option.pure_def, Option.some.injEq] at e1 ⊢
      rw [e1]
      exact e2

end Gnp

end Sortnet
