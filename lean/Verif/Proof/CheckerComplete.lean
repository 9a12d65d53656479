import Verif.Proof.ProofTargets
import Verif.Proof.ProofDecode
import Verif.Proof.CheckerSound
import Verif.Props.C13

/-! # The verified checker accepts generated certificates -/

namespace Sortnet

namespace Checker

open Search ProofGen

/-! ## `get_bound` -/

theorem isUnsortedVt_of_card {n : ℕ} {b : VectTrie} {X : Set (Fin n → Bool)} (hsub : X ⊆ vtSet n b)
    (hcard : n + 1 < (vecs X).card) : isUnsortedVt n b = true := by
  rw [isUnsortedVt, decide_eq_true_eq, lengthVt_eq]
  refine lt_of_lt_of_le hcard ?_
  have h1 : (vecs X) ⊆ ((listVt b).map (vec n)).toFinset := by
    intro x hx
    rw [mem_vecs] at hx
    obtain ⟨l, hl, rfl⟩ := hsub hx
    rw [List.mem_toFinset]
    exact List.mem_map.2 ⟨l, (mem_listVt b l).2 hl, rfl⟩
  refine (Finset.card_le_card h1).trans ((List.toFinset_card_le _).trans ?_)
  rw [List.length_map]

theorem card_of_unsorted {A : OSet} (h : OK A) (hs : A.s.isSorted = false) : A.n + 1 < (vecs A.s.toSet).card := by
  by_contra hcon
  have := (C13_is_sorted_len A.s h.1).2 (by
    rw [len_eq_card A.s (vecs A.s.toSet) (fun v => mem_vecs)]
    omega)
  rw [hs] at this
  simp at this

theorem nat_natCast (k : ℕ) : nat (k : ℤ) = k := by
  unfold nat
  omega

theorem getBound_some (u : Undef) (steps : ℤ → ProofStep) (limit : ℤ) (w : ProofWitness) {n : ℕ} {a : VectTrie}
    (h0 : 0 ≤ w.stepId) (hl : w.stepId < limit) (π : Equiv.Perm (Fin n))
    (hperm : w.perm.map nat = (List.finRange n).map fun i => (π i : ℕ)) (X : Set (Fin n → Bool))
    (hX : ∀ l, l ∈ (steps w.stepId).vectList ↔ ∃ x ∈ X, l = List.ofFn x)
    (hsub : permSet π (if w.invert then complSet X else X) ⊆ vtSet n a) (hw : VtWidth n a) :
    getBound u steps limit (some w) n a = some (nat (steps w.stepId).bound) := by
  have hπ : ∀ i : Fin n, ((List.finRange n).map fun i => (π i : ℕ))[i]? = some (π i : ℕ) := by
    intro i
    simp
  have hlen : ∀ l ∈ (steps w.stepId).vectList, l.length = n := by
    intro l hl
    obtain ⟨x, _, rfl⟩ := (hX l).1 hl
    simp
  simp only [getBound]
  rw [if_neg]
  simp only [Bool.or_eq_true, Bool.not_eq_true', not_or, Bool.not_eq_false, Bool.and_eq_true,
    decide_eq_true_eq, List.all_eq_true, sizeList_eq, distinct_iff, isSubsetVt_iff]
  rw [hperm]
  refine ⟨⟨h0, hl⟩, ?_, by simp, ?_, hlen, ?_⟩
  · intro p hp
    obtain ⟨i, _, rfl⟩ := List.mem_map.1 hp
    exact ⟨Nat.zero_le _, (π i).2⟩
  · rw [List.nodup_map_iff]
    · exact List.nodup_finRange n
    · intro i j h
      exact π.injective (Fin.ext h)
  · intro l hl
    rw [mem_permuteVt] at hl
    obtain ⟨l1, hl1, rfl⟩ := hl
    rw [mem_invertVt] at hl1
    obtain ⟨l2, hl2, rfl⟩ := hl1
    rw [isMemberVt_vtList, hX] at hl2
    obtain ⟨x, hx, rfl⟩ := hl2
    have key : ∀ (y : Fin n → Bool) (m : List Bool), m.length = n → vec n m = y →
        y ∈ (if w.invert then complSet X else X) →
        isMemberVt (permuteListVect u ((List.finRange n).map fun i => (π i : ℕ)) m) a = true := by
      intro y m hm hy hmem
      obtain ⟨l', hl', he⟩ := hsub ⟨y, hmem, rfl⟩
      have hlen' := hw l' hl'
      have : l' = permuteListVect u ((List.finRange n).map fun i => (π i : ℕ)) m := by
        refine vec_injOn hlen' (by simp [permuteListVect]) ?_
        rw [he, vec_permuteListVect u _ π hπ m hm, hy]
      rw [← this]
      exact hl'
    cases hinv : w.invert with
    | false =>
      rw [hinv] at key
      exact key x _ (by simp) (by simp [vec_ofFn]) hx
    | true =>
      rw [hinv] at key
      refine key (fun i => !(x i)) _ (by simp) ?_ ⟨x, hx, rfl⟩
      rw [if_pos rfl, vec_map_not _ (by simp), vec_ofFn]
      rfl

/-! ## The lists of comparators and channels -/

theorem range_filter_lt {n i : ℕ} (h : i ≤ n) : (List.range n).filter (fun j => decide (j < i)) = List.range i := by
  induction n with
  | zero =>
    obtain rfl : i = 0 := by omega
    rfl
  | succ n ih =>
    rw [List.range_succ, List.filter_append]
    by_cases hi : i ≤ n
    · rw [ih hi, List.filter_cons_of_neg (by simp; omega)]
      simp
    · obtain rfl : i = n + 1 := by omega
      rw [List.filter_cons_of_pos (by simp), List.filter_eq_self.2 (by
        intro a ha
        rw [List.mem_range] at ha
        simp; omega), List.range_succ]
      rfl

theorem ocmpList_eq (n : ℕ) : ocmpList n = (pairs n).map fun p => ((p.2 : ℕ), (p.1 : ℕ)) := by
  unfold ocmpList pairs
  rw [List.map_flatMap, upt_zero, ← List.map_coe_finRange_eq_range, List.flatMap_map]
  congr 1
  funext i
  rw [List.map_map, upt_zero, ← range_filter_lt (le_of_lt i.2), ← List.map_coe_finRange_eq_range, List.filter_map, List.map_map]
  rfl

theorem forall₂_filter {α β γ : Type} {R : β → γ → Prop} (p : β → Bool) (f : α → β) (g : α → Option γ) (l : List α)
    (h : ∀ a ∈ l, (p (f a) = true ∧ ∃ b, g a = some b ∧ R (f a) b) ∨ (p (f a) = false ∧ g a = none)) :
    List.Forall₂ R ((l.map f).filter p) (l.filterMap g) := by
  induction l with
  | nil => exact List.Forall₂.nil
  | cons a l ih =>
    have ih := ih fun a ha => h a (List.mem_cons_of_mem _ ha)
    rw [List.map_cons]
    rcases h a List.mem_cons_self with ⟨h1, b, h2, h3⟩ | ⟨h1, h2⟩
    · rw [List.filter_cons_of_pos h1, List.filterMap_cons_some h2]
      exact List.Forall₂.cons h3 ih
    · rw [List.filter_cons_of_neg (by simp [h1]), List.filterMap_cons_none h2]
      exact ih

/-- What is known about the list of vectors of a step. -/
def Lists (ls : List (List Bool)) {n : ℕ} (X : Set (Fin n → Bool)) : Prop := ∀ l, l ∈ ls ↔ ∃ x ∈ X, l = List.ofFn x

theorem Lists.length {ls : List (List Bool)} {n : ℕ} {X : Set (Fin n → Bool)} (h : Lists ls X) : ∀ l ∈ ls, l.length = n := by
  intro l hl
  obtain ⟨x, _, rfl⟩ := (h l).1 hl
  simp

theorem Lists.vset {ls : List (List Bool)} {n : ℕ} {X : Set (Fin n → Bool)} (h : Lists ls X) : vset n {l | l ∈ ls} = X := by
  ext x
  constructor
  · rintro ⟨l, hl, rfl⟩
    obtain ⟨y, hy, rfl⟩ := (h l).1 hl
    rw [vec_ofFn]
    exact hy
  · intro hx
    exact ⟨List.ofFn x, (h _).2 ⟨x, hx, rfl⟩, vec_ofFn x⟩

theorem isRedundantCmpVt_iff {n : ℕ} (u : Undef) (i j : Fin n) {ls : List (List Bool)} {X : Set (Fin n → Bool)}
    (h : Lists ls X) : isRedundantCmpVt u (i, j) (vtList ls) = false ↔
      (∃ x ∈ X, x i = true ∧ x j = false) ∧ ∃ x ∈ X, x i = false ∧ x j = true := by
  have e : ∀ (p : Bool → Bool → Bool), ((listVt (vtList ls)).all fun x => !(p (nth u.bool x i) (nth u.bool x j))) = false ↔
      ∃ x ∈ X, p (x i) (x j) = true := by
    intro p
    rw [List.all_eq_false]
    simp only [mem_listVt, isMemberVt_vtList, Bool.not_eq_true', Bool.not_eq_false]
    constructor
    · rintro ⟨l, hl, hp⟩
      obtain ⟨x, hx, rfl⟩ := (h l).1 hl
      rw [nth_eq_vec u.bool _ (by simp), nth_eq_vec u.bool _ (by simp), vec_ofFn] at hp
      exact ⟨x, hx, hp⟩
    · rintro ⟨x, hx, hp⟩
      refine ⟨List.ofFn x, (h _).2 ⟨x, hx, rfl⟩, ?_⟩
      rw [nth_eq_vec u.bool _ (by simp), nth_eq_vec u.bool _ (by simp), vec_ofFn]
      exact hp
  have e1 := e fun a b => a && !b
  have e2 := e fun a b => !a && b
  unfold isRedundantCmpVt
  dsimp only
  rw [Bool.not_eq_false', Bool.and_eq_true, Bool.not_eq_true', Bool.not_eq_true', e1, e2]
  simp

theorem succs_checker (u : Undef) (A : OSet) {ls : List (List Bool)} (h : Lists ls A.s.toSet) :
    List.Forall₂ (fun b T => VtWidth A.n b ∧ ∃ t : Bitmap A.n, T = ⟨A.n, t⟩ ∧ t.toSet = vtSet A.n b)
      (((ocmpList A.n).filter fun c => !(isRedundantCmpVt u c (vtList ls))).map fun c => vtList (ls.map (applyCmpList u c)))
      (succs A) := by
  rw [List.forall₂_map_left_iff, ocmpList_eq]
  unfold succs
  refine forall₂_filter _ _ _ _ ?_
  rintro ⟨i, j⟩ hij
  have hne : i ≠ j := mem_pairs_ne hij
  have hred := isRedundantCmpVt_iff u j i h
  have hflag := applyComparator_flag A.s hne
  dsimp only
  cases hs : (A.s.applyComparator i j).2 with
  | true =>
    left
    obtain ⟨⟨v, hv, a, b⟩, ⟨w, hw, c, d⟩⟩ := hflag.1 hs
    refine ⟨by rw [hred.2 ⟨⟨v, hv, b, a⟩, ⟨w, hw, d, c⟩⟩]; rfl, ⟨A.n, (A.s.applyComparator i j).1⟩, ?_, ?_, _, rfl, ?_⟩
    · simp only [successor]
      rw [if_pos hs]
    · intro l hl
      rw [isMemberVt_vtList] at hl
      obtain ⟨l', hl', rfl⟩ := List.mem_map.1 hl
      rw [applyCmpList_length]
      exact h.length l' hl'
    · rw [applyComparator_toSet A.s hne]
      ext x
      simp only [vtSet, Sortnet.vset, isMemberVt_vtList, List.mem_map, Set.mem_image, Set.mem_ofPred_eq]
      constructor
      · rintro ⟨y, hy, rfl⟩
        refine ⟨_, ⟨List.ofFn y, (h _).2 ⟨y, hy, rfl⟩, rfl⟩, ?_⟩
        rw [vec_applyCmpList u j i hne.symm _ (by simp), vec_ofFn]
      · rintro ⟨_, ⟨l, hl, rfl⟩, rfl⟩
        obtain ⟨y, hy, rfl⟩ := (h l).1 hl
        refine ⟨y, hy, ?_⟩
        rw [vec_applyCmpList u j i hne.symm _ (by simp), vec_ofFn]
  | false =>
    right
    constructor
    · rw [Bool.not_eq_false', ← Bool.not_eq_false]
      intro hcon
      obtain ⟨⟨v, hv, a, b⟩, ⟨w, hw, c, d⟩⟩ := hred.1 hcon
      have := hflag.2 ⟨⟨v, hv, b, a⟩, w, hw, d, c⟩
      rw [hs] at this
      simp at this
    · simp only [successor]
      rw [if_neg (by simp [hs])]

theorem extremal_checker (A : OSet) (pol : Bool) {ls : List (List Bool)} (h : Lists ls A.s.toSet) :
    extremalChannelsVt (vtList ls) A.n pol = (extremal A pol).map fun c : Fin A.n => (c : ℕ) := by
  obtain ⟨n, s⟩ := A
  cases n with
  | zero => simp [extremalChannelsVt, upt_zero, extremal]
  | succ n =>
    dsimp only at h ⊢
    unfold extremalChannelsVt extremal
    rw [upt_zero, ← List.map_coe_finRange_eq_range, List.filter_map]
    congr 1
    refine List.filter_congr fun c _ => ?_
    rw [Function.comp_apply, Bool.eq_iff_iff, isMemberVt_vtList, h, List.map_map]
    have e : List.map ((fun j : ℕ => !(decide (j = (c : ℕ)) == pol)) ∘ fun i : Fin (n + 1) => (i : ℕ)) (List.finRange (n + 1)) =
        List.ofFn (extremalVec pol c) := by
      rw [List.ofFn_eq_map]
      refine List.map_congr_left fun k _ => ?_
      simp only [Function.comp_apply, extremalVec]
      by_cases hk : k = c
      · subst hk; cases pol <;> simp
      · have : ¬ (k : ℕ) = (c : ℕ) := fun h => hk (Fin.ext h)
        cases pol <;> simp [hk, this]
    rw [e]
    have h2 := channelIsExtremal_iff s pol c
    constructor
    · rintro ⟨x, hx, hxe⟩
      exact h2.2 ((List.ofFn_injective hxe) ▸ hx)
    · intro hc
      exact ⟨_, h2.1 hc, rfl⟩

theorem ReachIn.mem {n : ℕ} {A : Set (Fin n → Bool)} {b : Bool} {x y : Fin n → Bool} (h : ReachIn A b x y) : y ∈ A := by
  cases h with
  | refl h => exact h
  | step _ _ _ h => exact h

theorem ReachIn.keep {n : ℕ} {A : Set (Fin n → Bool)} {b : Bool} {x y : Fin n → Bool} (h : ReachIn A b x y) {i : Fin n}
    (hx : x i = b) : y i = b := by
  induction h with
  | refl _ => exact hx
  | step k _ _ _ ih =>
    by_cases hk : i = k
    · subst hk; simp
    · rw [Function.update_of_ne hk]; exact ih

theorem prune_checker {A T : OSet} {pol : Bool} {c : Fin A.n} (hT : prune A pol c = some T) {ls : List (List Bool)}
    (h : Lists ls A.s.toSet) : VtWidth T.n (pruneExtremalVt pol c (vtList ls)) ∧ A.n = T.n + 1 ∧
      T.s.toSet ⊆ vtSet T.n (pruneExtremalVt pol c (vtList ls)) := by
  obtain ⟨n, s⟩ := A
  cases n with
  | zero => exact c.elim0
  | succ n =>
    unfold prune at hT
    dsimp only at hT c h
    rw [Option.map_eq_some_iff] at hT
    obtain ⟨t, ht, rfl⟩ := hT
    dsimp only
    refine ⟨?_, rfl, ?_⟩
    · intro l hl
      rw [isMemberVt_prune] at hl
      rcases hl with ⟨h1, h2⟩ | ⟨h1, h2⟩
      · rw [isMemberVt_vtList] at h2
        have := h.length l h2
        omega
      · rw [isMemberVt_vtList] at h2
        have := h.length _ h2
        simp [List.length_take, List.length_drop] at this
        omega
    · rw [pruneExtremalChannel_toSet ht]
      rintro _ ⟨v, hv, rfl⟩
      have hvA := ReachIn.mem hv
      have hvc : v c = !pol := ReachIn.keep hv (by simp [extremalVec])
      refine ⟨List.ofFn (removeChannel c v), ?_, vec_ofFn _⟩
      show isMemberVt _ _ = true
      rw [isMemberVt_prune]
      refine Or.inr ⟨by simp; omega, ?_⟩
      rw [isMemberVt_vtList, h]
      refine ⟨v, hvA, ?_⟩
      apply List.ext_getElem
      · simp; omega
      · intro k h1 h2
        have hk : k < n + 1 := by simpa using h2
        rw [List.getElem_ofFn]
        rcases lt_trichotomy k c with hlt | heq | hgt
        · rw [List.getElem_append_left (by simp; omega)]
          simp only [List.getElem_take, List.getElem_ofFn, removeChannel]
          congr 1
          apply Fin.ext
          rw [Fin.succAbove_of_castSucc_lt _ _ (by rw [Fin.lt_def]; exact hlt)]
          rfl
        · rw [List.getElem_append_right (by simp; omega)]
          have : (⟨k, hk⟩ : Fin (n + 1)) = c := Fin.ext heq
          rw [this, hvc, List.getElem_cons, dif_pos (by simp; omega)]
        · rw [List.getElem_append_right (by simp; omega)]
          rw [List.getElem_cons, dif_neg (by simp; omega)]
          simp only [List.getElem_drop, List.getElem_ofFn, removeChannel]
          congr 1
          apply Fin.ext
          rw [Fin.succAbove_of_le_castSucc _ _ (by rw [Fin.le_def]; simp <;> omega)]
          simp
          omega

end Checker

end Sortnet
