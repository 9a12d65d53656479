import Verif.Model.Thy
import Verif.Proof.CheckerUndef
import Verif.Theory.Standard

/-!
# The extracted checker and the definitions of the Isabelle development
-/

namespace Sortnet

namespace Thy

open Checker (VectTrie ProofWitness StepWitnesses ProofStep ProofCert)

theorem vtSingleton_eq (l : List Bool) : Checker.vtSingleton l = vtSingleton l := by
  induction l with
  | nil => rfl
  | cons b l ih => cases b <;> simp [Checker.vtSingleton, vtSingleton, ih]

theorem vtUnion_eq (a b : VectTrie) : Checker.vtUnion a b = vtUnion a b := by
  induction a generalizing b with
  | empty => cases b <;> rfl
  | node x lo hi ih1 ih2 =>
    cases b with
    | empty => rfl
    | node y lo' hi' => simp [Checker.vtUnion, vtUnion, ih1, ih2]

theorem vtList_eq (ls : List (List Bool)) : Checker.vtList ls = vtList ls := by
  have : ∀ s, Checker.fold (Checker.vtUnion ∘ Checker.vtSingleton) ls s =
      ls.foldl (fun s l => vtUnion (vtSingleton l) s) s := by
    induction ls with
    | nil => intro s; rfl
    | cons l ls ih =>
      intro s
      rw [Checker.fold, ih, List.foldl_cons, Function.comp, vtUnion_eq, vtSingleton_eq]
  exact this _

theorem listVt_eq (a : VectTrie) : Checker.listVt a = listVt a := by
  rw [Checker.listVt_eq]
  induction a with
  | empty => rfl
  | node b lo hi ih1 ih2 => cases b <;> simp [Checker.elems, listVt, ih1, ih2]

theorem lengthVt_eq (a : VectTrie) : Checker.lengthVt a = lengthVt a := by
  induction a with
  | empty => rfl
  | node b lo hi ih1 ih2 => cases b <;> simp [Checker.lengthVt, lengthVt, ih1, ih2]

theorem isUnsortedVt_iff (n : ℕ) (a : VectTrie) : Checker.isUnsortedVt n a = true ↔ IsUnsortedVt n a := by
  rw [Checker.isUnsortedVt, decide_eq_true_iff, lengthVt_eq]
  exact Iff.rfl

theorem isSubsetVt_iff (a b : VectTrie) : Checker.isSubsetVt a b = true ↔ IsSubsetVt a b := by
  induction a generalizing b with
  | empty => simp [Checker.isSubsetVt, IsSubsetVt]
  | node x lo hi ih1 ih2 =>
    cases b with
    | empty => cases x <;> simp [Checker.isSubsetVt, IsSubsetVt, ih1, ih2]
    | node y lo' hi' => cases x <;> cases y <;> simp [Checker.isSubsetVt, IsSubsetVt, ih1, ih2]

theorem isMemberVt_iff (l : List Bool) (a : VectTrie) : Checker.isMemberVt l a = true ↔ IsMemberVt l a := by
  induction l generalizing a with
  | nil => cases a <;> simp [Checker.isMemberVt, IsMemberVt]
  | cons b l ih => cases a <;> cases b <;> simp [Checker.isMemberVt, IsMemberVt, ih]

theorem pruneExtremalVt_eq (pol : Bool) (i : ℕ) (a : VectTrie) :
    Checker.pruneExtremalVt pol i a = pruneExtremalVt pol i a := by
  induction a generalizing i with
  | empty => cases pol <;> cases i <;> rfl
  | node b lo hi ih1 ih2 =>
    cases pol <;> cases i <;> simp [Checker.pruneExtremalVt, pruneExtremalVt, ih1, ih2]

theorem nth_eq (v : Undef) (b : Bool) {xs : List Bool} {i : ℕ} (h : i < xs.length) : Checker.nth b xs i = nth v xs i := by
  rw [Checker.nth_eq_getD, nth, dif_pos h]
  simp [h]

theorem invertVt_eq (z : Bool) (a : VectTrie) : Checker.invertVt z a = invertVt z a := by
  unfold Checker.invertVt invertVt
  rw [vtList_eq, listVt_eq]

theorem permuteVt_eq (u : Checker.Undef) (v : Undef) {ps : List ℕ} {n : ℕ} {a : VectTrie} (hps : ∀ p ∈ ps, p < n)
    (ha : Checker.VtWidth n a) : Checker.permuteVt u ps a = permuteVt v ps a := by
  unfold Checker.permuteVt permuteVt
  rw [vtList_eq, ← listVt_eq]
  congr 1
  refine List.map_congr_left fun l hl => ?_
  have hlen := ha l ((Checker.mem_listVt a l).1 hl)
  exact List.map_congr_left fun p hp => nth_eq v _ (by rw [hlen]; exact hps p hp)

theorem nat_eq (k : ℤ) : Checker.nat k = k.toNat := by
  unfold Checker.nat
  omega

theorem getBound_eq (u : Checker.Undef) (v : Undef) (steps : ℤ → ProofStep) (limit : ℤ) (w : Option ProofWitness) (n : ℕ)
    (a : VectTrie) : Checker.getBound u steps limit w n a = getBound v steps limit w n a := by
  classical
  cases w with
  | none =>
    simp only [Checker.getBound, getBound]
    congr 1
    by_cases h : IsUnsortedVt n a
    · rw [if_pos ((isUnsortedVt_iff n a).2 h), if_pos h]
    · rw [if_neg (fun h' => h ((isUnsortedVt_iff n a).1 h')), if_neg h]
  | some w =>
    have hm : w.perm.map Checker.nat = w.perm.map Int.toNat := List.map_congr_left fun k _ => nat_eq k
    simp only [Checker.getBound, getBound]
    rw [hm]
    by_cases hp : ∀ i ∈ w.perm.map Int.toNat, 0 ≤ i ∧ i < n
    · by_cases hl : ∀ xs ∈ (steps w.stepId).vectList, xs.length = n
      · have e : Checker.permuteVt u (w.perm.map Int.toNat)
            (Checker.invertVt w.invert (Checker.vtList (steps w.stepId).vectList)) =
            permuteVt v (w.perm.map Int.toNat) (invertVt w.invert (vtList (steps w.stepId).vectList)) := by
          rw [permuteVt_eq u v (fun p h => (hp p h).2) (Checker.vtWidth_invertVt (Checker.vtWidth_vtList hl)), invertVt_eq,
            vtList_eq]
        rw [e, nat_eq]
        refine if_congr ?_ rfl rfl
        simp only [Bool.or_eq_true, Bool.not_eq_true', ← Bool.not_eq_true, Bool.and_eq_true, decide_eq_true_eq, List.all_eq_true,
          Checker.sizeList_eq, Checker.distinct_iff, isSubsetVt_iff]
      · rw [if_pos, if_pos]
        · exact Or.inr (Or.inr (Or.inr (Or.inr (Or.inl hl))))
        · have : ((steps w.stepId).vectList.all fun xs => decide (Checker.sizeList xs = n)) = false := by
            rw [← Bool.not_eq_true, List.all_eq_true]
            simpa using hl
          rw [this]
          simp
    · rw [if_pos, if_pos]
      · exact Or.inr (Or.inl hp)
      · have : ((w.perm.map Int.toNat).all fun i => decide (0 ≤ i) && decide (i < n)) = false := by
          rw [← Bool.not_eq_true, List.all_eq_true]
          simpa using hp
        rw [this]
        simp

theorem ocmpList_eq (n : ℕ) : Checker.ocmpList n = ocmpList n := by
  unfold Checker.ocmpList ocmpList
  rw [List.flatMap_def, Checker.upt_zero]
  congr 1
  exact List.map_congr_left fun i _ => by rw [Checker.upt_zero]

theorem mem_ocmpList {n : ℕ} {c : ℕ × ℕ} (h : c ∈ ocmpList n) : c.1 < n ∧ c.2 < n := by
  unfold ocmpList at h
  simp only [List.mem_flatten, List.mem_map, List.mem_range] at h
  obtain ⟨l, ⟨i, hi, rfl⟩, h⟩ := h
  simp only [List.mem_map, List.mem_range] at h
  obtain ⟨j, hj, rfl⟩ := h
  exact ⟨by dsimp only; omega, hi⟩

theorem isRedundantCmpVt_iff (u : Checker.Undef) (v : Undef) {n : ℕ} {c : ℕ × ℕ} (hc : c.1 < n ∧ c.2 < n) {a : VectTrie}
    (ha : Checker.VtWidth n a) : Checker.isRedundantCmpVt u c a = true ↔ IsRedundantCmpVt v c a := by
  unfold Checker.isRedundantCmpVt IsRedundantCmpVt
  dsimp only
  rw [Bool.not_eq_true', ← Bool.not_eq_true, Bool.and_eq_true, ← listVt_eq]
  refine not_congr (and_congr ?_ ?_)
  all_goals
    rw [Bool.not_eq_true', ← Bool.not_eq_true, List.all_eq_true]
    push Not
    refine exists_congr fun xs => and_congr_right fun hx => ?_
    have hlen := ha xs ((Checker.mem_listVt a xs).1 hx)
    rw [nth_eq v u.bool (by omega : c.1 < xs.length), nth_eq v u.bool (by omega : c.2 < xs.length)]
    cases nth v xs c.1 <;> cases nth v xs c.2 <;> simp

theorem applyCmpList_eq (u : Checker.Undef) (v : Undef) {c : ℕ × ℕ} {xs : List Bool} (h : c.1 < xs.length ∧ c.2 < xs.length) :
    Checker.applyCmpList u c xs = applyCmpList v c xs := by
  unfold Checker.applyCmpList applyCmpList
  dsimp only
  rw [Checker.listUpdate_eq_set, Checker.listUpdate_eq_set, nth_eq v u.bool h.1, nth_eq v u.bool h.2]

theorem checkSuccessors_iff (u : Checker.Undef) (v : Undef) (steps : ℤ → ProofStep) (limit : ℤ) (step : ProofStep) :
    Checker.checkSuccessors u steps limit step = true ↔ CheckSuccessors v steps limit step := by
  classical
  unfold Checker.checkSuccessors CheckSuccessors
  cases step.witnesses with
  | huffman pol ws => simp
  | successor ws =>
    dsimp only
    simp only [Bool.and_eq_true, Bool.not_eq_true', decide_eq_false_iff_not, decide_eq_true_eq, List.all_eq_true,
      Checker.sizeList_eq, nat_eq, isUnsortedVt_iff, vtList_eq, ocmpList_eq, Checker.listAll2_iff]
    by_cases hl : ∀ xs ∈ step.vectList, xs.length = step.width.toNat
    · have hw : Checker.VtWidth step.width.toNat (vtList step.vectList) := by
        rw [← vtList_eq]
        exact Checker.vtWidth_vtList hl
      have e : ((ocmpList step.width.toNat).filter fun c => !(Checker.isRedundantCmpVt u c (vtList step.vectList))) =
          (ocmpList step.width.toNat).filter fun c =>
            decide (¬ IsRedundantCmpVt v c (vtList step.vectList)) := by
        refine List.filter_congr fun c hc => ?_
        rw [Bool.eq_iff_iff, Bool.not_eq_true', ← Bool.not_eq_true, decide_eq_true_iff,
          isRedundantCmpVt_iff u v (mem_ocmpList hc) hw]
      rw [e]
      refine and_congr Iff.rfl (and_congr Iff.rfl (and_congr Iff.rfl (and_congr Iff.rfl ?_)))
      rw [List.map_congr_left (g := fun c => vtList (step.vectList.map (applyCmpList v c)))]
      · refine iff_of_eq ?_
        congr 1
        funext b w
        rw [getBound_eq u v]
        cases getBound v steps limit w step.width.toNat b with
        | none => simp
        | some x => simp
      · intro c hc
        congr 1
        refine List.map_congr_left fun xs hx => applyCmpList_eq u v ?_
        rw [hl xs hx]
        exact mem_ocmpList (List.mem_filter.1 hc).1
    · constructor
      · rintro ⟨_, _, _, h, _⟩
        exact absurd h hl
      · rintro ⟨_, _, _, h, _⟩
        exact absurd h hl

theorem extremalChannelsVt_eq (a : VectTrie) (n : ℕ) (pol : Bool) :
    Checker.extremalChannelsVt a n pol = extremalChannelsVt a n pol := by
  classical
  unfold Checker.extremalChannelsVt extremalChannelsVt
  rw [Checker.upt_zero]
  refine List.filter_congr fun i _ => ?_
  rw [Bool.eq_iff_iff, decide_eq_true_iff, isMemberVt_iff]
  have : (fun j => !(decide (j = i) == pol)) = fun j => decide (decide (j = i) ≠ pol) := by
    funext j
    cases decide (j = i) <;> cases pol <;> rfl
  rw [this]

theorem huffmanStep_eq (l : List ℕ) : (↑(Checker.sucmaxHuffmanStep l) : Multiset ℕ) = huffmanStepSortedList sucmax l := by
  match l with
  | [] => rfl
  | [x] => rfl
  | x :: y :: r => rfl

theorem sort_eq (b : ℕ) (l : List ℕ) : Checker.sortKey b (fun x => x) l = (↑l : Multiset ℕ).sort (· ≤ ·) := by
  have h1 : (Checker.sortKey b (fun x => x) l).Perm ((↑l : Multiset ℕ).sort (· ≤ ·)) := by
    refine (Checker.sortKey_perm b _ l).trans ?_
    rw [← Multiset.coe_eq_coe, Multiset.sort_eq]
  exact h1.eq_of_pairwise (le := fun a b => a ≤ b) (fun a b _ _ h h' => le_antisymm h h') (Checker.sortKey_sorted b _ l)
    (Multiset.pairwise_sort _ _)

theorem theElem_singleton {α : Type*} (v : Set α → α) (x : α) : theElem v {y | y ∈ (↑[x] : Multiset α)} = x := by
  have e : {y | y ∈ (↑[x] : Multiset α)} = {x} := by
    ext y
    simp
  have h : ∃ z, {y | y ∈ (↑[x] : Multiset α)} = {z} := ⟨x, e⟩
  rw [theElem, dif_pos h]
  exact (Set.singleton_eq_singleton_iff.1 (e.symm.trans h.choose_spec)).symm

theorem valueBoundHuffman_eq (u : Checker.Undef) (v : Undef) (l : List ℕ) (hl : l ≠ []) :
    Checker.sucmaxValueBoundHuffman u l = sucmaxValueBoundHuffman v ↑l := by
  unfold sucmaxValueBoundHuffman
  induction hn : l.length using Nat.strong_induction_on generalizing l with
  | _ n ih =>
    subst hn
    match l, hl, ih with
    | [x], _, _ =>
      rw [Checker.sucmaxValueBoundHuffman, valueBoundHuffman, Checker.sizeList_eq, Multiset.coe_card, theElem_singleton]
      simp
    | x :: y :: r, _, ih =>
      rw [Checker.sucmaxValueBoundHuffman, valueBoundHuffman, Checker.sizeList_eq, Multiset.coe_card,
        if_neg (by simp), if_neg (by simp), if_neg (by simp), if_neg (by simp), sort_eq]
      on_goal 2 => simp
      have hlen : ((↑(x :: y :: r) : Multiset ℕ).sort (· ≤ ·)).length = r.length + 2 := by
        rw [Multiset.length_sort]; simp
      rw [← huffmanStep_eq]
      generalize (↑(x :: y :: r) : Multiset ℕ).sort (· ≤ ·) = s at hlen
      match s, hlen with
      | a :: b :: t, hlen =>
        refine ih _ ?_ _ (by simp [Checker.sucmaxHuffmanStep]) rfl
        simp [Checker.sucmaxHuffmanStep] at hlen ⊢
        omega

theorem checkHuffman_iff (u : Checker.Undef) (v : Undef) (steps : ℤ → ProofStep) (limit : ℤ) (step : ProofStep) :
    Checker.checkHuffman u steps limit step = true ↔ CheckHuffman v steps limit step := by
  unfold Checker.checkHuffman CheckHuffman
  cases step.witnesses with
  | successor ws => simp
  | huffman pol ws =>
    dsimp only
    simp only [Bool.and_eq_true, Bool.not_eq_true', decide_eq_false_iff_not, decide_eq_true_eq, List.all_eq_true,
      Checker.sizeList_eq, nat_eq, vtList_eq, extremalChannelsVt_eq, List.isEmpty_eq_false_iff]
    refine and_congr_right fun hw => and_congr Iff.rfl (and_congr_right fun hne => and_congr_right fun hlen => ?_)
    have hpred : Checker.pred u step.width.toNat = pred step.width.toNat := by
      rw [Checker.pred, if_neg hw, pred]
    have e : (List.zip ((extremalChannelsVt (vtList step.vectList) step.width.toNat pol).map fun c =>
          Checker.pruneExtremalVt pol c (vtList step.vectList)) ws).map
          (fun p => Checker.getBound u steps limit p.2 (Checker.pred u step.width.toNat) p.1) =
        List.zipWith (fun b w => getBound v steps limit w (pred step.width.toNat) b)
          ((extremalChannelsVt (vtList step.vectList) step.width.toNat pol).map fun c =>
            pruneExtremalVt pol c (vtList step.vectList)) ws := by
      rw [hpred, ← List.map_uncurry_zip_eq_zipWith]
      simp only [pruneExtremalVt_eq, getBound_eq u v]
      rfl
    rw [e]
    set bounds := List.zipWith (fun b w => getBound v steps limit w (pred step.width.toNat) b)
          ((extremalChannelsVt (vtList step.vectList) step.width.toNat pol).map fun c =>
            pruneExtremalVt pol c (vtList step.vectList)) ws with hb
    have hbn : bounds ≠ [] := by
      intro h
      have := congrArg List.length h
      rw [hb, List.length_zipWith, List.length_map, hlen] at this
      simp at this
      exact hne this
    have h1 : (∀ b ∈ bounds, Checker.isNone b = false) ↔ ∀ b ∈ bounds, b ≠ none := by
      refine forall₂_congr fun b _ => ?_
      cases b <;> simp [Checker.isNone]
    rw [h1]
    refine and_congr_right fun hsome => ?_
    have h2 : bounds.map (Checker.the u.nat) = bounds.map (the v) := by
      refine List.map_congr_left fun b hb => ?_
      cases b with
      | none => exact absurd rfl (hsome _ hb)
      | some x => rfl
    rw [h2, valueBoundHuffman_eq u v _ (by simpa using hbn)]

theorem checkStep_iff (u : Checker.Undef) (v : Undef) (steps : ℤ → ProofStep) (limit : ℤ) (step : ProofStep) :
    Checker.checkStep u steps limit step = true ↔ CheckStep v steps limit step := by
  unfold Checker.checkStep CheckStep
  cases step.witnesses with
  | successor ws => exact checkSuccessors_iff u v steps limit step
  | huffman pol ws => exact checkHuffman_iff u v steps limit step

theorem parRangeAll_iff {f : ℕ → Bool} {g : ℕ → Prop} (h : ∀ i, f i = true ↔ g i) (lo n : ℕ) :
    Checker.parRangeAll f lo n = true ↔ ParRangeAll g lo n := by
  rw [Checker.parRangeAll_iff]
  induction hn : n using Nat.strong_induction_on generalizing lo n with
  | _ n' ih =>
    subst hn
    rw [ParRangeAll]
    split
    · simp only [List.mem_range'_1, h]
      exact ⟨fun h' k hk => h' k hk.1 hk.2, fun h' k h1 h2 => h' k ⟨h1, h2⟩⟩
    · dsimp only [par]
      rw [← ih (n / 2) (by omega) lo (n / 2) rfl, ← ih (n - n / 2) (by omega) (lo + n / 2) (n - n / 2) rfl]
      constructor
      · exact fun h' => ⟨fun k h1 h2 => h' k h1 (by omega), fun k h1 h2 => h' k (by omega) (by omega)⟩
      · rintro ⟨h1, h2⟩ k h3 h4
        by_cases hk : k < lo + n / 2
        · exact h1 k h3 hk
        · exact h2 k (by omega) (by omega)

theorem applyCmp_eq (c : ℕ × ℕ) (x : ℕ → Bool) : applyCmp c x = Sortnet.applyCmp c x := by
  funext k
  unfold applyCmp Sortnet.applyCmp
  rw [Function.update_apply, Function.update_apply]

theorem run_eq (cn : List (ℕ × ℕ)) (x : ℕ → Bool) : cn.foldl (fun x c => applyCmp c x) x = run cn x := by
  unfold run
  simp only [applyCmp_eq]

theorem run_fin {n : ℕ} (cn : List (Fin n × Fin n)) (x : ℕ → Bool) :
    (∀ i : Fin n, run (cn.map fun c => (c.1.val, c.2.val)) x i = run cn (fun i => x i) i) ∧
      ∀ i, n ≤ i → run (cn.map fun c => (c.1.val, c.2.val)) x i = x i := by
  induction cn generalizing x with
  | nil => exact ⟨fun _ => rfl, fun _ _ => rfl⟩
  | cons c cn ih =>
    obtain ⟨h1, h2⟩ := ih (Sortnet.applyCmp (c.1.val, c.2.val) x)
    rw [List.map_cons, run_cons, run_cons]
    constructor
    · intro i
      rw [h1 i]
      congr 1
      funext k
      simp only [Sortnet.applyCmp, Fin.ext_iff]
    · intro i hi
      rw [h2 i hi]
      have := c.1.2
      have := c.2.2
      unfold Sortnet.applyCmp
      rw [if_neg (by dsimp only; omega), if_neg (by dsimp only; omega)]

end Thy

end Sortnet
