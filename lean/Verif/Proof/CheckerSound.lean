import Verif.Proof.Trie
import Verif.Theory.Vec
import Mathlib.Data.List.FinRange
import Mathlib.Data.Fintype.EquivFin

/-! # Soundness of the verified checker -/

namespace Sortnet.Checker

set_option linter.unusedSimpArgs false

/-! ## Auxiliary functions -/

theorem nth_eq_getD {α : Type} (u : α) (xs : List α) (n : ℕ) : nth u xs n = xs.getD n u := by
  induction xs generalizing n with
  | nil => simp [nth]
  | cons x xs ih =>
    cases n with
    | zero => simp [nth]
    | succ n => simp [nth, ih]

theorem nth_eq_vec {n : ℕ} (u : Bool) (xs : List Bool) (h : xs.length = n) (i : Fin n) :
    nth u xs i = vec n xs i := by
  have : (i : ℕ) < xs.length := by omega
  simp [nth_eq_getD, vec, List.getD_eq_getElem?_getD, this]

theorem listUpdate_eq_set {α : Type} (xs : List α) (i : ℕ) (y : α) : listUpdate xs i y = xs.set i y := by
  induction xs generalizing i with
  | nil => rfl
  | cons x xs ih =>
    cases i with
    | zero => simp [listUpdate]
    | succ i => simp [listUpdate, ih]

theorem mem_upt (i j k : ℕ) : k ∈ upt i j ↔ i ≤ k ∧ k < j := by
  fun_induction upt i j with
  | case1 i hij ih => simp only [List.mem_cons, ih]; omega
  | case2 i hij => simp; omega

theorem upt_eq (i j : ℕ) : upt i j = List.range' i (j - i) := by
  fun_induction upt i j with
  | case1 i hij ih =>
    rw [ih]
    obtain ⟨d, hd⟩ : ∃ d, j - i = d + 1 := ⟨j - i - 1, by omega⟩
    rw [hd, show j - (i + 1) = d by omega, List.range'_succ]
  | case2 i hij => rw [show j - i = 0 by omega]; rfl

theorem upt_zero (j : ℕ) : upt 0 j = List.range j := by rw [upt_eq, List.range_eq_range']; simp

theorem member_eq (xs : List ℕ) (y : ℕ) : member xs y = true ↔ y ∈ xs := by
  induction xs with
  | nil => simp [member]
  | cons x xs ih =>
    simp only [member, Bool.or_eq_true, ih, List.mem_cons, beq_iff_eq]
    constructor
    · rintro (h | h)
      · exact Or.inl h.symm
      · exact Or.inr h
    · rintro (h | h)
      · exact Or.inl h.symm
      · exact Or.inr h

theorem distinct_iff (xs : List ℕ) : distinct xs = true ↔ xs.Nodup := by
  induction xs with
  | nil => simp [distinct]
  | cons x xs ih =>
    simp only [distinct, Bool.and_eq_true, Bool.not_eq_true', List.nodup_cons, ih]
    rw [← Bool.not_eq_true, member_eq]

theorem listAll2_iff {α β : Type} (p : α → β → Bool) (xs : List α) (ys : List β) :
    listAll2 p xs ys = true ↔ List.Forall₂ (fun x y => p x y = true) xs ys := by
  induction xs generalizing ys with
  | nil => cases ys <;> simp [listAll2]
  | cons x xs ih => cases ys <;> simp [listAll2, ih]

theorem allIntervalNat_iff (p : ℕ → Bool) (i j : ℕ) :
    allIntervalNat p i j = true ↔ ∀ k, i ≤ k → k < j → p k = true := by
  fun_induction allIntervalNat p i j with
  | case1 i h => simp; omega
  | case2 i h ih =>
    simp only [Bool.and_eq_true, ih]
    constructor
    · rintro ⟨h1, h2⟩ k hk hk'
      rcases Nat.eq_or_lt_of_le hk with rfl | h
      · exact h1
      · exact h2 k h hk'
    · intro h'
      exact ⟨h' i le_rfl (by omega), fun k hk hk' => h' k (by omega) hk'⟩

theorem parRangeAll_iff (f : ℕ → Bool) (lo n : ℕ) :
    parRangeAll f lo n = true ↔ ∀ k, lo ≤ k → k < lo + n → f k = true := by
  fun_induction parRangeAll f lo n with
  | case1 lo n h => exact allIntervalNat_iff _ _ _
  | case2 lo n h na a b ih1 ih2 =>
    simp only [par, Bool.and_eq_true]
    have ha : a = true ↔ _ := ih1
    have hb : b = true ↔ _ := ih2
    rw [ha, hb]
    constructor
    · rintro ⟨h1, h2⟩ k hk hk'
      by_cases hlt : k < lo + na
      · exact h1 k hk hlt
      · exact h2 k (by omega) (by omega)
    · intro h'
      exact ⟨fun k hk hk' => h' k hk (by omega), fun k hk hk' => h' k (by omega) (by omega)⟩

/-! ## Sorting -/

theorem part_perm {α : Type} (f : α → ℕ) (p : ℕ) (xs : List α) :
    ((part f p xs).1 ++ ((part f p xs).2.1 ++ (part f p xs).2.2)).Perm xs := by
  induction xs with
  | nil => simp [part]
  | cons x xs ih =>
    simp only [part]
    rcases h : part f p xs with ⟨l, e, g⟩
    rw [h] at ih
    simp only at ih
    split_ifs
    · exact ih.cons x
    · refine List.Perm.trans ?_ (ih.cons x)
      simp only [← List.append_assoc]
      exact List.perm_middle
    · refine List.Perm.trans ?_ (ih.cons x)
      exact List.perm_middle

theorem part_spec {α : Type} (f : α → ℕ) (p : ℕ) (xs : List α) :
    (∀ x ∈ (part f p xs).1, f x < p) ∧ (∀ x ∈ (part f p xs).2.1, f x = p) ∧
      ∀ x ∈ (part f p xs).2.2, p < f x := by
  induction xs with
  | nil => simp [part]
  | cons x xs ih =>
    simp only [part]
    rcases h : part f p xs with ⟨l, e, g⟩
    rw [h] at ih
    simp only at ih
    obtain ⟨h1, h2, h3⟩ := ih
    split_ifs with h4 h5
    · exact ⟨by simpa using ⟨h4, h1⟩, h2, h3⟩
    · exact ⟨h1, h2, by simpa using ⟨h5, h3⟩⟩
    · refine ⟨h1, ?_, h3⟩
      simp only [List.mem_cons, forall_eq_or_imp]
      exact ⟨by omega, h2⟩

theorem sortKey_perm {α : Type} (u : α) (f : α → ℕ) (xs : List α) : (sortKey u f xs).Perm xs := by
  fun_induction sortKey u f xs with
  | case1 => exact .refl _
  | case2 => exact .refl _
  | case3 => exact .refl _
  | case4 => exact List.Perm.swap _ _ _
  | case5 x y z rest p ih1 ih2 =>
    refine List.Perm.trans ?_ (part_perm f (f (nth u (x :: y :: z :: rest)
      (sizeList (x :: y :: z :: rest) / 2))) (x :: y :: z :: rest))
    rw [List.append_assoc]
    exact ih1.append ((List.Perm.refl _).append ih2)

theorem sortKey_sorted {α : Type} (u : α) (f : α → ℕ) (xs : List α) :
    (sortKey u f xs).Pairwise (fun a b => f a ≤ f b) := by
  fun_induction sortKey u f xs with
  | case1 => simp
  | case2 => simp
  | case3 x y h => simpa using h
  | case4 x y h => simp; omega
  | case5 x y z rest p ih1 ih2 =>
    have hs := part_spec f (f (nth u (x :: y :: z :: rest)
      (sizeList (x :: y :: z :: rest) / 2))) (x :: y :: z :: rest)
    obtain ⟨h1, h2, h3⟩ := hs
    have m1 : ∀ a ∈ sortKey u f p.1, f a < _ := fun a ha => h1 a ((sortKey_perm u f p.1).mem_iff.1 ha)
    have m3 : ∀ a ∈ sortKey u f p.2.2, _ < f a :=
      fun a ha => h3 a ((sortKey_perm u f p.2.2).mem_iff.1 ha)
    rw [List.append_assoc, List.pairwise_append, List.pairwise_append]
    refine ⟨ih1, ⟨?_, ih2, ?_⟩, ?_⟩
    · rw [List.pairwise_iff_forall_sublist]
      intro a b hab
      have ha : f a = _ := h2 a (hab.subset (by simp))
      have hb : f b = _ := h2 b (hab.subset (by simp))
      omega
    · intro a ha b hb
      have h4 : f a = _ := h2 a ha
      have h5 := m3 b hb
      omega
    · intro a ha b hb
      have h5 := m1 a ha
      rcases List.mem_append.1 hb with hb | hb
      · have h4 : f b = _ := h2 b hb
        omega
      · have h4 := m3 b hb
        omega

/-! ## The Huffman value -/

theorem sucmaxValueBoundHuffman_spec (u : Undef) (a : List ℕ) (h : a ≠ []) :
    IsPsumLog a (sucmaxValueBoundHuffman u a) := by
  fun_induction sucmaxValueBoundHuffman u a with
  | case1 a h0 => rw [sizeList_eq] at h0; exact absurd (List.eq_nil_of_length_eq_zero h0) h
  | case2 x h0 h1 => exact isPsumLog_singleton x
  | case3 a h0 h1 h2 =>
    rw [sizeList_eq] at h0 h1
    match a with
    | [] => exact absurd rfl h
    | [x] => exact absurd rfl (h2 x)
    | x :: y :: r => simp at h1
  | case4 a h0 h1 ih =>
    rw [sizeList_eq] at h0 h1
    have hp := sortKey_perm u.nat (fun x => x) a
    have hs := sortKey_sorted u.nat (fun x => x) a
    match hk : sortKey u.nat (fun x => x) a with
    | [] => rw [hk] at hp; have := hp.length_eq; simp at this; omega
    | [x] => rw [hk] at hp; have := hp.length_eq; simp at this; omega
    | x :: y :: r =>
      rw [hk] at hp hs ih
      simp only [List.pairwise_cons, List.mem_cons, forall_eq_or_imp] at hs
      have := ih (by simp [sucmaxHuffmanStep])
      simp only [sucmaxHuffmanStep, sucmax, max_eq_right hs.1.1] at this
      simp only [sucmaxHuffmanStep, sucmax, max_eq_right hs.1.1]
      exact (isPsumLog_merge hs.1.1 (fun z hz => hs.2.1 z hz) this).perm hp

/-! ## Steps -/

/-- The vectors of a trie. -/
def vtSet (n : ℕ) (a : VectTrie) : Set (Fin n → Bool) := vset n {l | isMemberVt l a = true}

/-- All elements of the trie have length `n`. -/
def VtWidth (n : ℕ) (a : VectTrie) : Prop := ∀ l, isMemberVt l a = true → l.length = n

theorem not_isChain_of_isUnsorted {n : ℕ} {a : VectTrie} (hw : VtWidth n a)
    (h : isUnsortedVt n a = true) : ¬ IsChain (· ≤ ·) (vtSet n a) := by
  simp only [isUnsortedVt, decide_eq_true_eq, lengthVt_eq] at h
  have := not_isChain_of_length (listVt a) (listVt_nodup a)
    (fun l hl => hw l ((mem_listVt a l).1 hl)) h
  simpa only [mem_listVt, vtSet] using this

/-- What an accepted step guarantees. -/
def StepOk (s : ProofStep) : Prop :=
  (∀ l ∈ s.vectList, l.length = nat s.width) ∧ LB (vset (nat s.width) {l | l ∈ s.vectList}) (nat s.bound)

/-- The permutation of channels described by a list of distinct numbers below `n`. -/
theorem exists_perm_of_list {n : ℕ} (ps : List ℕ) (hlt : ∀ p ∈ ps, p < n) (hlen : ps.length = n)
    (hnd : ps.Nodup) : ∃ π : Equiv.Perm (Fin n), ∀ i : Fin n, ps[i]? = some (π i : ℕ) := by
  have hget : ∀ i : Fin n, (i : ℕ) < ps.length := fun i => by omega
  let f : Fin n → Fin n := fun i => ⟨ps[i]'(hget i), hlt _ (List.getElem_mem _)⟩
  have hinj : Function.Injective f := by
    intro i j hij
    have : ps[i]'(hget i) = ps[j]'(hget j) := by simpa [f] using hij
    have := (List.Nodup.getElem_inj_iff hnd).1 this
    exact Fin.ext this
  refine ⟨Equiv.ofBijective f (Finite.injective_iff_bijective.1 hinj), fun i => ?_⟩
  rw [Fin.getElem?_fin, List.getElem?_eq_getElem (hget i)]
  rfl

theorem vec_permuteListVect {n : ℕ} (u : Undef) (ps : List ℕ) (π : Equiv.Perm (Fin n))
    (hπ : ∀ i : Fin n, ps[i]? = some (π i : ℕ)) (l : List Bool) (hl : l.length = n) :
    vec n (permuteListVect u ps l) = vec n l ∘ π := by
  funext i
  simp only [vec, permuteListVect, List.getD_eq_getElem?_getD, Function.comp, List.getElem?_map]
  have h1 := hπ i
  simp only [Fin.getElem?_fin] at h1
  rw [h1]
  have : (π i : ℕ) < l.length := by have := (π i).2; omega
  simp [nth_eq_getD, List.getD_eq_getElem?_getD, this]

theorem vec_map_not {n : ℕ} (l : List Bool) (hl : l.length = n) : vec n (l.map not) = vnot (vec n l) := by
  funext i
  have : (i : ℕ) < l.length := by omega
  simp [vec, vnot, List.getD_eq_getElem?_getD, this]

theorem LB_empty_width {n m k : ℕ} (h : LB (vset n (∅ : Set (List Bool))) k) :
    LB (vset m (∅ : Set (List Bool))) k := by
  have : k = 0 := by
    have := h [] (by simp [Sorts, vset])
    simpa using this
  subst this
  exact LB_zero _

theorem getBound_sound (u : Undef) (steps : ℤ → ProofStep) (limit : ℤ)
    (hok : ∀ i, 0 ≤ i → i < limit → StepOk (steps i)) (w : Option ProofWitness) (n : ℕ) (a : VectTrie)
    (hw : VtWidth n a) (k : ℕ) (h : getBound u steps limit w n a = some k) : LB (vtSet n a) k := by
  cases w with
  | none =>
    simp only [getBound, Option.some.injEq] at h
    by_cases hu : isUnsortedVt n a = true
    · simp only [hu, if_true] at h
      subst h
      exact LB_one (not_isChain_of_isUnsorted hw hu)
    · simp only [hu] at h
      subst h
      exact LB_zero _
  | some w =>
    simp only [getBound] at h
    split_ifs at h with hc
    simp only [Option.some.injEq] at h
    simp only [Bool.or_eq_true, Bool.not_eq_true', not_or, Bool.not_eq_false, Bool.and_eq_true,
      decide_eq_true_eq, List.all_eq_true, sizeList_eq, distinct_iff, isSubsetVt_iff] at hc
    obtain ⟨⟨hid0, hidl⟩, hlt, hlen, hnd, hbl, hsub⟩ := hc
    obtain ⟨hwid, hlb⟩ := hok _ hid0 hidl
    rw [h] at hlb
    -- transport the bound to width `n`
    have hlb' : LB (vset n {l | l ∈ (steps w.stepId).vectList}) k := by
      by_cases hne : (steps w.stepId).vectList = []
      · rw [hne] at hlb ⊢
        simp only [List.not_mem_nil, Set.ofPred_false] at hlb ⊢
        exact LB_empty_width hlb
      · obtain ⟨l, hl⟩ := List.exists_mem_of_ne_nil _ hne
        have : nat (steps w.stepId).width = n := by rw [← hwid l hl, hbl l hl]
        rw [this] at hlb
        exact hlb
    obtain ⟨π, hπ⟩ := exists_perm_of_list (w.perm.map nat) (fun p hp => (hlt p hp).2) hlen hnd
    have hS : SubsumesInv (vset n {l | l ∈ (steps w.stepId).vectList}) (vtSet n a) := by
      cases hinv : w.invert with
      | false =>
        left
        refine ⟨π, ?_⟩
        rintro _ ⟨_, ⟨l, hl, rfl⟩, rfl⟩
        refine ⟨_, hsub (permuteListVect u (w.perm.map nat) l) ?_, ?_⟩
        · rw [mem_permuteVt]
          refine ⟨l, ?_, rfl⟩
          rw [mem_invertVt]
          exact ⟨l, (isMemberVt_vtList _ _).2 hl, by simp [hinv]⟩
        · exact vec_permuteListVect u _ π hπ l (hbl l hl)
      | true =>
        right
        refine ⟨π, ?_⟩
        rintro _ ⟨_, ⟨_, ⟨l, hl, rfl⟩, rfl⟩, rfl⟩
        refine ⟨_, hsub (permuteListVect u (w.perm.map nat) (l.map not)) ?_, ?_⟩
        · rw [mem_permuteVt]
          refine ⟨l.map not, ?_, rfl⟩
          rw [mem_invertVt]
          exact ⟨l, (isMemberVt_vtList _ _).2 hl, by simp [hinv]⟩
        · rw [vec_permuteListVect u _ π hπ _ (by simpa using hbl l hl), vec_map_not _ (hbl l hl)]
          rfl
    exact LB_of_subsumesInv hS hlb'

theorem vec_applyCmpList {n : ℕ} (u : Undef) (i j : Fin n) (hij : i ≠ j) (l : List Bool) (hl : l.length = n) :
    vec n (applyCmpList u (i, j) l) = applyCmp (i, j) (vec n l) := by
  have hij' : (i : ℕ) ≠ (j : ℕ) := fun h => hij (Fin.ext h)
  funext k
  have hk : (k : ℕ) < l.length := by omega
  simp only [applyCmpList, listUpdate_eq_set, nth_eq_vec u.bool l hl, applyCmp]
  conv_lhs => rw [vec]
  simp only [List.getD_eq_getElem?_getD, List.getElem?_set, List.length_set]
  by_cases h1 : k = j
  · subst h1
    simp [hk]
  · have h1' : ¬ (j : ℕ) = (k : ℕ) := fun h => h1 (Fin.ext h.symm)
    by_cases h2 : k = i
    · subst h2
      simp [hk, h1, h1']
    · have h2' : ¬ (i : ℕ) = (k : ℕ) := fun h => h2 (Fin.ext h.symm)
      simp [h1, h1', h2, h2', hk, vec]

theorem applyCmpList_length (u : Undef) (c : ℕ × ℕ) (l : List Bool) :
    (applyCmpList u c l).length = l.length := by
  simp [applyCmpList, listUpdate_eq_set]

theorem mem_ocmpList (n : ℕ) (c : ℕ × ℕ) : c ∈ ocmpList n ↔ c.1 < c.2 ∧ c.2 < n := by
  obtain ⟨i, j⟩ := c
  simp only [ocmpList, List.mem_flatMap, List.mem_map, mem_upt, Prod.mk.injEq]
  constructor
  · rintro ⟨a, ⟨-, ha⟩, b, ⟨-, hb⟩, rfl, rfl⟩
    exact ⟨hb, ha⟩
  · rintro ⟨h1, h2⟩
    exact ⟨j, ⟨Nat.zero_le _, h2⟩, i, ⟨Nat.zero_le _, h1⟩, rfl, rfl⟩

theorem redundant_of_isRedundantCmpVt {n : ℕ} (u : Undef) (i j : Fin n) (ls : List (List Bool))
    (hlen : ∀ l ∈ ls, l.length = n) (h : isRedundantCmpVt u (i, j) (vtList ls) = true) :
    Redundant (i, j) (vset n {l | l ∈ ls}) := by
  simp only [isRedundantCmpVt, Bool.not_and, Bool.not_not, Bool.or_eq_true, List.all_eq_true,
    Bool.not_eq_true', Bool.and_eq_false_iff, mem_listVt, isMemberVt_vtList] at h
  rcases h with h | h
  · left
    rintro _ ⟨l, hl, rfl⟩ ⟨h1, h2⟩
    have := h l hl
    rw [nth_eq_vec u.bool l (hlen l hl), nth_eq_vec u.bool l (hlen l hl), h1, h2] at this
    simp at this
  · right
    rintro _ ⟨l, hl, rfl⟩ ⟨h1, h2⟩
    have := h l hl
    rw [nth_eq_vec u.bool l (hlen l hl), nth_eq_vec u.bool l (hlen l hl), h1, h2] at this
    simp at this

theorem Redundant_swap {ι : Type*} {A : Set (ι → Bool)} (c : ι × ι) :
    Redundant c.swap A ↔ Redundant c A := by
  simp only [Redundant, Prod.fst_swap, Prod.snd_swap]
  rw [or_comm]
  constructor
  · rintro (h | h)
    · left; intro x hx hh; exact h x hx ⟨hh.2, hh.1⟩
    · right; intro x hx hh; exact h x hx ⟨hh.2, hh.1⟩
  · rintro (h | h)
    · left; intro x hx hh; exact h x hx ⟨hh.2, hh.1⟩
    · right; intro x hx hh; exact h x hx ⟨hh.2, hh.1⟩

theorem redundant_self {ι : Type*} {A : Set (ι → Bool)} (i : ι) : Redundant (i, i) A := by
  left; intro x _ h; simp_all

theorem checkSuccessors_sound (u : Undef) (steps : ℤ → ProofStep) (limit : ℤ)
    (hok : ∀ i, 0 ≤ i → i < limit → StepOk (steps i)) (s : ProofStep)
    (h : checkSuccessors u steps limit s = true) : StepOk s := by
  unfold checkSuccessors at h
  cases hws : s.witnesses with
  | huffman pol ws => simp [hws] at h
  | successor ws =>
    simp only [hws, Bool.and_eq_true, Bool.not_eq_true', decide_eq_false_iff_not, decide_eq_true_eq,
      List.all_eq_true, sizeList_eq, listAll2_iff] at h
    obtain ⟨hb0, huns, -, hlen, hall⟩ := h
    refine ⟨hlen, ?_⟩
    set n := nat s.width with hn
    have hset : vtSet n (vtList s.vectList) = vset n {l | l ∈ s.vectList} := by
      simp only [vtSet, isMemberVt_vtList]
    have hwid : VtWidth n (vtList s.vectList) := fun l hl => hlen l ((isMemberVt_vtList _ _).1 hl)
    obtain ⟨k, hk⟩ : ∃ k, nat s.bound = k + 1 := ⟨nat s.bound - 1, by omega⟩
    rw [hk]
    refine LB_successor (by rw [← hset]; exact not_isChain_of_isUnsorted hwid huns) ?_
    -- the claim for ordered comparators
    have key : ∀ i j : Fin n, i < j → ¬ Redundant (i, j) (vset n {l | l ∈ s.vectList}) →
        LB (applyCmp (i, j) '' vset n {l | l ∈ s.vectList}) k := by
      intro i j hij hr
      have hmem : ((i : ℕ), (j : ℕ)) ∈
          (ocmpList n).filter fun c => !(isRedundantCmpVt u c (vtList s.vectList)) := by
        rw [List.mem_filter, mem_ocmpList]
        refine ⟨⟨hij, j.2⟩, ?_⟩
        rw [Bool.not_eq_true', ← Bool.not_eq_true]
        exact fun h => hr (redundant_of_isRedundantCmpVt u i j _ hlen h)
      have hmem' := List.mem_map_of_mem
        (f := fun c => vtList (s.vectList.map (applyCmpList u c))) hmem
      obtain ⟨w, -, hw⟩ := forall₂_exists_right hall hmem'
      cases hg : getBound u steps limit w n (vtList (s.vectList.map (applyCmpList u (↑i, ↑j)))) with
      | none => simp [hg] at hw
      | some ba =>
        simp only [hg, decide_eq_true_eq] at hw
        have := getBound_sound u steps limit hok w n _ (by
          intro l hl
          rw [isMemberVt_vtList, List.mem_map] at hl
          obtain ⟨l', hl', rfl⟩ := hl
          rw [applyCmpList_length]; exact hlen l' hl') ba hg
        have he : vtSet n (vtList (s.vectList.map (applyCmpList u (↑i, ↑j)))) =
            applyCmp (i, j) '' vset n {l | l ∈ s.vectList} := by
          ext x
          simp only [vtSet, isMemberVt_vtList, vset, List.mem_map, Set.mem_image, Set.mem_ofPred_eq]
          constructor
          · rintro ⟨_, ⟨l, hl, rfl⟩, rfl⟩
            exact ⟨_, ⟨l, hl, rfl⟩, (vec_applyCmpList u i j (ne_of_lt hij) l (hlen l hl)).symm⟩
          · rintro ⟨_, ⟨l, hl, rfl⟩, rfl⟩
            exact ⟨_, ⟨l, hl, rfl⟩, vec_applyCmpList u i j (ne_of_lt hij) l (hlen l hl)⟩
        rw [he] at this
        exact this.le (by omega)
    rintro ⟨i, j⟩ hr
    rcases lt_trichotomy i j with hij | hij | hij
    · exact Or.inl (key i j hij hr)
    · subst hij; exact absurd (redundant_self i) hr
    · exact Or.inr (key j i hij (fun h => hr ((Redundant_swap (j, i)).2 h)))

theorem checkHuffman_sound (u : Undef) (steps : ℤ → ProofStep) (limit : ℤ)
    (hok : ∀ i, 0 ≤ i → i < limit → StepOk (steps i)) (s : ProofStep)
    (h : checkHuffman u steps limit s = true) : StepOk s := by
  unfold checkHuffman at h
  cases hws : s.witnesses with
  | successor ws => simp [hws] at h
  | huffman pol ws =>
    simp only [hws, Bool.and_eq_true, Bool.not_eq_true', decide_eq_false_iff_not, decide_eq_true_eq,
      List.all_eq_true, sizeList_eq, List.isEmpty_eq_false_iff] at h
    obtain ⟨hw0, hlen, hne, hcount, hall, hle⟩ := h
    refine ⟨hlen, ?_⟩
    obtain ⟨m, hm⟩ : ∃ m, nat s.width = m + 1 := ⟨nat s.width - 1, by omega⟩
    rw [hm] at hlen hw0 hcount hall hle ⊢
    have hpred : pred u (m + 1) = m := by simp [pred]
    rw [hpred] at hall hle
    set a := vtList s.vectList with ha
    set ecs := extremalChannelsVt a (m + 1) pol with hecs
    have hecs_lt : ∀ c ∈ ecs, c < m + 1 := by
      intro c hc
      simp only [hecs, extremalChannelsVt, List.mem_filter, mem_upt] at hc
      exact hc.1.2
    have hecs_nd : ecs.Nodup := by
      simp only [hecs, extremalChannelsVt, upt_zero]
      exact List.Nodup.filter _ List.nodup_range
    set bounds := ((ecs.map fun c => pruneExtremalVt pol c a).zip ws).map
      fun p => getBound u steps limit p.2 m p.1 with hbounds
    have hblen : bounds.length = ecs.length := by
      simp [hbounds, List.length_zip]; omega
    -- channels as elements of `Fin (m + 1)`
    set cs : List (Fin (m + 1)) := ecs.pmap (fun c h => ⟨c, h⟩) hecs_lt with hcs
    have hcs_len : cs.length = ecs.length := by simp [hcs]
    have hcs_nd : cs.Nodup := by
      rw [hcs]
      exact hecs_nd.pmap (by intro a ha b hb h; simpa using h)
    have hcs_ne : cs ≠ [] := by
      intro h0
      have : ecs.length = 0 := by rw [← hcs_len, h0]; rfl
      rw [this] at hcount
      exact hne (List.eq_nil_of_length_eq_zero hcount.symm)
    have hvals_ne : bounds.map (the u.nat) ≠ [] := by
      intro h0
      have h1 : bounds.length = 0 := by simpa using congrArg List.length h0
      apply hcs_ne
      apply List.eq_nil_of_length_eq_zero
      omega
    refine LB.le hle ?_
    refine LB_huffman_list (!pol) cs (bounds.map (the u.nat)) hcs_nd hcs_ne ?_ ?_
      (sucmaxValueBoundHuffman_spec u _ hvals_ne)
    · intro c hc
      have hc' : (c : ℕ) ∈ ecs := by
        rw [hcs, List.mem_pmap] at hc
        obtain ⟨x, hx, rfl⟩ := hc
        exact hx
      simp only [hecs, extremalChannelsVt, List.mem_filter, mem_upt] at hc'
      obtain ⟨-, hmem⟩ := hc'
      rw [ha, isMemberVt_vtList] at hmem
      refine ⟨_, hmem, ?_⟩
      funext k
      have hk : (k : ℕ) < (upt 0 (m + 1)).length := by rw [upt_zero]; simp
      simp only [vec, upt_zero, List.getD_eq_getElem?_getD, List.getElem?_map]
      rw [List.getElem?_range k.2]
      by_cases hkc : k = c
      · subst hkc; cases pol <;> simp
      · have : ¬ (k : ℕ) = (c : ℕ) := fun h => hkc (Fin.ext h)
        cases pol <;> simp [hkc, this]
    · rw [List.forall₂_iff_get]
      refine ⟨by simp [hcs_len, hblen], ?_⟩
      intro i hi1 hi2
      have hiE : i < ecs.length := by omega
      have hiB : i < bounds.length := by omega
      have hiW : i < ws.length := by omega
      simp only [List.get_eq_getElem]
      suffices key : ∀ c : Fin (m + 1), (c : ℕ) = ecs[i] →
          LB (pruneSet (!pol) c (vset (m + 1) {l | l ∈ s.vectList})) ((bounds.map (the u.nat))[i]) from
        key _ (by simp [hcs])
      intro c hcsi
      have hbi : bounds[i] = getBound u steps limit ws[i] m (pruneExtremalVt pol c a) := by
        simp [hbounds, hcsi]
      have hsome := hall bounds[i] (List.getElem_mem _)
      cases hg : bounds[i] with
      | none => rw [hg] at hsome; simp [isNone] at hsome
      | some k =>
        simp only [List.getElem_map, hg, the]
        rw [hbi] at hg
        have hpw : VtWidth m (pruneExtremalVt pol c a) := by
          intro l hl
          rw [isMemberVt_prune] at hl
          rcases hl with ⟨h1, h2⟩ | ⟨h1, h2⟩
          · rw [ha, isMemberVt_vtList] at h2
            have := hlen l h2
            omega
          · rw [ha, isMemberVt_vtList] at h2
            have := hlen _ h2
            simp [List.length_take, List.length_drop] at this
            omega
        have hlb := getBound_sound u steps limit hok _ m _ hpw k hg
        rw [LB_pruneSet_iff]
        refine hlb.mono ?_
        rintro _ ⟨l, hl, rfl⟩
        simp only [Set.mem_ofPred_eq] at hl
        have hlm := hpw l hl
        rw [isMemberVt_prune] at hl
        rcases hl with ⟨h1, h2⟩ | ⟨h1, h2⟩
        · have := c.2; omega
        · rw [ha, isMemberVt_vtList] at h2
          refine ⟨vec (m + 1) (l.take c ++ (!pol) :: l.drop c), ⟨⟨_, h2, rfl⟩, ?_⟩, ?_⟩
          · simp only [vec, List.getD_eq_getElem?_getD]
            rw [List.getElem?_append_right (by simp [h1])]
            simp [h1]
          · funext k
            have : l = (l.take c ++ (!pol) :: l.drop c).eraseIdx c := by
              rw [List.eraseIdx_append_of_length_le (by simp [h1])]
              simp [h1]
            conv_rhs => rw [this]
            rw [vec_eraseIdx]

theorem checkStep_sound (u : Undef) (steps : ℤ → ProofStep) (limit : ℤ)
    (hok : ∀ i, 0 ≤ i → i < limit → StepOk (steps i)) (s : ProofStep)
    (h : checkStep u steps limit s = true) : StepOk s := by
  unfold checkStep at h
  cases hws : s.witnesses with
  | huffman pol ws => rw [hws] at h; exact checkHuffman_sound u steps limit hok s h
  | successor ws => rw [hws] at h; exact checkSuccessors_sound u steps limit hok s h

theorem checkProof_sound (u : Undef) (cert : ProofCert) (h : checkProof u cert = true) (i : ℤ)
    (h0 : 0 ≤ i) (hi : i < cert.length) : StepOk (cert.step i) := by
  simp only [checkProof, Bool.and_eq_true, decide_eq_true_eq, parRangeAll_iff] at h
  obtain ⟨hl, hall⟩ := h
  have key : ∀ k : ℕ, (k : ℤ) < cert.length → StepOk (cert.step k) := by
    intro k
    induction k using Nat.strong_induction_on with
    | _ k ih =>
      intro hk
      have hk' : k < 0 + nat cert.length := by simp [nat]; omega
      refine checkStep_sound u cert.step k ?_ _ (hall k (Nat.zero_le _) hk')
      intro j hj0 hjk
      obtain ⟨j', rfl⟩ := Int.eq_ofNat_of_zero_le hj0
      exact ih j' (by omega) (by omega)
  obtain ⟨k, rfl⟩ := Int.eq_ofNat_of_zero_le h0
  exact key k hi

/-- Only earlier steps are used. -/
theorem getBound_congr (u : Undef) {f f' : ℤ → ProofStep} {limit : ℤ} (h : ∀ i, 0 ≤ i → i < limit → f i = f' i) :
    getBound u f limit = getBound u f' limit := by
  funext w width a
  cases w with
  | none => rfl
  | some w =>
    by_cases hw : 0 ≤ w.stepId ∧ w.stepId < limit
    · simp only [getBound, h _ hw.1 hw.2]
    · have e : (decide (0 ≤ w.stepId) && decide (w.stepId < limit)) = false := by
        rw [← Bool.not_eq_true, Bool.and_eq_true, decide_eq_true_eq, decide_eq_true_eq]
        exact hw
      simp only [getBound, e, Bool.not_false, Bool.true_or, if_true]

end Sortnet.Checker
