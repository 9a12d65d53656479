import Verif.Proof.OutputSet
import Mathlib.Data.Fintype.Card
import Mathlib.Data.Fintype.Pi
import Mathlib.Data.Fintype.BigOperators

/-!
# `is_sorted`, `len` and well-formed output sets
-/

namespace Sortnet

variable {n : ℕ}

theorem countOnes_eq (x : BitVec n) : countOnes x = weight (vecOf x) := by
  unfold countOnes weight
  rw [← List.toFinset_card_of_nodup ((List.nodup_finRange n).filter _)]
  congr 1
  ext i; simp [vecOf]

theorem isSortedLoop_iff (s : Bitmap n) (L : List (BitVec n)) (ap : ℕ → Bool) :
    isSortedLoop s L ap = true ↔
      (∀ x ∈ L, s x = true → ap (countOnes x) = false) ∧
      L.Pairwise (fun x y => s x = true → s y = true → countOnes x ≠ countOnes y) := by
  induction L generalizing ap with
  | nil => simp [isSortedLoop]
  | cons x L ih =>
    simp only [isSortedLoop, List.pairwise_cons, List.mem_cons, forall_eq_or_imp]
    split_ifs with h
    · rw [Bool.and_eq_true] at h
      simp [h]
    · rw [ih]
      simp only [Function.update_apply]
      constructor
      · rintro ⟨h1, h2⟩
        refine ⟨⟨?_, ?_⟩, ?_, h2⟩
        · intro hx
          cases hap : ap (countOnes x) <;> simp_all
        · intro y hy hsy
          have := h1 y hy hsy
          split_ifs at this with e
          · rw [e]; simp at this; exact this.1
          · exact this
        · intro y hy hsx hsy e
          have := h1 y hy hsy
          rw [if_pos e.symm] at this
          simp [hsx] at this
      · rintro ⟨⟨h1, h2⟩, h3, h4⟩
        refine ⟨?_, h4⟩
        intro y hy hsy
        split_ifs with e
        · have := h2 y hy hsy
          rw [e] at this
          rw [this, Bool.false_or]
          by_contra hc
          simp only [Bool.not_eq_false] at hc
          exact h3 y hy hc hsy e.symm
        · exact h2 y hy hsy

theorem isSorted_iff (s : Bitmap n) :
    s.isSorted = true ↔ n < 2 ∨ ∀ v ∈ s.toSet, ∀ w ∈ s.toSet, weight v = weight w → v = w := by
  unfold Bitmap.isSorted
  split_ifs with h
  · simp [h]
  · rw [isSortedLoop_iff]
    simp only [h, false_or, implies_true, true_and]
    have hp : (indices n).Pairwise (fun x y => s x = true → s y = true → countOnes x ≠ countOnes y) ↔
        ∀ x y, s x = true → s y = true → countOnes x = countOnes y → x = y := by
      constructor
      · intro h x y hx hy e
        by_contra hne
        have : Std.Symm (fun x y : BitVec n => s x = true → s y = true → countOnes x ≠ countOnes y) :=
          ⟨fun a b h ha hb e => h hb ha e.symm⟩
        exact h.forall (mem_indices x) (mem_indices y) hne hx hy e
      · intro h
        apply (indices_nodup n).pairwise_of_forall_ne
        intro x _ y _ hne hx hy e
        exact hne (h x y hx hy e)
    rw [hp]
    constructor
    · intro h v hv w hw e
      obtain ⟨x, rfl⟩ := vecOf_surjective v
      obtain ⟨y, rfl⟩ := vecOf_surjective w
      rw [Bitmap.vecOf_mem] at hv hw
      rw [h x y hv hw (by rw [countOnes_eq, countOnes_eq, e])]
    · intro h x y hx hy e
      apply vecOf_injective
      exact h _ ((s.vecOf_mem x).2 hx) _ ((s.vecOf_mem y).2 hy) (by rw [← countOnes_eq, ← countOnes_eq, e])

/-! ## Reachability and chained sets -/

theorem weight_update_true {v : Fin n → Bool} {i : Fin n} (h : v i = false) :
    weight (Function.update v i true) = weight v + 1 := by
  unfold weight
  have : (Finset.univ.filter fun j => Function.update v i true j = true) =
      insert i (Finset.univ.filter fun j => v j = true) := by
    ext j
    by_cases e : j = i
    · subst e; simp
    · simp [e]
  rw [this, Finset.card_insert_of_notMem (by simp [h])]

theorem ReachIn.mem {A : Set (Fin n → Bool)} {b : Bool} {u v : Fin n → Bool} (h : ReachIn A b u v) :
    v ∈ A := by
  cases h <;> assumption

theorem ReachIn.mem_left {A : Set (Fin n → Bool)} {b : Bool} {u v : Fin n → Bool} (h : ReachIn A b u v) :
    u ∈ A := by
  induction h with
  | refl h => exact h
  | step i _ _ _ ih => exact ih

theorem ReachIn.trans {A : Set (Fin n → Bool)} {b : Bool} {u v w : Fin n → Bool} (h : ReachIn A b u v)
    (h' : ReachIn A b v w) : ReachIn A b u w := by
  induction h' with
  | refl _ => exact h
  | step i _ h2 h3 ih => exact ih.step i h2 h3

theorem ReachIn.mono {A B : Set (Fin n → Bool)} {b : Bool} {u v : Fin n → Bool} (hAB : A ⊆ B)
    (h : ReachIn A b u v) : ReachIn B b u v := by
  induction h with
  | refl h => exact .refl (hAB h)
  | step i _ h2 h3 ih => exact ih.step i h2 (hAB h3)

theorem ReachIn.le {A : Set (Fin n → Bool)} {u v : Fin n → Bool} (h : ReachIn A true u v) : u ≤ v := by
  induction h with
  | refl _ => exact le_rfl
  | step i _ h2 _ ih =>
    refine ih.trans ?_
    intro j
    by_cases e : j = i
    · subst e; simp [Bool.le_true]
    · simp [e]

/-- On the way from `u` to `v` every weight in between occurs. -/
theorem ReachIn.exists_weight {A : Set (Fin n → Bool)} {u v : Fin n → Bool} (h : ReachIn A true u v)
    {k : ℕ} (hk : weight u ≤ k) (hk' : k ≤ weight v) :
    ∃ w, ReachIn A true u w ∧ ReachIn A true w v ∧ weight w = k := by
  induction h with
  | refl hu => exact ⟨u, .refl hu, .refl hu, by omega⟩
  | step i h1 h2 h3 ih =>
    rename_i v
    rw [weight_update_true (by simpa using h2)] at hk'
    by_cases e : k ≤ weight v
    · obtain ⟨w, hw1, hw2, hw3⟩ := ih e
      exact ⟨w, hw1, hw2.step i h2 h3, hw3⟩
    · refine ⟨_, h1.step i h2 h3, .refl h3, ?_⟩
      rw [weight_update_true (by simpa using h2)]; omega

theorem weight_true : weight (fun _ : Fin n => true) = n := by simp [weight]
theorem weight_false : weight (fun _ : Fin n => false) = 0 := by simp [weight]

theorem injOn_weight_of_isChain {A : Set (Fin n → Bool)} (h : IsChain (· ≤ ·) A) : Set.InjOn weight A := by
  intro v hv w hw e
  rcases h.total hv hw with h1 | h1
  · exact eq_of_le_of_weight h1 e
  · exact (eq_of_le_of_weight h1 e.symm).symm

/-- In a chained set, having at most one vector of every weight is being a chain. -/
theorem Chained.isChain_iff {A : Set (Fin n → Bool)} (hA : Chained A) :
    IsChain (· ≤ ·) A ↔ ∀ v ∈ A, ∀ w ∈ A, weight v = weight w → v = w := by
  constructor
  · intro h v hv w hw e; exact injOn_weight_of_isChain h hv hw e
  · intro h
    have key : ∀ v ∈ A, ∀ w ∈ A, weight v ≤ weight w → v ≤ w := by
      intro v hv w hw hle
      obtain ⟨z, hz1, hz2, hz3⟩ := (hA v hv).2.exists_weight hle (by rw [weight_true]; exact weight_le w)
      rw [← h z hz1.mem w hw hz3]
      exact hz1.le
    intro v hv w hw _
    rcases Nat.le_total (weight v) (weight w) with h1 | h1
    · exact Or.inl (key v hv w hw h1)
    · exact Or.inr (key w hw v hv h1)

/-- `len` counts the vectors of the set. -/
theorem len_eq_card (s : Bitmap n) (S : Finset (Fin n → Bool)) (h : ∀ v, v ∈ S ↔ v ∈ s.toSet) :
    s.len = S.card := by
  have h1 : s.len = ((indices n).filter fun x => s x).length := by
    unfold Bitmap.len
    generalize indices n = L
    induction L with
    | nil => rfl
    | cons x L ih =>
      rw [List.map_cons, List.sum_cons, ih, List.filter_cons]
      cases s x <;> simp [Nat.add_comm]
  rw [h1, ← List.length_map (f := vecOf), ← List.toFinset_card_of_nodup]
  · congr 1
    ext v
    rw [h, List.mem_toFinset, List.mem_map]
    constructor
    · rintro ⟨x, hx, rfl⟩
      rw [Bitmap.vecOf_mem]; simpa using (List.mem_filter.1 hx).2
    · intro hv
      refine ⟨idxOf v, List.mem_filter.2 ⟨mem_indices _, ?_⟩, vecOf_idxOf v⟩
      simpa using (s.mem_toSet v).1 hv
  · exact ((indices_nodup n).filter _).map vecOf_injective

/-- In a chained set, being a chain is having at most `n + 1` vectors. -/
theorem Chained.isChain_iff_card {A : Finset (Fin n → Bool)} (hA : Chained (A : Set (Fin n → Bool))) :
    IsChain (· ≤ ·) (A : Set (Fin n → Bool)) ↔ A.card ≤ n + 1 := by
  constructor
  · intro h
    have : A.card ≤ (Finset.range (n + 1)).card := by
      apply Finset.card_le_card_of_injOn weight
      · intro v _
        have := weight_le v
        simp only [Finset.coe_range, Set.mem_Iio]; omega
      · exact injOn_weight_of_isChain h
    simpa using this
  · intro hcard
    rw [hA.isChain_iff]
    rcases A.eq_empty_or_nonempty with rfl | ⟨v0, hv0⟩
    · simp
    · have hsurj : ∀ k ∈ Finset.range (n + 1), ∃ v ∈ A, weight v = k := by
        intro k hk
        rw [Finset.mem_range] at hk
        have h0 := (hA v0 hv0).1.trans (hA v0 hv0).2
        obtain ⟨w, hw1, _, hw3⟩ := h0.exists_weight (k := k) (by rw [weight_false]; omega)
          (by rw [weight_true]; omega)
        exact ⟨w, hw1.mem, hw3⟩
      have hinj := Finset.inj_on_of_surj_on_of_card_le (s := A) (t := Finset.range (n + 1))
        (fun v _ => weight v) (fun v _ => by have := weight_le v; rw [Finset.mem_range]; omega)
        (fun k hk => by obtain ⟨v, hv, e⟩ := hsurj k hk; exact ⟨v, hv, e⟩)
        (by simpa using hcard)
      intro v hv w hw e
      exact hinj hv hw e

end Sortnet
