import Verif.Model.Abstraction
import Verif.Proof.Abstraction

/-!
# The abstraction is monotone under permuted (complemented) inclusion
-/

namespace Sortnet

variable {n : ℕ}

/-! ## Sorting is monotone -/

theorem countP_ge {α : Type} (p : α → Bool) (L : List α) (j : ℕ) (hj : j ≤ L.length)
    (h : ∀ i (hi : i < L.length), i < j → p L[i] = true) : j ≤ L.countP p := by
  have h1 : (L.take j).countP p = j := by
    rw [List.countP_eq_length.2, List.length_take, min_eq_left hj]
    intro a ha
    obtain ⟨i, hi, rfl⟩ := List.getElem_of_mem ha
    rw [List.length_take] at hi
    rw [List.getElem_take]
    exact h i (by omega) (by omega)
  have h2 : (L.take j).countP p ≤ L.countP p := (List.take_sublist j L).countP_le
  omega

theorem countP_le {α : Type} (p : α → Bool) (L : List α) (j : ℕ)
    (h : ∀ i (hi : i < L.length), j ≤ i → p L[i] = false) : L.countP p ≤ j := by
  have h1 : (L.drop j).countP p = 0 := by
    rw [List.countP_eq_zero]
    intro a ha
    obtain ⟨i, hi, rfl⟩ := List.getElem_of_mem ha
    rw [List.length_drop] at hi
    rw [List.getElem_drop]
    simp [h (j + i) (by omega) (by omega)]
  have h2 : L.countP p = (L.take j).countP p + (L.drop j).countP p := by
    rw [← List.countP_append, List.take_append_drop]
  have h3 : (L.take j).countP p ≤ j := (List.countP_le_length).trans (by simp)
  omega

theorem forall₂_countP_le {X Y : List ℕ} (h : List.Forall₂ (· ≤ ·) X Y) (v : ℕ) :
    Y.countP (fun y => decide (y ≤ v)) ≤ X.countP (fun x => decide (x ≤ v)) := by
  induction h with
  | nil => simp
  | @cons a b X Y hab _ ih =>
    rw [List.countP_cons, List.countP_cons]
    by_cases h1 : b ≤ v
    · have h2 : a ≤ v := le_trans hab h1
      simp [h1, h2]; exact ih
    · simp only [h1, decide_false]
      split_ifs <;> simp_all <;> omega

theorem forall₂_countP_ge {X Y : List ℕ} (h : List.Forall₂ (· ≤ ·) X Y) (v : ℕ) :
    X.countP (fun x => decide (v ≤ x)) ≤ Y.countP (fun y => decide (v ≤ y)) := by
  induction h with
  | nil => simp
  | @cons a b X Y hab _ ih =>
    rw [List.countP_cons, List.countP_cons]
    by_cases h1 : v ≤ a
    · have h2 : v ≤ b := le_trans h1 hab
      simp [h1, h2]; exact ih
    · simp only [h1, decide_false]
      split_ifs <;> simp_all <;> omega

theorem sortAsc_perm (l : List ℕ) : (sortAsc l).Perm l := List.perm_insertionSort _ _
theorem sortDesc_perm (l : List ℕ) : (sortDesc l).Perm l := List.perm_insertionSort _ _

theorem sortAsc_pairwise (l : List ℕ) : (sortAsc l).Pairwise (· ≤ ·) := by
  exact List.pairwise_insertionSort _ _

theorem sortDesc_pairwise (l : List ℕ) : (sortDesc l).Pairwise (· ≥ ·) := by
  exact List.pairwise_insertionSort _ _

theorem sortAsc_length (l : List ℕ) : (sortAsc l).length = l.length := (sortAsc_perm l).length_eq
theorem sortDesc_length (l : List ℕ) : (sortDesc l).length = l.length := (sortDesc_perm l).length_eq

theorem sortAsc_congr {l l' : List ℕ} (h : l.Perm l') : sortAsc l = sortAsc l' :=
  List.Perm.eq_of_pairwise (fun _ _ _ _ h1 h2 => le_antisymm h1 h2) (sortAsc_pairwise l) (sortAsc_pairwise l')
    ((sortAsc_perm l).trans (h.trans (sortAsc_perm l').symm))

theorem sortDesc_congr {l l' : List ℕ} (h : l.Perm l') : sortDesc l = sortDesc l' :=
  List.Perm.eq_of_pairwise (fun _ _ _ _ h1 h2 => le_antisymm h2 h1) (sortDesc_pairwise l) (sortDesc_pairwise l')
    ((sortDesc_perm l).trans (h.trans (sortDesc_perm l').symm))

theorem pairwise_getElem_le {l : List ℕ} (h : l.Pairwise (· ≤ ·)) {i j : ℕ} (hij : i ≤ j) (hj : j < l.length) :
    l[i]'(by omega) ≤ l[j] := by
  rcases Nat.eq_or_lt_of_le hij with rfl | hlt
  · exact le_rfl
  · exact List.pairwise_iff_getElem.1 h i j (by omega) hj hlt

theorem pairwise_getElem_ge {l : List ℕ} (h : l.Pairwise (· ≥ ·)) {i j : ℕ} (hij : i ≤ j) (hj : j < l.length) :
    l[j] ≤ l[i]'(by omega) := by
  rcases Nat.eq_or_lt_of_le hij with rfl | hlt
  · exact le_rfl
  · exact List.pairwise_iff_getElem.1 h i j (by omega) hj hlt

theorem sortAsc_mono {X Y : List ℕ} (h : List.Forall₂ (· ≤ ·) X Y) (j : ℕ) :
    (sortAsc X)[j]?.getD 0 ≤ (sortAsc Y)[j]?.getD 0 := by
  have hlen : X.length = Y.length := h.length_eq
  have hX := sortAsc_length X
  have hY := sortAsc_length Y
  by_cases hj : j < X.length
  · have hjX : j < (sortAsc X).length := by omega
    have hjY : j < (sortAsc Y).length := by omega
    rw [List.getElem?_eq_getElem hjX, List.getElem?_eq_getElem hjY, Option.getD_some, Option.getD_some]
    by_contra hcon
    have h1 : j + 1 ≤ (sortAsc Y).countP (fun y => decide (y ≤ (sortAsc Y)[j])) := by
      apply countP_ge _ _ _ (by omega)
      intro i hi hij
      simpa using pairwise_getElem_le (sortAsc_pairwise Y) (by omega) hjY
    have h2 : (sortAsc X).countP (fun y => decide (y ≤ (sortAsc Y)[j])) ≤ j := by
      apply countP_le
      intro i hi hij
      have := pairwise_getElem_le (sortAsc_pairwise X) hij hi
      simp only [decide_eq_false_iff_not]
      omega
    rw [(sortAsc_perm Y).countP_eq] at h1
    rw [(sortAsc_perm X).countP_eq] at h2
    have := forall₂_countP_le h (sortAsc Y)[j]
    omega
  · rw [List.getElem?_eq_none (by omega)]
    simp

theorem sortDesc_mono {X Y : List ℕ} (h : List.Forall₂ (· ≤ ·) X Y) (j : ℕ) :
    (sortDesc X)[j]?.getD 0 ≤ (sortDesc Y)[j]?.getD 0 := by
  have hlen : X.length = Y.length := h.length_eq
  have hX := sortDesc_length X
  have hY := sortDesc_length Y
  by_cases hj : j < X.length
  · have hjX : j < (sortDesc X).length := by omega
    have hjY : j < (sortDesc Y).length := by omega
    rw [List.getElem?_eq_getElem hjX, List.getElem?_eq_getElem hjY, Option.getD_some, Option.getD_some]
    by_contra hcon
    have h1 : j + 1 ≤ (sortDesc X).countP (fun y => decide ((sortDesc X)[j] ≤ y)) := by
      apply countP_ge _ _ _ (by omega)
      intro i hi hij
      simpa using pairwise_getElem_ge (sortDesc_pairwise X) (by omega) hjX
    have h2 : (sortDesc Y).countP (fun y => decide ((sortDesc X)[j] ≤ y)) ≤ j := by
      apply countP_le
      intro i hi hij
      have := pairwise_getElem_ge (sortDesc_pairwise Y) hij hi
      simp only [decide_eq_false_iff_not]
      omega
    rw [(sortDesc_perm X).countP_eq] at h1
    rw [(sortDesc_perm Y).countP_eq] at h2
    have := forall₂_countP_ge h (sortDesc X)[j]
    omega
  · rw [List.getElem?_eq_none (by omega)]
    simp

/-! ## Channel pairs -/

/-- The mask selecting group `g` of a pair of channels. -/
def pairMask (c o : Fin n) (g : Fin 4) : BitVec n :=
  if g = 0 then 0#n else if g = 1 then bit c else if g = 2 then bit o else bit c ||| bit o

theorem pairAbs_eq (s : Bitmap n) (c o : Fin n) (g : Fin 4) :
    s.channelPairAbstraction c o g =
      ((maskIndices n (bit c ||| bit o).toNat).map fun x => (s (x ^^^ pairMask c o g)).toNat).sum := by
  unfold Bitmap.channelPairAbstraction
  rw [maskLoop_eq]
  have key : ∀ (L : List (BitVec n)) (a : Fin 4 → ℕ),
      L.foldl (fun (a : Fin 4 → ℕ) x => fun k => a k + (if k = 0 then s x else if k = 1 then s (x ^^^ bit c)
        else if k = 2 then s (x ^^^ bit o) else s (x ^^^ (bit c ||| bit o))).toNat) a g =
      a g + (L.map fun x => (s (x ^^^ pairMask c o g)).toNat).sum := by
    intro L
    induction L with
    | nil => intro a; simp
    | cons x L ih =>
      intro a
      rw [List.foldl_cons, ih, List.map_cons, List.sum_cons]
      have : (if g = 0 then s x else if g = 1 then s (x ^^^ bit c)
        else if g = 2 then s (x ^^^ bit o) else s (x ^^^ (bit c ||| bit o))) = s (x ^^^ pairMask c o g) := by
        unfold pairMask
        split_ifs <;> simp
      rw [this]; omega
  rw [key]
  simp

theorem pairAbs_mono (τ : Equiv.Perm (Fin n)) (s t : Bitmap n) (hst : permSet τ s.toSet ⊆ t.toSet)
    (c o : Fin n) (g : Fin 4) :
    s.channelPairAbstraction (τ c) (τ o) g ≤ t.channelPairAbstraction c o g := by
  rw [pairAbs_eq, pairAbs_eq]
  rw [permSet_subset_iff] at hst
  apply sum_maskIndices_le τ
  · rw [permIdx_or, permIdx_bit, permIdx_bit]
  · intro x _
    have hm : permIdx τ (pairMask (τ c) (τ o) g) = pairMask c o g := by
      unfold pairMask
      split_ifs
      · apply vec_ext; intro i; simp [vecOf_permIdx]
      · exact permIdx_bit τ c
      · exact permIdx_bit τ o
      · rw [permIdx_or, permIdx_bit, permIdx_bit]
    rw [← hm, ← permIdx_xor]
    cases hx : s (x ^^^ pairMask (τ c) (τ o) g)
    · simp
    · rw [hst _ hx]

/-- The number of vectors of an `n`-channel set bounds all counters. -/
theorem pairAbs_le (s : Bitmap n) (c o : Fin n) (g : Fin 4) : s.channelPairAbstraction c o g ≤ 2 ^ n := by
  rw [pairAbs_eq]
  have h1 : ((maskIndices n (bit c ||| bit o).toNat).map fun x => (s (x ^^^ pairMask c o g)).toNat).sum ≤
      ((maskIndices n (bit c ||| bit o).toNat).map fun _ => 1).sum := by
    apply List.sum_le_sum
    intro x _
    exact Bool.toNat_le _
  have h2 : (maskIndices n (bit c ||| bit o).toNat).length ≤ 2 ^ n := by
    unfold maskIndices
    rw [List.length_map]
    exact (List.length_filter_le _ _).trans (by simp)
  rw [List.map_const', List.sum_replicate_nat, Nat.mul_one] at h1
  omega

/-- Complementing exchanges the groups `g` and `3 - g`. -/
theorem pairAbs_invert (s : Bitmap n) (c o : Fin n) (hco : o ≠ c) (g : Fin 4) :
    s.invert.channelPairAbstraction c o g = s.channelPairAbstraction c o (3 - g) := by
  rw [pairAbs_eq, pairAbs_eq]
  -- the bijection `x ↦ ~~~ x ^^^ (bit c ||| bit o)` on the indices of the loop
  let f : BitVec n → BitVec n := fun x => ~~~ x ^^^ (bit c ||| bit o)
  have hf : Function.Injective f := by
    intro x y h
    apply vec_ext
    intro i
    have := congrArg (vecOf · i) h
    simpa [f] using this
  have hff : ∀ x, f (f x) = x := by
    intro x
    apply vec_ext; intro i; simp [f]
  have hperm : ((maskIndices n (bit c ||| bit o).toNat).map f).Perm (maskIndices n (bit c ||| bit o).toNat) := by
    rw [List.perm_ext_iff_of_nodup ((maskIndices_nodup n _).map hf) (maskIndices_nodup n _)]
    intro y
    rw [← hff y, List.mem_map_of_injective hf, mem_maskIndices, mem_maskIndices, superset_pair, superset_pair]
    simp [f]
  rw [← (hperm.map _).sum_eq, List.map_map]
  congr 1
  apply List.map_congr_left
  intro x _
  simp only [Function.comp_apply, invert_apply]
  congr 2
  apply vec_ext
  intro i
  have hg : g = 0 ∨ g = 1 ∨ g = 2 ∨ g = 3 := by
    revert g; decide
  have hoc : ¬ (c = o) := fun h => hco h.symm
  rcases hg with rfl | rfl | rfl | rfl <;> simp [pairMask, f] <;>
    by_cases h1 : i = c <;> by_cases h2 : i = o <;> simp_all

/-! ## The layout of the abstraction -/

theorem groupValues_length (s : Bitmap n) (c : Fin n) (g : Fin 4) : (s.groupValues c g).length = n - 1 := by
  unfold Bitmap.groupValues
  rw [sortDesc_length, List.length_map]
  have h1 := List.length_eq_length_filter_add (l := List.finRange n) (fun o => decide (o ≠ c))
  have h2 : ((List.finRange n).filter fun o => !(decide (o ≠ c))) = [c] := by
    have hnd : ((List.finRange n).filter fun o => !(decide (o ≠ c))).Nodup := (List.nodup_finRange n).filter _
    have := (List.perm_ext_iff_of_nodup hnd (List.nodup_singleton c)).2 (by intro i; simp)
    exact List.perm_singleton.1 this
  rw [h2, List.length_finRange] at h1
  simp at h1 ⊢
  omega

theorem groupValues_le (s : Bitmap n) (c : Fin n) (g : Fin 4) (i : ℕ) : (s.groupValues c g)[i]?.getD 0 ≤ 2 ^ n := by
  by_cases hi : i < (s.groupValues c g).length
  · rw [List.getElem?_eq_getElem hi, Option.getD_some]
    have := List.getElem_mem hi
    unfold Bitmap.groupValues at this
    rw [(sortDesc_perm _).mem_iff, List.mem_map] at this
    obtain ⟨o, _, he⟩ := this
    unfold Bitmap.groupValues
    rw [← he]
    exact pairAbs_le s c o g
  · rw [List.getElem?_eq_none (by omega)]; simp

theorem groupValues_mono (τ : Equiv.Perm (Fin n)) (s t : Bitmap n) (hst : permSet τ s.toSet ⊆ t.toSet)
    (c : Fin n) (g : Fin 4) (i : ℕ) :
    (s.groupValues (τ c) g)[i]?.getD 0 ≤ (t.groupValues c g)[i]?.getD 0 := by
  unfold Bitmap.groupValues
  have hperm : (((List.finRange n).filter fun o => o ≠ c).map τ).Perm
      ((List.finRange n).filter fun o => o ≠ τ c) := by
    rw [List.perm_ext_iff_of_nodup (((List.nodup_finRange n).filter _).map τ.injective)
      ((List.nodup_finRange n).filter _)]
    intro i
    obtain ⟨j, rfl⟩ := τ.surjective i
    rw [List.mem_map_of_injective τ.injective]
    simp
  rw [sortDesc_congr (hperm.symm.map _), List.map_map]
  apply sortDesc_mono
  rw [List.forall₂_map_left_iff, List.forall₂_map_right_iff]
  apply List.forall₂_same.2
  intro o _
  exact pairAbs_mono τ s t hst c o g

theorem groupValues_invert (s : Bitmap n) (c : Fin n) (g : Fin 4) :
    s.invert.groupValues c g = s.groupValues c (3 - g) := by
  unfold Bitmap.groupValues
  congr 1
  apply List.map_congr_left
  intro o ho
  exact pairAbs_invert s c o (by simpa using (List.mem_filter.1 ho).2) g

/-- The entry at position `4 * (idx * n + j) + g` of the abstraction. -/
def absEntry (s : Bitmap n) (idx j : ℕ) (g : Fin 4) : ℕ :=
  (sortAsc ((List.finRange n).map fun c => (s.groupValues c g)[idx]?.getD 0 % 2 ^ 16))[j]?.getD 0

theorem foldl_update_of_forall (L : List (ℕ × ℕ)) (b : ℕ → ℕ) (k v : ℕ) (hex : ∃ p ∈ L, p.1 = k)
    (hall : ∀ p ∈ L, p.1 = k → p.2 = v) :
    L.foldl (fun b p => Function.update b p.1 p.2) b k = v := by
  have aux : ∀ (L : List (ℕ × ℕ)) (b : ℕ → ℕ), (∀ p ∈ L, p.1 = k → p.2 = v) →
      (b k = v ∨ ∃ p ∈ L, p.1 = k) → L.foldl (fun b p => Function.update b p.1 p.2) b k = v := by
    intro L
    induction L with
    | nil =>
      intro b _ h
      rcases h with h | ⟨p, hp, _⟩
      · exact h
      · simp at hp
    | cons p L ih =>
      intro b hall h
      rw [List.foldl_cons]
      apply ih _ (fun q hq => hall q (List.mem_cons_of_mem _ hq))
      by_cases hk : p.1 = k
      · left; rw [← hk, Function.update_self]; exact hall p (by simp) hk
      · rcases h with h | ⟨q, hq, hqk⟩
        · left; rw [Function.update_of_ne (fun h => hk h.symm)]; exact h
        · rcases List.mem_cons.1 hq with rfl | hq
          · exact absurd hqk hk
          · right; exact ⟨q, hq, hqk⟩
  exact aux L b hall (Or.inr hex)

theorem writeGroups_eq (s : Bitmap n) (c : Fin n) (g : Fin 4) (idx : ℕ) (hidx : idx < n - 1) :
    writeGroups s (c.val + n * (g.val + 4 * idx)) = (s.groupValues c g)[idx]?.getD 0 % 2 ^ 16 := by
  have hflat : writeGroups s =
      ((List.finRange n).flatMap fun c => (List.finRange 4).flatMap fun (g : Fin 4) =>
        ((s.groupValues c g).zipIdx).map fun (p : ℕ × ℕ) =>
          (c.val + n * (g.val + 4 * p.2), p.1 % 2 ^ 16)).foldl
        (fun b p => Function.update b p.1 p.2) fun _ => 0 := by
    unfold writeGroups
    rw [List.foldl_flatMap]
    congr 1
    funext b c
    unfold writeChannel
    rw [List.foldl_flatMap]
    congr 1
    funext b g
    rw [List.foldl_map]
    rfl
  rw [hflat]
  have hlen := groupValues_length s
  apply foldl_update_of_forall
  · refine ⟨(c.val + n * (g.val + 4 * idx), (s.groupValues c g)[idx]'(by rw [hlen]; exact hidx) % 2 ^ 16), ?_, rfl⟩
    · simp only [List.mem_flatMap, List.mem_map, List.mem_finRange, true_and, Prod.mk.injEq]
      exact ⟨c, g, ((s.groupValues c g)[idx]'(by rw [hlen]; exact hidx), idx),
        by rw [List.mem_zipIdx_iff_getElem?]; simp, rfl, rfl⟩
  · intro p hp hpk
    simp only [List.mem_flatMap, List.mem_map, List.mem_finRange, true_and] at hp
    obtain ⟨c', g', q, hq, rfl⟩ := hp
    rw [List.mem_zipIdx_iff_getElem?] at hq
    dsimp only at hpk ⊢
    have hn : 0 < n := c.pos
    have hc : c' = c := by
      have := congrArg (· % n) hpk
      simp only [Nat.add_mul_mod_self_left, Nat.mod_eq_of_lt c.isLt, Nat.mod_eq_of_lt c'.isLt] at this
      exact Fin.ext this
    subst hc
    have h2 : g'.val + 4 * q.2 = g.val + 4 * idx := by
      have : n * (g'.val + 4 * q.2) = n * (g.val + 4 * idx) := by omega
      exact Nat.eq_of_mul_eq_mul_left hn this
    have hg := g.isLt
    have hg' := g'.isLt
    have hgg : g' = g := Fin.ext (by omega)
    subst hgg
    have hii : q.2 = idx := by omega
    subst hii
    rw [hq]
    rfl

theorem abs_eq (s : Bitmap n) (hn : 0 < n) (k : ℕ) (hk : k < n * (n - 1) * 4) :
    transposeChunks n (sortChunks n (writeGroups s)) k =
      absEntry s (k / (4 * n)) (k % (4 * n) / 4) ⟨k % 4, Nat.mod_lt _ (by norm_num)⟩ := by
  have h4n : 0 < 4 * n := by omega
  have hidx : k / (4 * n) < n - 1 := by
    rw [Nat.div_lt_iff_lt_mul h4n]
    calc k < n * (n - 1) * 4 := hk
      _ = (n - 1) * (4 * n) := by ring
  have hj : k % (4 * n) / 4 < n := by
    rw [Nat.div_lt_iff_lt_mul (by norm_num)]
    have := Nat.mod_lt k h4n
    omega
  have hg : k % (4 * n) % 4 = k % 4 := Nat.mod_mod_of_dvd k (Dvd.intro _ rfl)
  unfold transposeChunks sortChunks
  dsimp only
  rw [hg]
  set idx := k / (4 * n)
  set j := k % (4 * n) / 4
  have hi : idx * (4 * n) + (j + k % 4 * n) = j + n * (k % 4 + 4 * idx) := by ring
  rw [hi, Nat.add_mul_div_left _ _ hn, Nat.div_eq_of_lt hj, Nat.zero_add, Nat.add_mul_mod_self_left,
    Nat.mod_eq_of_lt hj]
  unfold absEntry
  congr 2
  rw [← List.map_coe_finRange_eq_range, List.map_map]
  congr 1
  apply List.map_congr_left
  intro c _
  have := writeGroups_eq s c ⟨k % 4, Nat.mod_lt _ (by norm_num)⟩ idx hidx
  simp only [Function.comp_apply]
  rw [← this]
  congr 1
  show _ = c.val + n * (k % 4 + 4 * idx)
  ring

theorem absEntry_mono (τ : Equiv.Perm (Fin n)) (s t : Bitmap n) (hst : permSet τ s.toSet ⊆ t.toSet)
    (hn : n ≤ maxChannels) (idx j : ℕ) (g : Fin 4) : absEntry s idx j g ≤ absEntry t idx j g := by
  unfold absEntry
  have hpow : 2 ^ n < 2 ^ 16 := Nat.pow_lt_pow_right (by norm_num) (by unfold maxChannels at hn; omega)
  have hperm : ((List.finRange n).map τ).Perm (List.finRange n) := by
    rw [List.perm_ext_iff_of_nodup ((List.nodup_finRange n).map τ.injective) (List.nodup_finRange n)]
    intro i
    obtain ⟨j, rfl⟩ := τ.surjective i
    rw [List.mem_map_of_injective τ.injective]
    simp
  rw [sortAsc_congr (hperm.symm.map _), List.map_map]
  apply sortAsc_mono
  rw [List.forall₂_map_left_iff, List.forall₂_map_right_iff]
  apply List.forall₂_same.2
  intro c _
  have h1 := groupValues_le s (τ c) g idx
  have h2 := groupValues_le t c g idx
  simp only [Function.comp_apply]
  rw [Nat.mod_eq_of_lt (by omega), Nat.mod_eq_of_lt (by omega)]
  exact groupValues_mono τ s t hst c g idx

theorem absEntry_invert (s : Bitmap n) (idx j : ℕ) (g : Fin 4) :
    absEntry s.invert idx j g = absEntry s idx j (3 - g) := by
  unfold absEntry
  simp only [groupValues_invert]

theorem absEntry_le (s : Bitmap n) (idx j : ℕ) (g : Fin 4) : absEntry s idx j g ≤ 2 ^ n := by
  unfold absEntry
  set l := (List.finRange n).map fun c => (s.groupValues c g)[idx]?.getD 0 % 2 ^ 16
  by_cases hj : j < (sortAsc l).length
  · rw [List.getElem?_eq_getElem hj, Option.getD_some]
    have := List.getElem_mem hj
    rw [(sortAsc_perm _).mem_iff, List.mem_map] at this
    obtain ⟨c, _, he⟩ := this
    rw [← he]
    exact (Nat.mod_le _ _).trans (groupValues_le s c g idx)
  · rw [List.getElem?_eq_none (by omega)]; simp

theorem abstraction_eq_some (s : Bitmap n) (h0 : 0 < n) (hn : n ≤ maxChannels) :
    ∃ a, s.abstraction = some a ∧ a.length = n * (n - 1) * 4 ∧
      ∀ k, a[k]?.getD 0 = if k < n * (n - 1) * 4 then
        absEntry s (k / (4 * n)) (k % (4 * n) / 4) ⟨k % 4, Nat.mod_lt _ (by norm_num)⟩ else 0 := by
  refine ⟨_, by rw [Bitmap.abstraction, abstractionLen, if_neg (by omega)]; simp only [Option.bind_eq_bind, Option.bind_some, hn, if_true, pairAbstractionGroups]; rfl, by simp, ?_⟩
  intro k
  split_ifs with hk
  · rw [List.getElem?_map, List.getElem?_range hk, Option.map_some, Option.getD_some, abs_eq s h0 k hk]
  · rw [List.getElem?_eq_none (by simpa using hk)]
    rfl

/-- Index arithmetic of `i ^ 3`. -/
theorem xor_three (k : ℕ) : k ^^^ 3 = 4 * (k / 4) + (3 - k % 4) := by
  have h1 : (k ^^^ 3) / 4 = k / 4 := by
    have := Nat.xor_div_two_pow (a := k) (b := 3) (n := 2)
    simpa using this
  have h2 : (k ^^^ 3) % 4 = 3 - k % 4 := by
    have := Nat.xor_mod_two_pow (a := k) (b := 3) (n := 2)
    rw [show (2 : ℕ) ^ 2 = 4 from rfl] at this
    rw [this]
    have h3 : k % 4 < 4 := Nat.mod_lt _ (by norm_num)
    generalize k % 4 = m at h3 ⊢
    have : m = 0 ∨ m = 1 ∨ m = 2 ∨ m = 3 := by omega
    rcases this with rfl | rfl | rfl | rfl <;> rfl
  omega

theorem abs_index_xor (n k : ℕ) : (k ^^^ 3) / (4 * n) = k / (4 * n) ∧
    (k ^^^ 3) % (4 * n) / 4 = k % (4 * n) / 4 ∧ (k ^^^ 3) % 4 = 3 - k % 4 := by
  rw [xor_three]
  have h3 : k % 4 < 4 := Nat.mod_lt _ (by norm_num)
  have e : 4 * (k / 4) + (3 - k % 4) = (3 - k % 4) + 4 * (k / 4) := by omega
  rw [e]
  refine ⟨?_, ?_, ?_⟩
  · rw [← Nat.div_div_eq_div_mul, ← Nat.div_div_eq_div_mul, Nat.add_mul_div_left _ _ (by norm_num)]
    congr 1
    omega
  · have h5 : ∀ x, x % (4 * n) / 4 = x / 4 % n := by
      intro x
      rw [Nat.mod_mul_right_div_self]
    rw [h5, h5]
    congr 1
    omega
  · omega

end Sortnet
