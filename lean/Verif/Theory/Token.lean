import Verif.Theory.Basic
import Verif.Theory.Huffman
import Mathlib.Algebra.Order.BigOperators.Group.Finset

/-! # Tracking a single token through a network

A vector with a single true channel is routed by a network along a path.  The number of comparators
on the path bounds the network size (together with what is needed for the remaining channels), and
the depths of all paths ending in the same channel satisfy Kraft's inequality.
-/

namespace Sortnet

set_option linter.unusedSimpArgs false
set_option linter.unusedSectionVars false

variable {ι κ : Type*} [DecidableEq ι] [DecidableEq κ]

/-- Where a token on channel `c` ends up. -/
def tokPos : List (ι × ι) → ι → ι
  | [], c => c
  | (i, j) :: cn, c => tokPos cn (if c = i then j else c)

/-- How many (proper) comparators a token starting on channel `c` passes. -/
def tokDepth : List (ι × ι) → ι → ℕ
  | [], _ => 0
  | (i, j) :: cn, c =>
    (if i ≠ j ∧ (c = i ∨ c = j) then 1 else 0) + tokDepth cn (if c = i then j else c)

/-- The vector with a single true channel. -/
def oneHot (c : ι) : ι → Bool := fun k => decide (k = c)

theorem applyCmp_oneHot (i j c : ι) : applyCmp (i, j) (oneHot c) = oneHot (if c = i then j else c) := by
  funext k
  by_cases hi : c = i
  · subst hi
    by_cases h2 : k = j
    · subst h2; simp [applyCmp, oneHot]
    · by_cases h1 : k = c
      · subst h1
        have : j ≠ k := fun h => h2 h.symm
        simp [applyCmp, oneHot, h2, this]
      · simp [applyCmp, oneHot, h1, h2]
  · have hi' : i ≠ c := fun h => hi h.symm
    by_cases h2 : k = j
    · subst h2; simp [applyCmp, oneHot, hi, hi']
    · by_cases h1 : k = i
      · subst h1
        simp [applyCmp, oneHot, h2, hi, hi']
      · simp [applyCmp, oneHot, h1, h2, hi]

theorem run_oneHot (cn : List (ι × ι)) (c : ι) : run cn (oneHot c) = oneHot (tokPos cn c) := by
  induction cn generalizing c with
  | nil => rfl
  | cons d cn ih =>
    obtain ⟨i, j⟩ := d
    rw [run_cons, applyCmp_oneHot, ih, tokPos]

theorem oneHot_le_iff {a b : ι} : oneHot a ≤ oneHot b ↔ a = b := by
  constructor
  · intro h
    have := h a
    simp only [oneHot, decide_true] at this
    by_contra hab
    simp only [hab, decide_false] at this
    exact absurd this (show ¬ ((true : Bool) ≤ false) by decide)
  · rintro rfl; exact le_rfl

/-- Kraft's inequality for the paths ending in a common channel, in the form used for the Huffman
bound. -/
theorem kraft (cn : List (ι × ι)) (m : ι) (K : ℕ) (S : Finset ι) (b : ι → ℕ)
    (hpos : ∀ c ∈ S, tokPos cn c = m) (hd : ∀ c ∈ S, tokDepth cn c + b c ≤ K) :
    ∑ c ∈ S, 2 ^ b c ≤ 2 ^ K := by
  induction cn generalizing S b with
  | nil =>
    have hS : S ⊆ {m} := by
      intro c hc
      simpa [tokPos] using hpos c hc
    calc ∑ c ∈ S, 2 ^ b c ≤ ∑ c ∈ S, 2 ^ K := by
          apply Finset.sum_le_sum
          intro c hc
          have := hd c hc
          exact Nat.pow_le_pow_right (by norm_num) (by omega)
      _ = S.card * 2 ^ K := by simp
      _ ≤ 1 * 2 ^ K := by
          apply Nat.mul_le_mul_right
          simpa using Finset.card_le_card hS
      _ = 2 ^ K := by simp
  | cons d cn ih =>
    obtain ⟨i, j⟩ := d
    simp only [tokPos, tokDepth] at hpos hd
    by_cases hij : i = j
    · subst hij
      refine ih S b ?_ ?_
      · intro c hc
        have := hpos c hc
        by_cases h : c = i
        · subst h; simpa using this
        · simpa [h] using this
      · intro c hc
        have := hd c hc
        by_cases h : c = i
        · subst h; simpa using this
        · simpa [h] using this
    · have hji : j ≠ i := fun h => hij h.symm
      by_cases hi : i ∈ S
      · by_cases hj : j ∈ S
        · -- both channels carry tokens
          have hsub := ih (S.erase i) (fun c => if c = j then max (b i) (b j) + 1 else b c) ?_ ?_
          · refine le_trans ?_ hsub
            rw [← Finset.add_sum_erase S _ hi]
            have hj' : j ∈ S.erase i := by simp [hji, hj]
            rw [← Finset.add_sum_erase (S.erase i) _ hj', ← Finset.add_sum_erase (S.erase i) _ hj',
              ← add_assoc]
            apply add_le_add
            · simp only [if_true, pow_succ]
              have h1 : 2 ^ b i ≤ 2 ^ max (b i) (b j) := Nat.pow_le_pow_right (by norm_num) (le_max_left _ _)
              have h2 : 2 ^ b j ≤ 2 ^ max (b i) (b j) := Nat.pow_le_pow_right (by norm_num) (le_max_right _ _)
              omega
            · apply le_of_eq
              apply Finset.sum_congr rfl
              intro c hc
              have : c ≠ j := (Finset.mem_erase.1 hc).1
              simp [this]
          · intro c hc
            obtain ⟨h1, h2⟩ := Finset.mem_erase.1 hc
            have := hpos c h2
            simpa [h1] using this
          · intro c hc
            obtain ⟨h1, h2⟩ := Finset.mem_erase.1 hc
            have hc' := hd c h2
            by_cases hcj : c = j
            · subst hcj
              have hi' := hd i hi
              simp [hij, hji] at hc' hi'
              simp only [if_true]
              rcases max_cases (b i) (b c) with ⟨h, _⟩ | ⟨h, _⟩ <;> rw [h] <;> omega
            · simpa [h1, hcj] using hc'
        · -- only `i` carries a token, it moves to `j`
          have hsub := ih (insert j (S.erase i)) (fun c => if c = j then b i else b c) ?_ ?_
          · refine le_trans ?_ hsub
            rw [← Finset.add_sum_erase S _ hi, Finset.sum_insert (by simp [hj])]
            simp only [if_true]
            apply add_le_add le_rfl
            apply le_of_eq
            apply Finset.sum_congr rfl
            intro c hc
            have : c ≠ j := by
              rintro rfl
              exact hj (Finset.mem_erase.1 hc).2
            simp [this]
          · intro c hc
            rcases Finset.mem_insert.1 hc with rfl | hc
            · simpa using hpos i hi
            · obtain ⟨h1, h2⟩ := Finset.mem_erase.1 hc
              simpa [h1] using hpos c h2
          · intro c hc
            rcases Finset.mem_insert.1 hc with rfl | hc
            · have := hd i hi
              simp [hij] at this ⊢
              omega
            · obtain ⟨h1, h2⟩ := Finset.mem_erase.1 hc
              have hcj : c ≠ j := by
                rintro rfl
                exact hj h2
              simpa [h1, hcj] using hd c h2
      · refine ih S b ?_ ?_
        · intro c hc
          have h1 : c ≠ i := by rintro rfl; exact hi hc
          simpa [h1] using hpos c hc
        · intro c hc
          have h1 : c ≠ i := by rintro rfl; exact hi hc
          have := hd c hc
          simp only [h1, if_false] at this
          omega

/-- Removing the path of a token: on inputs where the token's channel is true, the network acts
like a smaller network avoiding the channel, up to relabelling the outputs. -/
theorem token_removal (cn : List (ι × ι)) (c : ι) :
    ∃ (cn' : List (ι × ι)) (π : Equiv.Perm ι), (∀ d ∈ cn', d.1 ≠ c ∧ d.2 ≠ c) ∧
      cn'.length + tokDepth cn c ≤ cn.length ∧
      ∀ x : ι → Bool, x c = true → run cn x = run cn' x ∘ π := by
  induction cn generalizing c with
  | nil => exact ⟨[], Equiv.refl _, by simp, by simp [tokDepth], by simp⟩
  | cons d cn ih =>
    obtain ⟨i, j⟩ := d
    by_cases hi : c = i
    · subst hi
      obtain ⟨cn', π, h1, h2, h3⟩ := ih j
      by_cases hj : c = j
      · subst hj
        refine ⟨cn', π, h1, by simp [tokDepth]; omega, ?_⟩
        intro x hx
        rw [run_cons, applyCmp_id (by simp [hx]), h3 x hx]
      · refine ⟨relabel (Equiv.swap c j) cn', π.trans (Equiv.swap c j), ?_, ?_, ?_⟩
        · intro d hd
          simp only [relabel, List.mem_map] at hd
          obtain ⟨d', hd', rfl⟩ := hd
          obtain ⟨h4, h5⟩ := h1 d' hd'
          constructor
          · intro h
            apply h4
            have := congrArg (Equiv.swap c j) h
            simpa using this
          · intro h
            apply h5
            have := congrArg (Equiv.swap c j) h
            simpa using this
        · simp [tokDepth, hj]; omega
        · intro x hx
          rw [run_cons, applyCmp_swap (by simp [hx]), h3 _ (by simp [hx])]
          have := run_comp_equiv (Equiv.swap c j) (relabel (Equiv.swap c j) cn') x
          rw [Equiv.symm_swap] at this
          have e : relabel (Equiv.swap c j) (relabel (Equiv.swap c j) cn') = cn' := by
            simp [relabel, List.map_map, Function.comp_def]
          rw [e] at this
          rw [← this]
          rfl
    · obtain ⟨cn', π, h1, h2, h3⟩ := ih c
      by_cases hj : c = j
      · subst hj
        have hic : i ≠ c := fun h => hi h.symm
        refine ⟨cn', π, h1, by simp [tokDepth, hi, hic]; omega, ?_⟩
        intro x hx
        rw [run_cons, applyCmp_id (by simp [hx]), h3 x hx]
      · refine ⟨(i, j) :: cn', π, ?_, by simp [tokDepth, hi, hj]; omega, ?_⟩
        · intro d hd
          rcases List.mem_cons.1 hd with rfl | hd
          · exact ⟨fun h => hi h.symm, fun h => hj h.symm⟩
          · exact h1 d hd
        · intro x hx
          rw [run_cons, run_cons, h3]
          simp [applyCmp, hi, hj, hx]

/-- A network that avoids a channel restricts to the other channels. -/
theorem restrict_net (c : ι) (cn : List (ι × ι)) (h : ∀ d ∈ cn, d.1 ≠ c ∧ d.2 ≠ c) :
    ∃ cn' : List ({k // k ≠ c} × {k // k ≠ c}), cn'.length = cn.length ∧
      ∀ x : ι → Bool, run cn x ∘ Subtype.val = run cn' (x ∘ Subtype.val) := by
  induction cn with
  | nil => exact ⟨[], rfl, fun x => rfl⟩
  | cons d cn ih =>
    obtain ⟨cn', h1, h2⟩ := ih fun d hd => h d (by simp [hd])
    obtain ⟨h3, h4⟩ := h d (by simp)
    refine ⟨(⟨d.1, h3⟩, ⟨d.2, h4⟩) :: cn', by simp [h1], fun x => ?_⟩
    rw [run_cons, run_cons, h2]
    congr 1
    funext k
    simp only [applyCmp, Function.comp, Subtype.ext_iff]

theorem run_avoid (c : ι) (cn : List (ι × ι)) (h : ∀ d ∈ cn, d.1 ≠ c ∧ d.2 ≠ c) (x : ι → Bool) :
    run cn x c = x c := by
  induction cn generalizing x with
  | nil => rfl
  | cons d cn ih =>
    obtain ⟨h3, h4⟩ := h d (by simp)
    rw [run_cons, ih fun d hd => h d (by simp [hd])]
    simp [applyCmp, h3.symm, h4.symm]

/-- The vectors of `A` that are `v` on channel `c`, with the channel removed. -/
def pruneSet (v : Bool) (c : ι) (A : Set (ι → Bool)) : Set ({k // k ≠ c} → Bool) :=
  {y | ∃ x ∈ A, x c = v ∧ y = x ∘ Subtype.val}

/-- A sorting network is at least as large as the depth of a token plus what the remaining channels
need. -/
theorem token_bound {A : Set (ι → Bool)} {c : ι} {b : ℕ} (hb : LB (pruneSet true c A) b)
    {cn : List (ι × ι)} (hs : Sorts cn A) : tokDepth cn c + b ≤ cn.length := by
  obtain ⟨cn', π, h1, h2, h3⟩ := token_removal cn c
  obtain ⟨cn'', h4, h5⟩ := restrict_net c cn' h1
  have : Sorts cn'' (pruneSet true c A) := by
    rw [Sorts_iff] at hs ⊢
    rintro _ ⟨x, hx, hxc, rfl⟩ _ ⟨y, hy, hyc, rfl⟩
    have := hs x hx y hy
    rw [h3 x hxc, h3 y hyc, comp_le_comp_iff, comp_le_comp_iff] at this
    rw [← h5, ← h5]
    rcases this with h | h
    · left; intro k; exact h k
    · right; intro k; exact h k
  have := hb _ this
  omega

/-- The Huffman bound, for true tokens. -/
theorem LB_huffman_true {A : Set (ι → Bool)} (S : Finset ι) (b : ι → ℕ)
    (hS : ∀ c ∈ S, oneHot c ∈ A) (hb : ∀ c ∈ S, LB (pruneSet true c A) (b c)) {v : ℕ}
    (hne : S.Nonempty) (hv : ∀ K, ∑ c ∈ S, 2 ^ b c ≤ 2 ^ K → v ≤ K) : LB A v := by
  intro cn hs
  apply hv
  obtain ⟨c0, hc0⟩ := hne
  refine kraft cn (tokPos cn c0) _ S b ?_ fun c hc => token_bound (hb c hc) hs
  intro c hc
  have := (Sorts_iff.1 hs) _ (hS c hc) _ (hS c0 hc0)
  rw [run_oneHot, run_oneHot, oneHot_le_iff, oneHot_le_iff] at this
  rcases this with h | h
  · exact h
  · exact h.symm

theorem pruneSet_complSet (v : Bool) (c : ι) (A : Set (ι → Bool)) :
    pruneSet v c (complSet A) = complSet (pruneSet (!v) c A) := by
  ext y
  rw [mem_complSet]
  constructor
  · rintro ⟨x, hx, hxc, rfl⟩
    refine ⟨vnot x, mem_complSet.1 hx, by simp [hxc], rfl⟩
  · rintro ⟨x, hx, hxc, h⟩
    refine ⟨vnot x, by simpa [mem_complSet], by simp [hxc], ?_⟩
    have := congrArg vnot h
    rw [vnot_vnot] at this
    rw [this]; rfl

/-- The Huffman bound, for tokens of either value. -/
theorem LB_huffman {A : Set (ι → Bool)} (v : Bool) (S : Finset ι) (b : ι → ℕ)
    (hS : ∀ c ∈ S, (fun k => if k = c then v else !v) ∈ A)
    (hb : ∀ c ∈ S, LB (pruneSet v c A) (b c)) {w : ℕ}
    (hne : S.Nonempty) (hw : ∀ K, ∑ c ∈ S, 2 ^ b c ≤ 2 ^ K → w ≤ K) : LB A w := by
  cases v with
  | true =>
    refine LB_huffman_true S b ?_ hb hne hw
    intro c hc
    convert hS c hc using 1
    funext k
    by_cases h : k = c <;> simp [oneHot, h]
  | false =>
    rw [← LB_complSet]
    refine LB_huffman_true S b ?_ ?_ hne hw
    · intro c hc
      rw [mem_complSet]
      convert hS c hc using 1
      funext k
      by_cases h : k = c <;> simp [oneHot, h]
    · intro c hc
      rw [pruneSet_complSet, LB_complSet]
      exact hb c hc

end Sortnet
