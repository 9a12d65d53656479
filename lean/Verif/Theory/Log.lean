import Verif.Spec.Log
import Verif.Proof.Chained

/-!
# A log that justifies itself is correct
-/

namespace Sortnet

theorem LB_permInvEquiv {n : ℕ} {X Y : Set (Fin n → Bool)} (h : PermInvEquiv X Y) {k : ℕ} (hX : LB X k) : LB Y k := by
  rcases h with ⟨π, rfl⟩ | ⟨π, rfl⟩
  · exact (LB_permSet π).2 hX
  · exact (LB_permSet π).2 (LB_complSet.2 hX)

/-- The bounds known from a log are correct if its entries are. -/
theorem Log.Known.lb {L : Log} {n : ℕ} {X : Set (Fin n → Bool)} {b k : ℕ} (h : L.Known X b) (hk : k ≤ b)
    (hL : ∀ Y b', L n Y b' → k ≤ b' → LB Y k) : LB X k := by
  rcases h with rfl | ⟨rfl, hX⟩ | ⟨Y, b', hY, hb, he⟩
  · obtain rfl : k = 0 := by omega
    exact LB_zero _
  · exact (LB_one hX).le hk
  · exact LB_permInvEquiv he (hL Y b' hY (hk.trans hb))

theorem Log.Huffman.lb {L : Log} {n : ℕ} {X : Set (Fin (n + 1) → Bool)} {b : ℕ} (h : L.Huffman X b)
    (hL : ∀ Y b', L n Y b' → LB Y b') : LB X b := by
  obtain ⟨p, cs, bs, v, hnd, hcs, hf, hm, hb⟩ := h
  have hne : bs ≠ [] := by
    rintro rfl
    obtain ⟨⟨t, ht, _⟩, _⟩ := hm
    exact MergeTree.leaves_ne_nil t ht.eq_nil
  have hne' : cs ≠ [] := by
    rintro rfl
    cases hf
    exact hne rfl
  rw [isOptMerge_iff hne] at hm
  refine LB.le hb (LB_huffman_list (!p) cs bs hnd hne' ?_ ?_ hm)
  · intro c hc
    rw [← extremalVec_eq]
    exact (hcs c).1 hc
  · refine hf.imp fun c x hx => LB_pruneSet_of_prunedSet (hx.lb (Nat.le_refl _) fun Y b' hY hb' => (hL Y b' hY).le hb')

theorem Log.Successor.lb {L : Log} {n : ℕ} {X : Set (Fin n → Bool)} {b k : ℕ} (h : L.Successor X b) (hk : k + 1 ≤ b)
    (hL : ∀ Y b', L n Y b' → k ≤ b' → LB Y k) : LB X (k + 1) := by
  obtain ⟨hX, h⟩ := h
  refine LB_successor hX fun c hc => ?_
  obtain ⟨i, j⟩ := c
  simp only [Redundant, not_or, not_forall, not_not] at hc
  obtain ⟨⟨x, hx, h1, h2⟩, y, hy, h3, h4⟩ := hc
  rcases lt_trichotomy i j with hij | rfl | hij
  · exact Or.inl ((h i j hij ⟨x, hx, h1, h2⟩ ⟨y, hy, h3, h4⟩).lb (by omega) hL)
  · rw [h1] at h2; simp at h2
  · exact Or.inr ((h j i hij ⟨y, hy, h4, h3⟩ ⟨x, hx, h2, h1⟩).lb (by omega) hL)

/-- All bounds of a log that justifies itself are correct. -/
theorem Log.SelfJustified.lb {L : Log} (h : L.SelfJustified) {n : ℕ} {X : Set (Fin n → Bool)} {b : ℕ}
    (hX : L n X b) : LB X b := by
  have key : ∀ n, ∀ k, ∀ (X : Set (Fin n → Bool)) b, L n X b → k ≤ b → LB X k := by
    intro n
    induction n with
    | zero =>
      intro k
      induction k with
      | zero => exact fun X _ _ _ => LB_zero X
      | succ k ih =>
        intro X b hX hk
        rcases h 0 X b hX with rfl | ⟨rfl, hX'⟩ | h' | h'
        · omega
        · exact (LB_one hX').le hk
        · exact h'.elim
        · exact h'.lb hk ih
    | succ n ihn =>
      intro k
      induction k with
      | zero => exact fun X _ _ _ => LB_zero X
      | succ k ih =>
        intro X b hX hk
        rcases h _ X b hX with rfl | ⟨rfl, hX'⟩ | h' | h'
        · omega
        · exact (LB_one hX').le hk
        · exact (h'.lb fun Y b' hY => ihn b' Y b' hY (Nat.le_refl _)).le hk
        · exact h'.lb hk ih
  exact key n b X b hX (Nat.le_refl _)

end Sortnet
