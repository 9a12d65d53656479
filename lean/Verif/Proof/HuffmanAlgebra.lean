import Verif.Proof.Thy

/-!
# Huffman's algorithm in an arbitrary Huffman algebra
-/

namespace Sortnet.Thy

variable {α : Type*} [LinearOrder α] {comb : α → α → α}

theorem msetExpr_op (l r : Expr α) : msetExpr (.op l r) = msetExpr l + msetExpr r := rfl

theorem msetExpr_card (e : Expr α) : 1 ≤ Multiset.card (msetExpr e) := by
  induction e with
  | val a => exact le_rfl
  | op l r h1 h2 => rw [msetExpr_op, Multiset.card_add]; omega

theorem HuffmanAlgebra.mono' (h : HuffmanAlgebra comb) {a b c d : α} (h1 : a ≤ b) (h2 : c ≤ d) : comb a c ≤ comb b d :=
  (h.mono a b c h1).trans (by rw [h.commutative b c, h.commutative b d]; exact h.mono c d b h2)

theorem HuffmanAlgebra.le_value (h : HuffmanAlgebra comb) {c : α} {e : Expr α} (hc : ∀ x ∈ msetExpr e, c ≤ x) :
    c ≤ valueExpr comb e := by
  induction e with
  | val a => exact hc a (by simp [msetExpr, listExpr])
  | op l r h1 h2 =>
    refine (h1 fun x hx => hc x ?_).trans (h.increasing _ _)
    rw [msetExpr_op, Multiset.mem_add]
    exact Or.inl hx

/-- A value of an expression is the whole expression or in the left half, if halves are swapped. -/
theorem HuffmanAlgebra.split (h : HuffmanAlgebra comb) {a : α} {e : Expr α} (ha : a ∈ msetExpr e) :
    e = .val a ∨ ∃ l r, a ∈ msetExpr l ∧ msetExpr e = msetExpr l + msetExpr r ∧
      valueExpr comb e = comb (valueExpr comb l) (valueExpr comb r) := by
  cases e with
  | val b =>
    left
    have : a = b := by simpa [msetExpr, listExpr] using ha
    rw [this]
  | op l r =>
    right
    rw [msetExpr_op, Multiset.mem_add] at ha
    rcases ha with ha | ha
    · exact ⟨l, r, ha, rfl, rfl⟩
    · exact ⟨r, l, ha, by rw [msetExpr_op, add_comm], h.commutative _ _⟩

/-- Some best expression has its two smallest values side by side. -/
theorem HuffmanAlgebra.exists_merge (h : HuffmanAlgebra comb) {a b : α} (hab : a ≤ b) (n : ℕ) :
    ∀ (M : Multiset α) (e : Expr α), Multiset.card (msetExpr e) = n → msetExpr e = a ::ₘ b ::ₘ M → (∀ x ∈ M, b ≤ x) →
      ∃ f, msetExpr f = comb a b ::ₘ M ∧ valueExpr comb f ≤ valueExpr comb e := by
  induction n using Nat.strong_induction_on with
  | _ n ih =>
    intro M e hn he hM
    -- it is enough to bring both values into one half
    have key : ∀ l r N, msetExpr l = a ::ₘ b ::ₘ N → msetExpr e = msetExpr l + msetExpr r →
        comb (valueExpr comb l) (valueExpr comb r) ≤ valueExpr comb e →
        ∃ f, msetExpr f = comb a b ::ₘ M ∧ valueExpr comb f ≤ valueExpr comb e := by
      intro l r N hl hlr hv
      have hM' : M = N + msetExpr r := by
        rw [he, hl, Multiset.cons_add, Multiset.cons_add, Multiset.cons_inj_right, Multiset.cons_inj_right] at hlr
        exact hlr
      have hc := congrArg Multiset.card hlr
      rw [Multiset.card_add] at hc
      have := msetExpr_card r
      obtain ⟨f, hf, hfv⟩ := ih (Multiset.card (msetExpr l)) (by omega) N l rfl hl
        (fun x hx => hM x (by rw [hM', Multiset.mem_add]; exact Or.inl hx))
      refine ⟨.op f r, by rw [msetExpr_op, hf, hM', Multiset.cons_add], ?_⟩
      exact (h.mono _ _ _ hfv).trans hv
    rcases h.split (a := a) (e := e) (by rw [he]; simp) with rfl | ⟨l, r, hal, hlr, hv⟩
    · have := congrArg Multiset.card he
      simp [msetExpr, listExpr] at this
    obtain ⟨L, hL⟩ := Multiset.exists_cons_of_mem hal
    have h1 : b ::ₘ M = L + msetExpr r := by
      rw [he, hL, Multiset.cons_add, Multiset.cons_inj_right] at hlr
      exact hlr
    have hb : b ∈ L + msetExpr r := by rw [← h1]; simp
    rcases Multiset.mem_add.1 hb with hb | hb
    · obtain ⟨N, rfl⟩ := Multiset.exists_cons_of_mem hb
      exact key l r N hL hlr hv.ge
    obtain ⟨R, hR⟩ := Multiset.exists_cons_of_mem hb
    have h2 : M = L + R := by
      rw [hR, Multiset.add_cons, Multiset.cons_inj_right] at h1
      exact h1
    have bL : ∀ x ∈ L, b ≤ x := fun x hx => hM x (by rw [h2, Multiset.mem_add]; exact Or.inl hx)
    have bR : ∀ x ∈ R, b ≤ x := fun x hx => hM x (by rw [h2, Multiset.mem_add]; exact Or.inr hx)
    have two : ∀ {x y : Expr α}, a ∈ msetExpr x → b ∈ msetExpr y → ∃ N, msetExpr (.op x y) = a ::ₘ b ::ₘ N := by
      intro x y hx hy
      obtain ⟨X, hX⟩ := Multiset.exists_cons_of_mem hx
      obtain ⟨Y, hY⟩ := Multiset.exists_cons_of_mem hy
      exact ⟨X + Y, by rw [msetExpr_op, hX, hY, Multiset.cons_add, Multiset.add_cons]⟩
    -- what remains of a half without its smallest value is not smaller
    have rest : ∀ {c : α} {x y : Expr α} {X : Multiset α}, msetExpr x + msetExpr y = c ::ₘ X → c ∈ msetExpr x →
        (∀ z ∈ X, b ≤ z) → b ≤ valueExpr comb y := by
      intro c x y X hxy hx hX
      obtain ⟨X', hX'⟩ := Multiset.exists_cons_of_mem hx
      rw [hX', Multiset.cons_add, Multiset.cons_inj_right] at hxy
      exact h.le_value fun z hz => hX z (by rw [← hxy, Multiset.mem_add]; exact Or.inr hz)
    rcases h.split hal with rfl | ⟨l1, l2, hl1, hl, hlv⟩ <;> rcases h.split hb with rfl | ⟨r1, r2, hr1, hr, hrv⟩
    · refine ⟨.val (comb a b), ?_, hv.ge⟩
      have e1 : L = 0 := by simpa [msetExpr, listExpr] using congrArg Multiset.card hL.symm
      have e2 : R = 0 := by simpa [msetExpr, listExpr] using congrArg Multiset.card hR.symm
      rw [h2, e1, e2]
      rfl
    · obtain ⟨N, hN⟩ := two hal hr1
      refine key _ r2 N hN (by rw [hlr, hr, msetExpr_op, add_assoc]) ?_
      rw [hv, hrv]
      exact h.assocIneq _ _ _ (hab.trans (rest (hr.symm.trans hR) hr1 bR))
    · obtain ⟨N, hN⟩ := two hl1 hb
      refine key _ l2 N hN (by rw [hlr, hl, msetExpr_op]; ac_rfl) ?_
      have := h.assocIneq b (valueExpr comb l1) _ (rest (hl.symm.trans hL) hl1 bL)
      rw [h.commutative b, h.commutative b] at this
      rw [hv, hlv]
      exact this
    · obtain ⟨N, hN⟩ := two hl1 hr1
      refine key _ (.op l2 r2) N hN (by rw [hlr, hl, hr, msetExpr_op, msetExpr_op]; ac_rfl) ?_
      rw [hv, hlv, hrv, valueExpr, valueExpr, h.medial]

/-- An expression with a merged value can be expanded. -/
theorem expand {c a b : α} (hc : c = comb a b) (e : Expr α) : ∀ M : Multiset α, msetExpr e = c ::ₘ M →
    ∃ f, msetExpr f = a ::ₘ b ::ₘ M ∧ valueExpr comb f = valueExpr comb e := by
  induction e with
  | val x =>
    intro M he
    have h1 : x = c ∧ M = 0 := by
      have : ({x} : Multiset α) = c ::ₘ M := he
      have hM : M = 0 := by
        have := congrArg Multiset.card this
        simpa using this
      subst hM
      exact ⟨by simpa using this, rfl⟩
    obtain ⟨rfl, rfl⟩ := h1
    exact ⟨.op (.val a) (.val b), rfl, hc.symm⟩
  | op l r h1 h2 =>
    intro M he
    rw [msetExpr_op] at he
    have hm : c ∈ msetExpr l + msetExpr r := by rw [he]; simp
    rcases Multiset.mem_add.1 hm with hm | hm
    · obtain ⟨L, hL⟩ := Multiset.exists_cons_of_mem hm
      obtain ⟨f, hf, hv⟩ := h1 L hL
      rw [hL, Multiset.cons_add, Multiset.cons_inj_right] at he
      exact ⟨.op f r, by rw [msetExpr_op, hf, ← he, Multiset.cons_add, Multiset.cons_add], by rw [valueExpr, hv]; rfl⟩
    · obtain ⟨R, hR⟩ := Multiset.exists_cons_of_mem hm
      obtain ⟨f, hf, hv⟩ := h2 R hR
      rw [hR, Multiset.add_cons, Multiset.cons_inj_right] at he
      exact ⟨.op l f, by rw [msetExpr_op, hf, ← he, Multiset.add_cons, Multiset.add_cons], by rw [valueExpr, hv]; rfl⟩

theorem valueBoundHuffman_isLeast (h : HuffmanAlgebra comb) (min : α) (elem : Set α → α) (n : ℕ) :
    ∀ A : Multiset α, Multiset.card A = n → A ≠ 0 →
      IsLeast {v | ∃ e, msetExpr e = A ∧ valueExpr comb e = v} (valueBoundHuffman min elem comb A) := by
  induction n using Nat.strong_induction_on with
  | _ n ih =>
    intro A hn hA
    have hs : (↑(A.sort (· ≤ ·)) : Multiset α) = A := Multiset.sort_eq _ _
    have hp : (A.sort (· ≤ ·)).Pairwise (· ≤ ·) := Multiset.pairwise_sort _ _
    rw [valueBoundHuffman, if_neg (by rwa [Multiset.card_eq_zero])]
    generalize A.sort (· ≤ ·) = s at hs hp
    subst hs
    match s, hA, hp, hn, ih with
    | [], hA, _, _, _ => exact absurd rfl hA
    | [x], _, _, _, _ =>
      rw [if_pos (by simp), theElem_singleton]
      refine ⟨⟨.val x, rfl, rfl⟩, ?_⟩
      rintro v ⟨e, he, rfl⟩
      exact h.le_value fun z hz => by rw [he] at hz; simp at hz; exact hz.ge
    | x :: y :: r, _, hp, hn, ih =>
      rw [if_neg (by simp)]
      obtain ⟨⟨e, he, hev⟩, hmin⟩ := ih (Multiset.card (huffmanStepSortedList comb (x :: y :: r)))
        (by simp [huffmanStepSortedList] at hn ⊢; omega) _ rfl (by simp [huffmanStepSortedList])
      rw [List.pairwise_cons, List.pairwise_cons] at hp
      constructor
      · obtain ⟨f, hf, hfv⟩ := expand (c := comb x y) rfl e (↑r) he
        exact ⟨f, hf, hfv.trans hev⟩
      · rintro v ⟨f, hf, rfl⟩
        obtain ⟨g, hg, hgv⟩ := h.exists_merge (hp.1 y (by simp)) _ (↑r) f rfl hf (fun z hz => hp.2.1 z (by simpa using hz))
        exact (hmin ⟨g, hg, rfl⟩).trans hgv

theorem sucmax_algebra : HuffmanAlgebra sucmax := by
  constructor <;> intros <;> simp only [sucmax] <;> omega

end Sortnet.Thy
