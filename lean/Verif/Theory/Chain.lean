import Verif.Theory.Standard
import Verif.Proof.Chained
import Mathlib.Data.Fin.Tuple.Sort

/-!
# Chains can be relabelled to sorted vectors
-/

namespace Sortnet

variable {n : ℕ}

/-- The channels of a chain can be relabelled such that all its vectors are sorted. -/
theorem exists_perm_sorted {A : Set (Fin n → Bool)} (h : IsChain (· ≤ ·) A) :
    ∃ π : Equiv.Perm (Fin n), ∀ x ∈ A, Monotone (x ∘ π) := by
  classical
  let f : Fin n → ℕ := fun i => (Finset.univ.filter fun x : Fin n → Bool => x ∈ A ∧ x i = true).card
  have hm := Tuple.monotone_sort f
  refine ⟨Tuple.sort f, fun x hx i j hij => ?_⟩
  have hf := hm hij
  simp only [Function.comp_apply] at hf ⊢
  generalize Tuple.sort f i = a at *
  generalize Tuple.sort f j = b at *
  by_contra hlt
  have ha : x a = true := by
    cases e : x a with
    | true => rfl
    | false => exact absurd (by rw [e]; exact Bool.false_le _) hlt
  have hb : x b = false := by
    cases e : x b with
    | false => rfl
    | true => exact absurd (by rw [e]; exact Bool.le_true _) hlt
  have hsub : (Finset.univ.filter fun y : Fin n → Bool => y ∈ A ∧ y b = true) ⊆
      (Finset.univ.filter fun y : Fin n → Bool => y ∈ A ∧ y a = true) := by
    intro y hy
    rw [Finset.mem_filter] at hy ⊢
    refine ⟨Finset.mem_univ _, hy.2.1, ?_⟩
    rcases h.total hx hy.2.1 with h1 | h1
    · have := h1 a
      rw [ha] at this
      exact top_le_iff.1 this
    · have := h1 b
      rw [hb, hy.2.2] at this
      exact absurd this (by simp)
  have hlt' : f b < f a := by
    apply Finset.card_lt_card
    refine ⟨hsub, fun hcon => ?_⟩
    have := hcon (Finset.mem_filter.2 ⟨Finset.mem_univ x, hx, ha⟩)
    rw [Finset.mem_filter, hb] at this
    simp at this
  omega

/-- Inside a saturated path there is a chain with vectors of all weights. -/
theorem ReachIn.exists_chain {B : Set (Fin n → Bool)} {u v : Fin n → Bool} (h : ReachIn B true u v) :
    ∃ P ⊆ B, IsChain (· ≤ ·) P ∧ (∀ p ∈ P, p ≤ v) ∧ ∀ k, weight u ≤ k → k ≤ weight v → ∃ p ∈ P, weight p = k := by
  induction h with
  | refl hu =>
    refine ⟨{u}, by simpa using hu, IsChain.singleton, by simp, fun k h1 h2 => ⟨u, rfl, by omega⟩⟩
  | @step v i h1 h2 h3 ih =>
    obtain ⟨P, hP, hc, hle, hw⟩ := ih
    have hv : v ≤ Function.update v i true := by
      intro j
      by_cases hj : j = i
      · subst hj; simp
      · simp [Function.update_of_ne hj]
    refine ⟨insert (Function.update v i true) P, Set.insert_subset h3 hP,
      hc.insert fun p hp _ => Or.inr ((hle p hp).trans hv), ?_, ?_⟩
    · rintro p (rfl | hp)
      · exact le_rfl
      · exact (hle p hp).trans hv
    · intro k g1 g2
      rw [weight_update_true (by simpa using h2)] at g2
      by_cases hk : k = weight v + 1
      · exact ⟨_, Set.mem_insert _ _, by rw [weight_update_true (by simpa using h2), hk]⟩
      · obtain ⟨p, hp, e⟩ := hw k g1 (by omega)
        exact ⟨p, Set.mem_insert_of_mem _ hp, e⟩

/-- A chain subsumes every non-empty set whose vectors lie on saturated chains. -/
theorem subsumes_of_chain {A B : Set (Fin n → Bool)} (hA : IsChain (· ≤ ·) A) (hB : Chained B) (hne : B.Nonempty) :
    Subsumes A B := by
  obtain ⟨v, hv⟩ := hne
  obtain ⟨h1, h2⟩ := hB v hv
  obtain ⟨P, hP, hc, _, hw⟩ := (h1.trans h2).exists_chain
  obtain ⟨π, hπ⟩ := exists_perm_sorted hA
  obtain ⟨σ, hσ⟩ := exists_perm_sorted hc
  refine ⟨σ.symm.trans π, ?_⟩
  rintro _ ⟨x, hx, rfl⟩
  obtain ⟨p, hp, e⟩ := hw (weight (x ∘ π)) (by rw [weight_false]; omega) (by rw [weight_true]; exact weight_le _)
  have hxp : x ∘ π = p ∘ σ := by
    rw [← weight_comp_perm σ p] at e
    rcases monotone_bool_total (hπ x hx) (hσ p hp) with h3 | h3
    · exact eq_of_le_of_weight h3 e.symm
    · exact (eq_of_le_of_weight h3 e).symm
  have : x ∘ (σ.symm.trans π) = p := by
    funext i
    have := congrFun hxp (σ.symm i)
    simpa using this
  show x ∘ (σ.symm.trans π) ∈ B
  rw [this]
  exact hP hp

end Sortnet
