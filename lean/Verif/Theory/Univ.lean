import Verif.Theory.Basic

/-!
# All comparators are equally good as the first one
-/

namespace Sortnet

variable {ι : Type*} [DecidableEq ι]

theorem LB_of_not_UB {A : Set (ι → Bool)} {k : ℕ} (h : ¬ UB A k) : LB A (k + 1) := by
  intro cn hs
  by_contra hlt
  exact h ⟨cn, by omega, hs⟩

theorem exists_perm_pair {a b c d : ι} (h1 : a ≠ b) (h2 : c ≠ d) : ∃ e : Equiv.Perm ι, e a = c ∧ e b = d := by
  have hx : Equiv.swap a c b ≠ c := by
    intro h
    have : Equiv.swap a c b = Equiv.swap a c a := by rw [h, Equiv.swap_apply_left]
    exact h1 ((Equiv.swap a c).injective this).symm
  refine ⟨(Equiv.swap a c).trans (Equiv.swap (Equiv.swap a c b) d), ?_, ?_⟩
  · rw [Equiv.trans_apply, Equiv.swap_apply_left, Equiv.swap_apply_of_ne_of_ne hx.symm h2]
  · rw [Equiv.trans_apply, Equiv.swap_apply_left]

/-- After any first comparator one comparator less is needed to sort all vectors. -/
theorem UB_image_univ {r : ℕ} (h : UB (Set.univ : Set (ι → Bool)) (r + 1))
    (hs : ¬ IsChain (· ≤ ·) (Set.univ : Set (ι → Bool))) {c : ι × ι} (hc : c.1 ≠ c.2) :
    UB (applyCmp c '' Set.univ) r := by
  obtain ⟨c', hc', hu⟩ : ∃ c' : ι × ι, c'.1 ≠ c'.2 ∧ UB (applyCmp c' '' Set.univ) r := by
    by_contra hno
    push Not at hno
    have : LB (Set.univ : Set (ι → Bool)) (r + 1 + 1) := by
      refine LB_successor hs fun c hred => Or.inl (LB_of_not_UB (hno c ?_))
      intro e
      apply hred
      unfold Redundant
      rw [e]
      left
      rintro x _ ⟨h1, h2⟩
      rw [h1] at h2
      simp at h2
    have := this.le_UB h
    omega
  obtain ⟨e, e1, e2⟩ := exists_perm_pair hc' hc
  have : applyCmp c '' Set.univ = permSet e.symm (applyCmp c' '' Set.univ) := by
    unfold permSet
    rw [Set.image_image]
    ext y
    simp only [Set.image_univ, Set.mem_range]
    constructor
    · rintro ⟨x, rfl⟩
      refine ⟨x ∘ e, ?_⟩
      rw [← applyCmp_relabel, e1, e2]
      congr 1
      funext k
      simp
    · rintro ⟨x, rfl⟩
      refine ⟨x ∘ e.symm, ?_⟩
      rw [← applyCmp_relabel, e1, e2]
  rw [this]
  exact (UB_permSet _).2 hu

end Sortnet
