import Verif.Theory.Vec

/-! # Sorting networks: generalised vs. standard networks, the 0/1 principle, unused channels -/

namespace Sortnet

set_option linter.unusedSimpArgs false

variable {ι : Type*} [DecidableEq ι] {α : Type*} [LinearOrder α]

theorem monotone_bool_total {n : ℕ} {x y : Fin n → Bool} (hx : Monotone x) (hy : Monotone y) :
    x ≤ y ∨ y ≤ x := by
  by_contra h
  rw [not_or] at h
  obtain ⟨h1, h2⟩ := h
  simp only [Pi.le_def, not_forall] at h1 h2
  obtain ⟨i, hi⟩ := h1
  obtain ⟨j, hj⟩ := h2
  have hxi : x i = true ∧ y i = false := by revert hi; cases x i <;> cases y i <;> simp
  have hyj : y j = true ∧ x j = false := by revert hj; cases x j <;> cases y j <;> simp
  rcases le_total i j with h | h
  · have := hx h; rw [hxi.1, hyj.2] at this; exact absurd this (by decide)
  · have := hy h; rw [hyj.1, hxi.2] at this; exact absurd this (by decide)

theorem SortingNetwork.sorts {n : ℕ} {cn : List (Fin n × Fin n)} (h : SortingNetwork n cn)
    (A : Set (Fin n → Bool)) : Sorts cn A := by
  rw [Sorts_iff]
  intro x _ y _
  exact monotone_bool_total (h x) (h y)

theorem LB.lowerSizeBound {n k : ℕ} {A : Set (Fin n → Bool)} (h : LB A k) : LowerSizeBound n k :=
  fun cn hcn => h cn (hcn.sorts A)

theorem applyCmp_flip' (c : ι × ι) (x : ι → α) :
    applyCmp c.swap x = applyCmp c x ∘ Equiv.swap c.1 c.2 := by
  obtain ⟨i, j⟩ := c
  funext k
  simp only [applyCmp, Function.comp, Equiv.swap_apply_def, Prod.swap]
  by_cases h1 : k = j
  · subst h1
    by_cases h2 : k = i
    · subst h2; simp
    · have h3 : i ≠ k := fun h => h2 h.symm
      simp [h2, h3, min_comm]
  · by_cases h2 : k = i
    · subst h2; simp [max_comm]
    · simp [h1, h2]

theorem applyCmp_self (i : ι) (x : ι → α) : applyCmp (i, i) x = x := by
  funext k
  by_cases h : k = i
  · subst h; simp [applyCmp]
  · simp [applyCmp, h]

/-- Every network is a standard network followed by a fixed relabelling of the outputs. -/
theorem untangle {n : ℕ} (cn : List (Fin n × Fin n)) :
    ∃ (cn' : List (Fin n × Fin n)) (π : Equiv.Perm (Fin n)), Standard cn' ∧ cn'.length ≤ cn.length ∧
      ∀ (α : Type) (_ : LinearOrder α) (x : Fin n → α), run cn x = run cn' x ∘ π := by
  induction cn using List.reverseRecOn with
  | nil => exact ⟨[], Equiv.refl _, by simp [Standard], le_rfl, fun _ _ _ => rfl⟩
  | append_singleton cn c ih =>
    obtain ⟨cn', π, h1, h2, h3⟩ := ih
    have key : ∀ (α : Type) (_ : LinearOrder α) (x : Fin n → α),
        run (cn ++ [c]) x = applyCmp (π c.1, π c.2) (run cn' x) ∘ π := by
      intro α _ x
      rw [run_append, h3, run_cons, run_nil]
      have := applyCmp_relabel π.symm (π c.1, π c.2) (run cn' x)
      simpa using this
    rcases lt_trichotomy (π c.1) (π c.2) with h | h | h
    · refine ⟨cn' ++ [(π c.1, π c.2)], π, ?_, by simpa using h2, ?_⟩
      · intro d hd
        rcases List.mem_append.1 hd with hd | hd
        · exact h1 d hd
        · rw [List.mem_singleton] at hd; subst hd; exact h
      · intro α _ x
        rw [key, run_append]; rfl
    · refine ⟨cn', π, h1, by simp; omega, ?_⟩
      intro α _ x
      rw [key, h, applyCmp_self]
    · refine ⟨cn' ++ [(π c.2, π c.1)], π.trans (Equiv.swap (π c.2) (π c.1)), ?_, by simpa using h2, ?_⟩
      · intro d hd
        rcases List.mem_append.1 hd with hd | hd
        · exact h1 d hd
        · rw [List.mem_singleton] at hd; subst hd; exact h
      · intro α _ x
        rw [key, run_append]
        have := applyCmp_flip' (π c.2, π c.1) (run cn' x)
        simp only [Prod.swap] at this
        rw [this]; rfl

theorem applyCmp_standard_monotone {n : ℕ} {c : Fin n × Fin n} (hc : c.1 < c.2) {x : Fin n → α}
    (hx : Monotone x) : applyCmp c x = x := by
  obtain ⟨i, j⟩ := c
  have hij := hx (le_of_lt hc)
  simp only at hij
  funext k
  simp only [applyCmp]
  by_cases h1 : k = j
  · subst h1; simp [hij]
  · by_cases h2 : k = i
    · subst h2; simp [h1, hij]
    · simp [h1, h2]

theorem run_standard_monotone {n : ℕ} {cn : List (Fin n × Fin n)} (hcn : Standard cn) {x : Fin n → α}
    (hx : Monotone x) : run cn x = x := by
  induction cn with
  | nil => rfl
  | cons c cn ih =>
    rw [run_cons, applyCmp_standard_monotone (hcn c (by simp)) hx]
    exact ih fun d hd => hcn d (by simp [hd])

/-- The sorted vector with `k` true channels. -/
def sortedVec (n k : ℕ) : Fin n → Bool := fun i => decide (n ≤ i + k)

theorem sortedVec_monotone (n k : ℕ) : Monotone (sortedVec n k) := by
  intro i j hij
  have hij' : (i : ℕ) ≤ (j : ℕ) := hij
  simp only [sortedVec]
  by_cases h : n ≤ i + k
  · have : n ≤ j + k := by omega
    simp [this]
  · simp [h]

theorem weight_sortedVec {n k : ℕ} (h : k ≤ n) : weight (sortedVec n k) = k := by
  let f : Fin k → Fin n := fun j => ⟨n - k + j, by omega⟩
  have hf : Function.Injective f := by
    intro a b hab
    have : n - k + (a : ℕ) = n - k + (b : ℕ) := congrArg Fin.val hab
    exact Fin.ext (by omega)
  have : (Finset.univ.filter fun i : Fin n => sortedVec n k i = true) = Finset.univ.image f := by
    ext i
    simp only [sortedVec, Finset.mem_filter, Finset.mem_univ, true_and, decide_eq_true_eq,
      Finset.mem_image]
    constructor
    · intro hi
      refine ⟨⟨i - (n - k), by omega⟩, Fin.ext ?_⟩
      show n - k + (i - (n - k)) = i
      omega
    · rintro ⟨j, rfl⟩
      show n ≤ n - k + j + k
      omega
  rw [weight, this, Finset.card_image_of_injective _ hf]
  simp

/-- A standard network mapping all vectors to a chain is a sorting network. -/
theorem sortingNetwork_of_standard {n : ℕ} {cn : List (Fin n × Fin n)} (hst : Standard cn)
    (h : Sorts cn Set.univ) : SortingNetwork n cn := by
  intro x
  rw [Sorts_iff] at h
  have h1 := h x trivial (sortedVec n (weight (run cn x))) trivial
  have hw := weight_sortedVec (weight_le (run cn x))
  rw [run_standard_monotone hst (sortedVec_monotone _ _)] at h1
  have : run cn x = sortedVec n (weight (run cn x)) := by
    rcases h1 with h1 | h1
    · exact eq_of_le_of_weight h1 hw.symm
    · exact (eq_of_le_of_weight h1 hw).symm
  rw [this]
  exact sortedVec_monotone _ _

/-- From a generalised network mapping all vectors to a chain one gets a standard sorting network
that is not larger. -/
theorem exists_standard_of_sorts {n : ℕ} {cn : List (Fin n × Fin n)} (h : Sorts cn Set.univ) :
    ∃ cn', Standard cn' ∧ SortingNetwork n cn' ∧ cn'.length ≤ cn.length := by
  obtain ⟨cn', π, h1, h2, h3⟩ := untangle cn
  refine ⟨cn', h1, sortingNetwork_of_standard h1 ?_, h2⟩
  rw [Sorts_iff] at h ⊢
  intro x hx y hy
  have := h x hx y hy
  rwa [h3 Bool _ x, h3 Bool _ y, comp_le_comp_iff, comp_le_comp_iff] at this

/-- The 0/1 principle. -/
theorem zero_one {n : ℕ} {cn : List (Fin n × Fin n)} (h : SortingNetwork n cn) (x : Fin n → α) :
    Monotone (run cn x) := by
  intro i j hij
  by_contra hlt
  rw [not_le] at hlt
  have hf : Monotone (fun a : α => decide (run cn x i ≤ a)) := by
    intro a b hab
    by_cases ha : run cn x i ≤ a
    · have hb : run cn x i ≤ b := ha.trans hab
      simp [hb]
    · simp [ha]
  have h1 := h ((fun a : α => decide (run cn x i ≤ a)) ∘ x)
  rw [run_comp_mono _ hf] at h1
  have := h1 hij
  simp only [Function.comp, le_refl, decide_true, not_le.2 hlt, decide_false] at this
  exact absurd this (by decide)

theorem LB_univ_iff {n k : ℕ} : LB (Set.univ : Set (Fin n → Bool)) k ↔ LowerSizeBound n k := by
  constructor
  · exact LB.lowerSizeBound
  · intro h cn hs
    obtain ⟨cn', _, h2, h3⟩ := exists_standard_of_sorts hs
    exact (h cn' h2).trans h3

theorem isOpt_univ_iff {n k : ℕ} : IsOpt (Set.univ : Set (Fin n → Bool)) k ↔ MinSize n k := by
  constructor
  · rintro ⟨hl, cn, hcn, hs⟩
    obtain ⟨cn', h1, h2, h3⟩ := exists_standard_of_sorts hs
    have h4 := LB_univ_iff.1 hl
    have := h4 cn' h2
    exact ⟨⟨cn', h1, h2, by omega⟩, h4⟩
  · rintro ⟨⟨cn, h1, h2, h3⟩, h4⟩
    exact ⟨LB_univ_iff.2 h4, cn, by omega, h2.sorts _⟩

/-! ## Networks over all natural numbers -/

/-- A network whose channels satisfy a predicate restricts to these channels. -/
theorem restrict_pred (p : ι → Prop) (cn : List (ι × ι)) (h : ∀ d ∈ cn, p d.1 ∧ p d.2) :
    ∃ cn' : List ({k // p k} × {k // p k}), cn'.length = cn.length ∧
      ∀ x : ι → Bool, run cn x ∘ Subtype.val = run cn' (x ∘ Subtype.val) := by
  induction cn with
  | nil => exact ⟨[], rfl, fun x => rfl⟩
  | cons d cn ih =>
    obtain ⟨cn', h1, h2⟩ := ih fun d hd => h d (by simp [hd])
    obtain ⟨h3, h4⟩ := h d (by simp)
    refine ⟨(⟨d.1, h3⟩, ⟨d.2, h4⟩) :: cn', by simp [h1], fun x => ?_⟩
    rw [run_cons, run_cons, h2]
    congr 1
    funext k
    simp only [applyCmp, Function.comp, Subtype.ext_iff]

/-- Extra channels that are constantly true do not help. -/
theorem LB_extend {n k : ℕ} (h : LB (Set.univ : Set (Fin n → Bool)) k) (d : ℕ) :
    LB {x : Fin (n + d) → Bool | ∀ i : Fin (n + d), n ≤ (i : ℕ) → x i = true} k := by
  induction d with
  | zero =>
    refine h.mono ?_
    intro x _ i hi
    have := i.2
    omega
  | succ d ih =>
    have hp : LB (pruneSet true (Fin.last (n + d)) {x : Fin (n + d + 1) → Bool |
        ∀ i : Fin (n + d + 1), n ≤ (i : ℕ) → x i = true}) k := by
      rw [LB_pruneSet_iff]
      refine ih.mono ?_
      intro y hy
      refine ⟨fun i => if h : (i : ℕ) < n + d then y ⟨i, h⟩ else true, ⟨?_, ?_⟩, ?_⟩
      · intro i hi
        by_cases h : (i : ℕ) < n + d
        · simp only [h, dif_pos]
          exact hy ⟨i, h⟩ hi
        · simp [h]
      · simp
      · funext i
        simp
    intro cn hs
    have := token_bound hp hs
    omega

theorem lowerSizeBoundNat_of_LB {n k : ℕ} (h : LB (Set.univ : Set (Fin n → Bool)) k) :
    LowerSizeBoundNat n k := by
  intro cn hcn
  -- a bound on all channels
  obtain ⟨d, hd⟩ : ∃ d, ∀ c ∈ cn, c.1 < n + d ∧ c.2 < n + d := by
    clear hcn
    induction cn with
    | nil => exact ⟨0, by simp⟩
    | cons c cn ih =>
      obtain ⟨d, hd⟩ := ih
      refine ⟨d + c.1 + c.2 + 1, ?_⟩
      intro c' hc'
      rcases List.mem_cons.1 hc' with rfl | hc'
      · omega
      · have := hd c' hc'; omega
  obtain ⟨cn', h1, h2⟩ := restrict_pred (fun k => k < n + d) cn hd
  let e : Fin (n + d) ≃ {k // k < n + d} := ⟨fun i => ⟨i, i.2⟩, fun k => ⟨k, k.2⟩, fun _ => rfl, fun _ => rfl⟩
  have hlb := LB_extend h d
  rw [← h1, ← relabel_length e.symm cn']
  apply hlb
  rw [Sorts_iff]
  -- extend vectors to all naturals
  have ext : ∀ x : Fin (n + d) → Bool, (∀ i : Fin (n + d), n ≤ (i : ℕ) → x i = true) →
      ∃ X : ℕ → Bool, FixedLen n X ∧ run (relabel e.symm cn') x = fun i : Fin (n + d) => run cn X i := by
    intro x hx
    refine ⟨fun i => if h : i < n + d then x ⟨i, h⟩ else true, ?_, ?_⟩
    · intro i hi
      by_cases h : i < n + d
      · simp only [h, dif_pos]; exact hx ⟨i, h⟩ hi
      · simp [h]
    · have h3 := h2 (fun i => if h : i < n + d then x ⟨i, h⟩ else true)
      have h4 : (fun i => if h : i < n + d then x ⟨i, h⟩ else true) ∘ (Subtype.val : {k // k < n + d} → ℕ)
          = x ∘ e.symm := by
        funext k
        have := k.2
        simp [e, this]
      rw [h4] at h3
      have h5 := run_comp_equiv e cn' (x ∘ e.symm)
      rw [← h3] at h5
      have h6 : (x ∘ e.symm) ∘ e = x := by funext i; simp
      rw [h6] at h5
      rw [← h5]
      rfl
  intro x hx y hy
  obtain ⟨X, hX, eX⟩ := ext x hx
  obtain ⟨Y, hY, eY⟩ := ext y hy
  rw [eX, eY]
  apply monotone_bool_total
  · intro i j hij; exact hcn X hX (by exact hij)
  · intro i j hij; exact hcn Y hY (by exact hij)

end Sortnet
