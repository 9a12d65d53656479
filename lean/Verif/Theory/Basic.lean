import Verif.Spec.Network
import Mathlib.Tactic.Common
import Mathlib.Tactic.Linarith
import Mathlib.Data.Fintype.BigOperators
import Mathlib.Algebra.BigOperators.Group.Finset.Basic
import Mathlib.Data.Finset.Card

/-! # Basic theory of comparator networks -/

namespace Sortnet

set_option linter.unusedSimpArgs false
set_option linter.unusedSectionVars false

variable {ι κ : Type*} [DecidableEq ι] [DecidableEq κ] {α β : Type*} [LinearOrder α] [LinearOrder β]

@[simp] theorem run_nil (x : ι → α) : run [] x = x := rfl
@[simp] theorem run_cons (c : ι × ι) (cn) (x : ι → α) : run (c :: cn) x = run cn (applyCmp c x) := rfl
theorem run_append (cn cn' : List (ι × ι)) (x : ι → α) : run (cn ++ cn') x = run cn' (run cn x) := by
  simp [run, List.foldl_append]

theorem applyCmp_comp_mono (f : α → β) (hf : Monotone f) (c : ι × ι) (x : ι → α) :
    applyCmp c (f ∘ x) = f ∘ applyCmp c x := by
  funext k
  simp only [applyCmp, Function.comp]
  split_ifs <;> simp [hf.map_max, hf.map_min]

theorem run_comp_mono (f : α → β) (hf : Monotone f) (cn : List (ι × ι)) (x : ι → α) :
    run cn (f ∘ x) = f ∘ run cn x := by
  induction cn generalizing x with
  | nil => rfl
  | cons c cn ih => simp [applyCmp_comp_mono f hf, ih]

theorem applyCmp_mono (c : ι × ι) {x y : ι → α} (h : x ≤ y) : applyCmp c x ≤ applyCmp c y := by
  intro k
  simp only [applyCmp]
  split_ifs
  · exact max_le_max (h _) (h _)
  · exact min_le_min (h _) (h _)
  · exact h _

theorem run_mono (cn : List (ι × ι)) {x y : ι → α} (h : x ≤ y) : run cn x ≤ run cn y := by
  induction cn generalizing x y with
  | nil => exact h
  | cons c cn ih => exact ih (applyCmp_mono c h)

/-- Relabelling a network along an equivalence of channel types. -/
def relabel (e : ι ≃ κ) (cn : List (ι × ι)) : List (κ × κ) := cn.map (fun c => (e c.1, e c.2))

@[simp] theorem relabel_length (e : ι ≃ κ) (cn : List (ι × ι)) : (relabel e cn).length = cn.length := by
  simp [relabel]

theorem applyCmp_relabel (e : ι ≃ κ) (c : ι × ι) (x : ι → α) :
    applyCmp (e c.1, e c.2) (x ∘ e.symm) = applyCmp c x ∘ e.symm := by
  funext k
  simp only [applyCmp, Function.comp, Equiv.symm_apply_apply, Equiv.symm_apply_eq]

theorem run_relabel (e : ι ≃ κ) (cn : List (ι × ι)) (x : ι → α) :
    run (relabel e cn) (x ∘ e.symm) = run cn x ∘ e.symm := by
  induction cn generalizing x with
  | nil => rfl
  | cons c cn ih => simp only [relabel, List.map_cons, run_cons, applyCmp_relabel] at *; exact ih _

/-- Variant of `run_relabel` with the equivalence on the other side. -/
theorem run_comp_equiv (e : κ ≃ ι) (cn : List (ι × ι)) (x : ι → α) :
    run cn x ∘ e = run (relabel e.symm cn) (x ∘ e) := by
  have := run_relabel e.symm cn x
  simpa using this.symm

theorem Sorts_nil {A : Set (ι → Bool)} : Sorts [] A ↔ IsChain (· ≤ ·) A := by
  have : run ([] : List (ι × ι)) '' A = A := by
    have : (run ([] : List (ι × ι)) : (ι → Bool) → _) = id := rfl
    rw [this, Set.image_id]
  rw [Sorts, this]

theorem Sorts.mono {cn : List (ι × ι)} {A B : Set (ι → Bool)} (h : A ⊆ B) (hB : Sorts cn B) :
    Sorts cn A := IsChain.mono (Set.image_mono h) hB

theorem Sorts_iff {cn : List (ι × ι)} {A : Set (ι → Bool)} :
    Sorts cn A ↔ ∀ x ∈ A, ∀ y ∈ A, run cn x ≤ run cn y ∨ run cn y ≤ run cn x := by
  constructor
  · intro h x hx y hy
    exact h.total (Set.mem_image_of_mem _ hx) (Set.mem_image_of_mem _ hy)
  · rintro h _ ⟨x, hx, rfl⟩ _ ⟨y, hy, rfl⟩ _
    exact h x hx y hy

theorem LB.mono {A B : Set (ι → Bool)} {k : ℕ} (h : A ⊆ B) (hA : LB A k) : LB B k :=
  fun cn hcn => hA cn (hcn.mono h)

theorem LB.le {A : Set (ι → Bool)} {k l : ℕ} (h : l ≤ k) (hA : LB A k) : LB A l :=
  fun cn hcn => h.trans (hA cn hcn)

theorem UB.mono {A B : Set (ι → Bool)} {k : ℕ} (h : A ⊆ B) (hB : UB B k) : UB A k := by
  obtain ⟨cn, hl, hs⟩ := hB
  exact ⟨cn, hl, hs.mono h⟩

theorem UB.le {A : Set (ι → Bool)} {k l : ℕ} (h : k ≤ l) (hA : UB A k) : UB A l := by
  obtain ⟨cn, hl, hs⟩ := hA
  exact ⟨cn, hl.trans h, hs⟩

theorem LB.le_UB {A : Set (ι → Bool)} {k l : ℕ} (h : LB A k) (h' : UB A l) : k ≤ l := by
  obtain ⟨cn, hl, hs⟩ := h'
  exact (h cn hs).trans hl

theorem LB_zero (A : Set (ι → Bool)) : LB A 0 := fun _ _ => Nat.zero_le _

theorem IsOpt.unique {A : Set (ι → Bool)} {k l : ℕ} (h : IsOpt A k) (h' : IsOpt A l) : k = l :=
  le_antisymm (h.1.le_UB h'.2) (h'.1.le_UB h.2)

theorem comp_le_comp_iff (e : κ ≃ ι) {x y : ι → Bool} : x ∘ e ≤ y ∘ e ↔ x ≤ y := by
  constructor
  · intro h i
    simpa using h (e.symm i)
  · intro h i
    exact h (e i)

/-- A network sorting the relabelled set yields a network of equal size sorting the set. -/
theorem Sorts.of_equiv (e : κ ≃ ι) {cn : List (κ × κ)} {A : Set (ι → Bool)}
    (h : Sorts cn ((fun x => x ∘ e) '' A)) : Sorts (relabel e cn) A := by
  rw [Sorts_iff] at h ⊢
  intro x hx y hy
  have := h _ (Set.mem_image_of_mem _ hx) _ (Set.mem_image_of_mem _ hy)
  have e1 : ∀ x : ι → Bool, run cn (x ∘ e) = run (relabel e cn) x ∘ e := by
    intro x
    have := run_comp_equiv e (relabel e cn) x
    rw [this]
    congr 1
    simp [relabel, List.map_map, Function.comp_def]
  simpa only [e1, comp_le_comp_iff] using this

theorem LB_equiv (e : κ ≃ ι) {A : Set (ι → Bool)} {k : ℕ} :
    LB ((fun x => x ∘ e) '' A) k ↔ LB A k := by
  constructor
  · intro h cn hcn
    have hs : Sorts (relabel e.symm cn) ((fun x => x ∘ e) '' A) := by
      apply Sorts.of_equiv e.symm
      rw [Set.image_image]
      have : (fun x : ι → Bool => (x ∘ e) ∘ e.symm) = id := by
        funext x; simp [Function.comp_assoc]
      rw [this, Set.image_id]; exact hcn
    simpa using h _ hs
  · intro h cn hcn
    simpa using h _ (hcn.of_equiv e)

theorem UB_equiv (e : κ ≃ ι) {A : Set (ι → Bool)} {k : ℕ} :
    UB ((fun x => x ∘ e) '' A) k ↔ UB A k := by
  constructor
  · rintro ⟨cn, hl, hs⟩
    exact ⟨relabel e cn, by simpa using hl, hs.of_equiv e⟩
  · rintro ⟨cn, hl, hs⟩
    refine ⟨relabel e.symm cn, by simpa using hl, ?_⟩
    apply Sorts.of_equiv e.symm
    rw [Set.image_image]
    have : (fun x : ι → Bool => (x ∘ e) ∘ e.symm) = id := by
      funext x; simp [Function.comp_assoc]
    rw [this, Set.image_id]; exact hs

theorem LB_permSet (π : Equiv.Perm ι) {A : Set (ι → Bool)} {k : ℕ} : LB (permSet π A) k ↔ LB A k :=
  LB_equiv π

theorem UB_permSet (π : Equiv.Perm ι) {A : Set (ι → Bool)} {k : ℕ} : UB (permSet π A) k ↔ UB A k :=
  UB_equiv π

/-! ### Complement -/

/-- Pointwise complement. -/
def vnot (x : ι → Bool) : ι → Bool := fun i => !(x i)

omit [DecidableEq ι] in
@[simp] theorem vnot_vnot (x : ι → Bool) : vnot (vnot x) = x := by funext i; simp [vnot]

omit [DecidableEq ι] in
@[simp] theorem vnot_apply (x : ι → Bool) (i : ι) : vnot x i = !(x i) := rfl

omit [DecidableEq ι] in
theorem vnot_le_vnot {x y : ι → Bool} : vnot x ≤ vnot y ↔ y ≤ x := by
  constructor
  · intro h i
    have := h i
    simp only [vnot] at this
    revert this; cases x i <;> cases y i <;> simp
  · intro h i
    have := h i
    simp only [vnot]
    revert this; cases x i <;> cases y i <;> simp

omit [DecidableEq ι] in
theorem complSet_eq (A : Set (ι → Bool)) : complSet A = vnot '' A := rfl

omit [DecidableEq ι] in
theorem mem_complSet {A : Set (ι → Bool)} {x : ι → Bool} : x ∈ complSet A ↔ vnot x ∈ A := by
  rw [complSet_eq]
  constructor
  · rintro ⟨y, hy, rfl⟩; simpa
  · intro h; exact ⟨_, h, by simp⟩

omit [DecidableEq ι] in
@[simp] theorem complSet_complSet (A : Set (ι → Bool)) : complSet (complSet A) = A := by
  ext x; simp [mem_complSet]

omit [DecidableEq ι] in
theorem mem_permSet {A : Set (ι → Bool)} {π : Equiv.Perm ι} {x : ι → Bool} :
    x ∈ permSet π A ↔ x ∘ π.symm ∈ A := by
  constructor
  · rintro ⟨y, hy, rfl⟩; simpa [Function.comp_assoc] using hy
  · intro h; exact ⟨_, h, by simp [Function.comp_assoc]⟩

/-- The network with all comparators flipped. -/
def flipNet (cn : List (ι × ι)) : List (ι × ι) := cn.map Prod.swap

@[simp] theorem flipNet_length (cn : List (ι × ι)) : (flipNet cn).length = cn.length := by
  simp [flipNet]

theorem applyCmp_vnot (c : ι × ι) (x : ι → Bool) : applyCmp c (vnot x) = vnot (applyCmp c.swap x) := by
  obtain ⟨i, j⟩ := c
  funext k
  simp only [applyCmp, vnot, Prod.swap]
  by_cases h1 : k = j
  · subst h1
    by_cases h2 : k = i
    · subst h2; simp
    · simp only [if_true, h2, if_false]
      cases x i <;> cases x k <;> rfl
  · by_cases h2 : k = i
    · subst h2
      simp only [h1, if_true, if_false]
      cases x j <;> cases x k <;> rfl
    · simp [h1, h2]

theorem run_vnot (cn : List (ι × ι)) (x : ι → Bool) : run cn (vnot x) = vnot (run (flipNet cn) x) := by
  induction cn generalizing x with
  | nil => rfl
  | cons c cn ih => simp only [run_cons, flipNet, List.map_cons, applyCmp_vnot] at *; exact ih _

theorem Sorts_complSet {cn : List (ι × ι)} {A : Set (ι → Bool)} :
    Sorts cn (complSet A) ↔ Sorts (flipNet cn) A := by
  rw [Sorts_iff, Sorts_iff]
  constructor
  · intro h x hx y hy
    have := h (vnot x) (by simpa [mem_complSet]) (vnot y) (by simpa [mem_complSet])
    simpa only [run_vnot, vnot_le_vnot, or_comm] using this
  · intro h x hx y hy
    have := h (vnot x) (mem_complSet.1 hx) (vnot y) (mem_complSet.1 hy)
    rw [← vnot_vnot x, ← vnot_vnot y]
    simpa only [run_vnot cn (vnot _), vnot_le_vnot, or_comm] using this

theorem LB_complSet {A : Set (ι → Bool)} {k : ℕ} : LB (complSet A) k ↔ LB A k := by
  have key : ∀ A : Set (ι → Bool), LB A k → LB (complSet A) k := by
    intro A h cn hcn
    have := h _ (Sorts_complSet.1 hcn)
    simpa using this
  exact ⟨fun h => by simpa using key _ h, key A⟩

theorem UB_complSet {A : Set (ι → Bool)} {k : ℕ} : UB (complSet A) k ↔ UB A k := by
  have key : ∀ A : Set (ι → Bool), UB A k → UB (complSet A) k := by
    rintro A ⟨cn, hl, hs⟩
    refine ⟨flipNet cn, by simpa using hl, ?_⟩
    rw [Sorts_complSet]
    simpa [flipNet, Function.comp_def] using hs
  exact ⟨fun h => by simpa using key _ h, key A⟩

theorem LB_of_subsumes {A B : Set (ι → Bool)} {k : ℕ} (h : Subsumes A B) (hA : LB A k) : LB B k := by
  obtain ⟨π, hπ⟩ := h
  exact ((LB_permSet π).2 hA).mono hπ

theorem LB_of_subsumesInv {A B : Set (ι → Bool)} {k : ℕ} (h : SubsumesInv A B) (hA : LB A k) :
    LB B k := by
  rcases h with h | h
  · exact LB_of_subsumes h hA
  · exact LB_of_subsumes h (LB_complSet.2 hA)

/-! ### Successor rule -/

/-- `c` is redundant on `A`: `A` does not contain both orders of the two channels. -/
def Redundant (c : ι × ι) (A : Set (ι → Bool)) : Prop :=
  (∀ x ∈ A, ¬ (x c.1 = true ∧ x c.2 = false)) ∨ (∀ x ∈ A, ¬ (x c.1 = false ∧ x c.2 = true))

theorem applyCmp_id {c : ι × ι} {x : ι → Bool} (h : ¬ (x c.1 = true ∧ x c.2 = false)) :
    applyCmp c x = x := by
  obtain ⟨i, j⟩ := c
  funext k
  simp only [applyCmp] at *
  by_cases h1 : k = j
  · subst h1
    simp only [if_true]; revert h; cases x i <;> cases x k <;> simp
  · by_cases h2 : k = i
    · subst h2
      simp only [h1, if_true, if_false]; revert h; cases x j <;> cases x k <;> simp
    · simp [h1, h2]

theorem applyCmp_swap {c : ι × ι} {x : ι → Bool} (h : ¬ (x c.1 = false ∧ x c.2 = true)) :
    applyCmp c x = x ∘ Equiv.swap c.1 c.2 := by
  obtain ⟨i, j⟩ := c
  funext k
  simp only [applyCmp, Function.comp, Equiv.swap_apply_def] at *
  by_cases h1 : k = j
  · subst h1
    by_cases h2 : k = i
    · subst h2; simp
    · simp only [h2, if_true, if_false]; revert h; cases x i <;> cases x k <;> simp
  · by_cases h2 : k = i
    · subst h2
      simp only [h1, if_true, if_false]; revert h; cases x j <;> cases x k <;> simp
    · simp [h1, h2]

theorem applyCmp_flip (c : ι × ι) (x : ι → Bool) :
    applyCmp c.swap x = applyCmp c x ∘ Equiv.swap c.1 c.2 := by
  obtain ⟨i, j⟩ := c
  funext k
  simp only [applyCmp, Function.comp, Equiv.swap_apply_def, Prod.swap]
  by_cases h1 : k = j
  · subst h1
    by_cases h2 : k = i
    · subst h2; simp
    · have h3 : i ≠ k := fun h => h2 h.symm
      simp [h2, h3, min_comm]
  · by_cases h2 : k = i
    · subst h2; simp [max_comm]
    · simp [h1, h2]

/-- If a set is not a chain and every non-redundant comparator, in at least one orientation, leads
to a set needing `k` comparators, then the set needs `k + 1` comparators. -/
theorem LB_successor {A : Set (ι → Bool)} {k : ℕ} (hA : ¬ IsChain (· ≤ ·) A)
    (h : ∀ c : ι × ι, ¬ Redundant c A → LB (applyCmp c '' A) k ∨ LB (applyCmp c.swap '' A) k) :
    LB A (k + 1) := by
  intro cn
  induction hn : cn.length generalizing cn with
  | zero =>
    intro hs
    have : cn = [] := List.eq_nil_of_length_eq_zero hn
    subst this
    exact absurd (Sorts_nil.1 hs) hA
  | succ m ih =>
    intro hs
    match cn, hn with
    | c :: rest, hn =>
      simp only [List.length_cons, Nat.add_right_cancel_iff] at hn
      by_cases hr : Redundant c A
      · rcases hr with hr | hr
        · have hs' : Sorts rest A := by
            rw [Sorts_iff] at hs ⊢
            intro x hx y hy
            have := hs x hx y hy
            simpa [applyCmp_id (hr x hx), applyCmp_id (hr y hy)] using this
          have := ih rest hn hs'
          omega
        · have hs' : Sorts (relabel (Equiv.swap c.1 c.2) rest) A := by
            apply Sorts.of_equiv
            rw [Sorts_iff] at hs ⊢
            rintro _ ⟨x, hx, rfl⟩ _ ⟨y, hy, rfl⟩
            have := hs x hx y hy
            simpa [applyCmp_swap (hr x hx), applyCmp_swap (hr y hy)] using this
          have := ih _ (by simpa using hn) hs'
          omega
      · have hs' : Sorts rest (applyCmp c '' A) := by
          rw [Sorts_iff] at hs ⊢
          rintro _ ⟨x, hx, rfl⟩ _ ⟨y, hy, rfl⟩
          exact hs x hx y hy
        have hlb : LB (applyCmp c '' A) k := by
          rcases h c hr with h | h
          · exact h
          · have e : (fun x : ι → Bool => x ∘ Equiv.swap c.1 c.2) '' (applyCmp c '' A)
                = applyCmp c.swap '' A := by
              rw [Set.image_image]
              apply Set.image_congr
              intro x _
              exact (applyCmp_flip c x).symm
            rw [← e] at h
            exact (LB_equiv _).1 h
        have := hlb rest hs'
        omega

theorem UB_successor {A : Set (ι → Bool)} {k : ℕ} (c : ι × ι) (h : UB (applyCmp c '' A) k) :
    UB A (k + 1) := by
  obtain ⟨cn, hl, hs⟩ := h
  refine ⟨c :: cn, by simpa using hl, ?_⟩
  rw [Sorts_iff] at hs ⊢
  intro x hx y hy
  exact hs _ ⟨x, hx, rfl⟩ _ ⟨y, hy, rfl⟩

theorem LB_one {A : Set (ι → Bool)} (hA : ¬ IsChain (· ≤ ·) A) : LB A 1 := by
  intro cn hs
  rcases cn with _ | ⟨c, cn⟩
  · exact absurd (Sorts_nil.1 hs) hA
  · simp

theorem UB_zero {A : Set (ι → Bool)} (hA : IsChain (· ≤ ·) A) : UB A 0 :=
  ⟨[], le_rfl, Sorts_nil.2 hA⟩

theorem UB_zero_iff {A : Set (ι → Bool)} : UB A 0 ↔ IsChain (· ≤ ·) A := by
  refine ⟨?_, UB_zero⟩
  rintro ⟨cn, hl, hs⟩
  have : cn = [] := List.eq_nil_of_length_eq_zero (by omega)
  subst this
  exact Sorts_nil.1 hs

end Sortnet
