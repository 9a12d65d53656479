import Verif.Proof.ConcLen

/-!
# The numbers of states only grow

A call of `len` that begins after another one has returned gives at least as many states.
-/

namespace Sortnet

namespace Search

namespace Conc

namespace Atomic

variable {S S' S'' : Atomic} {e : Option Event} {es a b : List Event} {n u : ℕ}

/-- Finitely many sets have a state. -/
def Finite (S : Atomic) : Prop := {A | S.store A ≠ none}.Finite

theorem Step.grows (h : Step S e S') (hf : S.Finite) : S'.Finite ∧ S.size ≤ S'.size := by
  cases h with
  | @set t A v h =>
    have hsub : {B | S.store B ≠ none} ⊆ {B | Function.update S.store A (some v) B ≠ none} := by
      intro B hB
      show Function.update S.store A (some v) B ≠ none
      by_cases hAB : B = A
      · subst hAB
        rw [Function.update_self]
        simp
      · rw [Function.update_of_ne hAB]
        exact hB
    have hfin : {B | Function.update S.store A (some v) B ≠ none}.Finite := by
      refine (Set.Finite.insert A hf).subset ?_
      intro B hB
      by_cases hAB : B = A
      · exact Or.inl hAB
      · right
        have : Function.update S.store A (some v) B ≠ none := hB
        rw [Function.update_of_ne hAB] at this
        exact this
    exact ⟨hfin, Set.ncard_le_ncard hsub hfin⟩
  | _ => exact ⟨hf, Nat.le_refl _⟩

theorem Exec.grows (h : Exec S es S') (hf : S.Finite) : S'.Finite ∧ S.size ≤ S'.size := by
  induction h with
  | nil => exact ⟨hf, Nat.le_refl _⟩
  | snoc _ hs ih =>
    obtain ⟨h1, h2⟩ := hs.grows ih.1
    exact ⟨h1, ih.2.trans h2⟩

/-- An execution can be cut between two events. -/
theorem Exec.split (h : Exec S es S'') : ∀ {a b : List Event}, es = a ++ b → ∃ S', Exec S a S' ∧ Exec S' b S'' := by
  induction h with
  | nil =>
    intro a b h
    obtain ⟨rfl, rfl⟩ := List.append_eq_nil_iff.1 h.symm
    exact ⟨_, .nil _, .nil _⟩
  | @snoc S1 S2 es e h hs ih =>
    intro a b hab
    cases e with
    | none =>
      simp only [Option.toList_none, List.append_nil] at hab
      obtain ⟨S', h1, h2⟩ := ih hab
      have := h2.snoc hs
      simp only [Option.toList_none, List.append_nil] at this
      exact ⟨S', h1, this⟩
    | some x =>
      rcases List.eq_nil_or_concat b with rfl | ⟨b', y, rfl⟩
      · rw [List.append_nil] at hab
        subst hab
        exact ⟨S2, h.snoc hs, .nil _⟩
      · rw [List.concat_eq_append, Option.toList_some, ← List.append_assoc] at hab
        obtain ⟨h1, h2⟩ := List.append_inj' hab rfl
        cases h2
        obtain ⟨S', h3, h4⟩ := ih h1
        have := h4.snoc hs
        rw [Option.toList_some] at this
        rw [List.concat_eq_append]
        exact ⟨S', h3, this⟩

theorem pc_of_update {f : ℕ → APC} {t t' : ℕ} {x y : APC} (h : Function.update f t' x t = y) (hx : x ≠ y) : f t = y := by
  by_cases e : t = t'
  · subst e
    rw [Function.update_self] at h
    exact absurd h hx
  · rwa [Function.update_of_ne e] at h

/-- Results of `len` are not more than the number of states. -/
theorem Exec.num_le (h : Exec init es S) : S.Finite ∧ (∀ t n, S.pc t = .done (.num n) → n ≤ S.size) ∧
    ∀ t n, .ret t (.num n) ∈ es → n ≤ S.size := by
  induction h with
  | nil =>
    refine ⟨?_, fun t n h => (by cases h), fun t n h => (by cases h)⟩
    show Set.Finite {A | (none : Option State) ≠ none}
    simp
  | @snoc S1 S2 es e _ hs ih =>
    obtain ⟨hf, h1, h2⟩ := ih
    obtain ⟨hf', hle⟩ := hs.grows hf
    refine ⟨hf', ?_, ?_⟩
    · intro t n ht
      have key : S1.pc t = .done (.num n) ∨ n ≤ S2.size := by
        cases hs with
        | @len t' lo m h3 h4 h5 =>
          dsimp only at ht
          by_cases e : t = t'
          · subst e
            rw [Function.update_self] at ht
            cases ht
            exact Or.inr h5
          · rw [Function.update_of_ne e] at ht
            exact Or.inl ht
        | _ => exact Or.inl (pc_of_update ht (by simp))
      rcases key with h | h
      · exact (h1 t n h).trans hle
      · exact h
    · intro t n hm
      rcases List.mem_append.1 hm with hm | hm
      · exact (h2 t n hm).trans hle
      · cases hs with
        | ret h =>
          simp only [Option.toList_some, List.mem_singleton] at hm
          cases hm
          exact (h1 _ _ h).trans hle
        | _ => simp at hm

/-- If `u` is in a call of `len`, then this call gives at least `n`. -/
def AtLeast (n u : ℕ) (S : Atomic) : Prop :=
  (∀ lo, S.pc u = .counting lo → n ≤ lo) ∧ ∀ m, S.pc u = .done (.num m) → n ≤ m

theorem Step.atLeast (h : Step S e S') (hn : n ≤ S.size) (hk : S.AtLeast n u ∨ e = some (.call u .len)) : S'.AtLeast n u := by
  have other : ∀ (t : ℕ) (x : APC), (∀ lo, x = .counting lo → n ≤ lo) → (∀ m, x = .done (.num m) → n ≤ m) → (t = u ∨ S.AtLeast n u) →
      (∀ lo, Function.update S.pc t x u = .counting lo → n ≤ lo) ∧ ∀ m, Function.update S.pc t x u = .done (.num m) → n ≤ m := by
    intro t x h1 h2 h3
    by_cases e : u = t
    · subst e
      rw [Function.update_self]
      exact ⟨h1, h2⟩
    · rw [Function.update_of_ne e]
      exact h3.resolve_left (Ne.symm e)
  cases h with
  | callLen h =>
    refine other _ _ (fun lo e => by cases e; exact hn) (by simp) ?_
    rcases hk with hk | hk
    · exact Or.inr hk
    · cases hk
      exact Or.inl rfl
  | call h h' =>
    refine other _ _ (by simp) (by simp) ?_
    rcases hk with hk | hk
    · exact Or.inr hk
    · cases hk
      exact absurd rfl h'
  | @len t lo m h h1 h2 =>
    have hk := hk.resolve_right (by simp)
    by_cases e : u = t
    · subst e
      exact other _ _ (by simp) (fun m' e => by cases e; exact (hk.1 lo h).trans h1) (Or.inl rfl)
    · refine ⟨fun lo' h' => hk.1 lo' ?_, fun m' h' => hk.2 m' ?_⟩
      · exact (Function.update_of_ne e ..).symm.trans h'
      · exact (Function.update_of_ne e ..).symm.trans h'
  | _ => exact other _ _ (by simp) (by simp) (Or.inr (hk.resolve_right (by simp)))

theorem Exec.atLeast (h : Exec S es S') (hf : S.Finite) (hn : n ≤ S.size) (hk : S.AtLeast n u ∨ .call u .len ∈ es) :
    S'.AtLeast n u := by
  induction h with
  | nil => exact hk.resolve_right (by simp)
  | @snoc S1 S2 es e h hs ih =>
    refine hs.atLeast (hn.trans (h.grows hf).2) ?_
    rcases hk with hk | hk
    · exact Or.inl (ih (Or.inl hk))
    · rcases List.mem_append.1 hk with hk | hk
      · exact Or.inl (ih (Or.inr hk))
      · right
        cases e with
        | none => simp at hk
        | some x =>
          simp only [Option.toList_some, List.mem_singleton] at hk
          rw [hk]

theorem Exec.ret_atLeast {m : ℕ} (h : Exec S es S') (hf : S.Finite) (hn : n ≤ S.size) (hk : S.AtLeast n u)
    (hm : .ret u (.num m) ∈ es) : n ≤ m := by
  induction h with
  | nil => simp at hm
  | @snoc S1 S2 es e h hs ih =>
    rcases List.mem_append.1 hm with hm | hm
    · exact ih hm
    · have := h.atLeast hf hn (Or.inl hk)
      cases hs with
      | ret h' =>
        simp only [Option.toList_some, List.mem_singleton] at hm
        cases hm
        exact this.2 m h'
      | _ => simp at hm

/-- The numbers of two calls of `len`, one after the other. -/
theorem Exec.len_le {t m : ℕ} {a b c : List Event} (h : Exec init (a ++ b ++ c) S) (h1 : .ret t (.num n) ∈ a)
    (h2 : .call u .len ∈ b) (h3 : .ret u (.num m) ∈ c) : n ≤ m := by
  obtain ⟨S2, h12, hc⟩ := h.split rfl
  obtain ⟨S1, ha, hb⟩ := h12.split rfl
  obtain ⟨hf, _, hnum⟩ := ha.num_le
  have hn := hnum t n h1
  obtain ⟨hf2, hle⟩ := hb.grows hf
  exact hc.ret_atLeast hf2 (hn.trans hle) (hb.atLeast hf hn (Or.inr h2)) h3

end Atomic

end Conc

end Search

end Sortnet
