import Verif.Props.C17

/-!
# C18: `canonicalize` is canonical
-/

namespace Sortnet

variable {n : ℕ}

/-- `B` is obtained from `A` by a permutation of the channels and, if allowed, complementing. -/
def SameOrbit (inversion : Bool) (A B : Set (Fin n → Bool)) : Prop :=
  ∃ π : Equiv.Perm (Fin n), B = permSet π A ∨ inversion = true ∧ B = permSet π (complSet A)

theorem SameOrbit_iff (inversion : Bool) (a b : Bitmap n) :
    SameOrbit inversion a.toSet b.toSet ↔ Canon.Equivalent inversion a b := by
  unfold SameOrbit Canon.Equivalent
  simp only [BIso_iff, invert_toSet]

/-- C18.  For every hash function: equivalent sets have the same canonical form. -/
theorem C18_canonical (hn : n ≤ 11) (hash : List ℕ → ℕ) (inversion : Bool) (a b : Bitmap n)
    (h : SameOrbit inversion a.toSet b.toSet) :
    ∃ t p q, a.canonicalize hash inversion = some (t, p) ∧ b.canonicalize hash inversion = some (t, q) := by
  obtain ⟨t, p, q, e1, e2, _⟩ := canonicalize_pair hash hn inversion a b ((SameOrbit_iff _ _ _).1 h)
  exact ⟨t, p, q, e1, e2⟩

theorem toSet_injective {a b : Bitmap n} (h : a.toSet = b.toSet) : a = b := by
  have : BIso 1 a b := (BIso_iff 1 a b).2 (by rw [Subsume.permSet_one]; exact h.symm)
  exact this.eq

/-- Conversely, sets with the same canonical form are equivalent: the canonical form decides equivalence. -/
theorem C18_iff (hn : n ≤ 11) (hash : List ℕ → ℕ) (inversion : Bool) (a b : Bitmap n) :
    SameOrbit inversion a.toSet b.toSet ↔
      ∃ t p q, a.canonicalize hash inversion = some (t, p) ∧ b.canonicalize hash inversion = some (t, q) := by
  refine ⟨C18_canonical hn hash inversion a b, ?_⟩
  rintro ⟨t, p, q, e1, e2⟩
  rw [SameOrbit_iff]
  obtain ⟨t', p', _, e1', _, ⟨π, _, hπ⟩, hp⟩ := canonicalize_pair hash hn inversion a a ⟨1, Or.inl (BIso.refl a)⟩
  obtain ⟨t'', q', _, e2', _, ⟨σ, _, hσ⟩, hq⟩ := canonicalize_pair hash hn inversion b b ⟨1, Or.inl (BIso.refl b)⟩
  rw [e1] at e1'
  rw [e2] at e2'
  obtain ⟨rfl, rfl⟩ := Prod.mk.inj (Option.some.inj e1')
  obtain ⟨rfl, rfl⟩ := Prod.mk.inj (Option.some.inj e2')
  have key := hπ.trans hσ.symm
  refine ⟨π * σ⁻¹, ?_⟩
  cases hpi : p.invert <;> cases hqi : q.invert <;> rw [hpi, hqi] at key
  · exact Or.inl key
  · refine Or.inr ⟨hq hqi, ?_⟩
    have := key.invert
    simp only [if_true] at this
    rwa [invert_invert] at this
  · exact Or.inr ⟨hp hpi, key⟩
  · left
    have := key.invert
    simp only [if_true] at this
    rwa [invert_invert, invert_invert] at this

/-- `canonicalize` is idempotent. -/
theorem C18_idempotent (hn : n ≤ 11) (hash : List ℕ → ℕ) (inversion : Bool) (a t : Bitmap n) (p : Perm n)
    (h : a.canonicalize hash inversion = some (t, p)) : ∃ q, t.canonicalize hash inversion = some (t, q) := by
  obtain ⟨t', p', e, ⟨π, _, ht⟩, hp, _⟩ := C17_witness hn hash a inversion
  rw [h] at e
  obtain ⟨rfl, rfl⟩ := Prod.mk.inj (Option.some.inj e)
  obtain ⟨t', p', q, e1, e2⟩ := C18_canonical hn hash inversion a t ⟨π, by
    cases hi : p.invert with
    | false => exact Or.inl (by simpa [hi] using ht)
    | true => exact Or.inr ⟨hp hi, by simpa [hi] using ht⟩⟩
  rw [h] at e1
  obtain ⟨rfl, rfl⟩ := Prod.mk.inj (Option.some.inj e1)
  exact ⟨q, e2⟩

/-- Non-vacuity: two different sets with the same canonical form, for a hash function that maps everything
to 0. -/
example : let a := ((allValues 3).applyComparator 1 0).1
    let b := a.swapChannels 0 2
    a ≠ b ∧ ∃ t p q, a.canonicalize (fun _ => 0) true = some (t, p) ∧
      b.canonicalize (fun _ => 0) true = some (t, q) := by
  intro a b
  refine ⟨fun h => ?_, ?_⟩
  · have := congrFun h 4#3
    revert this
    decide +kernel
  · exact C18_canonical (by decide) _ true a b ⟨Equiv.swap 0 2, Or.inl (swapChannels_toSet a)⟩

/-- Non-vacuity of the inverted case: a set and its complement. -/
example : let a := (((allValues 3).applyComparator 1 0).1.applyComparator 2 1).1
    a ≠ a.invert ∧ ∃ t p q, a.canonicalize (fun _ => 0) true = some (t, p) ∧
      a.invert.canonicalize (fun _ => 0) true = some (t, q) := by
  intro a
  refine ⟨fun h => ?_, ?_⟩
  · have : a.toList = a.invert.toList := congrArg Bitmap.toList h
    revert this
    decide +kernel
  · exact C18_canonical (by decide) _ true a a.invert ⟨1, Or.inr ⟨rfl, by rw [Subsume.permSet_one, invert_toSet]⟩⟩

end Sortnet
