import Verif.Spec.Index
import Verif.Proof.TreeBuild
import Verif.Props.C19
import Verif.Proof.Pack

/-!
# The tests of an index on abstractions and on sets
-/

namespace Sortnet.Index

open Subsume

variable {n : ℕ}

theorem subsumes_refl (A : Set (Fin n → Bool)) : Subsumes A A := ⟨1, by rw [permSet_one]⟩

theorem subsumes_trans {A B C : Set (Fin n → Bool)} (h : Subsumes A B) (h' : Subsumes B C) : Subsumes A C := by
  obtain ⟨π, h⟩ := h
  obtain ⟨ρ, h'⟩ := h'
  refine ⟨π * ρ, ?_⟩
  have h1 := permSet_mono ρ h
  rw [permSet_permSet] at h1
  exact h1.trans h'

theorem complSet_complSet' (A : Set (Fin n → Bool)) : complSet (complSet A) = A := by
  unfold complSet
  rw [Set.image_image]
  simp

theorem subsumes_compl {A B : Set (Fin n → Bool)} (h : Subsumes A B) : Subsumes (complSet A) (complSet B) := by
  obtain ⟨π, h⟩ := h
  refine ⟨π, ?_⟩
  rintro _ ⟨_, ⟨x, hx, rfl⟩, rfl⟩
  exact ⟨x ∘ π, h ⟨x, hx, rfl⟩, rfl⟩

theorem Dir.matches_refl (d : Dir) (A : Set (Fin n → Bool)) : d.Matches A A := by
  cases d
  · exact subsumes_refl A
  · exact Or.inl (subsumes_refl A)
  · exact subsumes_refl A

theorem Dir.matches_trans {d : Dir} {A B C : Set (Fin n → Bool)} (h : d.Matches A B) (h' : d.Matches B C) :
    d.Matches A C := by
  cases d
  · exact subsumes_trans h h'
  · rcases h with h | h <;> rcases h' with h' | h'
    · exact Or.inl (subsumes_trans h h')
    · exact Or.inr (subsumes_trans (subsumes_compl h) h')
    · exact Or.inr (subsumes_trans h h')
    · have := subsumes_compl h
      rw [complSet_complSet'] at this
      exact Or.inl (subsumes_trans this h')
  · exact subsumes_trans h' h

theorem Dir.atLeast_refl (d : Dir) (v : ℕ) : d.AtLeast v v := by cases d <;> exact Nat.le_refl v

theorem Dir.atLeast_trans {d : Dir} {u v w : ℕ} (h : d.AtLeast u v) (h' : d.AtLeast v w) : d.AtLeast u w := by
  cases d <;> simp only [Dir.AtLeast] at * <;> omega

theorem Dir.atLeast_total (d : Dir) (v w : ℕ) : d.AtLeast v w ∨ d.AtLeast w v := by
  cases d <;> simp only [Dir.AtLeast] <;> omega

theorem Dir.doesImprove_some {d : Dir} {best v : ℕ} : d.doesImprove (some best) v = true ↔ ¬ d.AtLeast best v := by
  cases d <;> simp [Dir.doesImprove, Dir.AtLeast]

theorem Dir.wouldBeUpdated_iff {d : Dir} {c l : ℕ} : d.wouldBeUpdated c l = true ↔ d.AtLeast l c := by
  cases d <;> simp [Dir.wouldBeUpdated, Dir.AtLeast]

/-! ## Tests on lists -/

theorem allZip_iff {α : Type} {p : α → ℕ → Bool} {a : List α} {b : List ℕ} :
    allZip p a b = true ↔ ∀ (i : ℕ) x y, a[i]? = some x → b[i]? = some y → p x y = true := by
  unfold allZip
  rw [List.all_eq_true]
  constructor
  · intro h i x y hx hy
    apply h (x, y)
    have : (a.zip b)[i]? = some (x, y) := by rw [List.getElem?_zip_eq_some]; exact ⟨hx, hy⟩
    exact List.mem_of_getElem? this
  · rintro h ⟨x, y⟩ hq
    obtain ⟨i, hi⟩ := List.mem_iff_getElem?.1 hq
    rw [List.getElem?_zip_eq_some] at hi
    exact h i x y hi.1 hi.2

theorem allXor_spec {α : Type} {p : α → ℕ → Bool} {b : List ℕ} {mask : ℕ} : ∀ (a : List α) (k : ℕ),
    (∀ i, i < a.length → (k + i) ^^^ mask < b.length) →
    ∃ r, allXor p b mask a k = some r ∧
      (r = true ↔ ∀ (i : ℕ) x y, a[i]? = some x → b[(k + i) ^^^ mask]? = some y → p x y = true) := by
  intro a
  induction a with
  | nil => intro k _; exact ⟨true, rfl, by simp⟩
  | cons x xs ih =>
    intro k hk
    have h0 := hk 0 (by simp)
    rw [Nat.add_zero] at h0
    rw [allXor, List.getElem?_eq_getElem h0]
    simp only [Option.bind_eq_bind, Option.bind_some]
    by_cases hp : p x b[k ^^^ mask] = true
    · rw [if_pos hp]
      obtain ⟨r, h1, h2⟩ := ih (k + 1) (by
        intro i hi
        have := hk (i + 1) (by simp; omega)
        rwa [show k + 1 + i = k + (i + 1) by omega])
      refine ⟨r, h1, h2.trans ?_⟩
      constructor
      · intro h i x' y hx hy
        cases i with
        | zero =>
          simp only [List.getElem?_cons_zero, Option.some.injEq] at hx
          rw [Nat.add_zero, List.getElem?_eq_getElem h0, Option.some.injEq] at hy
          rw [← hx, ← hy]; exact hp
        | succ i =>
          rw [List.getElem?_cons_succ] at hx
          exact h i x' y hx (by rwa [show k + 1 + i = k + (i + 1) by omega])
      · intro h i x' y hx hy
        exact h (i + 1) x' y (by rwa [List.getElem?_cons_succ]) (by rwa [show k + (i + 1) = k + 1 + i by omega])
    · rw [if_neg hp]
      refine ⟨false, rfl, ?_⟩
      simp only [Bool.false_eq_true, false_iff]
      intro h
      apply hp
      exact h 0 x b[k ^^^ mask] (by simp) (by rw [Nat.add_zero, List.getElem?_eq_getElem h0])

theorem xor_three_lt {k m : ℕ} (h4 : 4 ∣ m) (h : k < m) : k ^^^ 3 < m := by
  rw [xor_three]; omega

theorem xor_three_xor (k : ℕ) : (k ^^^ 3) ^^^ 3 = k := by
  rw [Nat.xor_assoc, Nat.xor_self, Nat.xor_zero]

theorem anyXor_spec {α : Type} {p : α → ℕ → Bool} {a : List α} {b : List ℕ} (hl : a.length = b.length)
    (h4 : 4 ∣ b.length) :
    ∃ r, anyXor p a b = some r ∧ (r = true ↔ (∀ (i : ℕ) x y, a[i]? = some x → b[i]? = some y → p x y = true) ∨
      (∀ (i : ℕ) x y, a[i]? = some x → b[i ^^^ 3]? = some y → p x y = true)) := by
  obtain ⟨r0, h1, h2⟩ := allXor_spec (p := p) (b := b) (mask := 0) a 0 (by
    intro i hi; rw [Nat.xor_zero]; omega)
  obtain ⟨r1, g1, g2⟩ := allXor_spec (p := p) (b := b) (mask := 3) a 0 (by
    intro i hi; rw [Nat.zero_add]; exact xor_three_lt h4 (by omega))
  simp only [Nat.zero_add, Nat.xor_zero] at h2 g2
  rw [anyXor, h1]
  simp only [Option.bind_eq_bind, Option.bind_some]
  cases r0 with
  | true => exact ⟨true, by simp, by simp only [true_iff]; left; exact h2.1 rfl⟩
  | false =>
    refine ⟨r1, by simp [g1], ?_⟩
    rw [g2]
    constructor
    · exact Or.inr
    · rintro (h | h)
      · exact absurd (h2.2 h) (by simp)
      · exact h

/-! ## Abstractions of sets -/

/-- The abstraction of a set (for one to eleven channels it exists). -/
def absOf (s : Bitmap n) : List ℕ := s.abstraction.getD []

theorem abstraction_absOf (h0 : 0 < n) (hn : n ≤ maxChannels) (s : Bitmap n) : s.abstraction = some (absOf s) := by
  obtain ⟨v, hv, _⟩ := abstraction_eq_some s h0 hn
  rw [absOf, hv]; rfl

theorem absOf_length (h0 : 0 < n) (hn : n ≤ maxChannels) (s : Bitmap n) : (absOf s).length = n * (n - 1) * 4 := by
  obtain ⟨v, hv, hl, _⟩ := abstraction_eq_some s h0 hn
  rw [absOf, hv]; exact hl

theorem four_dvd (h0 : 0 < n) (hn : n ≤ maxChannels) (s : Bitmap n) : 4 ∣ (absOf s).length := by
  rw [absOf_length h0 hn]; exact Dvd.intro_left _ rfl

theorem absOf_mono (h0 : 0 < n) (hn : n ≤ maxChannels) {s t : Bitmap n} (h : Subsumes s.toSet t.toSet) :
    ∀ (i x y : ℕ), (absOf s)[i]? = some x → (absOf t)[i]? = some y → x ≤ y := by
  obtain ⟨π, h⟩ := h
  obtain ⟨va, vb, h1, h2, h3, h4, _, h5, _⟩ := C19_abstraction_monotone h0 hn s t
  rw [abstraction_absOf h0 hn] at h1 h2
  obtain rfl := Option.some.inj h1
  obtain rfl := Option.some.inj h2
  intro i x y hx hy
  have l1 := getElem?_lt hx
  have l2 := getElem?_lt hy
  have := h5 π h i l1 l2
  rw [List.getElem?_eq_getElem l1, Option.some.injEq] at hx
  rw [List.getElem?_eq_getElem l2, Option.some.injEq] at hy
  rw [← hx, ← hy]; exact this

theorem absOf_mono_inv (h0 : 0 < n) (hn : n ≤ maxChannels) {s t : Bitmap n} (h : Subsumes (complSet s.toSet) t.toSet) :
    ∀ (i x y : ℕ), (absOf s)[i]? = some x → (absOf t)[i ^^^ 3]? = some y → x ≤ y := by
  obtain ⟨π, h⟩ := h
  obtain ⟨va, vb, h1, h2, h3, h4, _, _, h5⟩ := C19_abstraction_monotone h0 hn s t
  rw [abstraction_absOf h0 hn] at h1 h2
  obtain rfl := Option.some.inj h1
  obtain rfl := Option.some.inj h2
  intro i x y hx hy
  have l1 := getElem?_lt hx
  have l2 := getElem?_lt hy
  obtain ⟨_, this⟩ := h5 π h i l1
  rw [List.getElem?_eq_getElem l1, Option.some.injEq] at hx
  rw [List.getElem?_eq_getElem l2, Option.some.injEq] at hy
  rw [← hx, ← hy]; exact this

/-- The test on abstractions rejects only irrelevant sets. -/
theorem testAbstraction_spec (h0 : 0 < n) (hn : n ≤ maxChannels) (d : Dir) (c q : Bitmap n) :
    ∃ r, d.testAbstraction (absOf c) (absOf q) = some r ∧ (d.Matches c.toSet q.toSet → r = true) := by
  have hl : (absOf c).length = (absOf q).length := by rw [absOf_length h0 hn, absOf_length h0 hn]
  cases d with
  | lower =>
    refine ⟨_, rfl, fun h => allZip_iff.2 ?_⟩
    intro i x y hx hy
    simpa using absOf_mono h0 hn h i x y hx hy
  | upper =>
    refine ⟨_, rfl, fun h => allZip_iff.2 ?_⟩
    intro i x y hx hy
    simpa using absOf_mono h0 hn h i y x hy hx
  | lowerInvert =>
    obtain ⟨r, h1, h2⟩ := anyXor_spec (p := fun c l => decide (c ≤ l)) hl (four_dvd h0 hn q)
    refine ⟨r, h1, fun h => h2.2 ?_⟩
    rcases h with h | h
    · left
      intro i x y hx hy
      simpa using absOf_mono h0 hn h i x y hx hy
    · right
      intro i x y hx hy
      simpa using absOf_mono_inv h0 hn h i x y hx hy

theorem inBox_get {rng : Ranges} {p : List ℕ} (h : InBox rng p) {i : ℕ} {r : ℕ × ℕ} {x : ℕ} (hr : rng[i]? = some r)
    (hx : p[i]? = some x) : r.1 ≤ x ∧ x ≤ r.2 := by
  unfold InBox at h
  induction h generalizing i with
  | nil => simp at hr
  | cons h1 _ ih =>
    cases i with
    | zero =>
      simp only [List.getElem?_cons_zero, Option.some.injEq] at hr hx
      rw [← hr, ← hx]; exact h1
    | succ i =>
      rw [List.getElem?_cons_succ] at hr hx
      exact ih hr hx

theorem inBox_exists {rng : Ranges} {p : List ℕ} (h : InBox rng p) {i : ℕ} {r : ℕ × ℕ} (hr : rng[i]? = some r) :
    ∃ x, p[i]? = some x := by
  have := getElem?_lt hr
  rw [h.length_eq] at this
  exact ⟨_, List.getElem?_eq_getElem this⟩

/-- The test on bounding boxes rejects only boxes all of whose points are rejected. -/
theorem testRange_spec {d : Dir} {rng : Ranges} {l p0 : List ℕ} (h0 : InBox rng p0) (hl : p0.length = l.length)
    (h4 : 4 ∣ l.length) :
    ∃ r, d.testRange rng l = some r ∧ (r = false → ∀ p, InBox rng p → d.testAbstraction p l = some false) := by
  have hlr : rng.length = l.length := by rw [h0.length_eq, hl]
  cases d with
  | lower =>
    refine ⟨_, rfl, fun hr p hp => ?_⟩
    rw [Dir.testAbstraction, Option.some.injEq, ← Bool.not_eq_true]
    rw [← Bool.not_eq_true] at hr
    refine fun h => hr ?_
    rw [allZip_iff] at h ⊢
    intro i r y hr hy
    obtain ⟨x, hx⟩ := inBox_exists hp hr
    have h1 := inBox_get hp hr hx
    have h2 := h i x y hx hy
    simp only [decide_eq_true_eq] at h2 ⊢
    omega
  | upper =>
    refine ⟨_, rfl, fun hr p hp => ?_⟩
    rw [Dir.testAbstraction, Option.some.injEq, ← Bool.not_eq_true]
    rw [← Bool.not_eq_true] at hr
    refine fun h => hr ?_
    rw [allZip_iff] at h ⊢
    intro i r y hr hy
    obtain ⟨x, hx⟩ := inBox_exists hp hr
    have h1 := inBox_get hp hr hx
    have h2 := h i x y hx hy
    simp only [decide_eq_true_eq] at h2 ⊢
    omega
  | lowerInvert =>
    obtain ⟨r, g1, g2⟩ := anyXor_spec (p := fun (r : ℕ × ℕ) l => decide (r.1 ≤ l)) hlr h4
    refine ⟨r, g1, fun hr p hp => ?_⟩
    obtain ⟨r', k1, k2⟩ := anyXor_spec (p := fun (c l : ℕ) => decide (c ≤ l)) (a := p) (b := l)
      (by rw [← hp.length_eq, hlr]) h4
    rw [Dir.testAbstraction, k1, Option.some.injEq, ← Bool.not_eq_true]
    rw [← Bool.not_eq_true] at hr
    refine fun h => hr (g2.2 ?_)
    rcases k2.1 h with h | h
    · left
      intro i r y hr hy
      obtain ⟨x, hx⟩ := inBox_exists hp hr
      have h1 := inBox_get hp hr hx
      have h2 := h i x y hx hy
      simp only [decide_eq_true_eq] at h2 ⊢
      omega
    · right
      intro i r y hr hy
      obtain ⟨x, hx⟩ := inBox_exists hp hr
      have h1 := inBox_get hp hr hx
      have h2 := h i x y hx hy
      simp only [decide_eq_true_eq] at h2 ⊢
      omega

/-- The same for the update of an index. -/
theorem testRangeUpdate_spec {d : Dir} {rng : Ranges} {l p0 : List ℕ} (h0 : InBox rng p0) (hl : p0.length = l.length)
    (h4 : 4 ∣ l.length) :
    ∃ r, d.testRangeUpdate rng l = some r ∧
      (r = false → ∀ p, InBox rng p → d.testAbstractionUpdate p l = some false) := by
  have hlr : rng.length = l.length := by rw [h0.length_eq, hl]
  cases d with
  | lower =>
    refine ⟨_, rfl, fun hr p hp => ?_⟩
    rw [Dir.testAbstractionUpdate, Dir.testAbstraction, Option.some.injEq, ← Bool.not_eq_true]
    rw [← Bool.not_eq_true] at hr
    refine fun h => hr ?_
    rw [allZip_iff] at h ⊢
    intro i r y hr hy
    obtain ⟨x, hx⟩ := inBox_exists hp hr
    have h1 := inBox_get hp hr hx
    have h2 := h i y x hy hx
    simp only [decide_eq_true_eq] at h2 ⊢
    omega
  | upper =>
    refine ⟨_, rfl, fun hr p hp => ?_⟩
    rw [Dir.testAbstractionUpdate, Dir.testAbstraction, Option.some.injEq, ← Bool.not_eq_true]
    rw [← Bool.not_eq_true] at hr
    refine fun h => hr ?_
    rw [allZip_iff] at h ⊢
    intro i r y hr hy
    obtain ⟨x, hx⟩ := inBox_exists hp hr
    have h1 := inBox_get hp hr hx
    have h2 := h i y x hy hx
    simp only [decide_eq_true_eq] at h2 ⊢
    omega
  | lowerInvert =>
    obtain ⟨r, g1, g2⟩ := anyXor_spec (p := fun (r : ℕ × ℕ) l => decide (r.2 ≥ l)) hlr h4
    refine ⟨r, g1, fun hr p hp => ?_⟩
    have hpl : p.length = l.length := by rw [← hp.length_eq, hlr]
    obtain ⟨r', k1, k2⟩ := anyXor_spec (p := fun (c l : ℕ) => decide (c ≤ l)) (a := l) (b := p)
      hpl.symm (by rw [hpl]; exact h4)
    rw [Dir.testAbstractionUpdate, Dir.testAbstraction, k1, Option.some.injEq, ← Bool.not_eq_true]
    rw [← Bool.not_eq_true] at hr
    refine fun h => hr (g2.2 ?_)
    rcases k2.1 h with h | h
    · left
      intro i r y hr hy
      obtain ⟨x, hx⟩ := inBox_exists hp hr
      have h1 := inBox_get hp hr hx
      have h2 := h i y x hy hx
      simp only [decide_eq_true_eq] at h2 ⊢
      omega
    · right
      intro i r y hr hy
      obtain ⟨x, hx⟩ := inBox_exists hp hr
      have h1 := inBox_get hp hr hx
      have h2 := h (i ^^^ 3) y x hy (by rw [xor_three_xor]; exact hx)
      simp only [decide_eq_true_eq] at h2 ⊢
      omega

/-! ## The precise test -/

/-- A permutation (with a flag) that witnesses relevance. -/
def Dir.Witness (d : Dir) (A Q : Set (Fin n → Bool)) (w : Bool × (Fin n → Fin n)) : Prop :=
  ∃ π : Equiv.Perm (Fin n), ⇑π = w.2 ∧
    match d with
    | .lower => w.1 = false ∧ permSet π A ⊆ Q
    | .lowerInvert => permSet π (if w.1 then complSet A else A) ⊆ Q
    | .upper => w.1 = false ∧ permSet π Q ⊆ A

theorem Dir.Witness.matches {d : Dir} {A Q : Set (Fin n → Bool)} {w : Bool × (Fin n → Fin n)} (h : d.Witness A Q w) :
    d.Matches A Q := by
  obtain ⟨π, _, h⟩ := h
  cases d with
  | lower => exact ⟨π, h.2⟩
  | upper => exact ⟨π, h.2⟩
  | lowerInvert =>
    dsimp only at h
    split at h
    · exact Or.inr ⟨π, h⟩
    · exact Or.inl ⟨π, h⟩

theorem Dir.witness_id (d : Dir) (A : Set (Fin n → Bool)) : d.Witness A A (false, id) := by
  refine ⟨1, rfl, ?_⟩
  cases d
  · exact ⟨rfl, by rw [permSet_one]⟩
  · show permSet 1 A ⊆ A
    rw [permSet_one]
  · exact ⟨rfl, by rw [permSet_one]⟩

theorem testPrecise_spec (h0 : 0 < n) (hn : n ≤ maxChannels) (d : Dir) (c q : Bitmap n) :
    ∃ r, d.testPrecise c (absOf c) q (absOf q) = some r ∧
      (∀ w, r = some w → d.Witness c.toSet q.toSet w) ∧ (r = none → ¬ d.Matches c.toSet q.toSet) := by
  cases d with
  | lower =>
    obtain ⟨r, h1, h2, h3⟩ := subsumesPermuted_spec hn c q
    refine ⟨_, by rw [Dir.testPrecise, h1]; rfl, ?_, ?_⟩
    · intro w hw
      obtain ⟨p, hp, rfl⟩ := Option.map_eq_some_iff.1 hw
      obtain ⟨π, e1, e2⟩ := h2 p hp
      exact ⟨π, e1, rfl, e2⟩
    · intro hr
      exact h3 (Option.map_eq_none_iff.1 hr)
  | upper =>
    obtain ⟨r, h1, h2, h3⟩ := subsumesPermuted_spec hn q c
    refine ⟨_, by rw [Dir.testPrecise, h1]; rfl, ?_, ?_⟩
    · intro w hw
      obtain ⟨p, hp, rfl⟩ := Option.map_eq_some_iff.1 hw
      obtain ⟨π, e1, e2⟩ := h2 p hp
      exact ⟨π, e1, rfl, e2⟩
    · intro hr
      exact h3 (Option.map_eq_none_iff.1 hr)
  | lowerInvert =>
    obtain ⟨r', g1, g2, g3⟩ := subsumesPermuted_spec hn c.invert q
    rw [invert_toSet] at g2 g3
    obtain ⟨r, h1, h2, h3⟩ : ∃ r, (if allZip (fun c l => decide (c ≤ l)) (absOf c) (absOf q) = true then
        c.subsumesPermuted q else some none) = some r ∧
        (∀ p, r = some p → ∃ π : Equiv.Perm (Fin n), ⇑π = p ∧ permSet π c.toSet ⊆ q.toSet) ∧
        (r = none → ¬ Subsumes c.toSet q.toSet) := by
      split
      · exact subsumesPermuted_spec hn c q
      · rename_i hz
        refine ⟨none, rfl, by simp, fun _ h => hz (allZip_iff.2 ?_)⟩
        intro i x y hx hy
        simpa using absOf_mono h0 hn h i x y hx hy
    have hcode : Dir.testPrecise .lowerInvert c (absOf c) q (absOf q) =
        ((if allZip (fun c l => decide (c ≤ l)) (absOf c) (absOf q) = true then
        c.subsumesPermuted q else some none).bind fun plain => match plain with
          | some p => some (some (false, p))
          | none => (c.invert.subsumesPermuted q).map fun r => r.map fun p => (true, p)) := by
      rw [Dir.testPrecise]
      split <;> rfl
    rw [hcode, h1]
    simp only [Option.bind_some]
    cases r with
    | some p =>
      refine ⟨_, rfl, ?_, by simp⟩
      intro w hw
      obtain rfl := Option.some.inj hw
      obtain ⟨π, e1, e2⟩ := h2 p rfl
      exact ⟨π, e1, e2⟩
    | none =>
      refine ⟨_, by rw [g1]; rfl, ?_, ?_⟩
      · intro w hw
        obtain ⟨p, hp, rfl⟩ := Option.map_eq_some_iff.1 hw
        obtain ⟨π, e1, e2⟩ := g2 p hp
        exact ⟨π, e1, e2⟩
      · intro hr
        rintro (hm | hm)
        · exact h3 rfl hm
        · exact g3 (Option.map_eq_none_iff.1 hr) hm

theorem unpackSet_packed (s : Bitmap n) : unpackSet n s.packed = some s := by
  have h := unpackBits_packBits (List.replicate (2 ^ n) false) s.toList (by rw [List.length_replicate, toList_length])
  rw [unpackSet, Bitmap.packed, h]
  simp only [Option.bind_eq_bind, Option.bind_some]
  rw [dif_pos (toList_length s), ofList_toList]

end Sortnet.Index
