import Verif.Spec.Rank
import Verif.Model.Search
import Verif.Props.C17
import Verif.Props.C22
import Mathlib.Order.WellFounded
import Mathlib.Data.Prod.Lex
import Mathlib.Algebra.Order.BigOperators.Group.Finset
import Mathlib.Tactic.Linarith

/-!
# A measure that decreases along the edges of the search

Removing a channel decreases the number of channels.  A comparator that is not redundant either decreases
the number of vectors or, if it is injective on the set, decreases the sum over the channels of (number of
ones) * (number of zeros).  The measure does not change under relabelling and complementing.
-/

namespace Sortnet

open scoped Classical

noncomputable section

variable {n : ℕ}

@[simp] theorem mem_vecs {A : Set (Fin n → Bool)} {v : Fin n → Bool} : v ∈ vecs A ↔ v ∈ A := by
  simp [vecs]

theorem vecs_image (f : (Fin n → Bool) → (Fin n → Bool)) (A : Set (Fin n → Bool)) :
    vecs (f '' A) = (vecs A).image f := by
  ext v; simp

theorem card_vecs_image_le (f : (Fin n → Bool) → (Fin n → Bool)) (A : Set (Fin n → Bool)) :
    (vecs (f '' A)).card ≤ (vecs A).card := by
  rw [vecs_image]; exact Finset.card_image_le

theorem countOn_image {f : (Fin n → Bool) → (Fin n → Bool)} {A : Set (Fin n → Bool)}
    (hf : Set.InjOn f A) (b : Bool) (i : Fin n) :
    countOn (f '' A) b i = ((vecs A).filter fun v => f v i = b).card := by
  unfold countOn
  rw [vecs_image, Finset.filter_image, Finset.card_image_of_injOn]
  intro v hv w hw h
  simp only [Finset.coe_filter, mem_vecs] at hv hw
  exact hf hv.1 hw.1 h

theorem vecs_permSet_card (π : Equiv.Perm (Fin n)) (A : Set (Fin n → Bool)) :
    (vecs (permSet π A)).card = (vecs A).card := by
  unfold permSet
  rw [vecs_image, Finset.card_image_of_injective]
  intro v w h
  funext i
  have := congrFun h (π.symm i)
  simpa using this

theorem spread_permSet (π : Equiv.Perm (Fin n)) (A : Set (Fin n → Bool)) :
    spread (permSet π A) = spread A := by
  have hinj : Set.InjOn (fun x : Fin n → Bool => x ∘ π) A := by
    intro v _ w _ h
    funext i
    have := congrFun h (π.symm i)
    simpa using this
  unfold spread permSet
  simp only [countOn_image hinj]
  exact Equiv.sum_comp π fun i => countOn A true i * countOn A false i

theorem vnot_injective : Function.Injective fun (x : Fin n → Bool) i => !(x i) := by
  intro v w h
  funext i
  have := congrFun h i
  simpa using this

theorem vecs_complSet_card (A : Set (Fin n → Bool)) : (vecs (complSet A)).card = (vecs A).card := by
  unfold complSet
  rw [vecs_image, Finset.card_image_of_injective _ vnot_injective]

theorem spread_complSet (A : Set (Fin n → Bool)) : spread (complSet A) = spread A := by
  unfold spread complSet
  refine Finset.sum_congr rfl fun i _ => ?_
  rw [countOn_image vnot_injective.injOn, countOn_image vnot_injective.injOn, Nat.mul_comm]
  simp only [Bool.not_eq_true', Bool.not_eq_false']
  rfl

/-- Number of vectors with the given values on two channels. -/
def count2 (A : Set (Fin n → Bool)) (i j : Fin n) (a b : Bool) : ℕ :=
  ((vecs A).filter fun v => v i = a ∧ v j = b).card

theorem card_cases (A : Set (Fin n → Bool)) (i j : Fin n) (p : (Fin n → Bool) → Prop) [DecidablePred p]
    (g : Bool → Bool → Bool) (hp : ∀ v, p v ↔ g (v i) (v j) = true) :
    ((vecs A).filter p).card =
      (if g true true then count2 A i j true true else 0) + (if g true false then count2 A i j true false else 0) +
      (if g false true then count2 A i j false true else 0) +
      (if g false false then count2 A i j false false else 0) := by
  unfold count2
  simp only [Finset.card_filter]
  have e : ∀ (b : Bool) (f : (Fin n → Bool) → ℕ), (if b = true then ∑ v ∈ vecs A, f v else 0) =
      ∑ v ∈ vecs A, if b = true then f v else 0 := by
    intro b f; cases b <;> simp
  rw [e, e, e, e, ← Finset.sum_add_distrib, ← Finset.sum_add_distrib, ← Finset.sum_add_distrib]
  refine Finset.sum_congr rfl fun v _ => ?_
  have := hp v
  by_cases h : p v
  · rw [if_pos h]
    have h' := this.1 h
    cases hi : v i <;> cases hj : v j <;> rw [hi, hj] at h' <;> simp [h']
  · rw [if_neg h]
    have h' : g (v i) (v j) = false := by
      cases hg : g (v i) (v j)
      · rfl
      · exact absurd (this.2 hg) h
    cases hi : v i <;> cases hj : v j <;> rw [hi, hj] at h' <;> simp [h']

theorem spread_applyCmp {A : Set (Fin n → Bool)} {i j : Fin n} (hij : i ≠ j)
    (hinj : Set.InjOn (applyCmp (j, i)) A)
    (h1 : ∃ v ∈ A, v i = false ∧ v j = true) (h2 : ∃ v ∈ A, v i = true ∧ v j = false) :
    spread (applyCmp (j, i) '' A) < spread A := by
  have key : ∀ k, k ≠ i → k ≠ j → ∀ b, countOn (applyCmp (j, i) '' A) b k = countOn A b k := by
    intro k hk1 hk2 b
    rw [countOn_image hinj]
    unfold countOn
    congr 1
    refine Finset.filter_congr fun v _ => ?_
    simp [applyCmp, hk1, hk2]
  unfold spread
  have split : ∀ f : Fin n → ℕ, ∑ k, f k = f i + (f j + ∑ k ∈ (Finset.univ.erase i).erase j, f k) := by
    intro f
    rw [← Finset.add_sum_erase _ _ (Finset.mem_univ i),
      ← Finset.add_sum_erase (Finset.univ.erase i) _ (Finset.mem_erase.2 ⟨hij.symm, Finset.mem_univ j⟩)]
  rw [split, split]
  have rest : ∑ k ∈ (Finset.univ.erase i).erase j,
      countOn (applyCmp (j, i) '' A) true k * countOn (applyCmp (j, i) '' A) false k =
      ∑ k ∈ (Finset.univ.erase i).erase j, countOn A true k * countOn A false k := by
    refine Finset.sum_congr rfl fun k hk => ?_
    simp only [Finset.mem_erase] at hk
    rw [key k hk.2.1 hk.1, key k hk.2.1 hk.1]
  rw [rest]
  have ni : ∀ v : Fin n → Bool, applyCmp (j, i) v i = (v i || v j) := by
    intro v
    simp only [applyCmp, if_true]
    cases v i <;> cases v j <;> rfl
  have nj : ∀ v : Fin n → Bool, applyCmp (j, i) v j = (v i && v j) := by
    intro v
    simp only [applyCmp, if_neg hij.symm, if_true]
    cases v i <;> cases v j <;> rfl
  have ei1 := card_cases A i j (fun v => v i = true) (fun a b => a) (fun v => by simp)
  have ei0 := card_cases A i j (fun v => v i = false) (fun a b => !a) (fun v => by simp)
  have ej1 := card_cases A i j (fun v => v j = true) (fun a b => b) (fun v => by simp)
  have ej0 := card_cases A i j (fun v => v j = false) (fun a b => !b) (fun v => by simp)
  have ci1 := card_cases A i j (fun v => applyCmp (j, i) v i = true) (fun a b => a || b)
    (fun v => by rw [ni])
  have ci0 := card_cases A i j (fun v => applyCmp (j, i) v i = false) (fun a b => !(a || b))
    (fun v => by rw [ni]; simp)
  have cj1 := card_cases A i j (fun v => applyCmp (j, i) v j = true) (fun a b => a && b)
    (fun v => by rw [nj])
  have cj0 := card_cases A i j (fun v => applyCmp (j, i) v j = false) (fun a b => !(a && b))
    (fun v => by rw [nj]; cases v i <;> cases v j <;> simp)
  rw [countOn_image hinj, countOn_image hinj, countOn_image hinj, countOn_image hinj]
  unfold countOn
  simp only [if_true, Bool.or_true, Bool.or_false, Bool.or_self, Bool.not_true, Bool.not_false, Bool.false_eq_true,
    if_false, Bool.and_true, Bool.and_false, Bool.and_self, Nat.add_zero, Nat.zero_add]
    at ei1 ei0 ej1 ej0 ci1 ci0 cj1 cj0
  rw [ei1, ei0, ej1, ej0, ci1, ci0, cj1, cj0]
  have pos1 : 0 < count2 A i j false true := by
    obtain ⟨v, hv, h3, h4⟩ := h1
    exact Finset.card_pos.2 ⟨v, by simp [hv, h3, h4]⟩
  have pos2 : 0 < count2 A i j true false := by
    obtain ⟨v, hv, h3, h4⟩ := h2
    exact Finset.card_pos.2 ⟨v, by simp [hv, h3, h4]⟩
  generalize count2 A i j true true = c at *
  generalize count2 A i j true false = a at *
  generalize count2 A i j false true = b at *
  generalize count2 A i j false false = d at *
  have hpos : 0 < a * b := Nat.mul_pos pos2 pos1
  nlinarith

namespace Search

theorem rank_canon {hash : List ℕ → ℕ} {A B : OSet} (h : canon hash A = some B) : rank B = rank A := by
  obtain ⟨n, s⟩ := A
  unfold canon at h
  have hn : n ≤ 11 := by
    by_contra hc
    have hc' : 11 < n := by omega
    dsimp only at h
    rw [C17_too_many_channels hc'] at h
    simp at h
  obtain ⟨t, p, e, ⟨π, _, hset⟩, _⟩ := C17_witness hn hash s true
  rw [e] at h
  simp only [Option.map_some, Option.some.injEq] at h
  subst h
  unfold rank
  dsimp only
  rw [hset, vecs_permSet_card, spread_permSet]
  split
  · rw [vecs_complSet_card, spread_complSet]
  · rfl

theorem rank_successor {A B : OSet} {i j : Fin A.n} (hij : i ≠ j) (h : successor A i j = some B) :
    rank B < rank A := by
  obtain ⟨n, s⟩ := A
  dsimp only at i j hij
  unfold successor at h
  dsimp only at h
  split at h
  · next hf =>
    simp only [Option.some.injEq] at h
    subst h
    rw [applyComparator_flag s hij] at hf
    unfold rank
    dsimp only
    rw [Prod.Lex.toLex_lt_toLex]
    right
    refine ⟨rfl, ?_⟩
    rw [Prod.Lex.toLex_lt_toLex, applyComparator_toSet s hij]
    dsimp only
    rcases (card_vecs_image_le (applyCmp (j, i)) s.toSet).lt_or_eq with h1 | h1
    · exact Or.inl h1
    · right
      refine ⟨h1, ?_⟩
      refine spread_applyCmp hij ?_ hf.1 hf.2
      rw [vecs_image] at h1
      have := Finset.injOn_of_card_image_eq h1
      intro v hv w hw e
      exact this (by simpa using hv) (by simpa using hw) e
  · exact absurd h (by simp)

theorem rank_prune {A B : OSet} {pol : Bool} {c : Fin A.n} (h : prune A pol c = some B) :
    rank B < rank A := by
  obtain ⟨n, s⟩ := A
  cases n with
  | zero => exact c.elim0
  | succ n =>
    unfold prune at h
    dsimp only at h
    rw [Option.map_eq_some_iff] at h
    obtain ⟨t, _, rfl⟩ := h
    unfold rank
    dsimp only
    rw [Prod.Lex.toLex_lt_toLex]
    left
    exact Nat.lt_succ_self n

theorem card_vecs_le (A : Set (Fin n → Bool)) : (vecs A).card ≤ 2 ^ n := by
  refine (Finset.card_le_univ _).trans ?_
  simp

theorem spread_le (A : Set (Fin n → Bool)) : spread A ≤ n * (2 ^ n * 2 ^ n) := by
  unfold spread
  have : ∀ (b : Bool) (i : Fin n), countOn A b i ≤ 2 ^ n := fun b i =>
    (Finset.card_filter_le _ _).trans (card_vecs_le A)
  calc ∑ i, countOn A true i * countOn A false i ≤ ∑ _i : Fin n, 2 ^ n * 2 ^ n :=
        Finset.sum_le_sum fun i _ => Nat.mul_le_mul (this _ _) (this _ _)
    _ = n * (2 ^ n * 2 ^ n) := by simp

/-- The measure as a natural number. -/
def rankN (A : OSet) : ℕ :=
  (A.n * (2 ^ 11 + 1) + (vecs A.s.toSet).card) * (11 * (2 ^ 11 * 2 ^ 11) + 1) + spread A.s.toSet

theorem rankN_lt {A B : OSet} (hA : A.n ≤ 11) (hB : B.n ≤ 11) (h : rank A < rank B) : rankN A < rankN B := by
  have hp : ∀ C : OSet, C.n ≤ 11 → (2 : ℕ) ^ C.n ≤ 2 ^ 11 := fun C hC => Nat.pow_le_pow_right (by omega) hC
  have hc : ∀ C : OSet, C.n ≤ 11 → (vecs C.s.toSet).card ≤ 2 ^ 11 := fun C hC =>
    (card_vecs_le _).trans (hp C hC)
  have hs : ∀ C : OSet, C.n ≤ 11 → spread C.s.toSet ≤ 11 * (2 ^ 11 * 2 ^ 11) := fun C hC =>
    (spread_le _).trans (Nat.mul_le_mul hC (Nat.mul_le_mul (hp C hC) (hp C hC)))
  have hcA := hc A hA
  have hsA := hs A hA
  unfold rank at h
  rw [Prod.Lex.toLex_lt_toLex, Prod.Lex.toLex_lt_toLex] at h
  dsimp only at h
  unfold rankN
  generalize (vecs A.s.toSet).card = cA at *
  generalize (vecs B.s.toSet).card = cB at *
  generalize spread A.s.toSet = sA at *
  generalize spread B.s.toSet = sB at *
  omega

theorem rank_wf : WellFounded fun A B : OSet => rank A < rank B :=
  InvImage.wf rank wellFounded_lt

end Search

end

end Sortnet
