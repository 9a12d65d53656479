import Verif.Theory.Basic
import Verif.Theory.Standard
import Verif.Proof.Bits

/-!
# Sorting networks with the sizes of the table of known bounds
-/

namespace Sortnet

namespace KnownBounds

/-- A comparator on vectors given as natural numbers. -/
def cmpN (a b x : ℕ) : ℕ := if x.testBit a && !x.testBit b then x ^^^ (2 ^ a ||| 2 ^ b) else x

/-- A network on vectors given as natural numbers. -/
def runN {n : ℕ} (l : List (Fin n × Fin n)) (x : ℕ) : ℕ := l.foldl (fun x c => cmpN c.1 c.2 x) x

/-- Sortedness of a vector given as natural number. -/
def sortedN (n x : ℕ) : Bool := (List.range (n - 1)).all fun i => !x.testBit i || x.testBit (i + 1)

/-- All vectors are sorted by the network. -/
def check {n : ℕ} (l : List (Fin n × Fin n)) : Bool :=
  l.all (fun c => c.1 < c.2) && (List.range (2 ^ n)).all fun x => sortedN n (runN l x)

/-- The vector given by a natural number. -/
def ofN (n x : ℕ) : Fin n → Bool := fun i => x.testBit i

theorem ofN_cmpN {n : ℕ} (c : Fin n × Fin n) (h : c.1 < c.2) (x : ℕ) :
    ofN n (cmpN c.1 c.2 x) = applyCmp c (ofN n x) := by
  have hne : (c.1 : ℕ) ≠ c.2 := by intro e; exact absurd (Fin.ext e) (ne_of_lt h)
  funext k
  unfold ofN cmpN applyCmp
  by_cases h1 : k = c.2
  · subst h1
    rw [if_pos rfl]
    cases ha : x.testBit c.1 <;> cases hb : x.testBit c.2 <;>
      simp [Nat.testBit_xor, Nat.testBit_or, Nat.testBit_two_pow, ha, hb]
  · rw [if_neg h1]
    by_cases h2 : k = c.1
    · subst h2
      rw [if_pos rfl]
      cases ha : x.testBit c.1 <;> cases hb : x.testBit c.2 <;>
        simp [Nat.testBit_xor, Nat.testBit_or, Nat.testBit_two_pow, ha, hb]
    · rw [if_neg h2]
      have e1 : (c.2 : ℕ) ≠ k := fun e => h1 (Fin.ext e.symm)
      have e2 : (c.1 : ℕ) ≠ k := fun e => h2 (Fin.ext e.symm)
      split_ifs
      · simp [Nat.testBit_xor, Nat.testBit_or, e1, e2]
      · rfl

theorem ofN_runN {n : ℕ} (l : List (Fin n × Fin n)) (h : ∀ c ∈ l, c.1 < c.2) (x : ℕ) :
    ofN n (runN l x) = run l (ofN n x) := by
  induction l generalizing x with
  | nil => rfl
  | cons c l ih =>
    have h1 := ih (fun d hd => h d (List.mem_cons_of_mem _ hd)) (cmpN c.1 c.2 x)
    rw [ofN_cmpN c (h c (List.mem_cons_self ..))] at h1
    exact h1

theorem exists_ofN {n : ℕ} (v : Fin n → Bool) : ∃ x < 2 ^ n, ofN n x = v := by
  refine ⟨(idxOf v).toNat, (idxOf v).isLt, ?_⟩
  funext i
  have := congrFun (vecOf_idxOf v) i
  unfold ofN
  rw [BitVec.testBit_toNat]
  exact this

theorem sortingNetwork_of_check {n : ℕ} {l : List (Fin n × Fin n)} (h : check l = true) :
    SortingNetwork n l := by
  unfold check at h
  rw [Bool.and_eq_true, List.all_eq_true, List.all_eq_true] at h
  intro v
  obtain ⟨x, hx, rfl⟩ := exists_ofN v
  rw [← ofN_runN l (fun c hc => of_decide_eq_true (h.1 c hc))]
  have h2 := h.2 x (List.mem_range.2 hx)
  unfold sortedN at h2
  rw [List.all_eq_true] at h2
  generalize runN l x = y at h2
  cases n with
  | zero => intro i; exact i.elim0
  | succ m =>
    rw [Fin.monotone_iff_le_succ]
    intro i
    have := h2 i (List.mem_range.2 (by have := i.isLt; omega))
    unfold ofN
    intro hi
    simp only [Fin.val_castSucc] at hi
    simpa [hi] using this

/-- 3 channels, 3 comparators. -/
def net3 : List (Fin 3 × Fin 3) := [(0,2),(0,1),(1,2)]
/-- 4 channels, 5 comparators. -/
def net4 : List (Fin 4 × Fin 4) := [(0,2),(1,3),(0,1),(2,3),(1,2)]
/-- 5 channels, 9 comparators. -/
def net5 : List (Fin 5 × Fin 5) := [(0,3),(1,4),(0,2),(1,3),(0,1),(2,4),(1,2),(3,4),(2,3)]
/-- 6 channels, 12 comparators. -/
def net6 : List (Fin 6 × Fin 6) :=
  [(0,5),(1,3),(2,4),(1,2),(3,4),(0,3),(2,5),(0,1),(2,3),(4,5),(1,2),(3,4)]
/-- 7 channels, 16 comparators. -/
def net7 : List (Fin 7 × Fin 7) :=
  [(0,6),(2,3),(4,5),(0,2),(1,4),(3,6),(0,1),(2,5),(3,4),(1,2),(4,6),(2,3),(4,5),(1,2),(3,4),(5,6)]
/-- 8 channels, 19 comparators. -/
def net8 : List (Fin 8 × Fin 8) :=
  [(0,2),(1,3),(4,6),(5,7),(0,4),(1,5),(2,6),(3,7),(0,1),(2,3),(4,5),(6,7),(2,4),(3,5),(1,4),(3,6),
   (1,2),(3,4),(5,6)]
/-- 9 channels, 25 comparators. -/
def net9 : List (Fin 9 × Fin 9) :=
  [(0,3),(1,7),(2,5),(4,8),(0,7),(2,4),(3,8),(5,6),(0,2),(1,3),(4,5),(7,8),(1,4),(3,6),(5,7),(0,1),
   (2,4),(3,5),(6,8),(2,3),(4,5),(6,7),(1,2),(3,4),(5,6)]
/-- 10 channels, 29 comparators. -/
def net10 : List (Fin 10 × Fin 10) :=
  [(0,8),(1,9),(2,7),(3,5),(4,6),(0,2),(1,4),(5,8),(7,9),(0,3),(2,4),(5,7),(6,9),(0,1),(3,6),(8,9),
   (1,5),(2,3),(4,8),(6,7),(1,2),(3,5),(4,6),(7,8),(2,3),(4,5),(6,7),(3,4),(5,6)]
/-- 11 channels, 35 comparators: the network `SORT_11` of the tests, `output_set.rs:694-703`. -/
def net11 : List (Fin 11 × Fin 11) :=
  [(0,9),(1,6),(2,4),(3,7),(5,8),(0,1),(3,5),(4,10),(6,9),(7,8),(1,3),(2,5),(4,7),(8,10),(0,4),(1,2),
   (3,7),(5,9),(6,8),(0,1),(2,6),(4,5),(7,8),(9,10),(2,4),(3,6),(5,7),(8,9),(1,2),(3,4),(5,6),(7,8),
   (2,3),(4,5),(6,7)]

theorem sorting3 : SortingNetwork 3 net3 := sortingNetwork_of_check (by decide +kernel)
theorem sorting4 : SortingNetwork 4 net4 := sortingNetwork_of_check (by decide +kernel)
theorem sorting5 : SortingNetwork 5 net5 := sortingNetwork_of_check (by decide +kernel)
theorem sorting6 : SortingNetwork 6 net6 := sortingNetwork_of_check (by decide +kernel)
theorem sorting7 : SortingNetwork 7 net7 := sortingNetwork_of_check (by decide +kernel)
theorem sorting8 : SortingNetwork 8 net8 := sortingNetwork_of_check (by decide +kernel)
theorem sorting9 : SortingNetwork 9 net9 := sortingNetwork_of_check (by decide +kernel)
theorem sorting10 : SortingNetwork 10 net10 := sortingNetwork_of_check (by decide +kernel)
theorem sorting11 : SortingNetwork 11 net11 := sortingNetwork_of_check (by decide +kernel)

end KnownBounds

end Sortnet
