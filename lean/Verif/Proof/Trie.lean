import Verif.Model.Checker
import Mathlib.Data.List.Nodup
import Mathlib.Data.List.Perm.Basic

/-! # The vector tries of the verified checker implement finite sets of lists -/

namespace Sortnet.Checker

set_option linter.unusedSimpArgs false

/-- The elements of a trie in the order in which they are listed. -/
def elems : VectTrie → List (List Bool)
  | .empty => []
  | .node b lo hi =>
    (if b then [[]] else []) ++ ((elems lo).map (false :: ·) ++ (elems hi).map (true :: ·))

theorem listVtExtend_eq (a : VectTrie) (pre : List Bool → List Bool) (suf : List (List Bool)) :
    listVtExtend a pre suf = (elems a).map pre ++ suf := by
  induction a generalizing pre suf with
  | empty => rfl
  | node b lo hi ihlo ihhi =>
    cases b <;> simp [listVtExtend, elems, ihlo, ihhi, Function.comp_def]

theorem listVt_eq (a : VectTrie) : listVt a = elems a := by
  simp [listVt, listVtExtend_eq]

theorem mem_elems (a : VectTrie) (xs : List Bool) : xs ∈ elems a ↔ isMemberVt xs a = true := by
  induction a generalizing xs with
  | empty => simp [elems, isMemberVt]
  | node b lo hi ihlo ihhi =>
    match xs with
    | [] => cases b <;> simp [elems, isMemberVt]
    | false :: xs => cases b <;> simp [elems, isMemberVt, ihlo]
    | true :: xs => cases b <;> simp [elems, isMemberVt, ihhi]

theorem mem_listVt (a : VectTrie) (xs : List Bool) : xs ∈ listVt a ↔ isMemberVt xs a = true := by
  rw [listVt_eq, mem_elems]

theorem elems_nodup (a : VectTrie) : (elems a).Nodup := by
  induction a with
  | empty => simp [elems]
  | node b lo hi ihlo ihhi =>
    have h1 : ((elems lo).map (false :: ·)).Nodup := ihlo.map (by intro a b h; simpa using h)
    have h2 : ((elems hi).map (true :: ·)).Nodup := ihhi.map (by intro a b h; simpa using h)
    have h3 : ((elems lo).map (false :: ·) ++ (elems hi).map (true :: ·)).Nodup := by
      rw [List.nodup_append]
      refine ⟨h1, h2, ?_⟩
      intro a ha b hb
      simp only [List.mem_map] at ha hb
      obtain ⟨_, _, rfl⟩ := ha
      obtain ⟨_, _, rfl⟩ := hb
      simp
    cases b with
    | false => simpa [elems] using h3
    | true =>
      simp only [elems, if_true, List.singleton_append, List.nodup_cons]
      exact ⟨by simp, h3⟩

theorem listVt_nodup (a : VectTrie) : (listVt a).Nodup := by rw [listVt_eq]; exact elems_nodup a

theorem lengthVt_eq (a : VectTrie) : lengthVt a = (listVt a).length := by
  rw [listVt_eq]
  induction a with
  | empty => rfl
  | node b lo hi ihlo ihhi => cases b <;> simp [elems, lengthVt, ihlo, ihhi]

theorem isMemberVt_singleton (xs ys : List Bool) : isMemberVt xs (vtSingleton ys) = true ↔ xs = ys := by
  induction ys generalizing xs with
  | nil => cases xs with
    | nil => simp [vtSingleton, isMemberVt]
    | cons x xs => cases x <;> simp [vtSingleton, isMemberVt]
  | cons y ys ih =>
    cases y <;> (match xs with
      | [] => simp [vtSingleton, isMemberVt]
      | true :: xs => simp [vtSingleton, isMemberVt, ih]
      | false :: xs => simp [vtSingleton, isMemberVt, ih])

theorem isMemberVt_empty (xs : List Bool) : isMemberVt xs .empty = false := by
  match xs with
  | [] => rfl
  | true :: _ => rfl
  | false :: _ => rfl

theorem vtUnion_empty_right (a : VectTrie) : vtUnion a .empty = a := by cases a <;> rfl
theorem vtUnion_empty_left (a : VectTrie) : vtUnion .empty a = a := by cases a <;> rfl

theorem isMemberVt_union (xs : List Bool) (a b : VectTrie) :
    isMemberVt xs (vtUnion a b) = (isMemberVt xs a || isMemberVt xs b) := by
  induction a generalizing xs b with
  | empty => simp [vtUnion_empty_left, isMemberVt_empty]
  | node v lo hi ihlo ihhi =>
    cases b with
    | empty => simp [vtUnion_empty_right, isMemberVt_empty]
    | node w lo' hi' =>
      match xs with
      | [] => rfl
      | true :: xs => simp [vtUnion, isMemberVt, ihhi]
      | false :: xs => simp [vtUnion, isMemberVt, ihlo]

theorem isMemberVt_fold (xs : List Bool) (ls : List (List Bool)) (a : VectTrie) :
    isMemberVt xs (fold (vtUnion ∘ vtSingleton) ls a) = true ↔ xs ∈ ls ∨ isMemberVt xs a = true := by
  induction ls generalizing a with
  | nil => simp [fold]
  | cons l ls ih =>
    simp only [fold, ih, Function.comp, isMemberVt_union, Bool.or_eq_true, isMemberVt_singleton,
      List.mem_cons]
    tauto

theorem isMemberVt_vtList (xs : List Bool) (ls : List (List Bool)) :
    isMemberVt xs (vtList ls) = true ↔ xs ∈ ls := by
  simp [vtList, isMemberVt_fold, isMemberVt_empty]

theorem isSubsetVt_iff (a b : VectTrie) :
    isSubsetVt a b = true ↔ ∀ xs, isMemberVt xs a = true → isMemberVt xs b = true := by
  induction a generalizing b with
  | empty => simp [isSubsetVt, isMemberVt_empty]
  | node v lo hi ihlo ihhi =>
    have key : ∀ (lo' hi' : VectTrie) (w : Bool),
        (∀ xs, isMemberVt xs (.node v lo hi) = true → isMemberVt xs (.node w lo' hi') = true) ↔
        ((v = true → w = true) ∧ (∀ xs, isMemberVt xs lo = true → isMemberVt xs lo' = true) ∧
          ∀ xs, isMemberVt xs hi = true → isMemberVt xs hi' = true) := by
      intro lo' hi' w
      constructor
      · intro h
        exact ⟨h [], fun xs => h (false :: xs), fun xs => h (true :: xs)⟩
      · rintro ⟨h1, h2, h3⟩ xs
        match xs with
        | [] => exact h1
        | false :: xs => exact h2 xs
        | true :: xs => exact h3 xs
    have hE : ∀ xs, isMemberVt xs .empty = isMemberVt xs (.node false .empty .empty) := by
      intro xs
      match xs with
      | [] => rfl
      | false :: xs => simp [isMemberVt, isMemberVt_empty]
      | true :: xs => simp [isMemberVt, isMemberVt_empty]
    cases b with
    | empty =>
      simp only [hE, key]
      cases v <;> simp [isSubsetVt, ihlo, ihhi, hE]
    | node w lo' hi' =>
      rw [key]
      cases v <;> cases w <;> simp [isSubsetVt, ihlo, ihhi]

/-- Membership after removing channel `i`: short lists stay, long lists lose their entry `i`, which
must be `!pol`. -/
theorem isMemberVt_prune (pol : Bool) (i : ℕ) (a : VectTrie) (xs : List Bool) :
    isMemberVt xs (pruneExtremalVt pol i a) = true ↔
      (xs.length < i ∧ isMemberVt xs a = true) ∨
        (i ≤ xs.length ∧ isMemberVt (xs.take i ++ (!pol) :: xs.drop i) a = true) := by
  induction a generalizing i xs with
  | empty => simp [pruneExtremalVt, isMemberVt_empty]
  | node b lo hi ihlo ihhi =>
    by_cases hi0 : i = 0
    · subst hi0
      cases pol <;> simp [pruneExtremalVt, isMemberVt]
    · obtain ⟨j, rfl⟩ : ∃ j, i = j + 1 := ⟨i - 1, by omega⟩
      cases pol <;> (match xs with
        | [] => simp [pruneExtremalVt, isMemberVt]
        | true :: xs => simp [pruneExtremalVt, isMemberVt, ihhi]
        | false :: xs => simp [pruneExtremalVt, isMemberVt, ihlo])

theorem mem_permuteVt (u : Undef) (ps : List ℕ) (a : VectTrie) (xs : List Bool) :
    isMemberVt xs (permuteVt u ps a) = true ↔
      ∃ ys, isMemberVt ys a = true ∧ permuteListVect u ps ys = xs := by
  simp [permuteVt, isMemberVt_vtList, mem_listVt]

theorem mem_invertVt (z : Bool) (a : VectTrie) (xs : List Bool) :
    isMemberVt xs (invertVt z a) = true ↔
      ∃ ys, isMemberVt ys a = true ∧ (if z then ys.map not else ys) = xs := by
  cases z <;> simp [invertVt, isMemberVt_vtList, mem_listVt]

end Sortnet.Checker
