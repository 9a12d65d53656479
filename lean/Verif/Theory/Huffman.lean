import Verif.Spec.Huffman
import Mathlib.Data.List.Sort
import Mathlib.Algebra.BigOperators.Group.List.Basic
import Mathlib.Algebra.BigOperators.Group.List.Lemmas
import Mathlib.Algebra.Ring.Nat
import Mathlib.Tactic.Ring
import Mathlib.Tactic.Linarith
import Mathlib.Tactic.Common
import Mathlib.Data.Nat.Log

/-! # Optimal max-plus-one merging: the power-sum characterisation -/

namespace Sortnet

/-- `Σ 2 ^ b`. -/
def psum (bs : List ℕ) : ℕ := (bs.map (2 ^ ·)).sum

@[simp] theorem psum_nil : psum [] = 0 := rfl
@[simp] theorem psum_cons (b : ℕ) (bs) : psum (b :: bs) = 2 ^ b + psum bs := by simp [psum]
@[simp] theorem psum_append (as bs) : psum (as ++ bs) = psum as + psum bs := by simp [psum]

theorem psum_perm {as bs : List ℕ} (h : as.Perm bs) : psum as = psum bs :=
  List.Perm.sum_eq (h.map _)

theorem psum_pos {bs : List ℕ} (h : bs ≠ []) : 0 < psum bs := by
  cases bs with
  | nil => exact absurd rfl h
  | cons b bs => simp

theorem two_pow_le_psum {bs : List ℕ} {b : ℕ} (h : b ∈ bs) : 2 ^ b ≤ psum bs := by
  induction bs with
  | nil => simp at h
  | cons a bs ih =>
    simp only [psum_cons]
    rcases List.mem_cons.1 h with rfl | h
    · omega
    · exact (ih h).trans (Nat.le_add_left _ _)

theorem dvd_psum {bs : List ℕ} {b : ℕ} (h : ∀ x ∈ bs, b ≤ x) : 2 ^ b ∣ psum bs := by
  induction bs with
  | nil => simp
  | cons a bs ih =>
    simp only [psum_cons]
    exact Nat.dvd_add (pow_dvd_pow 2 (h a (by simp))) (ih fun x hx => h x (by simp [hx]))

/-- Merging the two smallest numbers does not change which powers of two bound the power sum. -/
theorem psum_merge_le {a b : ℕ} {bs : List ℕ} (hab : a ≤ b) (hb : ∀ x ∈ bs, b ≤ x) (K : ℕ) :
    psum ((b + 1) :: bs) ≤ 2 ^ K ↔ psum (a :: b :: bs) ≤ 2 ^ K := by
  simp only [psum_cons]
  obtain ⟨s, hs⟩ := dvd_psum hb
  rw [hs]
  have h2 : (2 : ℕ) ^ a ≤ 2 ^ b := Nat.pow_le_pow_right (by norm_num) hab
  have h2' : 0 < (2 : ℕ) ^ a := by positivity
  constructor
  · intro h
    rw [pow_succ] at h
    omega
  · intro h
    have hbK : b ≤ K := by
      by_contra hc
      have : (2 : ℕ) ^ K < 2 ^ b := Nat.pow_lt_pow_right (by norm_num) (by omega)
      omega
    obtain ⟨d, rfl⟩ := Nat.exists_eq_add_of_le hbK
    rw [pow_add] at h
    have h3 : 2 ^ b * (1 + s) < 2 ^ b * 2 ^ d := by
      have : 2 ^ b * (1 + s) = 2 ^ b + 2 ^ b * s := by ring
      omega
    have h4 : 1 + s < 2 ^ d := lt_of_mul_lt_mul_left h3 (by positivity)
    have h5 : 2 ^ b * (2 + s) ≤ 2 ^ b * 2 ^ d := Nat.mul_le_mul_left _ (by omega)
    calc 2 ^ (b + 1) + 2 ^ b * s = 2 ^ b * (2 + s) := by ring
      _ ≤ 2 ^ b * 2 ^ d := h5
      _ = 2 ^ (b + d) := by ring

namespace MergeTree

theorem psum_leaves_le (t : MergeTree) : psum t.leaves ≤ 2 ^ t.value := by
  induction t with
  | leaf b => simp [leaves, value]
  | node l r ihl ihr =>
    simp only [leaves, value, psum_append, pow_succ]
    have h1 : 2 ^ l.value ≤ 2 ^ max l.value r.value := Nat.pow_le_pow_right (by norm_num) (le_max_left _ _)
    have h2 : 2 ^ r.value ≤ 2 ^ max l.value r.value := Nat.pow_le_pow_right (by norm_num) (le_max_right _ _)
    omega

theorem leaves_ne_nil (t : MergeTree) : t.leaves ≠ [] := by
  induction t with
  | leaf b => simp [leaves]
  | node l r ihl ihr => simp [leaves, ihl]

end MergeTree

/-- `v` is the least number whose power of two bounds the power sum. -/
def IsPsumLog (bs : List ℕ) (v : ℕ) : Prop := ∀ K, v ≤ K ↔ psum bs ≤ 2 ^ K

theorem IsPsumLog.unique {bs : List ℕ} {v w : ℕ} (h : IsPsumLog bs v) (h' : IsPsumLog bs w) : v = w :=
  le_antisymm ((h w).2 ((h' w).1 le_rfl)) ((h' v).2 ((h v).1 le_rfl))

theorem isPsumLog_clog {bs : List ℕ} : IsPsumLog bs (Nat.clog 2 (psum bs)) := by
  intro K
  exact Nat.clog_le_iff_le_pow (by norm_num)

theorem IsPsumLog.perm {as bs : List ℕ} {v : ℕ} (h : as.Perm bs) (ha : IsPsumLog as v) :
    IsPsumLog bs v := by
  intro K; rw [ha K, psum_perm h]

theorem isPsumLog_singleton (b : ℕ) : IsPsumLog [b] b := by
  intro K
  simp only [psum_cons, psum_nil, Nat.add_zero]
  exact (Nat.pow_le_pow_iff_right (by norm_num)).symm

theorem isPsumLog_merge {a b v : ℕ} {bs : List ℕ} (hab : a ≤ b) (hb : ∀ x ∈ bs, b ≤ x)
    (h : IsPsumLog ((b + 1) :: bs) v) : IsPsumLog (a :: b :: bs) v := by
  intro K
  rw [h K, psum_merge_le hab hb]

/-- Auxiliary: merging trees whose values are the given list. -/
theorem exists_tree_of_forest (ts : List MergeTree) (hne : ts ≠ []) :
    ∃ t : MergeTree, t.leaves.Perm (ts.flatMap MergeTree.leaves) ∧
      IsPsumLog (ts.map MergeTree.value) t.value := by
  induction hn : ts.length using Nat.strong_induction_on generalizing ts with
  | _ n ih =>
    subst hn
    let r : MergeTree → MergeTree → Bool := fun a b => decide (a.value ≤ b.value)
    have hperm : (ts.mergeSort r).Perm ts := List.mergeSort_perm ts r
    have hsort : (ts.mergeSort r).Pairwise (fun a b => r a b) :=
      List.pairwise_mergeSort (by intro a b c; simp [r]; omega) (by intro a b; simp [r]; omega) ts
    match hts : ts.mergeSort r with
    | [] => rw [hts] at hperm; exact absurd hperm.symm.eq_nil hne
    | [t] =>
      rw [hts] at hperm
      have : ts = [t] := List.perm_singleton.1 hperm.symm
      subst this
      exact ⟨t, by simp, by simpa using isPsumLog_singleton _⟩
    | t1 :: t2 :: rest =>
      rw [hts] at hperm hsort
      have hlen : ts.length = rest.length + 2 := by rw [← hperm.length_eq]; simp
      obtain ⟨t, ht1, ht2⟩ := ih (rest.length + 1) (by omega) (MergeTree.node t1 t2 :: rest)
        (by simp) (by simp)
      refine ⟨t, ?_, ?_⟩
      · refine ht1.trans ?_
        refine List.Perm.trans ?_ (hperm.flatMap_right _)
        simp [MergeTree.leaves]
      · refine IsPsumLog.perm (hperm.map _) ?_
        simp only [List.map_cons]
        simp only [List.pairwise_cons, r, decide_eq_true_eq, List.mem_cons, forall_eq_or_imp] at hsort
        apply isPsumLog_merge hsort.1.1
        · intro x hx
          obtain ⟨y, hy, rfl⟩ := List.mem_map.1 hx
          exact hsort.2.1 y hy
        · have := ht2
          simp only [List.map_cons, MergeTree.value, max_eq_right hsort.1.1] at this
          exact this

/-- The optimum of merging is the logarithm of the power sum. -/
theorem isOptMerge_iff {bs : List ℕ} (hne : bs ≠ []) {v : ℕ} : IsOptMerge bs v ↔ IsPsumLog bs v := by
  obtain ⟨t, ht1, ht2⟩ := exists_tree_of_forest (bs.map MergeTree.leaf) (by simpa using hne)
  have e1 : (bs.map MergeTree.leaf).flatMap MergeTree.leaves = bs := by
    induction bs with
    | nil => rfl
    | cons b bs ih =>
      by_cases h : bs = []
      · subst h; simp [MergeTree.leaves]
      · simp [MergeTree.leaves, List.flatMap_map]
  have e2 : (bs.map MergeTree.leaf).map MergeTree.value = bs := by
    simp [Function.comp_def, MergeTree.value]
  rw [e1] at ht1
  rw [e2] at ht2
  have hopt : IsOptMerge bs t.value := by
    refine ⟨⟨t, ht1, rfl⟩, fun t' ht' => ?_⟩
    rw [ht2, ← psum_perm ht']
    exact t'.psum_leaves_le
  constructor
  · intro h
    have : v = t.value := by
      obtain ⟨⟨t', h1, h2⟩, h3⟩ := h
      exact le_antisymm (h3 t ht1) (h2 ▸ hopt.2 t' h1)
    rw [this]; exact ht2
  · intro h
    rw [h.unique ht2]; exact hopt

/-- Merge optimum, as a function (only meaningful for non-empty lists). -/
def optMerge (bs : List ℕ) : ℕ := Nat.clog 2 (psum bs)

theorem isOptMerge_optMerge {bs : List ℕ} (h : bs ≠ []) : IsOptMerge bs (optMerge bs) :=
  (isOptMerge_iff h).2 isPsumLog_clog

theorem psum_le_psum {as bs : List ℕ} (h : List.Forall₂ (· ≤ ·) as bs) : psum as ≤ psum bs := by
  induction h with
  | nil => simp
  | cons h _ ih =>
    simp only [psum_cons]
    exact Nat.add_le_add (Nat.pow_le_pow_right (by norm_num) h) ih

theorem IsPsumLog.mono {as bs : List ℕ} {v w : ℕ} (h : psum as ≤ psum bs) (ha : IsPsumLog as v)
    (hb : IsPsumLog bs w) : v ≤ w :=
  (ha w).2 (h.trans ((hb w).1 le_rfl))

end Sortnet
