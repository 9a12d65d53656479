import Verif.Theory.Token
import Mathlib.Data.Fin.SuccPred
import Mathlib.Logic.Equiv.Fin.Basic
import Mathlib.Data.Fintype.Card
import Mathlib.Data.Fintype.Pi
import Mathlib.Data.Finset.Max
import Mathlib.Data.Fin.VecNotation

/-! # Lists of Booleans as vectors, and counting -/

namespace Sortnet

set_option linter.unusedSimpArgs false

/-- A list of Booleans as a vector (missing entries are false). -/
def vec (n : ℕ) (l : List Bool) : Fin n → Bool := fun i => l.getD i false

/-- A set of lists as a set of vectors. -/
def vset (n : ℕ) (S : Set (List Bool)) : Set (Fin n → Bool) := vec n '' S

theorem vec_injOn {n : ℕ} {l l' : List Bool} (h : l.length = n) (h' : l'.length = n)
    (e : vec n l = vec n l') : l = l' := by
  apply List.ext_getElem (by omega)
  intro i h1 h2
  have := congrFun e ⟨i, by omega⟩
  simpa [vec, List.getD_eq_getElem?_getD, h1, h2] using this

theorem vec_ofFn {n : ℕ} (x : Fin n → Bool) : vec n (List.ofFn x) = x := by
  funext k
  simp [vec, List.getD_eq_getElem?_getD]

theorem ofFn_vec {n : ℕ} {l : List Bool} (h : l.length = n) : List.ofFn (vec n l) = l := by
  apply List.ext_getElem
  · simp [h]
  · intro k h1 h2
    simp [vec, List.getD_eq_getElem?_getD, h2]

theorem vset_eq {n : ℕ} {S : Set (List Bool)} (h : ∀ l ∈ S, l.length = n) :
    vset n S = {x | List.ofFn x ∈ S} := by
  ext x
  constructor
  · rintro ⟨l, hl, rfl⟩
    show List.ofFn (vec n l) ∈ S
    rw [ofFn_vec (h l hl)]; exact hl
  · intro hx
    exact ⟨_, hx, vec_ofFn x⟩

/-- The number of true channels. -/
def weight {n : ℕ} (x : Fin n → Bool) : ℕ := (Finset.univ.filter fun i => x i = true).card

theorem weight_le {n : ℕ} (x : Fin n → Bool) : weight x ≤ n := by
  have := Finset.card_le_univ (Finset.univ.filter fun i => x i = true)
  simpa [weight] using this

theorem weight_mono {n : ℕ} {x y : Fin n → Bool} (h : x ≤ y) : weight x ≤ weight y := by
  apply Finset.card_le_card
  intro i hi
  simp only [Finset.mem_filter, Finset.mem_univ, true_and] at *
  have := h i
  rw [hi] at this
  exact Bool.eq_true_of_true_le this

theorem eq_of_le_of_weight {n : ℕ} {x y : Fin n → Bool} (h : x ≤ y) (hw : weight x = weight y) :
    x = y := by
  have hsub : (Finset.univ.filter fun i => x i = true) ⊆ (Finset.univ.filter fun i => y i = true) := by
    intro i hi
    simp only [Finset.mem_filter, Finset.mem_univ, true_and] at *
    have := h i
    rw [hi] at this
    exact Bool.eq_true_of_true_le this
  have heq := Finset.eq_of_subset_of_card_le hsub (by unfold weight at hw; omega)
  funext i
  have := congrArg (fun S => i ∈ S) heq
  simp only [Finset.mem_filter, Finset.mem_univ, true_and, eq_iff_iff] at this
  cases hx : x i <;> cases hy : y i <;> simp_all

/-- A totally ordered set of vectors of width `n` has at most `n + 1` elements. -/
theorem card_le_of_isChain {n : ℕ} (S : Finset (Fin n → Bool))
    (h : IsChain (· ≤ ·) (S : Set (Fin n → Bool))) : S.card ≤ n + 1 := by
  have : S.card ≤ (Finset.range (n + 1)).card := by
    apply Finset.card_le_card_of_injOn weight
    · intro x _
      have := weight_le x
      simp; omega
    · intro x hx y hy hxy
      rcases h.total hx hy with h1 | h1
      · exact eq_of_le_of_weight h1 hxy
      · exact (eq_of_le_of_weight h1 hxy.symm).symm
  simpa using this

/-- List version of `card_le_of_isChain`. -/
theorem not_isChain_of_length {n : ℕ} (ls : List (List Bool)) (hnd : ls.Nodup)
    (hlen : ∀ l ∈ ls, l.length = n) (h : n + 1 < ls.length) :
    ¬ IsChain (· ≤ ·) (vset n {l | l ∈ ls}) := by
  intro hc
  have hnd' : (ls.map (vec n)).Nodup := by
    rw [List.nodup_map_iff_inj_on hnd]
    intro x hx y hy e
    exact vec_injOn (hlen x hx) (hlen y hy) e
  have hset : (((ls.map (vec n)).toFinset : Finset _) : Set (Fin n → Bool)) = vset n {l | l ∈ ls} := by
    ext x; simp [vset]
  have := card_le_of_isChain (ls.map (vec n)).toFinset (by rw [hset]; exact hc)
  rw [List.toFinset_card_of_nodup hnd'] at this
  simp at this
  omega

theorem vec_eraseIdx {m : ℕ} (l : List Bool) (i : Fin (m + 1)) (k : Fin m) :
    vec m (l.eraseIdx i) k = vec (m + 1) l (i.succAbove k) := by
  simp only [vec, List.getD_eq_getElem?_getD, List.getElem?_eraseIdx, Fin.succAbove]
  by_cases h : k.castSucc < i
  · have h' : (k : ℕ) < (i : ℕ) := h
    simp [h, h']
  · have h' : ¬ (k : ℕ) < (i : ℕ) := h
    simp [h, h']

/-- Removing a channel from lists corresponds to `pruneSet`. -/
theorem LB_pruneSet_iff {m : ℕ} (v : Bool) (i : Fin (m + 1)) (A : Set (Fin (m + 1) → Bool)) (k : ℕ) :
    LB (pruneSet v i A) k ↔
      LB ((fun x : Fin (m + 1) → Bool => fun k : Fin m => x (i.succAbove k)) '' {x ∈ A | x i = v}) k := by
  rw [← LB_equiv (finSuccAboveEquiv i) (A := pruneSet v i A)]
  have : (fun x : {k // k ≠ i} → Bool => x ∘ (finSuccAboveEquiv i)) '' pruneSet v i A =
      (fun x : Fin (m + 1) → Bool => fun k : Fin m => x (i.succAbove k)) '' {x ∈ A | x i = v} := by
    ext y
    constructor
    · rintro ⟨_, ⟨x, hx, hv, rfl⟩, rfl⟩
      exact ⟨x, ⟨hx, hv⟩, rfl⟩
    · rintro ⟨x, ⟨hx, hv⟩, rfl⟩
      exact ⟨_, ⟨x, hx, hv, rfl⟩, rfl⟩
  rw [this]

/-- If related elements of two lists have no duplicates on the left, the relation is a function. -/
theorem exists_fun_of_forall₂ {α : Type*} [DecidableEq α] {β : Type*} [Inhabited β] {R : α → β → Prop}
    {as : List α} {bs : List β} (h : List.Forall₂ R as bs) (hnd : as.Nodup) :
    ∃ f : α → β, bs = as.map f ∧ ∀ a ∈ as, R a (f a) := by
  induction h with
  | nil => exact ⟨fun _ => default, rfl, by simp⟩
  | cons hab _ ih =>
    rename_i a b as bs _
    obtain ⟨hna, hnd⟩ := List.nodup_cons.1 hnd
    obtain ⟨f, hf, hR⟩ := ih hnd
    refine ⟨Function.update f a b, ?_, ?_⟩
    · simp only [List.map_cons, Function.update_self, List.cons.injEq, true_and]
      rw [hf]
      apply List.map_congr_left
      intro x hx
      rw [Function.update_of_ne]
      rintro rfl; exact hna hx
    · intro x hx
      rcases List.mem_cons.1 hx with rfl | hx'
      · simpa using hab
      · rw [Function.update_of_ne]
        · exact hR x hx'
        · rintro rfl; exact hna hx'

theorem forall₂_exists_right {α β : Type*} {R : α → β → Prop} {as : List α} {bs : List β}
    (h : List.Forall₂ R as bs) {a : α} (ha : a ∈ as) : ∃ b ∈ bs, R a b := by
  induction h with
  | nil => simp at ha
  | cons hab _ ih =>
    rcases List.mem_cons.1 ha with rfl | ha
    · exact ⟨_, by simp, hab⟩
    · obtain ⟨b, hb, hr⟩ := ih ha
      exact ⟨b, by simp [hb], hr⟩

/-- The Huffman bound, list version: `cs` lists channels whose extremal vector is in `A`, `bs` gives
lower bounds for the sets obtained by pruning them. -/
theorem LB_huffman_list {ι : Type*} [DecidableEq ι] {A : Set (ι → Bool)} (v : Bool) (cs : List ι)
    (bs : List ℕ) (hnd : cs.Nodup) (hne : cs ≠ [])
    (hS : ∀ c ∈ cs, (fun k => if k = c then v else !v) ∈ A)
    (hb : List.Forall₂ (fun c b => LB (pruneSet v c A) b) cs bs) {w : ℕ} (hw : IsPsumLog bs w) :
    LB A w := by
  obtain ⟨f, rfl, hf⟩ := exists_fun_of_forall₂ hb hnd
  refine LB_huffman v cs.toFinset f (by simpa using hS) (by simpa using hf) ?_ ?_
  · obtain ⟨c, hc⟩ := List.exists_mem_of_ne_nil _ hne
    exact ⟨c, by simpa using hc⟩
  · intro K hK
    rw [hw K]
    rw [List.sum_toFinset _ hnd] at hK
    simpa [psum, Function.comp_def] using hK

end Sortnet
