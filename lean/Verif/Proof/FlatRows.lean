import Verif.Model.FlatIndex

/-!
# Rows of flat vectors
-/

namespace Sortnet.Index.Flat

variable {α : Type} {k : ℕ}

/-- All elements have length `k`. -/
def Uniform (k : ℕ) (l : List (List α)) : Prop := ∀ x ∈ l, x.length = k

theorem Uniform.tail {x : List α} {l : List (List α)} (h : Uniform k (x :: l)) : Uniform k l :=
  fun y hy => h y (List.mem_cons_of_mem _ hy)

theorem Uniform.head {x : List α} {l : List (List α)} (h : Uniform k (x :: l)) : x.length = k :=
  h x (List.mem_cons_self ..)

theorem Uniform.set {l : List (List α)} (h : Uniform k l) {i : ℕ} {w : List α} (hw : w.length = k) :
    Uniform k (l.set i w) := by
  intro x hx
  rcases List.mem_or_eq_of_mem_set hx with hx | rfl
  · exact h x hx
  · exact hw

theorem Uniform.getElem? {l : List (List α)} (h : Uniform k l) {i : ℕ} {x : List α} (hx : l[i]? = some x) :
    x.length = k := h x (List.mem_of_getElem? hx)

theorem length_flatten {l : List (List α)} (h : Uniform k l) : l.flatten.length = l.length * k := by
  induction l with
  | nil => simp
  | cons x l ih =>
    rw [List.flatten_cons, List.length_append, ih h.tail, h.head, List.length_cons, Nat.add_mul]
    omega

theorem drop_flatten {l : List (List α)} (h : Uniform k l) (i : ℕ) :
    l.flatten.drop (i * k) = (l.drop i).flatten := by
  induction l generalizing i with
  | nil => simp
  | cons x l ih =>
    cases i with
    | zero => simp
    | succ i =>
      have e : (i + 1) * k = x.length + i * k := by rw [h.head, Nat.add_mul]; omega
      rw [List.flatten_cons, e, List.drop_length_add_append, ih h.tail, List.drop_succ_cons]

theorem take_flatten {l : List (List α)} (h : Uniform k l) (i : ℕ) :
    l.flatten.take (i * k) = (l.take i).flatten := by
  induction l generalizing i with
  | nil => simp
  | cons x l ih =>
    cases i with
    | zero => simp
    | succ i =>
      have e : (i + 1) * k = x.length + i * k := by rw [h.head, Nat.add_mul]; omega
      rw [List.flatten_cons, e, List.take_length_add_append, ih h.tail, List.take_succ_cons, List.flatten_cons]

theorem row_flatten (hk : 0 < k) {l : List (List α)} (h : Uniform k l) (i : ℕ) : row l.flatten k i = l[i]? := by
  unfold row
  rw [length_flatten h, drop_flatten h]
  by_cases hi : i < l.length
  · have h1 : (i + 1) * k ≤ l.length * k := Nat.mul_le_mul_right _ hi
    rw [Nat.add_mul] at h1
    rw [if_pos ⟨by omega, by omega⟩, List.getElem?_eq_getElem hi, List.drop_eq_getElem_cons hi, List.flatten_cons]
    have := h _ (List.getElem_mem hi)
    rw [List.take_append_of_le_length (by omega), List.take_of_length_le (by omega)]
  · rw [List.getElem?_eq_none (by omega), if_neg]
    rintro ⟨h1, h2⟩
    have h3 : (i + 1) * k ≤ l.length * k := by rw [Nat.add_mul]; omega
    have := Nat.le_of_mul_le_mul_right h3 hk
    omega

theorem span_flatten (hk : 0 < k) {l : List (List α)} (h : Uniform k l) (a b : ℕ) :
    span l.flatten (a * k) (b * k) = (span l a b).map List.flatten := by
  unfold span
  rw [length_flatten h, take_flatten h, drop_flatten (fun x hx => h x (List.mem_of_mem_take hx))]
  by_cases hc : a ≤ b ∧ b ≤ l.length
  · rw [if_pos hc, if_pos ⟨Nat.mul_le_mul_right _ hc.1, Nat.mul_le_mul_right _ hc.2⟩]
    rfl
  · rw [if_neg hc, if_neg]
    · rfl
    · rintro ⟨h1, h2⟩
      exact hc ⟨Nat.le_of_mul_le_mul_right h1 hk, Nat.le_of_mul_le_mul_right h2 hk⟩

theorem overwrite_flatten {l : List (List α)} (h : Uniform k l) {i : ℕ} (hi : i < l.length) {w : List α}
    (hw : w.length = k) : overwrite l.flatten (i * k) w = (l.set i w).flatten := by
  unfold overwrite
  have e : i * k + w.length = (i + 1) * k := by rw [hw, Nat.add_mul]; omega
  rw [take_flatten h, e, drop_flatten h, List.set_eq_take_append_cons_drop, if_pos hi, List.flatten_append,
    List.flatten_cons, List.append_assoc]

theorem getElem?_flatten {l : List (List α)} (h : Uniform k l) (i : ℕ) {d : ℕ} (hd : d < k) :
    l.flatten[i * k + d]? = l[i]?.bind (·[d]?) := by
  rw [← List.getElem?_drop, drop_flatten h]
  by_cases hi : i < l.length
  · rw [List.drop_eq_getElem_cons hi, List.flatten_cons, List.getElem?_append_left, List.getElem?_eq_getElem hi]
    · rfl
    · have := h _ (List.getElem_mem hi)
      omega
  · rw [List.drop_eq_nil_of_le (by omega), List.getElem?_eq_none (by omega : l.length ≤ i)]
    simp

theorem chunks_flatten (hk : 0 < k) {l : List (List α)} (h : Uniform k l) : chunks k l.flatten = l := by
  induction l with
  | nil => rw [chunks]; simp
  | cons x l ih =>
    have hx := h.head
    rw [chunks, dif_neg]
    · rw [List.flatten_cons, ← hx, List.take_left, List.drop_left, hx, ih h.tail]
    · rw [List.flatten_cons, List.length_append]
      omega

theorem swap_flatten {l : List (List α)} (h : Uniform k l) {i j : ℕ} (hij : i ≠ j) {a b : List α}
    (ha : l[i]? = some a) (hb : l[j]? = some b) :
    swapNonoverlapping l.flatten (i * k) (j * k) k = some ((l.set i b).set j a).flatten := by
  obtain ⟨hi, rfl⟩ := List.getElem?_eq_some_iff.1 ha
  obtain ⟨hj, rfl⟩ := List.getElem?_eq_some_iff.1 hb
  have hi1 : (i + 1) * k ≤ l.length * k := Nat.mul_le_mul_right _ hi
  have hj1 : (j + 1) * k ≤ l.length * k := Nat.mul_le_mul_right _ hj
  have hd : (i + 1) * k ≤ j * k ∨ (j + 1) * k ≤ i * k := by
    rcases Nat.lt_or_gt_of_ne hij with h1 | h1
    · exact Or.inl (Nat.mul_le_mul_right _ h1)
    · exact Or.inr (Nat.mul_le_mul_right _ h1)
  rw [Nat.add_mul, Nat.one_mul] at hi1 hj1
  rw [Nat.add_mul, Nat.add_mul, Nat.one_mul] at hd
  unfold swapNonoverlapping
  rw [length_flatten h, if_pos ⟨hi1, hj1, hd⟩]
  have ei : (l.flatten.drop (i * k)).take k = l[i] := by
    rw [drop_flatten h, List.drop_eq_getElem_cons hi, List.flatten_cons]
    have := h _ (List.getElem_mem hi)
    rw [List.take_append_of_le_length (by omega), List.take_of_length_le (by omega)]
  have ej : (l.flatten.drop (j * k)).take k = l[j] := by
    rw [drop_flatten h, List.drop_eq_getElem_cons hj, List.flatten_cons]
    have := h _ (List.getElem_mem hj)
    rw [List.take_append_of_le_length (by omega), List.take_of_length_le (by omega)]
  rw [ei, ej, overwrite_flatten h hi (h _ (List.getElem_mem hj)),
    overwrite_flatten (h.set (h _ (List.getElem_mem hj))) (by rw [List.length_set]; exact hj) (h _ (List.getElem_mem hi))]

theorem copy_flatten {l : List (List α)} (h : Uniform k l) {dst src : ℕ} (hij : dst ≠ src) (hd : dst < l.length)
    {a : List α} (ha : l[src]? = some a) :
    copyNonoverlapping l.flatten (src * k) (dst * k) k = some (l.set dst a).flatten := by
  obtain ⟨hi, rfl⟩ := List.getElem?_eq_some_iff.1 ha
  have hi1 : (src + 1) * k ≤ l.length * k := Nat.mul_le_mul_right _ hi
  have hj1 : (dst + 1) * k ≤ l.length * k := Nat.mul_le_mul_right _ hd
  have hdj : (src + 1) * k ≤ dst * k ∨ (dst + 1) * k ≤ src * k := by
    rcases Nat.lt_or_gt_of_ne hij with h1 | h1
    · exact Or.inr (Nat.mul_le_mul_right _ h1)
    · exact Or.inl (Nat.mul_le_mul_right _ h1)
  rw [Nat.add_mul, Nat.one_mul] at hi1 hj1
  rw [Nat.add_mul, Nat.add_mul, Nat.one_mul] at hdj
  unfold copyNonoverlapping
  rw [length_flatten h, if_pos ⟨hi1, hj1, hdj⟩]
  have ei : (l.flatten.drop (src * k)).take k = l[src] := by
    rw [drop_flatten h, List.drop_eq_getElem_cons hi, List.flatten_cons]
    have := h _ (List.getElem_mem hi)
    rw [List.take_append_of_le_length (by omega), List.take_of_length_le (by omega)]
  rw [ei, overwrite_flatten h hd (h _ (List.getElem_mem hi))]

theorem zipUpdate_eq (f : ℕ × ℕ → ℕ → ℕ × ℕ) : ∀ (rs : List (ℕ × ℕ)) (cs : List ℕ), rs.length = cs.length →
    zipUpdate f rs cs = List.zipWith f rs cs
  | [], [], _ => rfl
  | r :: rs, c :: cs, h => by
    rw [zipUpdate, List.zipWith_cons_cons, zipUpdate_eq f rs cs (by simpa using h)]
  | [], _ :: _, h => by simp at h
  | _ :: _, [], h => by simp at h

theorem zipUpdate_first : ∀ (rs : List (ℕ × ℕ)) (p q : List ℕ), rs.length = p.length →
    zipUpdate (fun _ c => (c, c)) rs (p ++ q) = p.map fun c => (c, c)
  | [], [], q, _ => by cases q <;> rfl
  | r :: rs, c :: p, q, h => by
    rw [List.cons_append, zipUpdate, List.map_cons, zipUpdate_first rs p q (by simpa using h)]
  | [], _ :: _, _, h => by simp at h
  | _ :: _, [], _, h => by simp at h

/-- The components of a bounding box. -/
def Box (dim : ℕ) (r : Ranges) : Prop := r.length = dim ∧ ∀ x ∈ r, x.1 ≤ x.2 ∧ x.2 ≤ 2 ^ 15

/-- A point. -/
def Pt (dim : ℕ) (p : List ℕ) : Prop := p.length = dim ∧ ∀ c ∈ p, c ≤ 2 ^ 15

theorem box_zipWith : ∀ {r : Ranges} {p : List ℕ} {dim : ℕ}, Box dim r → Pt dim p →
    Box dim (List.zipWith (fun r c => (min r.1 c, max r.2 c)) r p) := by
  intro r p dim hr hp
  refine ⟨by simp [hr.1, hp.1], ?_⟩
  intro x hx
  rw [List.mem_iff_getElem] at hx
  obtain ⟨i, hi, rfl⟩ := hx
  rw [List.length_zipWith] at hi
  rw [List.getElem_zipWith]
  have h1 := hr.2 _ (List.getElem_mem (show i < r.length by omega))
  have h2 := hp.2 _ (List.getElem_mem (show i < p.length by omega))
  dsimp only
  omega

theorem computeRanges_flatten {dim : ℕ} {ps : List (List ℕ)} (hp : ∀ p ∈ ps, Pt dim p) (hne : ps ≠ [])
    {r : Ranges} (h : Index.computeRanges dim ps = some r) :
    Box dim r ∧ computeRanges (List.replicate dim (0, 0)) ps.flatten = some r := by
  unfold Index.computeRanges at h
  split_ifs at h with hd
  cases ps with
  | nil => exact absurd rfl hne
  | cons p ps =>
    simp only [Option.some.injEq] at h
    have hp0 : Pt dim p := hp p (List.mem_cons_self ..)
    have hu : Uniform dim (p :: ps) := fun x hx => (hp x hx).1
    unfold computeRanges
    rw [List.flatten_cons, zipUpdate_first _ _ _ (by rw [List.length_replicate, hp0.1]), ← List.flatten_cons]
    dsimp only
    rw [List.length_map, hp0.1, if_neg hd, chunks_flatten (by omega) hu, List.drop_one, List.tail_cons, ← h]
    have key : ∀ (qs : List (List ℕ)) (r : Ranges), (∀ q ∈ qs, Pt dim q) → Box dim r →
        Box dim (qs.foldl (List.zipWith fun r c => (min r.1 c, max r.2 c)) r) ∧
        qs.foldl (fun ranges point => zipUpdate (fun r c => (min r.1 c, max r.2 c)) ranges point) r =
          qs.foldl (List.zipWith fun r c => (min r.1 c, max r.2 c)) r := by
      intro qs
      induction qs with
      | nil => intro r _ hr; exact ⟨hr, rfl⟩
      | cons q qs ih =>
        intro r hq hr
        have hq0 := hq q (List.mem_cons_self ..)
        have := ih (List.zipWith (fun r c => (min r.1 c, max r.2 c)) r q) (fun x hx => hq x (List.mem_cons_of_mem _ hx))
          (box_zipWith hr hq0)
        rw [List.foldl_cons, List.foldl_cons, zipUpdate_eq _ _ _ (by rw [hr.1, hq0.1])]
        exact this
    have hb : Box dim (p.map fun c => (c, c)) := by
      refine ⟨by simp [hp0.1], ?_⟩
      intro x hx
      obtain ⟨c, hc, rfl⟩ := List.mem_map.1 hx
      exact ⟨le_rfl, hp0.2 c hc⟩
    obtain ⟨h1, h2⟩ := key ps _ (fun x hx => hp x (List.mem_cons_of_mem _ hx)) hb
    exact ⟨h1, by rw [h2]⟩

end Sortnet.Index.Flat
