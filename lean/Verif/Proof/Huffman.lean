import Verif.Model.Huffman
import Verif.Theory.Huffman

/-!
# The Huffman bounds of the search and of the reference checker
-/

namespace Sortnet

theorem heapPop_eq_none {l : List ℕ} : heapPop l = none ↔ l = [] := by
  cases l with
  | nil => simp [heapPop]
  | cons a l =>
    simp only [heapPop]
    split <;> (try split) <;> simp

theorem heapPop_spec {l : List ℕ} {x : ℕ} {xs : List ℕ} (h : heapPop l = some (x, xs)) :
    l.Perm (x :: xs) ∧ ∀ y ∈ xs, x ≤ y := by
  induction l generalizing x xs with
  | nil => simp [heapPop] at h
  | cons a l ih =>
    simp only [heapPop] at h
    split at h
    · next h0 =>
      rw [heapPop_eq_none] at h0
      subst h0
      simp only [Option.some.injEq, Prod.mk.injEq] at h
      obtain ⟨rfl, rfl⟩ := h
      simp
    · next y ys h0 =>
      obtain ⟨h1, h2⟩ := ih h0
      split at h
      · next hle =>
        simp only [Option.some.injEq, Prod.mk.injEq] at h
        obtain ⟨rfl, rfl⟩ := h
        refine ⟨h1.cons _, ?_⟩
        intro z hz
        rcases List.mem_cons.1 hz with rfl | hz
        · exact hle
        · exact hle.trans (h2 z hz)
      · next hle =>
        simp only [Option.some.injEq, Prod.mk.injEq] at h
        obtain ⟨rfl, rfl⟩ := h
        refine ⟨(h1.cons _).trans (List.Perm.swap _ _ _), ?_⟩
        intro z hz
        rcases List.mem_cons.1 hz with rfl | hz
        · omega
        · exact h2 z hz

/-- The heap based bound is the optimal merge value, and overflows only if that value does. -/
theorem maxPlus1Huffman_spec (l : List ℕ) (hne : l ≠ []) (hl : ∀ x ∈ l, x < 256) {v : ℕ} (hv : IsPsumLog l v) :
    maxPlus1Huffman l = if v < 256 then some v else none := by
  fun_induction maxPlus1Huffman l generalizing v with
  | case1 heap h => exact absurd (heapPop_eq_none.1 h) hne
  | case2 heap first heap1 h second heap2 h1 hlt ih =>
    obtain ⟨p1, m1⟩ := heapPop_spec h
    obtain ⟨p2, m2⟩ := heapPop_spec h1
    have hfs : first ≤ second := m1 second (p2.mem_iff.2 (by simp))
    have hp : heap.Perm (first :: second :: heap2) := p1.trans (p2.cons _)
    rw [max_eq_right hfs] at *
    apply ih (by simp)
    · intro x hx
      rcases List.mem_cons.1 hx with rfl | hx
      · exact hlt
      · exact hl x (hp.mem_iff.2 (by simp [hx]))
    · intro K
      rw [(hv.perm hp) K, psum_merge_le hfs m2]
  | case3 heap first heap1 h second heap2 h1 hlt =>
    obtain ⟨p1, m1⟩ := heapPop_spec h
    obtain ⟨p2, m2⟩ := heapPop_spec h1
    have hfs : first ≤ second := m1 second (p2.mem_iff.2 (by simp))
    have hp : heap.Perm (first :: second :: heap2) := p1.trans (p2.cons _)
    rw [max_eq_right hfs] at *
    rw [if_neg]
    intro hv'
    have h2 := ((hv.perm hp) 255).1 (by omega)
    have h3 := (psum_merge_le hfs m2 255).2 h2
    have h4 := two_pow_le_psum (bs := (second + 1) :: heap2) (b := second + 1) (by simp)
    have h5 := (Nat.pow_le_pow_iff_right (by norm_num : 1 < 2)).1 (h4.trans h3)
    omega
  | case4 heap first heap1 h h1 =>
    obtain ⟨p1, m1⟩ := heapPop_spec h
    rw [heapPop_eq_none] at h1
    subst h1
    have : v = first := (hv.perm p1).unique (isPsumLog_singleton first)
    subst this
    rw [if_pos]
    exact hl _ (p1.mem_iff.2 (by simp))

/-! ## Reference checker -/

/-- The elements of a queue. -/
def qexpand (q : List (ℕ × ℕ)) : List ℕ := q.flatMap fun e => List.replicate e.2 e.1

/-- Representation invariant: strictly sorted by key, positive counts. -/
def QInv (q : List (ℕ × ℕ)) : Prop := q.Pairwise (fun a b => a.1 < b.1) ∧ ∀ e ∈ q, 0 < e.2

theorem imInsertAdd_mem {k c : ℕ} {q : List (ℕ × ℕ)} {e : ℕ × ℕ} (h : e ∈ imInsertAdd k c q) :
    e.1 = k ∨ ∃ e' ∈ q, e'.1 = e.1 := by
  induction q with
  | nil => simp [imInsertAdd] at h; simp [h]
  | cons a q ih =>
    obtain ⟨k', c'⟩ := a
    simp only [imInsertAdd] at h
    split_ifs at h with h1 h2
    · rcases List.mem_cons.1 h with rfl | h
      · exact Or.inl rfl
      · exact Or.inr ⟨e, h, rfl⟩
    · rcases List.mem_cons.1 h with rfl | h
      · exact Or.inl rfl
      · exact Or.inr ⟨e, by simp [h], rfl⟩
    · rcases List.mem_cons.1 h with rfl | h
      · exact Or.inr ⟨_, by simp, rfl⟩
      · rcases ih h with h | ⟨e', he', h⟩
        · exact Or.inl h
        · exact Or.inr ⟨e', by simp [he'], h⟩

theorem imInsertAdd_spec {k c : ℕ} {q : List (ℕ × ℕ)} (hq : QInv q) (hc : 0 < c) :
    QInv (imInsertAdd k c q) ∧ (qexpand (imInsertAdd k c q)).Perm (List.replicate c k ++ qexpand q) := by
  induction q with
  | nil => simp [imInsertAdd, QInv, qexpand, hc]
  | cons a q ih =>
    obtain ⟨k', c'⟩ := a
    obtain ⟨h1, h2⟩ := hq
    rw [List.pairwise_cons] at h1
    have hq' : QInv q := ⟨h1.2, fun e he => h2 e (by simp [he])⟩
    obtain ⟨i1, i2⟩ := ih hq'
    simp only [imInsertAdd]
    split_ifs with hlt heq
    · refine ⟨⟨?_, ?_⟩, ?_⟩
      · rw [List.pairwise_cons, List.pairwise_cons]
        refine ⟨?_, h1⟩
        intro e he
        rcases List.mem_cons.1 he with rfl | he
        · exact hlt
        · exact hlt.trans (h1.1 e he)
      · intro e he
        rcases List.mem_cons.1 he with rfl | he
        · exact hc
        · exact h2 e he
      · simp [qexpand]
    · subst heq
      refine ⟨⟨?_, ?_⟩, ?_⟩
      · rw [List.pairwise_cons]; exact h1
      · intro e he
        rcases List.mem_cons.1 he with rfl | he
        · simp only; omega
        · exact h2 e (by simp [he])
      · rw [Nat.add_comm] ; simp only [qexpand, List.flatMap_cons, List.replicate_add, List.append_assoc]
        first | exact List.Perm.refl _ | (rw [← List.append_assoc, ← List.append_assoc]; exact List.Perm.append_right _ List.perm_append_comm)
    · refine ⟨⟨?_, ?_⟩, ?_⟩
      · rw [List.pairwise_cons]
        refine ⟨?_, i1.1⟩
        intro e he
        rcases imInsertAdd_mem he with h | ⟨e', he', h⟩
        · simp only; omega
        · rw [← h]; exact h1.1 e' he'
      · intro e he
        rcases List.mem_cons.1 he with rfl | he
        · exact h2 _ (by simp)
        · exact i1.2 e he
      · have : ∀ q, qexpand ((k', c') :: q) = List.replicate c' k' ++ qexpand q := by
          intro q; simp [qexpand]
        rw [this, this]
        refine (i2.append_left _).trans ?_
        rw [← List.append_assoc, ← List.append_assoc]
        exact List.Perm.append_right _ List.perm_append_comm

theorem imInsert_head {k c : ℕ} {q : List (ℕ × ℕ)} (h : ∀ e ∈ q, k < e.1) : imInsert k c q = (k, c) :: q := by
  cases q with
  | nil => rfl
  | cons a q =>
    obtain ⟨k', c'⟩ := a
    have := h (k', c') (by simp)
    simp only at this
    simp [imInsert, this]

theorem queuePop_spec {q : List (ℕ × ℕ)} (hq : QInv q) {i : ℕ} {q' : List (ℕ × ℕ)}
    (h : queuePop q = some (i, q')) :
    QInv q' ∧ qexpand q = i :: qexpand q' ∧ ∀ x ∈ qexpand q', i ≤ x := by
  cases q with
  | nil => simp [queuePop] at h
  | cons a q =>
    obtain ⟨k, c⟩ := a
    obtain ⟨h1, h2⟩ := hq
    rw [List.pairwise_cons] at h1
    have hc : 0 < c := h2 (k, c) (by simp)
    have hmin : ∀ x ∈ qexpand q, k ≤ x := by
      intro x hx
      simp only [qexpand, List.mem_flatMap, List.mem_replicate] at hx
      obtain ⟨e, he, _, rfl⟩ := hx
      exact (h1.1 e he).le
    simp only [queuePop, Option.some.injEq, Prod.mk.injEq] at h
    obtain ⟨rfl, rfl⟩ := h
    split_ifs with hlt
    · rw [imInsert_head h1.1]
      obtain ⟨d, rfl⟩ : ∃ d, c = d + 1 := ⟨c - 1, by omega⟩
      refine ⟨⟨?_, ?_⟩, ?_, ?_⟩
      · rw [List.pairwise_cons]; exact h1
      · intro e he
        rcases List.mem_cons.1 he with rfl | he
        · simp only; omega
        · exact h2 e (by simp [he])
      · simp [qexpand, List.replicate_succ]
      · intro x hx
        simp only [qexpand, List.flatMap_cons, List.mem_append, List.mem_replicate] at hx
        rcases hx with ⟨_, rfl⟩ | hx
        · exact le_rfl
        · exact hmin x hx
    · have : c = 1 := by omega
      subst this
      refine ⟨⟨h1.2, fun e he => h2 e (by simp [he])⟩, by simp [qexpand], hmin⟩

theorem queuePop_eq_none {q : List (ℕ × ℕ)} (hq : QInv q) : queuePop q = none ↔ qexpand q = [] := by
  cases q with
  | nil => simp [queuePop, qexpand]
  | cons a q =>
    have := hq.2 a (by simp)
    simp [queuePop, qexpand]
    intro h; omega

theorem huffmanBound'_spec (q : List (ℕ × ℕ)) (hq : QInv q) (hne : qexpand q ≠ []) {v : ℕ}
    (hv : IsPsumLog (qexpand q) v) : huffmanBound' q = some v := by
  fun_induction huffmanBound' q generalizing v with
  | case1 q h => exact absurd ((queuePop_eq_none hq).1 h) hne
  | case2 q item q' h h1 =>
    obtain ⟨i1, e1, m1⟩ := queuePop_spec hq h
    rw [queuePop_eq_none i1] at h1
    rw [e1, h1] at hv
    rw [hv.unique (isPsumLog_singleton item)]
  | case3 q item q' h item2 q'' h1 ih =>
    obtain ⟨i1, e1, m1⟩ := queuePop_spec hq h
    obtain ⟨i2, e2, m2⟩ := queuePop_spec i1 h1
    have hle : item ≤ item2 := m1 item2 (by rw [e2]; simp)
    rw [max_eq_right hle] at ih ⊢
    obtain ⟨i3, p3⟩ := imInsertAdd_spec (k := 1 + item2) (c := 1) i2 (by omega)
    have p3' : (qexpand (queuePush (1 + item2) q'')).Perm ((item2 + 1) :: qexpand q'') := by
      refine p3.trans ?_
      simp [Nat.add_comm]
    apply ih i3
    · intro h0
      have := p3'.length_eq
      rw [h0] at this
      simp at this
    · rw [e1, e2] at hv
      intro K
      rw [hv K, psum_perm p3', psum_merge_le hle m2]

theorem imFromListAdd_spec (bs : List ℕ) :
    QInv (imFromListAdd (bs.map fun k => (k, 1))) ∧
    (qexpand (imFromListAdd (bs.map fun k => (k, 1)))).Perm bs := by
  unfold imFromListAdd
  have : ∀ (bs : List ℕ) (m : List (ℕ × ℕ)), QInv m →
      QInv ((bs.map fun k => (k, 1)).foldl (fun m e => imInsertAdd e.1 e.2 m) m) ∧
      (qexpand ((bs.map fun k => (k, 1)).foldl (fun m e => imInsertAdd e.1 e.2 m) m)).Perm (bs ++ qexpand m) := by
    intro bs
    induction bs with
    | nil => intro m hm; exact ⟨hm, by simp⟩
    | cons b bs ih =>
      intro m hm
      obtain ⟨h1, h2⟩ := imInsertAdd_spec (k := b) (c := 1) hm (by omega)
      obtain ⟨h3, h4⟩ := ih _ h1
      refine ⟨h3, h4.trans ?_⟩
      refine (h2.append_left bs).trans ?_
      simp
  have h := this bs [] (by simp [QInv])
  simpa [qexpand] using h

/-- The reference implementation computes the optimal merge value. -/
theorem huffmanBound_spec (bs : List ℕ) (hne : bs ≠ []) {v : ℕ} (hv : IsPsumLog bs v) :
    huffmanBound bs = some v := by
  obtain ⟨h1, h2⟩ := imFromListAdd_spec bs
  refine huffmanBound'_spec _ h1 ?_ (hv.perm h2.symm)
  intro h
  rw [h] at h2
  exact hne (List.nil_perm.1 h2)

theorem huffmanBound_nil : huffmanBound [] = none := by
  decide +kernel

end Sortnet
