import Verif.Proof.IndexHistory

/-!
# C23: a lookup returns the best matching bound
-/

namespace Sortnet

open Index

variable {n : ℕ}

/-- C23.  Take an index for sets on two to `MAX_CHANNELS` channels after any history of insertions
(`insert_with_abstraction` and `insert_new_unchecked_with_abstraction` in any order) that did not
panic.  For every query the lookup returns, and the result is the best bound over all inserted pairs
whose set is relevant for the query, or `None` if there is no such pair.  In particular neither the
pruning of tree nodes nor the removal of redundant entries nor the rebuilding of trees changes an
answer. -/
theorem C23_lookup_best (h2 : 2 ≤ n) (hn : n ≤ 11) (d : Dir) (ops : List (Op n)) (idx : OutputSetIndex n)
    (h : history d n ops = some idx) (q : Bitmap n) (abs : List ℕ) (ha : q.abstraction = some abs) :
    ∃ r, idx.lookup d q abs = some r ∧ IsBest d (ops.map Op.pair) q.toSet r := by
  obtain ⟨C, h1, h3⟩ := history_spec h2 hn h
  rw [abstraction_absOf (by omega) hn] at ha
  obtain rfl := Option.some.inj ha
  obtain ⟨r, g1, g2⟩ := lookup_spec (by omega) hn h1 d q
  exact ⟨r, g1, h3.isBest g2⟩

/-- A history that uses only one of the two insertion functions, like all code in the project, does
not panic, and every query has an abstraction: the hypotheses of `C23_lookup_best` are met. -/
theorem C23_history_total (h2 : 2 ≤ n) (hn : n ≤ 11) (d : Dir) (ps : List (Bitmap n × ℕ)) :
    (∃ idx, history d n (ps.map fun p => .insert p.1 p.2) = some idx) ∧
    (∃ idx, history d n (ps.map fun p => .insertNew p.1 p.2) = some idx) ∧
    ∀ q : Bitmap n, ∃ abs, q.abstraction = some abs := by
  obtain ⟨idx, _, h, _⟩ := history_insert h2 hn d ps
  obtain ⟨idx', h', _⟩ := history_insertNew h2 hn d ps
  exact ⟨⟨idx, h⟩, ⟨idx', h'⟩, fun q => ⟨_, abstraction_absOf (by omega) hn q⟩⟩

/-- The best bound is determined by the inserted pairs. -/
theorem IsBest.unique {d : Dir} {H : List (Bitmap n × ℕ)} {Q : Set (Fin n → Bool)} {r r' : Option ℕ}
    (h : IsBest d H Q r) (h' : IsBest d H Q r') : r = r' := by
  cases r with
  | none =>
    cases r' with
    | none => rfl
    | some v => obtain ⟨⟨p, h1, _, h3⟩, _⟩ := h'; exact absurd h3 (h p h1)
  | some v =>
    cases r' with
    | none => obtain ⟨⟨p, h1, _, h3⟩, _⟩ := h; exact absurd h3 (h' p h1)
    | some w =>
      obtain ⟨⟨p, h1, rfl, h3⟩, h4⟩ := h
      obtain ⟨⟨p', k1, rfl, k3⟩, k4⟩ := h'
      have a := h4 p' k1 k3
      have b := k4 p h1 h3
      congr 1
      cases d <;> exact Nat.le_antisymm (by assumption) (by assumption)

/-- Sets on three channels: `C23_a` is `{000, 100}`, `C23_b` is `{000, 010, 001}`, so a permuted version
of `C23_a` is included in `C23_b`. -/
def C23_a : Bitmap 3 := fun x => x == 0#3 || x == 1#3
def C23_b : Bitmap 3 := fun x => x == 0#3 || x == 2#3 || x == 4#3

/-- A concrete history: after inserting `C23_b` with the lower bound 2 and `C23_a` with 3, the lower
bound found for `C23_b` is 3, although the bound stored for it is 2; the search for `C23_a` gives 3. -/
example : ∃ idx abs, history .lower 3 [.insert C23_b 2, .insert C23_a 3] = some idx ∧
    C23_b.abstraction = some abs ∧ idx.lookup .lower C23_b abs = some (some 3) := by
  obtain ⟨idx, h⟩ := (C23_history_total (by norm_num) (by norm_num) .lower [(C23_b, 2), (C23_a, 3)]).1
  obtain ⟨abs, ha⟩ := (C23_history_total (by norm_num) (by norm_num) .lower ([] : List (Bitmap 3 × ℕ))).2.2 C23_b
  obtain ⟨r, h1, h2⟩ := C23_lookup_best (by norm_num) (by norm_num) .lower _ idx h C23_b abs ha
  refine ⟨idx, abs, h, ha, ?_⟩
  rw [h1]
  congr 1
  refine IsBest.unique h2 ⟨⟨(C23_a, 3), by simp [Op.pair], rfl, Equiv.swap 0 1, ?_⟩, ?_⟩
  · exact (permSet_subset_iff _ _ _).2 (by decide +kernel)
  · intro p hp _
    simp only [Op.pair, List.map_cons, List.map_nil, List.mem_cons, List.not_mem_nil, or_false] at hp
    rcases hp with rfl | rfl <;> show _ ≤ 3 <;> norm_num

end Sortnet
