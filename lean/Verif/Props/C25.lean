import Verif.Proof.IndexHistory

/-!
# C25: inserting never loses information
-/

namespace Sortnet

open Index

variable {n : ℕ}

/-- C25.  Let an index have any history of insertions and let `L` be the entries `for_each` reports.  If
`insert_with_abstraction` for the set `s` and the bound `v` returns `r`, then

* `r` is the best bound for `s` among the old entries and `(s, v)`;
* afterwards every query is answered with the best bound among the old entries and `(s, v)`, whatever
  entries the insertion has removed. -/
theorem C25_insert_as_if_added (h2 : 2 ≤ n) (hn : n ≤ 11) (d : Dir) (ops : List (Op n)) (idx : OutputSetIndex n)
    (h : history d n ops = some idx) (s : Bitmap n) (a : List ℕ) (ha : s.abstraction = some a) (v : ℕ)
    (idx' : OutputSetIndex n) (r : ℕ) (hi : idx.insert d s a v = some (idx', r)) :
    ∃ L, idx.forEach d = some L ∧
      IsBest d ((s, v) :: L.map fun e => (e.1, e.2.2)) s.toSet (some r) ∧
      ∀ q abs, q.abstraction = some abs → ∃ r', idx'.lookup d q abs = some r' ∧
        IsBest d ((s, v) :: L.map fun e => (e.1, e.2.2)) q.toSet r' := by
  obtain ⟨C, h1, h3⟩ := history_spec h2 hn h
  rw [abstraction_absOf (by omega) hn] at ha
  obtain rfl := Option.some.inj ha
  obtain ⟨C', k1, k2, k3, k4, k5, k6⟩ := insert_covers h2 hn h1 hi
  obtain ⟨L, hp, hf⟩ := forEach_spec h1 d
  have hmap : ((L.map fun p => (p.1, absOf p.1, p.2)).map fun e => (e.1, e.2.2)) = L := by
    rw [List.map_map]; exact List.map_id' L
  have hbest : ∀ {Q : Set (Fin n → Bool)} {r : Option ℕ}, IsBest d ((s, v) :: C) Q r → IsBest d ((s, v) :: L) Q r := by
    intro Q r hr
    refine Covers.isBest (C := (s, v) :: C) ⟨?_, ?_⟩ hr
    · intro p hp'; exact (hp.cons _).mem_iff.2 hp'
    · intro p hp'; exact ⟨p, (hp.cons _).mem_iff.1 hp', Dominates.refl d p⟩
  refine ⟨_, hf, ?_, ?_⟩
  · rw [hmap]; exact hbest k3
  · intro q abs hq
    rw [abstraction_absOf (by omega) hn] at hq
    obtain rfl := Option.some.inj hq
    obtain ⟨r', m1, m2⟩ := lookup_spec (by omega) hn k1 d q
    refine ⟨r', m1, ?_⟩
    rw [hmap]
    exact hbest (k2.isBest m2)

/-- C25, in terms of the answers alone: after the insertion every answer is at least as good as before,
the answer for `s` is at least as good as `v`, and the returned value is the new answer for `s`. -/
theorem C25_answers_improve (h2 : 2 ≤ n) (hn : n ≤ 11) (d : Dir) (ops : List (Op n)) (idx : OutputSetIndex n)
    (h : history d n ops = some idx) (s : Bitmap n) (a : List ℕ) (ha : s.abstraction = some a) (v : ℕ)
    (idx' : OutputSetIndex n) (r : ℕ) (hi : idx.insert d s a v = some (idx', r)) :
    idx'.lookup d s a = some (some r) ∧ d.AtLeast r v ∧
      ∀ q abs w, idx.lookup d q abs = some (some w) → q.abstraction = some abs →
        ∃ w', idx'.lookup d q abs = some (some w') ∧ d.AtLeast w' w := by
  obtain ⟨L, h1, h3, h4⟩ := C25_insert_as_if_added h2 hn d ops idx h s a ha v idx' r hi
  refine ⟨?_, h3.2 (s, v) (by simp) (d.matches_refl _), ?_⟩
  · obtain ⟨r', g1, g2⟩ := h4 s a ha
    rw [g1]
    congr 1
    cases r' with
    | none =>
      exact absurd (d.matches_refl _) (g2 (s, v) (by simp))
    | some w =>
      obtain ⟨⟨p, k1, rfl, k3⟩, k4⟩ := g2
      obtain ⟨⟨p', m1, rfl, m3⟩, m4⟩ := h3
      have x := k4 p' m1 m3
      have y := m4 p k1 k3
      congr 1
      cases d <;> exact Nat.le_antisymm (by assumption) (by assumption)
  · intro q abs w hw hq
    obtain ⟨r', g1, g2⟩ := h4 q abs hq
    obtain ⟨C, c1, c2⟩ := history_spec h2 hn h
    rw [abstraction_absOf (by omega) hn] at hq
    obtain rfl := Option.some.inj hq
    obtain ⟨r0, m1, m2⟩ := lookup_spec (by omega) hn c1 d q
    rw [hw] at m1
    obtain rfl := Option.some.inj m1
    obtain ⟨⟨p, x1, rfl, x3⟩, x4⟩ := m2
    obtain ⟨L', hp, hf⟩ := forEach_spec c1 d
    rw [hf] at h1
    obtain rfl := Option.some.inj h1
    have hmem : p ∈ (s, v) :: (L'.map fun p => (p.1, absOf p.1, p.2)).map fun e => (e.1, e.2.2) := by
      refine List.mem_cons_of_mem _ (List.mem_map.2 ⟨(p.1, absOf p.1, p.2), List.mem_map.2 ⟨p, hp.mem_iff.2 x1, rfl⟩, rfl⟩)
    cases r' with
    | none => exact absurd x3 (g2 p hmem)
    | some w' => exact ⟨w', g1, g2.2 p hmem x3⟩

/-- In an index filled with `insert_with_abstraction` every insertion returns, so that the hypotheses
are met for every set and bound. -/
example (d : Dir) (ps : List (Bitmap 5 × ℕ)) (s : Bitmap 5) (v : ℕ) :
    ∃ idx a idx' r, history d 5 (ps.map fun p => .insert p.1 p.2) = some idx ∧ s.abstraction = some a ∧
      idx.insert d s a v = some (idx', r) := by
  obtain ⟨idx, C, h1, h2, h3, _⟩ := history_insert (n := 5) (by norm_num) (by decide) d ps
  obtain ⟨idx', r, g⟩ := insert_total (by norm_num) (by decide) h2 h3.nodup d s v
  exact ⟨idx, _, idx', r, h1, abstraction_absOf (by norm_num) (by decide) s, g⟩

end Sortnet
