import Verif.Proof.IndexHistory

/-!
# C27: an index filled with `insert_with_abstraction` is an antichain of distinct sets
-/

namespace Sortnet

open Index

variable {n : ℕ}

/-- C27.  Start with an empty index and insert any list of pairs with `insert_with_abstraction`.  No call
panics (so the assertion that at most one entry is updated in place holds), and among the entries
reported by `for_each` no two are for the same set and none makes another one redundant: if the set of
an entry is relevant for the set of a different entry, its bound is worse. -/
theorem C27_antichain (h2 : 2 ≤ n) (hn : n ≤ 11) (d : Dir) (ps : List (Bitmap n × ℕ)) :
    ∃ idx L, history d n (ps.map fun p => .insert p.1 p.2) = some idx ∧ idx.forEach d = some L ∧
      ∀ (i j : ℕ) (hi : i < L.length) (hj : j < L.length), i ≠ j →
        L[i].1 ≠ L[j].1 ∧ ¬ (d.Matches L[i].1.toSet L[j].1.toSet ∧ d.AtLeast L[i].2.2 L[j].2.2) := by
  obtain ⟨idx, C, h1, h3, h4, _⟩ := history_insert h2 hn d ps
  obtain ⟨C', hp, hf⟩ := forEach_spec h3 d
  refine ⟨idx, _, h1, hf, ?_⟩
  intro i j hi hj hij
  have hanti := h4.perm hp.symm
  rw [List.length_map] at hi hj
  simp only [List.getElem_map]
  have key : ∀ i j (hi : i < C'.length) (hj : j < C'.length), i ≠ j → ¬ Dominates d C'[i] C'[j] := by
    intro i j hi hj hij
    rcases Nat.lt_or_gt_of_ne hij with hlt | hlt
    · exact (List.pairwise_iff_getElem.1 hanti i j hi hj hlt).1
    · exact (List.pairwise_iff_getElem.1 hanti j i hj hi hlt).2
  refine ⟨?_, key i j hi hj hij⟩
  intro heq
  rcases d.atLeast_total C'[i].2 C'[j].2 with hv | hv
  · exact key i j hi hj hij ⟨by rw [heq]; exact d.matches_refl _, hv⟩
  · exact key j i hj hi hij.symm ⟨by rw [heq]; exact d.matches_refl _, hv⟩

/-- C27, for the next insertion: it returns for every set and bound. -/
theorem C27_insert_returns (h2 : 2 ≤ n) (hn : n ≤ 11) (d : Dir) (ps : List (Bitmap n × ℕ)) (s : Bitmap n) (v : ℕ) :
    ∃ idx a idx' r, history d n (ps.map fun p => .insert p.1 p.2) = some idx ∧ s.abstraction = some a ∧
      idx.insert d s a v = some (idx', r) := by
  obtain ⟨idx, C, h1, h3, h4, _⟩ := history_insert h2 hn d ps
  obtain ⟨idx', r, g⟩ := insert_total h2 hn h3 h4.nodup d s v
  exact ⟨idx, _, idx', r, h1, abstraction_absOf (by omega) hn s, g⟩

/-- The restriction to `insert_with_abstraction` is needed: after two unchecked insertions of the same
set the assertion fails for a better bound. -/
example : (do
    let idx ← history .lower 2 [.insertNew (fun x => x == 1#2) 1, .insertNew (fun x => x == 1#2) 1]
    let a ← Bitmap.abstraction (n := 2) (fun x => x == 1#2)
    idx.insert .lower (fun x => x == 1#2) a 2).isNone = true := by decide +kernel

end Sortnet
