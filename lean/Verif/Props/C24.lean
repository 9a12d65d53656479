import Verif.Proof.IndexHistory

/-!
# C24: `lookup_subsuming` returns a genuine witness
-/

namespace Sortnet

open Index

variable {n : ℕ}

/-- C24.  Take an index after any history of insertions that did not panic and any query `q`.  Then
`lookup_subsuming_with_abstraction` returns; its value is the one `lookup_with_abstraction` gives (both
find something or both find nothing); and if it returns the value `v`, the flag `inv`, the map `perm`
and the set `s`, then

* `(s, v)` is stored in the index (it is reported by `for_each`) and was inserted;
* `perm` is a permutation of the channels;
* for a lower index, `inv` is not set and the permuted `s` is included in `q`;
* for a lower index with inversion, the permuted `s`, or if `inv` is set the permuted complement of
  `s`, is included in `q`;
* for an upper index, `inv` is not set and the permuted `q` is included in `s`. -/
theorem C24_lookup_subsuming_witness (h2 : 2 ≤ n) (hn : n ≤ 11) (d : Dir) (ops : List (Op n))
    (idx : OutputSetIndex n) (h : history d n ops = some idx) (q : Bitmap n) (abs : List ℕ)
    (ha : q.abstraction = some abs) :
    ∃ r, idx.lookupSubsuming d q abs = some r ∧ idx.lookup d q abs = some (r.map Prod.fst) ∧
      ∀ v inv perm s, r = some (v, (inv, perm), s) →
        (∃ L a, idx.forEach d = some L ∧ (s, a, v) ∈ L) ∧ (s, v) ∈ ops.map Op.pair ∧
        ∃ π : Equiv.Perm (Fin n), (∀ i, π i = perm i) ∧
          match d with
          | .lower => inv = false ∧ permSet π s.toSet ⊆ q.toSet
          | .lowerInvert => if inv then permSet π (complSet s.toSet) ⊆ q.toSet else permSet π s.toSet ⊆ q.toSet
          | .upper => inv = false ∧ permSet π q.toSet ⊆ s.toSet := by
  obtain ⟨C, h1, h3⟩ := history_spec h2 hn h
  rw [abstraction_absOf (by omega) hn] at ha
  obtain rfl := Option.some.inj ha
  obtain ⟨r, g1, g2, g3⟩ := lookupSubsuming_spec (by omega) hn h1 d q
  refine ⟨r, g1, g2, ?_⟩
  rintro v inv perm s rfl
  obtain ⟨hmem, π, hπ, hw⟩ := g3
  obtain ⟨C', hp, hf⟩ := forEach_spec h1 d
  refine ⟨⟨_, absOf s, hf, List.mem_map.2 ⟨(s, v), hp.mem_iff.2 hmem, rfl⟩⟩, h3.sub _ hmem, π,
    fun i => congrFun hπ i, ?_⟩
  cases d with
  | lower => exact hw
  | upper => exact hw
  | lowerInvert =>
    dsimp only at hw ⊢
    split at hw <;> rename_i hi
    · rw [if_pos hi]; exact hw
    · rw [if_neg hi]; exact hw

/-- A concrete history and query: the query `{000, 100, 010}` on three channels finds the stored set
`{000, 001}` although it is not a subset. -/
example : ∃ idx abs v inv perm s, history .lower 3 [.insert (fun x => x == 0#3 || x == 4#3) 2] = some idx ∧
    Bitmap.abstraction (n := 3) (fun x => x == 0#3 || x == 1#3 || x == 2#3) = some abs ∧
    idx.lookupSubsuming .lower (fun x => x == 0#3 || x == 1#3 || x == 2#3) abs = some (some (v, (inv, perm), s)) := by
  obtain ⟨idx, _, h, _⟩ := history_insert (n := 3) (by norm_num) (by decide) .lower [(fun x => x == 0#3 || x == 4#3, 2)]
  have ha := abstraction_absOf (n := 3) (by norm_num) (by decide) (s := fun x => x == 0#3 || x == 1#3 || x == 2#3)
  obtain ⟨r, h1, h2, h3⟩ := C24_lookup_subsuming_witness (by norm_num) (by norm_num) .lower _ idx h _ _ ha
  obtain ⟨C, hC, hcov⟩ := history_spec (by norm_num) (by decide) h
  obtain ⟨r', g1, g2⟩ := lookup_spec (by norm_num) (by decide) hC .lower (fun x => x == 0#3 || x == 1#3 || x == 2#3)
  rw [h2] at g1
  cases r with
  | some x => exact ⟨idx, _, x.1, x.2.1.1, x.2.1.2, x.2.2, h, ha, h1⟩
  | none =>
    exfalso
    obtain rfl := Option.some.inj g1
    refine hcov.isBest g2 (fun x => x == 0#3 || x == 4#3, 2) (by simp [Op.pair]) ⟨Equiv.swap 0 2, ?_⟩
    exact (permSet_subset_iff _ _ _).2 (by decide +kernel)

end Sortnet
