import Verif.Proof.FlatIndex
import Verif.Props.C23
import Verif.Props.C24
import Verif.Props.C25

/-!
# C58: the index with its flat vectors and `unsafe` blocks
-/

namespace Sortnet

open Index

variable {n : ℕ}

/-- C58, refinement.  Take the index with its flat vectors (one for the numbers of all points, one for the bytes of all
sets, one for the values, and in every tree one for the ranges of all nodes).  After any history of insertions for which
the index with lists of entries is defined, the flat one is defined: no slice is out of bounds, no arithmetic on `u16`
overflows, and every `swap_nonoverlapping` and `copy_nonoverlapping` is called with two ranges inside of the vector that
do not overlap.  Every call that the abstract index answers is answered in the same way by the flat one. -/
theorem C58_refines (h2 : 2 ≤ n) (hn : n ≤ 11) (d : Dir) (ops : List (Op n)) (idx : OutputSetIndex n)
    (h : history d n ops = some idx) :
    ∃ fidx, Flat.history d n ops = some fidx ∧
      fidx.len = idx.len ∧ fidx.isEmpty = idx.isEmpty ∧
      (∀ L, idx.forEach d = some L → fidx.forEach d = some L) ∧
      (∀ q abs r, idx.lookup d q abs = some r → fidx.lookup d q abs = some r) ∧
      (∀ q abs r, idx.lookupSubsuming d q abs = some r → fidx.lookupSubsuming d q abs = some r) ∧
      ∀ s a v idx' r, s.abstraction = some a → idx.insert d s a v = some (idx', r) →
        ∃ fidx', fidx.insert d s a v = some (fidx', r) ∧ Flat.history d n (ops ++ [.insert s v]) = some fidx' := by
  obtain ⟨ho, hf⟩ := Flat.history_flat h2 hn h
  refine ⟨Flat.flatIdx idx, hf, Flat.len_flat idx, Flat.isEmpty_flat idx, fun L hL => Flat.forEach_flat ho hL,
    fun q abs r hr => Flat.lookup_flat ho hr, fun q abs r hr => Flat.lookupSubsuming_flat ho hr, ?_⟩
  intro s a v idx' r ha hi
  obtain ⟨C, hC, _⟩ := history_spec h2 hn h
  obtain ⟨_, _, e⟩ := Flat.insert_flat ho (by rw [hC.dim]; exact Flat.pt_abs (by omega) hn s ha) hi
  refine ⟨_, e, ?_⟩
  have h' := hf
  unfold Flat.history at h' ⊢
  simp only [Option.bind_eq_bind, Option.bind_eq_some_iff] at h' ⊢
  obtain ⟨i0, g1, g2⟩ := h'
  refine ⟨i0, g1, ?_⟩
  rw [List.foldlM_append, g2]
  simp [Flat.apply, ha, e]

/-- C58, the answers.  After any history for which the abstract index is defined, a lookup in the flat index returns the
best bound of all inserted pairs that are relevant for the query. -/
theorem C58_lookup_best (h2 : 2 ≤ n) (hn : n ≤ 11) (d : Dir) (ops : List (Op n)) (idx : OutputSetIndex n)
    (h : history d n ops = some idx) :
    ∃ fidx, Flat.history d n ops = some fidx ∧
      ∀ (q : Bitmap n) (abs : List ℕ), q.abstraction = some abs →
        ∃ r, fidx.lookup d q abs = some r ∧ IsBest d (ops.map Op.pair) q.toSet r := by
  obtain ⟨fidx, h1, _, _, _, h5, _⟩ := C58_refines h2 hn d ops idx h
  refine ⟨fidx, h1, ?_⟩
  intro q abs ha
  obtain ⟨r, g1, g2⟩ := C23_lookup_best h2 hn d ops idx h q abs ha
  exact ⟨r, h5 q abs r g1, g2⟩

/-- C58, only the checked insertion (as in `gnp`): all calls on the flat index succeed, whatever is
inserted; the answers are the best bounds; `lookup_subsuming` gives a permutation that proves its value. -/
theorem C58_insert (h2 : 2 ≤ n) (hn : n ≤ 11) (d : Dir) (ps : List (Bitmap n × ℕ)) :
    ∃ fidx, Flat.history d n (ps.map fun p => .insert p.1 p.2) = some fidx ∧
      (∀ q : Bitmap n, ∃ abs r, q.abstraction = some abs ∧ fidx.lookup d q abs = some r ∧ IsBest d ps q.toSet r) ∧
      (∀ q : Bitmap n, ∃ abs r, q.abstraction = some abs ∧ fidx.lookupSubsuming d q abs = some r ∧
        fidx.lookup d q abs = some (r.map Prod.fst) ∧
        ∀ v inv perm s, r = some (v, (inv, perm), s) → (s, v) ∈ ps ∧
          ∃ π : Equiv.Perm (Fin n), (∀ i, π i = perm i) ∧
            match d with
            | .lower => inv = false ∧ permSet π s.toSet ⊆ q.toSet
            | .lowerInvert => if inv then permSet π (complSet s.toSet) ⊆ q.toSet else permSet π s.toSet ⊆ q.toSet
            | .upper => inv = false ∧ permSet π q.toSet ⊆ s.toSet) ∧
      ∃ L, fidx.forEach d = some L ∧ fidx.len = L.length := by
  obtain ⟨idx, C, h, hC, _, _⟩ := history_insert h2 hn d ps
  obtain ⟨fidx, h1, h3, _, h4, h5, h6, _⟩ := C58_refines h2 hn d _ idx h
  have hps : (ps.map fun p => Op.insert p.1 p.2).map Op.pair = ps := by
    rw [List.map_map]; exact List.map_id' ps
  refine ⟨fidx, h1, ?_, ?_, ?_⟩
  · intro q
    obtain ⟨abs, ha⟩ := (C23_history_total h2 hn d ps).2.2 q
    obtain ⟨r, g1, g2⟩ := C23_lookup_best h2 hn d _ idx h q abs ha
    rw [hps] at g2
    exact ⟨abs, r, ha, h5 _ _ _ g1, g2⟩
  · intro q
    obtain ⟨abs, ha⟩ := (C23_history_total h2 hn d ps).2.2 q
    obtain ⟨r, g1, g2, g3⟩ := C24_lookup_subsuming_witness h2 hn d _ idx h q abs ha
    refine ⟨abs, r, ha, h6 _ _ _ g1, h5 _ _ _ g2, ?_⟩
    intro v inv perm s hr
    obtain ⟨_, k2, k3⟩ := g3 v inv perm s hr
    rw [hps] at k2
    refine ⟨k2, ?_⟩
    obtain ⟨π, k4, k5⟩ := k3
    refine ⟨π, k4, ?_⟩
    clear h1 h3 h4 h5 h6 g1 g2 g3
    cases d <;> exact k5
  · obtain ⟨L, hp, hf⟩ := forEach_spec hC d
    refine ⟨_, h4 _ hf, ?_⟩
    rw [h3, len_spec hC, List.length_map, hp.length_eq]

/-- C58, only the unchecked insertion (as in the loading of a proof and in `prune`): all calls on the flat index
succeed, all inserted pairs are stored, and `for_each` reports each of them with its abstraction as often as it was
inserted. -/
theorem C58_insertNew (h2 : 2 ≤ n) (hn : n ≤ 11) (d : Dir) (ps : List (Bitmap n × ℕ)) :
    ∃ fidx, Flat.history d n (ps.map fun p => .insertNew p.1 p.2) = some fidx ∧ fidx.len = ps.length ∧
      (∀ q : Bitmap n, ∃ abs r, q.abstraction = some abs ∧ fidx.lookup d q abs = some r ∧ IsBest d ps q.toSet r) ∧
      ∃ L, fidx.forEach d = some L ∧ (L.map fun e => (e.1, e.2.2)).Perm ps ∧
        ∀ e ∈ L, e.1.abstraction = some e.2.1 := by
  obtain ⟨idx, h, hC⟩ := history_insertNew h2 hn d ps
  obtain ⟨fidx, h1, h3, _, h4, h5, _⟩ := C58_refines h2 hn d _ idx h
  have hps : (ps.map fun p => Op.insertNew p.1 p.2).map Op.pair = ps := by
    rw [List.map_map]; exact List.map_id' ps
  refine ⟨fidx, h1, by rw [h3, len_spec hC], ?_, ?_⟩
  · intro q
    obtain ⟨abs, ha⟩ := (C23_history_total h2 hn d ps).2.2 q
    obtain ⟨r, g1, g2⟩ := C23_lookup_best h2 hn d _ idx h q abs ha
    rw [hps] at g2
    exact ⟨abs, r, ha, h5 _ _ _ g1, g2⟩
  · obtain ⟨L, hp, hf⟩ := forEach_spec hC d
    refine ⟨_, h4 _ hf, ?_, ?_⟩
    · rw [List.map_map]
      exact (List.Perm.of_eq (List.map_id' L)).trans hp
    · intro e he
      obtain ⟨p, _, rfl⟩ := List.mem_map.1 he
      exact abstraction_absOf (by omega) hn _

/-- The preconditions are not empty: swapping a row with itself, or with one behind the end, is excluded. -/
example : Flat.swapNonoverlapping [1, 2, 3, 4] 0 2 2 = some [3, 4, 1, 2] ∧
    Flat.swapNonoverlapping [1, 2, 3, 4] 2 2 2 = none ∧ Flat.swapNonoverlapping [1, 2, 3, 4] 0 3 2 = none := by
  decide

/-- The unchecked insertion leaves fewer loose entries than the threshold. -/
theorem C58_loose {idx idx' : OutputSetIndex n} {d : Dir} {q : Bitmap n} {abs : List ℕ} {v : ℕ}
    (h : idx.insertNew d q abs v = some idx') : idx'.loose.length < 32 := by
  unfold OutputSetIndex.insertNew at h
  dsimp only at h
  split_ifs at h with h1
  · simp only [Option.bind_eq_bind, Option.bind_eq_some_iff] at h
    obtain ⟨_, _, _, _, h4⟩ := h
    cases h4
    simp
  · cases h
    exact not_le.1 h1

/-- A history that builds trees: 40 insertions of a set on three channels.  The flat index stores all of them, in at
least one tree. -/
example : ∃ fidx, Flat.history .lower 3 ((List.replicate 40 (C23_a, 3)).map fun p => .insertNew p.1 p.2) = some fidx ∧
    fidx.len = 40 ∧ fidx.trees ≠ [] := by
  obtain ⟨idx, h, hC⟩ := history_insertNew (n := 3) (by norm_num) (by decide) .lower (List.replicate 40 (C23_a, 3))
  obtain ⟨ho, hf⟩ := Flat.history_flat (by norm_num) (by decide) h
  have hl : idx.len = 40 := by rw [len_spec hC, List.length_replicate]
  refine ⟨_, hf, by rw [Flat.len_flat, hl], ?_⟩
  have hloose : idx.loose.length < 32 := by
    rw [show List.replicate 40 (C23_a, 3) = List.replicate 39 (C23_a, 3) ++ [(C23_a, 3)] from List.replicate_succ',
      List.map_append] at h
    unfold history at h
    simp only [Option.bind_eq_bind, Option.bind_eq_some_iff, List.foldlM_append, List.map_cons, List.map_nil,
      List.foldlM_cons, List.foldlM_nil] at h
    obtain ⟨_, _, i1, _, i2, h3, h4⟩ := h
    cases h4
    simp only [Op.apply, Option.bind_eq_bind, Option.bind_eq_some_iff] at h3
    obtain ⟨_, _, h3⟩ := h3
    exact C58_loose h3
  intro ht
  have : idx.trees = [] := by simpa [Flat.flatIdx] using ht
  unfold OutputSetIndex.len at hl
  rw [this] at hl
  simp at hl
  omega

end Sortnet
