import Verif.Proof.PruneFile

/-!
# C37: `prune` keeps a covering subset
-/

namespace Sortnet

open Files

variable {n : ℕ}

/-- C37.  For every input file: `prune` succeeds iff the file is not empty and consists of complete packed sets.
Then, if `sets` are the sets in the input and `kept` the sets in the output,

* the sets of the output are sets of the input (and no set occurs more often in the output than in the input);
* every set of the input is subsumed, up to permutation and complement, by a set in the output;
* no set of the output is subsumed by a set of the output with fewer vectors. -/
theorem C37_prune (h3 : 3 ≤ n) (hn : n ≤ 11) (data : List UInt8) :
    (pruneData n data ≠ none ↔ data ≠ [] ∧ (2 ^ n + 7) / 8 ∣ data.length) ∧
    ∀ out, pruneData n data = some out → ∃ sets kept : List (Bitmap n),
      data = sets.flatMap Bitmap.packed ∧ out = kept.flatMap Bitmap.packed ∧
      kept.Subperm sets ∧
      (∀ s ∈ sets, ∃ t ∈ kept, SubsumesInv t.toSet s.toSet) ∧
      ∀ s ∈ kept, ∀ t ∈ kept, s.toSet.ncard < t.toSet.ncard → ¬ SubsumesInv s.toSet t.toSet := by
  have key : data ≠ [] → packedLen n ∣ data.length → ∃ sets kept : List (Bitmap n),
      data = sets.flatMap Bitmap.packed ∧ pruneData n data = some (kept.flatMap Bitmap.packed) ∧
      kept.Subperm sets ∧ (∀ s ∈ sets, ∃ t ∈ kept, SubsumesInv t.toSet s.toSet) ∧
      ∀ s ∈ kept, ∀ t ∈ kept, s.toSet.ncard < t.toSet.ncard → ¬ SubsumesInv s.toSet t.toSet := by
    intro hne hd
    obtain ⟨sets, rfl⟩ := sets_of_data h3 data hd
    obtain ⟨kept, k1, k2, k3, _, k4⟩ := pruneData_spec (by omega) hn sets (by rintro rfl; simp at hne)
    exact ⟨sets, kept, rfl, k1, k2, k3, k4⟩
  have hnone : pruneData n data ≠ none → data ≠ [] ∧ packedLen n ∣ data.length := by
    intro h
    constructor
    · rintro rfl
      exact h (by unfold pruneData; rw [if_pos rfl])
    · by_contra hd
      exact h (pruneData_none data hd)
  refine ⟨⟨hnone, ?_⟩, fun out hout => ?_⟩
  · rintro ⟨hne, hd⟩
    obtain ⟨_, kept, _, k1, _⟩ := key hne hd
    rw [k1]
    simp
  · obtain ⟨hne, hd⟩ := hnone (by rw [hout]; simp)
    obtain ⟨sets, kept, k0, k1, k2⟩ := key hne hd
    rw [k1] at hout
    exact ⟨sets, kept, k0, (Option.some.inj hout).symm, k2⟩

/-- The sets of the input and of the output in C37 are determined by the files. -/
theorem C37_unique (sets sets' : List (Bitmap n)) (h : sets.flatMap Bitmap.packed = sets'.flatMap Bitmap.packed) :
    sets = sets' := by
  have h1 := chunks_sets sets
  rw [h, chunks_sets] at h1
  exact (List.map_inj_right fun _ _ e => packed_injective e).1 h1.symm

/-- Of the set of all eight vectors on three channels (byte 255) and the set of two vectors
`{000, 100}` (byte 3) only the second is kept.  Here the hypotheses of C37 are met. -/
theorem C37_example : pruneData 3 [255, 3] = some [3] := by
  obtain ⟨h1, h2⟩ := C37_prune (n := 3) (by norm_num) (by norm_num) [255, 3]
  obtain ⟨out, hout⟩ := Option.ne_none_iff_exists'.1 (h1.2 ⟨by simp, by simp⟩)
  obtain ⟨sets, kept, k1, k2, k3, k4, k5⟩ := h2 out hout
  let a : Bitmap 3 := allValues 3
  let b : Bitmap 3 := fun x => x == 0#3 || x == 1#3
  have ha : a.packed = [255] := by decide +kernel
  have hb : b.packed = [3] := by decide +kernel
  obtain rfl : sets = [a, b] := by
    refine C37_unique sets [a, b] ?_
    rw [← k1, List.flatMap_cons, List.flatMap_singleton, ha, hb]
    rfl
  have ca : a.toSet.ncard = 8 := by rw [← stateLen_packed, ha]; decide +kernel
  have cb : b.toSet.ncard = 2 := by rw [← stateLen_packed, hb]; decide +kernel
  have hmem : ∀ s ∈ kept, s = a ∨ s = b := fun s hs => by simpa using k3.subset hs
  have hbk : b ∈ kept := by
    obtain ⟨t, ht, hs⟩ := k4 b (by simp)
    rcases hmem t ht with rfl | rfl
    · have := Files.SubsumesInv.ncard_le hs
      omega
    · exact ht
  have hak : a ∉ kept := by
    intro hk
    refine k5 b hbk a hk (by omega) (Or.inl ⟨1, ?_⟩)
    rw [toSet_allValues]
    exact Set.subset_univ _
  have hk : kept = [b] := by
    have hn : kept.Nodup := by
      obtain ⟨l, hl1, hl2⟩ := k3
      refine hl1.nodup_iff.1 (hl2.nodup ?_)
      rw [List.nodup_cons]
      refine ⟨?_, by simp⟩
      intro h
      rw [List.mem_singleton.1 h] at ca
      omega
    refine List.perm_singleton.1 ((List.perm_ext_iff_of_nodup hn (by simp)).2 fun s => ?_)
    rw [List.mem_singleton]
    constructor
    · intro hs
      rcases hmem s hs with rfl | rfl
      · exact absurd hs hak
      · rfl
    · rintro rfl
      exact hbk
  rw [hout, k2, hk, List.flatMap_singleton, hb]

end Sortnet
