import Verif.Proof.AbstractionMono
import Verif.Proof.Subsume

/-!
# C19: the abstraction never rejects a subsuming pair
-/

namespace Sortnet

variable {n : ℕ}

/-- C19.  Let `a` and `b` be output sets on the same number of channels, between one and
`MAX_CHANNELS`.  Then their abstraction vectors exist (no panic), have `channels * (channels - 1) * 4`
entries, all of them below `2^16`, and

* if a permuted version of `a` is included in `b`, the abstraction of `a` is pointwise at most that of `b`;
* if a permuted version of the complement of `a` is included in `b`, the abstraction of `a` is pointwise
  at most that of `b` read at the indices `k xor 3`, and `k xor 3` stays inside the vector. -/
theorem C19_abstraction_monotone (h0 : 0 < n) (hn : n ≤ 11) (a b : Bitmap n) :
    ∃ va vb : List ℕ, a.abstraction = some va ∧ b.abstraction = some vb ∧
      va.length = n * (n - 1) * 4 ∧ vb.length = n * (n - 1) * 4 ∧
      (∀ v ∈ va, v < 2 ^ 16) ∧
      (∀ π : Equiv.Perm (Fin n), permSet π a.toSet ⊆ b.toSet →
        ∀ k (h : k < va.length) (h' : k < vb.length), va[k] ≤ vb[k]) ∧
      (∀ π : Equiv.Perm (Fin n), permSet π (complSet a.toSet) ⊆ b.toSet →
        ∀ k (h : k < va.length), ∃ h' : k ^^^ 3 < vb.length, va[k] ≤ vb[k ^^^ 3]) := by
  obtain ⟨va, hva, hla, hea⟩ := abstraction_eq_some a h0 hn
  obtain ⟨vb, hvb, hlb, heb⟩ := abstraction_eq_some b h0 hn
  have hga : ∀ k (h : k < va.length), va[k] =
      absEntry a (k / (4 * n)) (k % (4 * n) / 4) ⟨k % 4, Nat.mod_lt _ (by norm_num)⟩ := by
    intro k h
    have := hea k
    rwa [List.getElem?_eq_getElem h, Option.getD_some, if_pos (by omega)] at this
  have hgb : ∀ k (h : k < vb.length), vb[k] =
      absEntry b (k / (4 * n)) (k % (4 * n) / 4) ⟨k % 4, Nat.mod_lt _ (by norm_num)⟩ := by
    intro k h
    have := heb k
    rwa [List.getElem?_eq_getElem h, Option.getD_some, if_pos (by omega)] at this
  refine ⟨va, vb, hva, hvb, hla, hlb, ?_, ?_, ?_⟩
  · intro v hv
    obtain ⟨k, hk, rfl⟩ := List.getElem_of_mem hv
    rw [hga k hk]
    exact lt_of_le_of_lt (absEntry_le _ _ _ _) (Nat.pow_lt_pow_right (by norm_num) (by omega))
  · intro π hπ k h h'
    rw [hga k h, hgb k h']
    exact absEntry_mono π a b hπ hn _ _ _
  · intro π hπ k h
    have hx := xor_three k
    have hk : k ^^^ 3 < vb.length := by rw [hx]; omega
    refine ⟨hk, ?_⟩
    obtain ⟨h1, h2, h3⟩ := abs_index_xor n k
    rw [hga k h, hgb _ hk, h1, h2]
    rw [← invert_toSet] at hπ
    have := absEntry_mono π _ b hπ hn (k / (4 * n)) (k % (4 * n) / 4)
      ⟨(k ^^^ 3) % 4, Nat.mod_lt _ (by norm_num)⟩
    rw [absEntry_invert] at this
    refine le_trans (le_of_eq ?_) this
    congr 1
    apply Fin.ext
    have h4 : k % 4 < 4 := Nat.mod_lt _ (by norm_num)
    have hg : ∀ (g : Fin 4), ((3 : Fin 4) - g).val = 3 - g.val := by decide
    rw [hg]
    show k % 4 = 3 - (k ^^^ 3) % 4
    omega

/-- No information is lost in the conversion to `u16`: the counters themselves are below `2^16`. -/
theorem C19_fits_u16 (hn : n ≤ 11) (a : Bitmap n) (c o : Fin n) (g : Fin 4) :
    a.channelPairAbstraction c o g < 2 ^ 16 :=
  lt_of_le_of_lt (pairAbs_le a c o g) (Nat.pow_lt_pow_right (by norm_num) (by omega))

/-- With zero channels `abstraction` panics. -/
theorem C19_zero_channels (a : Bitmap 0) : a.abstraction = none := rfl

/-- Two sets on three channels: `{000, 110}` (channels 0 and 1 set) and its superset after moving
channel 2 to the front. -/
def C19_a : Bitmap 3 := fun x => x == 0#3 || x == 3#3
def C19_b : Bitmap 3 := fun x => x == 0#3 || x == 6#3 || x == 1#3

/-- The hypotheses are met with different sets, and the vectors are not trivial. -/
example : (∃ π : Equiv.Perm (Fin 3), permSet π C19_a.toSet ⊆ C19_b.toSet) ∧
    (∃ π : Equiv.Perm (Fin 3), permSet π (complSet C19_a.invert.toSet) ⊆ C19_b.toSet) ∧
    C19_a.abstraction = some [0, 0, 0, 1, 1, 0, 1, 1, 1, 1, 1, 1, 0, 0, 0, 1, 0, 0, 0, 1, 0, 1, 0, 1] ∧
    C19_b.abstraction = some [0, 1, 1, 1, 1, 1, 1, 2, 1, 1, 1, 2, 0, 0, 0, 1, 0, 0, 0, 1, 0, 1, 1, 1] := by
  refine ⟨⟨Equiv.swap 0 2, (permSet_subset_iff _ _ _).2 (by decide +kernel)⟩,
    ⟨Equiv.swap 0 2, ?_⟩, by decide +kernel, by decide +kernel⟩
  rw [← invert_toSet]
  exact (permSet_subset_iff _ _ _).2 (by decide +kernel)

end Sortnet
