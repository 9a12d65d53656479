import Verif.Props.C44
import Verif.Props.C83

/-!
# The number of states of a search with few channels

The certificate has a field of 32 bits for the number of steps.  A search on up to five channels never has more states than that.
-/

namespace Sortnet

open Search Files ProofGen Relation

/-- There are fewer than `2 ^ 32` sets on three to five channels, if the sets on five channels contain the all-zero vector. -/
theorem len_of_five (hash' : List UInt8 → ℕ) (threads : ℕ) (hist : List (OSet × State))
    (hh : ∀ e ∈ hist, 3 ≤ e.1.n ∧ e.1.n ≤ 11) (m : StateMap) (hm : (StateMap.new threads).run hash' hist = some m)
    (hsmall : ∀ A v, lastSet hist A = some v → A.n ≤ 5 ∧ 3 ≤ A.n ∧ A.s 0 = true) : m.len < 2 ^ 32 := by
  classical
  obtain ⟨d1, d2, d3⟩ := C34_drain hash' threads hist hh m hm
  obtain ⟨F, hF, key⟩ : ∃ F : ℕ → Finset (ℕ × List UInt8), (∀ n, (F n).card ≤ 2 ^ (2 ^ n - 1)) ∧
      ∀ n (s : Bitmap n), s 0 = true → (n, s.packed) ∈ F n := by
    refine ⟨fun n => Finset.univ.image fun s : Fin (2 ^ n - 1) → Bool =>
      (n, Bitmap.packed (n := n) fun x => if h : x = 0 then true else s ⟨x.toNat - 1, by
        have h1 := x.isLt
        have h2 : x.toNat ≠ 0 := fun h0 => h (BitVec.eq_of_toNat_eq (by simpa using h0))
        omega⟩), fun n => ?_, fun n s h0 => ?_⟩
    · refine Finset.card_image_le.trans ?_
      rw [Finset.card_univ, Fintype.card_fun, Fintype.card_bool, Fintype.card_fin]
    · refine Finset.mem_image.2 ⟨fun i => s (BitVec.ofNat n (i + 1)), Finset.mem_univ _, ?_⟩
      congr 2
      funext x
      by_cases h : x = 0
      · rw [dif_pos h, h, h0]
      · rw [dif_neg h]
        have h2 : x.toNat ≠ 0 := fun h0 => h (BitVec.eq_of_toNat_eq (by simpa using h0))
        dsimp only
        rw [Nat.sub_add_cancel (by omega), BitVec.ofNat_toNat, BitVec.setWidth_eq]
  have hsub : (m.drain.map fun e => (e.1, e.2.1)).toFinset ⊆ F 3 ∪ F 4 ∪ F 5 := by
    intro p hp
    rw [List.mem_toFinset] at hp
    obtain ⟨⟨c, q, v⟩, hA, rfl⟩ := List.mem_map.1 hp
    obtain ⟨s, rfl, hv⟩ := (d1 _ _ _).1 hA
    obtain ⟨h5, h3, h0⟩ := hsmall _ _ hv
    dsimp only at h5 h3 h0
    have h1 := key c s h0
    rw [Finset.mem_union, Finset.mem_union]
    interval_cases c
    · exact Or.inl (Or.inl h1)
    · exact Or.inl (Or.inr h1)
    · exact Or.inr h1
  have h1 := (Finset.card_le_card hsub).trans ((Finset.card_union_le _ _).trans (Nat.add_le_add_right (Finset.card_union_le _ _) _))
  rw [List.toFinset_card_of_nodup d2, List.length_map, ← d3] at h1
  have h2 := hF 3
  have h3 := hF 4
  have h4 := hF 5
  norm_num at h2 h3 h4
  omega

/-- The number of states of a search on three to five channels fits into the field of the certificate. -/
theorem len_five {hash : List ℕ → ℕ} {N : ℕ} (h5 : N ≤ 5) {limit : Option ℕ} {G : Global}
    (h : Run hash limit ⟨N, allValues N⟩ G) (hash' : List UInt8 → ℕ) (threads : ℕ) (hist : List (OSet × State))
    (hh : ∀ e ∈ hist, 3 ≤ e.1.n ∧ e.1.n ≤ 11) (hst : lastSet hist = G.store) (m : StateMap)
    (hm : (StateMap.new threads).run hash' hist = some m) : m.len < 2 ^ 32 := by
  refine len_of_five hash' threads hist hh m hm fun A v hv => ?_
  rw [hst] at hv
  have hN : N ≤ 11 := by omega
  have h0 : Chained (⟨N, allValues N⟩ : OSet).s.toSet := by dsimp only; rw [toSet_allValues]; exact chained_univ
  obtain ⟨⟨h3, _⟩, hc, hchain, _⟩ := C28_entries hash limit _ h0 hN G h A v hv
  refine ⟨?_, h3, ?_⟩
  · obtain ⟨A0, hA0, hreach⟩ := h
    obtain rfl := canon_allValues hN hA0
    exact ((hreach.visited hv).channels hN).trans h5
  · obtain ⟨w, hw⟩ : A.s.toSet.Nonempty := by
      rw [Set.nonempty_iff_ne_empty]
      intro he
      exact hchain (he ▸ IsChain.empty)
    obtain ⟨x, hx, hxv⟩ := (hc w hw).1.mem_left
    have : x = 0 := by
      refine BitVec.eq_of_getLsbD_eq fun i hi => ?_
      simpa using (hxv ⟨i, hi⟩).symm
    exact this ▸ hx

end Sortnet
