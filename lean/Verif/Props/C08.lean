import Verif.Proof.Huffman
import Verif.Proof.Chained

/-!
# C08: the Huffman bound is a valid lower bound
-/

namespace Sortnet

variable {n : ℕ}

/-- Mathematical form, for every set `A`: `v` is the polarity, `cs` distinct channels such that the
vector that is `v` on the channel and `!v` elsewhere is in `A`, and `bs` lower bounds for the sets of
vectors of `A` that are `v` on the channel, with the channel removed.  Then the optimal merge value of
`bs` is a lower bound for `A`. -/
theorem C08_math {A : Set (Fin (n + 1) → Bool)} (v : Bool) (cs : List (Fin (n + 1))) (bs : List ℕ)
    (hnd : cs.Nodup) (hne : cs ≠ [])
    (hext : ∀ c ∈ cs, (fun k => if k = c then v else !v) ∈ A)
    (hb : List.Forall₂ (fun c b => LB (removeChannel c '' {x ∈ A | x c = v}) b) cs bs)
    {w : ℕ} (hw : IsOptMerge bs w) : LB A w := by
  have hne' : bs ≠ [] := by rintro rfl; cases hb; exact hne rfl
  rw [isOptMerge_iff hne'] at hw
  refine LB_huffman_list v cs bs hnd hne hext (hb.imp fun c b h => ?_) hw
  rw [LB_pruneSet_iff]
  exact h

/-- For the program: let `s` be a set, `p` a polarity, `cs` distinct channels, `ts` the results of
`prune_extremal_channel_into` and `bs` lower bounds for them.  Then the value computed by
`max_plus_1_huffman` is a lower bound for `s`. -/
theorem C08_program (s : Bitmap (n + 1)) (p : Bool) (cs : List (Fin (n + 1))) (ts : List (Bitmap n))
    (bs : List ℕ) (hnd : cs.Nodup)
    (ht : List.Forall₂ (fun c t => s.pruneExtremalChannel p c = some t) cs ts)
    (hb : List.Forall₂ (fun (t : Bitmap n) b => LB t.toSet b) ts bs) (hbyte : ∀ b ∈ bs, b < 256)
    (v : ℕ) (hv : maxPlus1Huffman bs = some v) : LB s.toSet v := by
  by_cases hne : cs = []
  · subst hne
    cases ht
    cases hb
    have h0 : maxPlus1Huffman [] = some 0 := by decide +kernel
    rw [h0] at hv
    cases hv
    intro cn _
    exact Nat.zero_le _
  have hlen := ht.length_eq
  have hlen2 := hb.length_eq
  have hne' : bs ≠ [] := by
    rintro rfl
    simp only [List.length_nil] at hlen2
    exact hne (List.eq_nil_of_length_eq_zero (by omega))
  rw [maxPlus1Huffman_spec bs hne' hbyte isPsumLog_clog] at hv
  split_ifs at hv with hlt
  cases hv
  refine LB_huffman_list (!p) cs bs hnd hne ?_ ?_ isPsumLog_clog
  · intro c hc
    rw [← extremalVec_eq]
    obtain ⟨i, hi, rfl⟩ := List.mem_iff_getElem.1 hc
    have := List.Forall₂.get ht hi (by omega)
    simp only [List.get_eq_getElem] at this
    rw [← channelIsExtremal_iff, ← pruneExtremalChannel_isSome, this]
    rfl
  · clear hlt hlen hlen2 hnd hne hne' hbyte
    induction ht generalizing bs with
    | nil => cases hb; exact .nil
    | cons h1 h2 ih =>
      cases hb with
      | cons h3 h4 =>
        refine .cons (LB_pruneSet_of_prunedSet ?_) (ih _ h4)
        unfold prunedSet
        rw [← pruneExtremalChannel_toSet h1]
        exact h3

/-- Non-vacuity: the set of all vectors with 2 channels, both channels extremal, both pruned sets
sorted, gives the bound 1. -/
example : ∃ ts : List (Bitmap 1),
    List.Forall₂ (fun c t => (allValues 2).pruneExtremalChannel false c = some t) [0, 1] ts ∧
    List.Forall₂ (fun (t : Bitmap 1) b => LB t.toSet b) ts [0, 0] ∧
    maxPlus1Huffman [0, 0] = some 1 := by
  obtain ⟨t0, h0⟩ := Option.isSome_iff_exists.1
    (show ((allValues 2).pruneExtremalChannel false 0).isSome by decide +kernel)
  obtain ⟨t1, h1⟩ := Option.isSome_iff_exists.1
    (show ((allValues 2).pruneExtremalChannel false 1).isSome by decide +kernel)
  exact ⟨[t0, t1], .cons h0 (.cons h1 .nil),
    .cons (fun _ _ => Nat.zero_le _) (.cons (fun _ _ => Nat.zero_le _) .nil), by decide +kernel⟩

end Sortnet
