import Verif.Proof.CheckerSound
import Verif.Spec.Accept

/-! # The verified checker accepts exactly the certificates of Spec/Accept.lean -/

namespace Sortnet.Checker

open Accept

theorem nat_eq (k : ℤ) : nat k = k.toNat := by unfold nat; omega

/-- The elements of a trie. -/
def mem (a : VectTrie) : Set (List Bool) := {l | isMemberVt l a = true}

theorem lengthVt_ncard (a : VectTrie) : lengthVt a = (mem a).ncard := by
  have : mem a = ((listVt a).toFinset : Set (List Bool)) := by
    ext l
    simp [mem, mem_listVt]
  rw [this, Set.ncard_coe_finset, List.toFinset_card_of_nodup (listVt_nodup a), lengthVt_eq]

theorem isUnsortedVt_iff {n : ℕ} {a : VectTrie} : isUnsortedVt n a = true ↔ n + 1 < (mem a).ncard := by
  rw [isUnsortedVt, decide_eq_true_eq, lengthVt_ncard]

theorem perm_range_iff {n : ℕ} (ps : List ℕ) : ps.Perm (List.range n) ↔ (∀ p ∈ ps, p < n) ∧ ps.length = n ∧ ps.Nodup := by
  constructor
  · intro h
    refine ⟨fun p hp => by simpa using h.mem_iff.1 hp, by simpa using h.length_eq, h.nodup_iff.2 List.nodup_range⟩
  · rintro ⟨h1, h2, h3⟩
    refine (h3.subperm fun p hp => ?_).perm_of_length_le (by simp [h2])
    simpa using h1 p hp

theorem view_eq (u : Undef) (w : ProofWitness) {n : ℕ} (hw : ∀ p ∈ w.perm.map nat, p < n) {v : List Bool} (hv : v.length = n) :
    permuteListVect u (w.perm.map nat) (if w.invert then v.map not else v) = view w v := by
  unfold permuteListVect view
  rw [List.map_map]
  refine List.map_congr_left fun p hp => ?_
  have hlt := hw _ (List.mem_map_of_mem hp)
  rw [nat_eq] at hlt
  rw [Function.comp_apply, nth_eq_getD, nat_eq]
  have hlt' : p.toNat < v.length := by omega
  cases w.invert <;> simp [List.getD_eq_getElem?_getD, hlt']

theorem getBound_iff (u : Undef) (steps : ℤ → ProofStep) (limit : ℤ) (w : Option ProofWitness) (n : ℕ) (a : VectTrie) (b : ℕ) :
    getBound u steps limit w n a = some b ↔ Shows steps limit n (mem a) w b := by
  cases w with
  | none =>
    simp only [getBound, Option.some.injEq]
    by_cases h : isUnsortedVt n a = true
    · rw [if_pos h]
      rw [isUnsortedVt_iff] at h
      constructor
      · rintro rfl
        exact .many h
      · intro hs
        cases hs
        · omega
        · rfl
    · rw [if_neg h]
      rw [isUnsortedVt_iff] at h
      constructor
      · rintro rfl
        exact .few (by omega)
      · intro hs
        cases hs
        · rfl
        · omega
  | some w =>
    have hsub : (∀ xs ∈ (steps w.stepId).vectList, xs.length = n) → (∀ p ∈ w.perm.map nat, p < n) →
        (isSubsetVt (permuteVt u (w.perm.map nat) (invertVt w.invert (vtList (steps w.stepId).vectList))) a = true ↔
          ∀ v ∈ (steps w.stepId).vectList, view w v ∈ mem a) := by
      intro hl hp
      rw [isSubsetVt_iff]
      constructor
      · intro h v hv
        refine h _ ((mem_permuteVt _ _ _ _).2 ⟨_, (mem_invertVt _ _ _).2 ⟨v, (isMemberVt_vtList _ _).2 hv, rfl⟩, ?_⟩)
        exact view_eq u w hp (hl v hv)
      · intro h xs hxs
        obtain ⟨ys, hys, rfl⟩ := (mem_permuteVt _ _ _ _).1 hxs
        obtain ⟨v, hv, rfl⟩ := (mem_invertVt _ _ _).1 hys
        rw [isMemberVt_vtList] at hv
        rw [view_eq u w hp (hl v hv)]
        exact h v hv
    have hperm : (w.perm.map Int.toNat).Perm (List.range n) ↔
        (∀ p ∈ w.perm.map nat, p < n) ∧ (w.perm.map nat).length = n ∧ (w.perm.map nat).Nodup := by
      rw [← perm_range_iff, show (nat : ℤ → ℕ) = Int.toNat from funext nat_eq]
    simp only [getBound]
    constructor
    · intro h
      split_ifs at h with hc
      simp only [Option.some.injEq] at h
      simp only [Bool.or_eq_true, Bool.not_eq_true', not_or, Bool.not_eq_false, Bool.and_eq_true,
        decide_eq_true_eq, List.all_eq_true, sizeList_eq, distinct_iff] at hc
      obtain ⟨⟨hid0, hidl⟩, hlt, hlen, hnd, hbl, hs⟩ := hc
      rw [nat_eq] at h
      subst h
      have hlt' := fun p hp => (hlt p hp).2
      exact .step w hid0 hidl (hperm.2 ⟨hlt', hlen, hnd⟩) fun v hv => ⟨hbl v hv, (hsub hbl hlt').1 hs v hv⟩
    · intro h
      cases h with
      | step _ h0 h1 hp hs =>
        obtain ⟨hlt, hlen, hnd⟩ := hperm.1 hp
        rw [if_neg, nat_eq]
        simp only [Bool.or_eq_true, Bool.not_eq_true', not_or, Bool.not_eq_false, Bool.and_eq_true,
          decide_eq_true_eq, List.all_eq_true, sizeList_eq, distinct_iff]
        exact ⟨⟨h0, h1⟩, fun p hp => ⟨by omega, hlt p hp⟩, hlen, hnd, fun v hv => (hs v hv).1,
          (hsub (fun v hv => (hs v hv).1) hlt).2 fun v hv => (hs v hv).2⟩

theorem mem_vtList (ls : List (List Bool)) : mem (vtList ls) = {v | v ∈ ls} := by
  ext l
  simp [mem, isMemberVt_vtList]

theorem getD_of_lt {v : List Bool} {i : ℕ} (u : Bool) (h : i < v.length) : nth u v i = v.getD i false := by
  rw [nth_eq_getD]
  simp [List.getD_eq_getElem?_getD, h]

theorem applyCmpList_eq (u : Undef) {c : ℕ × ℕ} {v : List Bool} (h1 : c.1 < v.length) (h2 : c.2 < v.length) :
    applyCmpList u c v = afterCmp c v := by
  unfold applyCmpList afterCmp
  simp only [listUpdate_eq_set, getD_of_lt u.bool h1, getD_of_lt u.bool h2]

theorem isRedundantCmpVt_useful (u : Undef) {n : ℕ} {ls : List (List Bool)} (hl : ∀ v ∈ ls, v.length = n) {c : ℕ × ℕ}
    (h1 : c.1 < n) (h2 : c.2 < n) : isRedundantCmpVt u c (vtList ls) = false ↔ Useful {v | v ∈ ls} c := by
  have e : ∀ p : Bool → Bool → Bool, ((listVt (vtList ls)).all fun x => !(p (nth u.bool x c.1) (nth u.bool x c.2))) = false ↔
      ∃ v ∈ {v | v ∈ ls}, p (v.getD c.1 false) (v.getD c.2 false) = true := by
    intro p
    rw [List.all_eq_false]
    refine exists_congr fun v => ?_
    rw [mem_listVt, isMemberVt_vtList]
    refine and_congr_right fun hv => ?_
    rw [getD_of_lt u.bool (by rw [hl v hv]; exact h1), getD_of_lt u.bool (by rw [hl v hv]; exact h2)]
    simp
  unfold isRedundantCmpVt Useful
  rw [Bool.not_eq_eq_eq_not, Bool.not_false, Bool.and_eq_true, Bool.not_eq_true', Bool.not_eq_true',
    e fun a b => a && !b, e fun a b => !a && b]
  simp only [Bool.and_eq_true, Bool.not_eq_true']

open scoped Classical in
theorem usefulCmps_eq (u : Undef) {n : ℕ} {ls : List (List Bool)} (hl : ∀ v ∈ ls, v.length = n) :
    ((ocmpList n).filter fun c => !(isRedundantCmpVt u c (vtList ls))) = usefulCmps n {v | v ∈ ls} := by
  unfold usefulCmps
  have : ocmpList n = (List.range n).flatMap fun i => (List.range i).map fun j => (j, i) := by
    unfold ocmpList
    simp only [upt_zero]
  rw [← this]
  refine List.filter_congr fun c hc => ?_
  rw [mem_ocmpList] at hc
  rw [Bool.eq_iff_iff, decide_eq_true_eq, Bool.not_eq_true']
  exact isRedundantCmpVt_useful u hl (by omega) (by omega)

theorem checkSuccessors_iff (u : Undef) (steps : ℤ → ProofStep) (limit : ℤ) (s : ProofStep) {ws : List (Option ProofWitness)}
    (hws : s.witnesses = .successor ws) : checkSuccessors u steps limit s = true ↔ StepFollows steps limit s := by
  unfold checkSuccessors StepFollows
  simp only [hws, Bool.and_eq_true, Bool.not_eq_true', decide_eq_false_iff_not, decide_eq_true_eq,
      List.all_eq_true, sizeList_eq, listAll2_iff, isUnsortedVt_iff, mem_vtList, nat_eq]
  by_cases hl : ∀ v ∈ s.vectList, v.length = s.width.toNat
  · have hu := usefulCmps_eq u hl
    simp only [hu, List.forall₂_map_left_iff]
    have key : List.Forall₂ (fun c w => (match getBound u steps limit w s.width.toNat
          (vtList (s.vectList.map (applyCmpList u c))) with
        | none => false
        | some ba => decide (s.bound.toNat ≤ ba + 1)) = true) (usefulCmps s.width.toNat {v | v ∈ s.vectList}) ws ↔
        List.Forall₂ (fun c w => ∃ b : ℕ, Shows steps limit s.width.toNat (afterCmp c '' {v | v ∈ s.vectList}) w b ∧
          s.bound ≤ b + 1) (usefulCmps s.width.toNat {v | v ∈ s.vectList}) ws := by
      rw [List.forall₂_iff_get, List.forall₂_iff_get]
      refine and_congr_right fun _ => forall_congr' fun i => forall_congr' fun h1 => forall_congr' fun h2 => ?_
      have hc : (usefulCmps s.width.toNat {v | v ∈ s.vectList}).get ⟨i, h1⟩ ∈ ocmpList s.width.toNat := by
        have h : ∀ c ∈ usefulCmps s.width.toNat {v | v ∈ s.vectList}, c ∈ ocmpList s.width.toNat := by
          rw [← hu]
          exact fun c hc => (List.mem_filter.1 hc).1
        exact h _ (List.get_mem _ _)
      generalize (usefulCmps s.width.toNat {v | v ∈ s.vectList}).get ⟨i, h1⟩ = c at hc
      generalize ws.get ⟨i, h2⟩ = w
      rw [mem_ocmpList] at hc
      have hm : mem (vtList (s.vectList.map (applyCmpList u c))) = afterCmp c '' {v | v ∈ s.vectList} := by
        rw [mem_vtList]
        ext l
        simp only [List.mem_map, Set.mem_ofPred_eq, Set.mem_image]
        refine exists_congr fun v => and_congr_right fun hv => ?_
        rw [applyCmpList_eq u (by rw [hl v hv]; omega) (by rw [hl v hv]; omega)]
      rw [← hm]
      cases hg : getBound u steps limit w s.width.toNat (vtList (s.vectList.map (applyCmpList u c))) with
      | none =>
        simp only [Bool.false_eq_true, false_iff, not_exists, not_and]
        intro b hb
        rw [← getBound_iff u, hg] at hb
        cases hb
      | some ba =>
        simp only [decide_eq_true_eq]
        constructor
        · intro h
          exact ⟨ba, (getBound_iff u _ _ _ _ _ _).1 hg, by omega⟩
        · rintro ⟨b, hb, h⟩
          rw [← getBound_iff u, hg] at hb
          cases hb
          omega
    constructor
    · rintro ⟨h1, h2, _, _, h5⟩
      exact ⟨hl, by omega, h2, key.1 h5⟩
    · rintro ⟨_, h1, h2, h5⟩
      exact ⟨by omega, h2, h5.length_eq, hl, key.2 h5⟩
  · constructor
    · rintro ⟨_, _, _, h, _⟩
      exact absurd h hl
    · rintro ⟨h, _⟩
      exact absurd h hl

theorem extremalChannels_eq (ls : List (List Bool)) (n : ℕ) (pol : Bool) :
    extremalChannelsVt (vtList ls) n pol = extremalChannels n pol {v | v ∈ ls} := by
  unfold extremalChannelsVt extremalChannels
  rw [upt_zero]
  refine List.filter_congr fun c _ => ?_
  rw [Bool.eq_iff_iff, isMemberVt_vtList]
  have : ((List.range n).map fun j => !(decide (j = c) == pol)) = extremal n pol c := by
    unfold extremal
    refine List.map_congr_left fun k _ => ?_
    cases decide (k = c) <;> cases pol <;> rfl
  rw [this]
  exact (@decide_eq_true_iff _ (Classical.propDecidable _)).symm

theorem mem_prune {n c : ℕ} (hc : c < n) (pol : Bool) {ls : List (List Bool)} (hl : ∀ v ∈ ls, v.length = n) :
    mem (pruneExtremalVt pol c (vtList ls)) = pruned pol c {v | v ∈ ls} := by
  ext l
  simp only [mem, pruned, Set.mem_ofPred_eq, isMemberVt_prune, isMemberVt_vtList, Set.mem_image]
  constructor
  · rintro (⟨h1, h2⟩ | ⟨h1, h2⟩)
    · have := hl l h2
      omega
    · refine ⟨_, ⟨h2, ?_⟩, ?_⟩
      · rw [List.getD_eq_getElem?_getD, List.getElem?_append_right (by simp [h1])]
        simp [h1]
      · rw [List.eraseIdx_append_of_length_le (by simp)]
        simp [h1]
  · rintro ⟨v, ⟨hv, hb⟩, rfl⟩
    have hlen := hl v hv
    right
    refine ⟨by rw [List.length_eraseIdx]; split_ifs <;> omega, ?_⟩
    have e : (v.eraseIdx c).take c ++ (!pol) :: (v.eraseIdx c).drop c = v := by
      rw [List.eraseIdx_eq_take_drop_succ]
      rw [List.take_append_of_le_length (by simp; omega), List.drop_append_of_le_length (by simp; omega), ← hb]
      rw [List.getD_eq_getElem?_getD, List.getElem?_eq_getElem (by omega), Option.getD_some]
      simp [List.take_take]
    rw [e]
    exact hv

theorem forall_of_zip {α β γ : Type} {R : α × β → γ → Prop} {l : List α} {bs : List β} {ws : List γ}
    (h : List.Forall₂ R (l.zip bs) ws) (hl : bs.length = l.length) (i : ℕ) (h1 : i < l.length) :
    ∃ (h2 : i < bs.length) (h3 : i < ws.length), R (l[i], bs[i]) ws[i] := by
  have hlen := h.length_eq
  rw [List.length_zip, hl, Nat.min_self] at hlen
  refine ⟨by omega, by omega, ?_⟩
  have := (List.forall₂_iff_get.1 h).2 i (by rw [List.length_zip]; omega) (by omega)
  simpa using this

theorem checkHuffman_iff (u : Undef) (steps : ℤ → ProofStep) (limit : ℤ) (s : ProofStep) {pol : Bool}
    {ws : List (Option ProofWitness)} (hws : s.witnesses = .huffman pol ws) :
    checkHuffman u steps limit s = true ↔ StepFollows steps limit s := by
  unfold checkHuffman StepFollows
  simp only [hws, Bool.and_eq_true, Bool.not_eq_true', decide_eq_false_iff_not, decide_eq_true_eq,
      List.all_eq_true, sizeList_eq, List.isEmpty_eq_false_iff, nat_eq, extremalChannels_eq]
  by_cases hl : ∀ v ∈ s.vectList, v.length = s.width.toNat
  · have hlt : ∀ c ∈ extremalChannels s.width.toNat pol {v | v ∈ s.vectList}, c < s.width.toNat := by
      intro c hc
      exact List.mem_range.1 (List.mem_filter.1 hc).1
    set cs := extremalChannels s.width.toNat pol {v | v ∈ s.vectList} with hcs
    have hp : s.width.toNat ≠ 0 → pred u s.width.toNat = s.width.toNat - 1 := fun h => by simp [pred, h]
    constructor
    · rintro ⟨hw, _, hne, hlen, hall, hb⟩
      rw [hp hw] at hall hb
      set bounds := ((cs.map fun c => pruneExtremalVt pol c (vtList s.vectList)).zip ws).map
        fun p => getBound u steps limit p.2 (s.width.toNat - 1) p.1 with hbounds
      have hblen : bounds.length = cs.length := by simp [hbounds, hlen]
      have hne' : bounds.map (the u.nat) ≠ [] := by
        intro h
        have := congrArg List.length h
        rw [List.length_map, hblen, hlen] at this
        exact hne (List.eq_nil_of_length_eq_zero this)
      refine ⟨hl, by omega, hne, bounds.map (the u.nat), _, (isOptMerge_iff hne').2 (sucmaxValueBoundHuffman_spec u _ hne'),
        by omega, by rw [List.length_map, hblen], ?_⟩
      rw [List.forall₂_iff_get]
      refine ⟨by simp [hblen, hlen], fun i h1 h2 => ?_⟩
      rw [List.length_zip] at h1
      have hi : i < cs.length := by omega
      have hib : i < bounds.length := by omega
      simp only [List.get_eq_getElem, List.getElem_zip, List.getElem_map]
      have hbi : bounds[i] = getBound u steps limit (ws[i]'h2) (s.width.toNat - 1)
          (pruneExtremalVt pol cs[i] (vtList s.vectList)) := by simp [hbounds]
      rw [← mem_prune (hlt _ (List.getElem_mem hi)) pol hl, ← getBound_iff u, ← hbi]
      have := hall bounds[i] (List.getElem_mem hib)
      cases hx : bounds[i] with
      | none => rw [hx] at this; cases this
      | some b => rfl
    · rintro ⟨_, hw, hne, bs, m, hm, hb, hlen, hf⟩
      have hw' : s.width.toNat ≠ 0 := by omega
      rw [hp hw']
      have hlen' : cs.length = ws.length := by
        have := hf.length_eq
        rw [List.length_zip] at this
        omega
      have hbounds : ((cs.map fun c => pruneExtremalVt pol c (vtList s.vectList)).zip ws).map
          (fun p => getBound u steps limit p.2 (s.width.toNat - 1) p.1) = bs.map some := by
        apply List.ext_getElem (by simp [hlen, hlen'])
        intro i h1 h2
        rw [List.length_map] at h2
        have hi : i < cs.length := by omega
        obtain ⟨_, h3, hR⟩ := forall_of_zip hf hlen i hi
        simp only [List.getElem_map, List.getElem_zip]
        rw [getBound_iff, mem_prune (hlt _ (List.getElem_mem hi)) pol hl]
        exact hR
      rw [hbounds]
      refine ⟨hw', hl, hne, hlen', ?_, ?_⟩
      · intro b hb
        obtain ⟨k, _, rfl⟩ := List.mem_map.1 hb
        rfl
      · have hbs : (bs.map some).map (the u.nat) = bs := by
          rw [List.map_map]
          conv_rhs => rw [← List.map_id bs]
          rfl
        have hbne : bs ≠ [] := by
          rintro rfl
          apply hne
          apply List.eq_nil_of_length_eq_zero
          rw [← hlen', ← hlen]
          rfl
        rw [hbs, ((isOptMerge_iff hbne).1 hm).unique (sucmaxValueBoundHuffman_spec u bs hbne)] at *
        omega
  · constructor
    · rintro ⟨_, h, _⟩
      exact absurd h hl
    · rintro ⟨h, _⟩
      exact absurd h hl

theorem checkStep_iff (u : Undef) (steps : ℤ → ProofStep) (limit : ℤ) (s : ProofStep) :
    checkStep u steps limit s = true ↔ StepFollows steps limit s := by
  unfold checkStep
  cases h : s.witnesses with
  | huffman pol ws => exact checkHuffman_iff u steps limit s h
  | successor ws => exact checkSuccessors_iff u steps limit s h

theorem checkProofGetBound_iff (u : Undef) (cert : ProofCert) (w b : ℤ) :
    checkProofGetBound u cert = some (w, b) ↔ Certifies cert w b := by
  unfold checkProofGetBound checkProof Certifies
  have key : (parRangeAll (fun i => checkStep u cert.step (i : ℤ) (cert.step (i : ℤ))) 0 (nat cert.length)) = true ↔
      ∀ i, 0 ≤ i → i < cert.length → StepFollows cert.step i (cert.step i) := by
    rw [parRangeAll_iff]
    constructor
    · intro h i h0 h1
      lift i to ℕ using h0
      exact (checkStep_iff u _ _ _).1 (h i (by omega) (by rw [nat_eq]; omega))
    · intro h k _ hk
      exact (checkStep_iff u _ _ _).2 (h k (by omega) (by rw [nat_eq] at hk; omega))
  constructor
  · intro h
    split_ifs at h with hc
    simp only [Bool.and_eq_true, decide_eq_true_eq] at hc
    simp only [Option.some.injEq, Prod.mk.injEq] at h
    exact ⟨hc.2, key.1 hc.1.2, h.1, h.2⟩
  · rintro ⟨h0, h1, rfl, rfl⟩
    rw [if_pos]
    simp only [Bool.and_eq_true, decide_eq_true_eq]
    exact ⟨⟨h0.le, key.2 h1⟩, h0⟩

end Sortnet.Checker
