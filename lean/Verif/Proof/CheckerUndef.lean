import Verif.Proof.CheckerSound

/-! # The result of the verified checker does not depend on undefined values -/

namespace Sortnet.Checker

set_option linter.unusedSimpArgs false

theorem nth_undef {α : Type} (u u' : α) (xs : List α) (i : ℕ) (h : i < xs.length) :
    nth u xs i = nth u' xs i := by
  simp [nth_eq_getD, List.getD_eq_getElem?_getD, h]

theorem permuteVt_undef (u u' : Undef) (ps : List ℕ) (n : ℕ) (a : VectTrie) (hps : ∀ p ∈ ps, p < n)
    (ha : VtWidth n a) : permuteVt u ps a = permuteVt u' ps a := by
  unfold permuteVt
  congr 1
  apply List.map_congr_left
  intro l hl
  apply List.map_congr_left
  intro p hp
  apply nth_undef
  rw [ha l ((mem_listVt _ _).1 hl)]
  exact hps p hp

theorem vtWidth_invertVt {n : ℕ} {z : Bool} {a : VectTrie} (h : VtWidth n a) :
    VtWidth n (invertVt z a) := by
  intro l hl
  rw [mem_invertVt] at hl
  obtain ⟨l', hl', rfl⟩ := hl
  have := h l' hl'
  split_ifs <;> simpa

theorem vtWidth_vtList {n : ℕ} {ls : List (List Bool)} (h : ∀ l ∈ ls, l.length = n) :
    VtWidth n (vtList ls) := fun l hl => h l ((isMemberVt_vtList _ _).1 hl)

theorem getBound_undef (u u' : Undef) (steps : ℤ → ProofStep) (limit : ℤ) (w : Option ProofWitness)
    (n : ℕ) (a : VectTrie) : getBound u steps limit w n a = getBound u' steps limit w n a := by
  cases w with
  | none => rfl
  | some w =>
    simp only [getBound]
    by_cases h1 : ((w.perm.map nat).all fun i => decide (0 ≤ i) && decide (i < n)) = true
    · by_cases h2 : ((steps w.stepId).vectList.all fun xs => decide (sizeList xs = n)) = true
      · have : permuteVt u (w.perm.map nat) (invertVt w.invert (vtList (steps w.stepId).vectList)) =
            permuteVt u' (w.perm.map nat) (invertVt w.invert (vtList (steps w.stepId).vectList)) := by
          apply permuteVt_undef (n := n)
          · intro p hp
            simp only [List.all_eq_true, Bool.and_eq_true, decide_eq_true_eq] at h1
            exact (h1 p hp).2
          · apply vtWidth_invertVt
            apply vtWidth_vtList
            intro l hl
            simp only [List.all_eq_true, decide_eq_true_eq, sizeList_eq] at h2
            exact h2 l hl
        rw [this]
      · simp only [h2, Bool.not_false, Bool.true_or, Bool.or_true, if_true]
    · simp only [h1, Bool.not_false, Bool.true_or, Bool.or_true, if_true]

theorem checkHuffman_undef (u u' : Undef) (steps : ℤ → ProofStep) (limit : ℤ) (s : ProofStep) :
    checkHuffman u steps limit s = checkHuffman u' steps limit s := by
  have key : ∀ u u' : Undef, checkHuffman u steps limit s = true → checkHuffman u' steps limit s = true := by
    intro u u'
    unfold checkHuffman
    cases s.witnesses with
    | successor ws => simp
    | huffman pol ws =>
      simp only [Bool.and_eq_true, Bool.not_eq_true', decide_eq_false_iff_not, decide_eq_true_eq,
        List.all_eq_true, sizeList_eq, List.isEmpty_eq_false_iff]
      rintro ⟨hw0, hlen, hne, hcount, hall, hle⟩
      have hp : pred u' (nat s.width) = pred u (nat s.width) := by simp [pred, hw0]
      have hb : ∀ p : VectTrie × Option ProofWitness,
          getBound u' steps limit p.2 (pred u' (nat s.width)) p.1 =
            getBound u steps limit p.2 (pred u (nat s.width)) p.1 := by
        intro p; rw [hp]; exact getBound_undef _ _ _ _ _ _ _
      simp only [hb]
      refine ⟨hw0, hlen, hne, hcount, hall, ?_⟩
      set bounds := List.map (fun p => getBound u steps limit p.2 (pred u (nat s.width)) p.1)
        ((List.map (fun c => pruneExtremalVt pol c (vtList s.vectList))
          (extremalChannelsVt (vtList s.vectList) (nat s.width) pol)).zip ws) with hbounds
      have hthe : bounds.map (the u'.nat) = bounds.map (the u.nat) := by
        apply List.map_congr_left
        intro b hb
        have := hall b hb
        cases b with
        | none => simp [isNone] at this
        | some b => rfl
      have hbne : bounds.map (the u.nat) ≠ [] := by
        intro h0
        have h1 := congrArg List.length h0
        simp [hbounds, hcount] at h1
        exact hne h1
      rw [hthe, ← (sucmaxValueBoundHuffman_spec u _ hbne).unique (sucmaxValueBoundHuffman_spec u' _ hbne)]
      exact hle
  rw [Bool.eq_iff_iff]
  exact ⟨key u u', key u' u⟩

theorem checkSuccessors_undef (u u' : Undef) (steps : ℤ → ProofStep) (limit : ℤ) (s : ProofStep) :
    checkSuccessors u steps limit s = checkSuccessors u' steps limit s := by
  unfold checkSuccessors
  cases s.witnesses with
  | huffman pol ws => rfl
  | successor ws =>
    by_cases hlen : (s.vectList.all fun xs => decide (sizeList xs = nat s.width)) = true
    · have hlen' : ∀ l ∈ s.vectList, l.length = nat s.width := by
        simpa only [List.all_eq_true, decide_eq_true_eq, sizeList_eq] using hlen
      have hr : ∀ c ∈ ocmpList (nat s.width), isRedundantCmpVt u c (vtList s.vectList) =
          isRedundantCmpVt u' c (vtList s.vectList) := by
        intro c hc
        rw [mem_ocmpList] at hc
        have hn : ∀ l ∈ listVt (vtList s.vectList), nth u.bool l c.1 = nth u'.bool l c.1 ∧
            nth u.bool l c.2 = nth u'.bool l c.2 := by
          intro l hl
          have := hlen' l ((isMemberVt_vtList _ _).1 ((mem_listVt _ _).1 hl))
          exact ⟨nth_undef _ _ _ _ (by omega), nth_undef _ _ _ _ (by omega)⟩
        rw [Bool.eq_iff_iff]
        simp only [isRedundantCmpVt, Bool.not_and, Bool.not_not, Bool.or_eq_true, List.all_eq_true]
        apply or_congr
        · apply forall₂_congr
          intro l hl
          rw [(hn l hl).1, (hn l hl).2]
        · apply forall₂_congr
          intro l hl
          rw [(hn l hl).1, (hn l hl).2]
      have hf : (ocmpList (nat s.width)).filter (fun c => !(isRedundantCmpVt u c (vtList s.vectList))) =
          (ocmpList (nat s.width)).filter (fun c => !(isRedundantCmpVt u' c (vtList s.vectList))) := by
        apply List.filter_congr
        intro c hc
        rw [hr c hc]
      have hm : ((ocmpList (nat s.width)).filter
            (fun c => !(isRedundantCmpVt u' c (vtList s.vectList)))).map
              (fun c => vtList (s.vectList.map (applyCmpList u c))) =
          ((ocmpList (nat s.width)).filter
            (fun c => !(isRedundantCmpVt u' c (vtList s.vectList)))).map
              (fun c => vtList (s.vectList.map (applyCmpList u' c))) := by
        apply List.map_congr_left
        intro c hc
        rw [List.mem_filter, mem_ocmpList] at hc
        congr 1
        apply List.map_congr_left
        intro l hl
        have := hlen' l hl
        simp only [applyCmpList]
        rw [nth_undef u.bool u'.bool l c.1 (by omega), nth_undef u.bool u'.bool l c.2 (by omega)]
      simp only [hf, hm]
      simp only [getBound_undef u u']
    · simp only [hlen, Bool.false_and, Bool.and_false]

theorem checkProofGetBound_undef (u u' : Undef) (cert : ProofCert) :
    checkProofGetBound u cert = checkProofGetBound u' cert := by
  have : checkProof u cert = checkProof u' cert := by
    unfold checkProof
    congr 2
    funext i
    unfold checkStep
    rw [checkHuffman_undef u u', checkSuccessors_undef u u']
  unfold checkProofGetBound
  rw [this]

end Sortnet.Checker
