import Verif.Proof.RefSets
import Verif.Proof.Huffman

/-!
# Agreement of the two checkers
-/

namespace Sortnet.Ref

open Checker (VectTrie isMemberVt vtList)
open Decode (translateStep translateWitness translateWitnessList wrap64)

theorem wrap64_eq {i : ℤ} (h0 : 0 ≤ i) (h1 : i < 2 ^ 63) : wrap64 i = i := by
  unfold wrap64
  rw [Int.bmod_def]
  norm_num at *
  split_ifs <;> omega

theorem SetOk.rep {vs : VectSet} (h : SetOk vs) :
    Rep vs.channels vs.vects (vtList (asBoolVectList vs)) := rep_vtList h.fits h.nodup

/-- The lookup of steps by `checkStep`. -/
def lookup (count : ℕ) (steps : ℤ → ProofStep) (limit : ℤ) : ProofSteps := fun i => do
  check (decide (i < limit))
  if 0 ≤ i ∧ i < count then .ok (steps i) else .error .left

theorem lookup_eq {count : ℕ} {steps : ℤ → ProofStep} {limit : ℤ} (hl : limit ≤ count) {i : ℤ} (hi : 0 ≤ i) :
    lookup count steps limit i = if i < limit then .ok (steps i) else .error .left := by
  unfold lookup check
  by_cases h : i < limit
  · have : 0 ≤ i ∧ i < (count : ℤ) := ⟨hi, by omega⟩
    simp only [h, decide_true, if_true, if_pos this]
    rfl
  · simp only [h, decide_false, if_false, Bool.false_eq_true]
    rfl

theorem rep_permuted (u : Checker.Undef) {vs : VectSet} (h : SetOk vs) (w : Witness)
    (hp : w.perm.Perm (List.range vs.channels)) :
    Rep vs.channels (permute w.perm (if w.invert then invert vs else vs)).vects
      (Checker.permuteVt u w.perm (Checker.invertVt w.invert (vtList (asBoolVectList vs)))) := by
  have hlen : w.perm.length = vs.channels := by simpa using hp.length_eq
  have hlt : ∀ p ∈ w.perm, p < vs.channels := fun p hp' => by simpa using hp.mem_iff.1 hp'
  have hn := h.channels
  have h1 : Rep vs.channels (if w.invert then invert vs else vs).vects
      (Checker.invertVt w.invert (vtList (asBoolVectList vs))) := by
    cases hi : w.invert
    · simpa [Checker.invertVt] using h.rep
    · simp only [if_true]
      refine h.rep.map _ (·.map not) (fun v hv => fits_invert hn (h.fits v hv))
        (fun v _ => boolVect_invert hn v) ?_
      intro xs
      rw [Checker.mem_invertVt]
      simp
  refine h1.map _ (Checker.permuteListVect u w.perm) ?_ ?_ (Checker.mem_permuteVt u _ _)
  · intro v _
    rw [← hlen]
    exact fits_permVect (by omega)
  · intro v _
    exact boolVect_permVect u hn hlen hlt

theorem permute_channels (vs : VectSet) (w : Witness) :
    (permute w.perm (if w.invert then invert vs else vs)).channels = vs.channels := by
  cases w.invert <;> rfl

/-- `getBound` of the two checkers. -/
theorem getBound_iff (u : Checker.Undef) {count : ℕ} {steps : ℤ → ProofStep} {limit : ℤ}
    (hl : limit ≤ count) (hc : (count : ℤ) < 2 ^ 63)
    (hsteps : ∀ i, 0 ≤ i → i < limit → SetOk (steps i).vectSet ∧ (steps i).vectSet.vects ≠ [])
    {vs : VectSet} {t : VectTrie} (ht : Rep vs.channels vs.vects t) (w : Option Witness)
    (hw : ∀ w', w = some w' → w'.perm.Perm (List.range vs.channels)) (b : ℕ) :
    getBound (lookup count steps limit) w vs = .ok b ↔
      Checker.getBound u (fun i => translateStep (steps (wrap64 i))) limit (w.map translateWitness)
        vs.channels t = some b := by
  cases w with
  | none =>
    have hsz : size vs = vs.vects.length := rfl
    simp only [getBound, Option.map_none, Checker.getBound, Checker.isUnsortedVt, ht.size,
      decide_eq_true_eq]
    by_cases h : size vs ≤ 1 + vs.channels
    · rw [if_pos h, if_neg (by omega)]
      simp
    · rw [if_neg h, if_pos (by omega)]
      simp
  | some w =>
    have hp := hw w rfl
    have hlen : w.perm.length = vs.channels := by simpa using hp.length_eq
    have hlt : ∀ p ∈ w.perm, p < vs.channels := fun p hp' => by simpa using hp.mem_iff.1 hp'
    have hnd : w.perm.Nodup := hp.nodup_iff.2 List.nodup_range
    have hperm : ((translateWitness w).perm.map Checker.nat) = w.perm := by
      simp only [translateWitness, List.map_map]
      conv_rhs => rw [← List.map_id w.perm]
      apply List.map_congr_left
      intro p _
      simp [Checker.nat]
    simp only [getBound, Option.map_some, Checker.getBound, hperm]
    have e1 : (translateWitness w).stepId = (w.stepId : ℤ) := rfl
    have e2 : (translateWitness w).invert = w.invert := rfl
    rw [e1, e2, lookup_eq hl (by omega)]
    by_cases hid : (w.stepId : ℤ) < limit
    · rw [if_pos hid, wrap64_eq (by omega) (by omega)]
      obtain ⟨hok, hne⟩ := hsteps w.stepId (by omega) hid
      set st := steps w.stepId with hst
      have hall : (w.perm.all fun i => decide (0 ≤ i) && decide (i < vs.channels)) = true := by
        rw [List.all_eq_true]
        intro p hp'
        simp [hlt p hp']
      have hlist : ((translateStep st).vectList.all fun xs => decide (Checker.sizeList xs = vs.channels))
          = decide (st.vectSet.channels = vs.channels) := by
        rw [Bool.eq_iff_iff, List.all_eq_true]
        simp only [decide_eq_true_eq, translateStep, asBoolVectList, List.mem_map,
          Checker.sizeList_eq, forall_exists_index, and_imp, forall_apply_eq_imp_iff₂, List.length_map,
          List.length_range]
        constructor
        · intro h
          obtain ⟨v, hv⟩ := List.exists_mem_of_ne_nil _ hne
          exact h v hv
        · intro h _ _
          exact h
      have hpos : (0 : ℤ) ≤ w.stepId := by omega
      rw [hall, hlist, (Checker.distinct_iff _).2 hnd, Checker.sizeList_eq, hlen]
      simp only [bind, Except.bind, subsumes, permute_channels, hpos, hid, decide_true, Bool.and_self,
        Bool.not_true, Bool.false_or]
      by_cases hch : st.vectSet.channels = vs.channels
      · have hrep := rep_permuted u hok w (by rw [hch]; exact hp)
        have hsub := Rep.isSubset hrep (by rw [hch]; exact ht)
        have e3 : (translateStep st).vectList = asBoolVectList st.vectSet := rfl
        have e4 : Checker.nat (translateStep st).bound = st.bound := by
          simp [translateStep, Checker.nat]
        rw [e3, hsub, e4]
        simp only [hch, if_true, decide_true, Bool.not_true, Bool.false_or]
        unfold check
        cases isSubsetOf (permute w.perm (if w.invert = true then invert st.vectSet else st.vectSet)).vects
          vs.vects <;> simp [pure, Except.pure]
      · simp [hch]
    · rw [if_neg hid]
      simp [hid, bind, Except.bind]

/-! ## Lists of results -/

theorem traverse_ok {α β : Type} (f : α → Result β) (xs : List α) (ys : List β) :
    traverse f xs = .ok ys ↔ List.Forall₂ (fun x y => f x = .ok y) xs ys := by
  induction xs generalizing ys with
  | nil => cases ys <;> simp [traverse]
  | cons x xs ih =>
    simp only [traverse]
    cases hx : f x with
    | error e =>
      simp only [reduceCtorEq, false_iff]
      rintro (_ | ⟨h, _⟩)
      rw [hx] at h
      cases h
    | ok y =>
      cases hxs : traverse f xs with
      | error e =>
        simp only [reduceCtorEq, false_iff]
        rintro (_ | ⟨h, h'⟩)
        rw [← ih, hxs] at h'
        cases h'
      | ok zs =>
        simp only [Except.ok.injEq]
        constructor
        · rintro rfl
          exact .cons hx ((ih zs).1 hxs)
        · rintro (_ | ⟨h, h'⟩)
          rw [hx] at h
          rw [← ih, hxs] at h'
          cases h
          cases h'
          rfl

theorem traverse_ok_map {α β : Type} (f : α → Result β) (g : α → Option β) (xs : List α)
    (h : ∀ x ∈ xs, ∀ b, f x = .ok b ↔ g x = some b) (ys : List β) :
    traverse f xs = .ok ys ↔ xs.map g = ys.map some := by
  rw [traverse_ok]
  induction xs generalizing ys with
  | nil => cases ys <;> simp
  | cons x xs ih =>
    cases ys with
    | nil => simp
    | cons y ys =>
      rw [List.forall₂_cons, List.map_cons, List.map_cons, List.cons.injEq,
        ih (fun x' hx' => h x' (by simp [hx'])), h x (by simp)]

theorem traverse_ok_exists {α β : Type} (f : α → Result β) (xs : List α) :
    (∃ ys, traverse f xs = .ok ys) ↔ ∀ x ∈ xs, ∃ y, f x = .ok y := by
  simp only [traverse_ok]
  induction xs with
  | nil => simp
  | cons x xs ih =>
    simp only [List.mem_cons, forall_eq_or_imp, ← ih]
    constructor
    · rintro ⟨_, _ | ⟨h, h'⟩⟩
      exact ⟨⟨_, h⟩, ⟨_, h'⟩⟩
    · rintro ⟨⟨y, hy⟩, ⟨ys, hys⟩⟩
      exact ⟨y :: ys, .cons hy hys⟩

theorem check_ok {c : Bool} {x : Unit} : check c = .ok x ↔ c = true := by
  unfold check
  cases c <;> simp

/-! ## Huffman steps -/

theorem rep_prune {vs : VectSet} (h : SetOk vs) (pol : Bool) {c : ℕ} (hc : c < vs.channels) :
    Rep (pruneExtremal pol c vs).channels (pruneExtremal pol c vs).vects
      (Checker.pruneExtremalVt pol c (vtList (asBoolVectList vs))) := by
  have hn := h.channels
  have hmem : ∀ w, w ∈ (pruneExtremal pol c vs).vects ↔
      ∃ v ∈ vs.vects, v.getLsbD c = (!pol) ∧ pruneVect c v = w := by
    intro w
    unfold pruneExtremal
    dsimp only
    rw [mem_isMap]
    simp only [List.mem_filter, beq_iff_eq, and_bit_eq (show c < 64 by omega), pruneVect, and_assoc]
  refine ⟨?_, nodup_isMap, ?_⟩
  · intro w hw
    obtain ⟨v, hv, _, rfl⟩ := (hmem w).1 hw
    exact fits_pruneVect hc hn (h.fits v hv)
  · intro xs
    rw [Checker.C04_prune pol vs.channels c hc]
    · constructor
      · rintro ⟨ys, h1, h2, rfl⟩
        obtain ⟨v, hv, rfl⟩ := (h.rep.mem _).1 h1
        rw [boolVect_getElem?, if_pos hc, Option.some.injEq] at h2
        exact ⟨pruneVect c v, (hmem _).2 ⟨v, hv, h2, rfl⟩, boolVect_pruneVect hc hn (h.fits v hv)⟩
      · rintro ⟨w, hw, rfl⟩
        obtain ⟨v, hv, hpol, rfl⟩ := (hmem w).1 hw
        refine ⟨boolVect vs.channels v, (h.rep.mem _).2 ⟨v, hv, rfl⟩, ?_,
          boolVect_pruneVect hc hn (h.fits v hv)⟩
        rw [boolVect_getElem?, if_pos hc, hpol]
    · intro xs hxs
      obtain ⟨v, _, rfl⟩ := (h.rep.mem _).1 hxs
      simp

theorem extremalChannels_eq {vs : VectSet} (h : SetOk vs) (pol : Bool) :
    Checker.extremalChannelsVt (vtList (asBoolVectList vs)) vs.channels pol = extremalChannels pol vs := by
  have hn := h.channels
  unfold Checker.extremalChannelsVt extremalChannels
  rw [Checker.upt_zero]
  apply List.filter_congr
  intro i hi
  rw [List.mem_range] at hi
  have hbits : ∀ j, (bit i ^^^ (if pol then bit vs.channels - 1 else 0)).getLsbD j =
      (decide (j = i) ^^ (pol && decide (j < vs.channels))) := by
    intro j
    rw [BitVec.getLsbD_xor, getLsbD_bit]
    have h64 : i < 64 := by omega
    cases pol
    · simp [h64]
    · rw [if_pos rfl, getLsbD_bit_sub_one _ _ hn]
      simp [h64]
  have hvec : boolVect vs.channels (bit i ^^^ (if pol then bit vs.channels - 1 else 0)) =
      (List.range vs.channels).map fun j => !(decide (j = i) == pol) := by
    unfold boolVect testBit
    apply List.map_congr_left
    intro j hj
    rw [List.mem_range] at hj
    rw [hbits]
    cases pol <;> simp [hj]
  have hfits : Fits vs.channels (bit i ^^^ (if pol then bit vs.channels - 1 else 0)) := by
    intro j hj
    rw [hbits]
    have h1 : j ≠ i := by omega
    have h2 : ¬ j < vs.channels := by omega
    simp [h1, h2]
  rw [← hvec, Bool.eq_iff_iff, h.rep.mem]
  constructor
  · rintro ⟨v, hv, hvv⟩
    rw [boolVect_inj (h.fits v hv) hfits hvv] at hv
    simpa using hv
  · intro hv
    exact ⟨_, by simpa using hv, rfl⟩

theorem all_some_iff {β : Type} (l : List (Option β)) :
    (l.all fun b => !(Checker.isNone b)) = true ↔ ∃ ys : List β, l = ys.map some := by
  induction l with
  | nil => simp
  | cons x l ih =>
    rw [List.all_cons, Bool.and_eq_true, ih]
    constructor
    · rintro ⟨h, ys, rfl⟩
      cases x with
      | none => simp [Checker.isNone] at h
      | some y => exact ⟨y :: ys, rfl⟩
    · rintro ⟨_ | ⟨y, ys⟩, h⟩
      · simp at h
      · rw [List.map_cons, List.cons.injEq] at h
        exact ⟨by rw [h.1]; rfl, ys, h.2⟩

theorem all_length {vs : VectSet} :
    ((asBoolVectList vs).all fun xs => decide (Checker.sizeList xs = vs.channels)) = true := by
  rw [List.all_eq_true]
  intro xs hxs
  unfold asBoolVectList at hxs
  obtain ⟨v, _, rfl⟩ := List.mem_map.1 hxs
  simp

theorem checkHuffman_iff (u : Checker.Undef) {count : ℕ} {steps : ℤ → ProofStep} {limit : ℤ}
    (hl : limit ≤ count) (hc : (count : ℤ) < 2 ^ 63)
    (hsteps : ∀ i, 0 ≤ i → i < limit → SetOk (steps i).vectSet ∧ (steps i).vectSet.vects ≠ [])
    {step : ProofStep} (hstep : SetOk step.vectSet) (pol : Bool) (ws : List (Option Witness))
    (hws : step.witnesses = .huffman pol ws) (hperm : PermsOk (step.vectSet.channels - 1) ws) :
    checkHuffman (lookup count steps limit) step pol ws = .ok () ↔
      Checker.checkHuffman u (fun i => translateStep (steps (wrap64 i))) limit (translateStep step) = true := by
  set vs := step.vectSet with hvs
  set L := (extremalChannels pol vs).zip ws with hL
  set G : ℕ × Option Witness → Option ℕ := fun p =>
    Checker.getBound u (fun i => translateStep (steps (wrap64 i))) limit (p.2.map translateWitness)
      (vs.channels - 1) (Checker.pruneExtremalVt pol p.1 (vtList (asBoolVectList vs))) with hG
  have hFG : ∀ p ∈ L, ∀ b, getBound (lookup count steps limit) p.2 (pruneExtremal pol p.1 vs) = .ok b ↔
      G p = some b := by
    intro p hp b
    have h1 : p.1 ∈ extremalChannels pol vs := (List.of_mem_zip hp).1
    have h2 : p.2 ∈ ws := (List.of_mem_zip hp).2
    have h3 : p.1 < vs.channels := by
      unfold extremalChannels at h1
      exact List.mem_range.1 (List.mem_filter.1 h1).1
    refine getBound_iff u hl hc hsteps (rep_prune hstep pol h3) p.2 ?_ b
    intro w' hw'
    rw [hw'] at h2
    exact hperm w' h2
  have hleft : checkHuffman (lookup count steps limit) step pol ws = .ok () ↔
      (extremalChannels pol vs).length = ws.length ∧ ∃ ys, L.map G = ys.map some ∧ ys ≠ [] ∧
        step.bound ≤ Checker.sucmaxValueBoundHuffman u ys := by
    unfold checkHuffman
    simp only [bind, Except.bind]
    rw [← hvs, ← hL]
    by_cases hlen : (extremalChannels pol vs).length = ws.length
    · have : ((extremalChannels pol vs).length == ws.length) = true := by simp [hlen]
      rw [this]
      simp only [check, if_true, hlen, true_and]
      cases ht : traverse (fun cw => getBound (lookup count steps limit) cw.2 (pruneExtremal pol cw.1 vs)) L with
      | error e =>
        simp only [reduceCtorEq, false_iff]
        rintro ⟨ys, h1, _⟩
        rw [← traverse_ok_map _ G L hFG, ht] at h1
        cases h1
      | ok zs =>
        have hz := (traverse_ok_map _ G L hFG zs).1 ht
        simp only
        by_cases hne : zs = []
        · subst hne
          rw [huffmanBound_nil]
          simp only [reduceCtorEq, false_iff]
          rintro ⟨ys, h1, h2, _⟩
          rw [hz] at h1
          cases ys with
          | nil => exact h2 rfl
          | cons => simp at h1
        · rw [huffmanBound_spec zs hne (Checker.sucmaxValueBoundHuffman_spec u zs hne)]
          simp only
          constructor
          · intro h
            have h' : decide (step.bound ≤ Checker.sucmaxValueBoundHuffman u zs) = true := by
              by_contra hf
              rw [if_neg hf] at h
              cases h
            exact ⟨zs, hz, hne, by simpa using h'⟩
          · rintro ⟨ys, h1, h2, h3⟩
            rw [hz] at h1
            have : zs = ys := (List.map_injective_iff.2 (Option.some_injective _)) h1
            subst this
            simp [h3]
    · have : ((extremalChannels pol vs).length == ws.length) = false := by simp [hlen]
      rw [this]
      simp [check, hlen]
  rw [hleft]
  unfold Checker.checkHuffman
  have e1 : (translateStep step).witnesses = .huffman pol (translateWitnessList ws) := by
    simp only [translateStep, hws, Decode.translateWitnesses]
  have e2 : Checker.nat (translateStep step).width = vs.channels := by simp [translateStep, Checker.nat, ← hvs]
  have e3 : Checker.nat (translateStep step).bound = step.bound := by simp [translateStep, Checker.nat]
  have e4 : (translateStep step).vectList = asBoolVectList vs := rfl
  rw [e1]
  simp only [e2, e3, e4, extremalChannels_eq hstep, all_length, Bool.true_and]
  by_cases h0 : vs.channels = 0
  · have : extremalChannels pol vs = [] := by unfold extremalChannels; simp [h0]
    simp only [h0, decide_true, Bool.not_true, Bool.false_and, Bool.false_eq_true, iff_false]
    rintro ⟨_, ys, h1, h2, _⟩
    rw [hL, this] at h1
    cases ys with
    | nil => exact h2 rfl
    | cons => simp at h1
  · have hpred : Checker.pred u vs.channels = vs.channels - 1 := by simp [Checker.pred, h0]
    have hzip : ((((extremalChannels pol vs).map fun c => Checker.pruneExtremalVt pol c (vtList (asBoolVectList vs))).zip
        (translateWitnessList ws)).map fun p =>
          Checker.getBound u (fun i => translateStep (steps (wrap64 i))) limit p.2 (vs.channels - 1) p.1) = L.map G := by
      rw [hL, translateWitnessList, List.zip_map, List.map_map]
      rfl
    rw [hpred, hzip]
    simp only [h0, decide_false, Bool.not_false, Bool.true_and, Bool.and_eq_true, Checker.sizeList_eq,
      decide_eq_true_eq, all_some_iff]
    have hlen2 : (translateWitnessList ws).length = ws.length := by simp [translateWitnessList]
    rw [hlen2]
    have hempty : (!(translateWitnessList ws).isEmpty) = true ↔ ws ≠ [] := by
      cases ws <;> simp [translateWitnessList]
    rw [hempty]
    have hthe : ∀ ys : List ℕ, (ys.map some).map (Checker.the u.nat) = ys := by
      intro ys
      rw [List.map_map]
      conv_rhs => rw [← List.map_id ys]
      rfl
    constructor
    · rintro ⟨h1, ys, h2, h3, h4⟩
      refine ⟨?_, h1, ⟨ys, h2⟩, ?_⟩
      · rintro rfl
        rw [hL] at h2
        cases ys with
        | nil => exact h3 rfl
        | cons => simp at h2
      · rw [h2, hthe]; exact h4
    · rintro ⟨h1, h2, ⟨ys, h3⟩, h4⟩
      refine ⟨h2, ys, h3, ?_, ?_⟩
      · rintro rfl
        have := congrArg List.length h3
        simp only [hL, List.length_map, List.length_zip, h2, min_self, List.length_nil] at this
        exact h1 (List.eq_nil_of_length_eq_zero this)
      · rw [h3, hthe] at h4; exact h4

/-! ## Successor steps -/

theorem any_mask {vs : VectSet} {a b : ℕ} (ha : a < 64) (hb : b < 64) (hab : a ≠ b) :
    (vs.vects.any fun v => v &&& (bit a ||| bit b) == bit a) = true ↔
      ∃ v ∈ vs.vects, v.getLsbD a = true ∧ v.getLsbD b = false := by
  simp only [List.any_eq_true, beq_iff_eq, and_mask_eq ha hb hab]

theorem applyComp_eq (u : Checker.Undef) {vs : VectSet} (h : SetOk vs) {i j : ℕ} (hij : j < i)
    (hi : i < vs.channels) :
    applyComp i j vs =
      if Checker.isRedundantCmpVt u (j, i) (vtList (asBoolVectList vs)) then none
      else some ⟨vs.channels, isMap (compVect i j) vs.vects⟩ := by
  have hn := h.channels
  have hmem : ∀ (P : List Bool → Bool), ((Checker.listVt (vtList (asBoolVectList vs))).all P) = true ↔
      ∀ v ∈ vs.vects, P (boolVect vs.channels v) = true := by
    intro P
    rw [List.all_eq_true]
    constructor
    · intro h' v hv
      exact h' _ ((Checker.mem_listVt _ _).2 ((h.rep.mem _).2 ⟨v, hv, rfl⟩))
    · intro h' xs hxs
      obtain ⟨v, hv, rfl⟩ := (h.rep.mem _).1 ((Checker.mem_listVt _ _).1 hxs)
      exact h' v hv
  have hnth : ∀ (v : BitVec 64) (k : ℕ), k < vs.channels →
      Checker.nth u.bool (boolVect vs.channels v) k = v.getLsbD k := by
    intro v k hk
    rw [Checker.nth_eq_getD, List.getD_eq_getElem?_getD, boolVect_getElem?, if_pos hk]
    rfl
  have hred : Checker.isRedundantCmpVt u (j, i) (vtList (asBoolVectList vs)) = false ↔
      (∃ v ∈ vs.vects, v.getLsbD i = true ∧ v.getLsbD j = false) ∧
      (∃ v ∈ vs.vects, v.getLsbD j = true ∧ v.getLsbD i = false) := by
    have hP : ∀ (P : List Bool → Bool), ((Checker.listVt (vtList (asBoolVectList vs))).all P) = false ↔
        ∃ v ∈ vs.vects, P (boolVect vs.channels v) = false := by
      intro P
      rw [← Bool.not_eq_true, hmem]
      simp
    unfold Checker.isRedundantCmpVt
    rw [Bool.not_eq_false', Bool.and_eq_true, Bool.not_eq_true', Bool.not_eq_true', hP, hP]
    constructor
    · rintro ⟨⟨v, hv, h1⟩, ⟨w, hw, h2⟩⟩
      simp only [hnth v j (by omega), hnth v i hi] at h1
      simp only [hnth w j (by omega), hnth w i hi] at h2
      refine ⟨⟨w, hw, ?_⟩, ⟨v, hv, ?_⟩⟩
      · revert h2; cases w.getLsbD i <;> cases w.getLsbD j <;> simp
      · revert h1; cases v.getLsbD i <;> cases v.getLsbD j <;> simp
    · rintro ⟨⟨w, hw, h2⟩, ⟨v, hv, h1⟩⟩
      refine ⟨⟨v, hv, ?_⟩, ⟨w, hw, ?_⟩⟩
      · simp only [hnth v j (by omega), hnth v i hi, h1.1, h1.2]; decide
      · simp only [hnth w j (by omega), hnth w i hi, h2.1, h2.2]; decide
  unfold applyComp
  dsimp only
  have hm1 := any_mask (vs := vs) (show i < 64 by omega) (show j < 64 by omega) (show i ≠ j by omega)
  have hm2 := any_mask (vs := vs) (show j < 64 by omega) (show i < 64 by omega) (show j ≠ i by omega)
  rw [show bit j ||| bit i = bit i ||| bit j from BitVec.or_comm _ _] at hm2
  cases hr : Checker.isRedundantCmpVt u (j, i) (vtList (asBoolVectList vs))
  · rw [hred, ← hm1, ← hm2, ← Bool.and_eq_true] at hr
    rw [if_pos hr, if_neg (by simp)]
    rfl
  · rw [← Bool.not_eq_false, hred, ← hm1, ← hm2, ← Bool.and_eq_true] at hr
    rw [if_neg hr, if_pos rfl]

theorem filterMap_ite {α β : Type} (l : List α) (p : α → Bool) (f : α → β) (g : α → Option β)
    (h : ∀ x ∈ l, g x = if p x then none else some (f x)) :
    l.filterMap g = (l.filter fun x => !(p x)).map f := by
  induction l with
  | nil => rfl
  | cons x l ih =>
    have hx := h x (by simp)
    have ih' := ih fun y hy => h y (by simp [hy])
    cases hp : p x
    · rw [List.filterMap_cons, hx, hp, List.filter_cons, hp]
      simp [ih']
    · rw [List.filterMap_cons, hx, hp, List.filter_cons, hp]
      simp [ih']

theorem successors_eq (u : Checker.Undef) {vs : VectSet} (h : SetOk vs) :
    successors vs =
      ((Checker.ocmpList vs.channels).filter fun c =>
        !(Checker.isRedundantCmpVt u c (vtList (asBoolVectList vs)))).map
          fun c => ⟨vs.channels, isMap (compVect c.2 c.1) vs.vects⟩ := by
  rw [← filterMap_ite (g := fun c => applyComp c.2 c.1 vs)]
  · unfold successors Checker.ocmpList
    rw [Checker.upt_zero]
    simp only [Checker.upt_zero, List.filterMap_flatMap, List.filterMap_map]
    rfl
  · rintro ⟨j, i⟩ hc
    rw [Checker.mem_ocmpList] at hc
    exact applyComp_eq u h hc.1 hc.2

theorem rep_comp (u : Checker.Undef) {vs : VectSet} (h : SetOk vs) {i j : ℕ} (hij : j < i) (hi : i < vs.channels) :
    Rep vs.channels (isMap (compVect i j) vs.vects)
      (vtList ((asBoolVectList vs).map (Checker.applyCmpList u (j, i)))) := by
  refine h.rep.map _ (Checker.applyCmpList u (j, i)) ?_ ?_ ?_
  · intro v hv
    exact fits_compVect hi (by omega) h.channels (by omega) (h.fits v hv)
  · intro v _
    exact boolVect_compVect u hi (by omega) h.channels (by omega) v
  · intro xs
    rw [Checker.isMemberVt_vtList]
    simp only [Checker.isMemberVt_vtList, List.mem_map]

theorem forall₂_zip_iff {α β : Type} (R : α → β → Prop) (xs : List α) (ys : List β) :
    List.Forall₂ R xs ys ↔ xs.length = ys.length ∧ ∀ p ∈ xs.zip ys, R p.1 p.2 := by
  rw [List.forall₂_iff_zip]
  constructor
  · rintro ⟨h1, h2⟩
    exact ⟨h1, fun p hp => h2 hp⟩
  · rintro ⟨h1, h2⟩
    exact ⟨h1, fun {a b} hp => h2 (a, b) hp⟩

theorem checkSuccessor_ok {steps : ProofSteps} {bound : ℕ} {s : VectSet} {w : Option Witness} :
    (∃ y, checkSuccessor steps bound (s, w) = .ok y) ↔
      ∃ b, getBound steps w s = .ok b ∧ bound ≤ b + 1 := by
  unfold checkSuccessor
  dsimp only
  cases hg : getBound steps w s with
  | error e => simp [bind, Except.bind]
  | ok b =>
    simp only [bind, Except.bind, Except.ok.injEq, exists_eq_left', check_ok, exists_const, decide_eq_true_eq]

theorem checkSuccessors_iff (u : Checker.Undef) {count : ℕ} {steps : ℤ → ProofStep} {limit : ℤ}
    (hl : limit ≤ count) (hc : (count : ℤ) < 2 ^ 63)
    (hsteps : ∀ i, 0 ≤ i → i < limit → SetOk (steps i).vectSet ∧ (steps i).vectSet.vects ≠ [])
    {step : ProofStep} (hstep : SetOk step.vectSet) (ws : List (Option Witness))
    (hws : step.witnesses = .successors ws) (hperm : PermsOk step.vectSet.channels ws)
    (hbound : step.bound ≠ 0) :
    checkSuccessors (lookup count steps limit) step ws = .ok () ↔
      Checker.checkSuccessors u (fun i => translateStep (steps (wrap64 i))) limit (translateStep step) = true := by
  set vs := step.vectSet with hvs
  set N := (Checker.ocmpList vs.channels).filter fun c =>
        !(Checker.isRedundantCmpVt u c (vtList (asBoolVectList vs))) with hN
  set F : ℕ × ℕ → VectSet := fun c => ⟨vs.channels, isMap (compVect c.2 c.1) vs.vects⟩ with hF
  have hsucc : successors vs = N.map F := successors_eq u hstep
  have hGB : ∀ p ∈ N.zip ws, ∀ b, getBound (lookup count steps limit) p.2 (F p.1) = .ok b ↔
      Checker.getBound u (fun i => translateStep (steps (wrap64 i))) limit (p.2.map translateWitness) vs.channels
        (vtList ((asBoolVectList vs).map (Checker.applyCmpList u p.1))) = some b := by
    intro p hp b
    have h1 : p.1 ∈ N := (List.of_mem_zip hp).1
    have h2 : p.2 ∈ ws := (List.of_mem_zip hp).2
    rw [hN, List.mem_filter, Checker.mem_ocmpList] at h1
    refine getBound_iff (vs := F p.1) u hl hc hsteps (rep_comp u hstep h1.1.1 h1.1.2) p.2 ?_ b
    intro w' hw'
    rw [hw'] at h2
    exact hperm w' h2
  have hleft : checkSuccessors (lookup count steps limit) step ws = .ok () ↔
      1 + vs.channels < vs.vects.length ∧ N.length = ws.length ∧
        ∀ p ∈ N.zip ws, ∃ b, getBound (lookup count steps limit) p.2 (F p.1) = .ok b ∧ step.bound ≤ b + 1 := by
    unfold checkSuccessors
    simp only [bind, Except.bind]
    rw [← hvs, hsucc]
    have hsz : size vs = vs.vects.length := rfl
    rw [hsz]
    by_cases h1 : 1 + vs.channels < vs.vects.length
    · by_cases h2 : N.length = ws.length
      · have e : ((N.map F).length == ws.length) = true := by simp [h2]
        rw [e]
        simp only [h1, h2, decide_true, check, if_true, true_and]
        have hz : (N.map F).zip ws = (N.zip ws).map fun p => (F p.1, p.2) := by
          conv_lhs => rw [← List.map_id ws]
          rw [List.zip_map]
          rfl
        rw [hz]
        have key := traverse_ok_exists (checkSuccessor (lookup count steps limit) step.bound)
          ((N.zip ws).map fun p => (F p.1, p.2))
        have key2 : (∀ x ∈ (N.zip ws).map fun p => (F p.1, p.2), ∃ y,
            checkSuccessor (lookup count steps limit) step.bound x = .ok y) ↔
            ∀ p ∈ N.zip ws, ∃ b, getBound (lookup count steps limit) p.2 (F p.1) = .ok b ∧ step.bound ≤ b + 1 := by
          simp only [List.mem_map, forall_exists_index, and_imp, forall_apply_eq_imp_iff₂]
          refine forall_congr' fun p => forall_congr' fun hp => ?_
          exact checkSuccessor_ok
        rw [← key2, ← key]
        constructor
        · intro h
          split at h
          · cases h
          · next ys hys => exact ⟨ys, hys⟩
        · rintro ⟨ys, hys⟩
          rw [hys]
          rfl
      · have e : ((N.map F).length == ws.length) = false := by simp [h2]
        rw [e]
        simp [h1, h2, check]
    · simp [h1, check]
  rw [hleft]
  unfold Checker.checkSuccessors
  have e1 : (translateStep step).witnesses = .successor (translateWitnessList ws) := by
    simp only [translateStep, hws, Decode.translateWitnesses]
  have e2 : Checker.nat (translateStep step).width = vs.channels := by simp [translateStep, Checker.nat, ← hvs]
  have e3 : Checker.nat (translateStep step).bound = step.bound := by simp [translateStep, Checker.nat]
  have e4 : (translateStep step).vectList = asBoolVectList vs := rfl
  rw [e1]
  simp only [e2, e3, e4, Bool.true_and, hbound, decide_false, Bool.not_false, ← hN,
    Bool.and_eq_true, Checker.listAll2_iff, forall₂_zip_iff, Checker.sizeList_eq, decide_eq_true_eq,
    Checker.isUnsortedVt, hstep.rep.size]
  have hlen2 : (translateWitnessList ws).length = ws.length := by simp [translateWitnessList]
  rw [translateWitnessList, List.zip_map]
  simp only [List.length_map, List.mem_map, forall_exists_index, and_imp, forall_apply_eq_imp_iff₂,
    Prod.map_fst, Prod.map_snd]
  constructor
  · rintro ⟨h1, h2, h3⟩
    refine ⟨by omega, h2, by simpa using all_length (vs := vs), h2, ?_⟩
    intro p hp
    obtain ⟨b, hb, hle⟩ := h3 p hp
    rw [(hGB p hp b).1 hb]
    simpa using hle
  · rintro ⟨h1, h2, _, _, h3⟩
    refine ⟨by omega, h2, ?_⟩
    intro p hp
    have := h3 p hp
    split at this
    · cases this
    · next b hb => exact ⟨b, (hGB p hp b).2 hb, by simpa using this⟩

/-! ## Certificates -/

theorem checkStep_iff (u : Checker.Undef) {count : ℕ} {steps : ℤ → ProofStep} {i : ℤ} (h0 : 0 ≤ i)
    (hl : i < count) (hc : (count : ℤ) < 2 ^ 63)
    (hsteps : ∀ j, 0 ≤ j → j < i → SetOk (steps j).vectSet ∧ (steps j).vectSet.vects ≠ [])
    (hstep : StepOk (steps i)) :
    checkStep (fun n => if 0 ≤ n ∧ n < count then .ok (steps n) else .error .left) i = .ok () ↔
      Checker.checkStep u (fun i => translateStep (steps (wrap64 i))) i (translateStep (steps i)) = true := by
  unfold checkStep
  dsimp only
  rw [if_pos ⟨h0, hl⟩]
  have hp := hstep.perms
  unfold Checker.checkStep
  cases hw : (steps i).witnesses with
  | huffman pol ws =>
    rw [hw] at hp
    have e1 : (translateStep (steps i)).witnesses = .huffman pol (translateWitnessList ws) := by
      simp only [translateStep, hw, Decode.translateWitnesses]
    rw [e1]
    have h := checkHuffman_iff u hl.le hc hsteps hstep.set pol ws hw hp
    rw [← h]
    simp only [bind, Except.bind, hw]
    rfl
  | successors ws =>
    rw [hw] at hp
    have e1 : (translateStep (steps i)).witnesses = .successor (translateWitnessList ws) := by
      simp only [translateStep, hw, Decode.translateWitnesses]
    rw [e1]
    have h := checkSuccessors_iff u hl.le hc hsteps hstep.set ws hw hp.1 hp.2
    rw [← h]
    simp only [bind, Except.bind, hw]
    rfl

theorem nonempty_of_checkStep (u : Checker.Undef) {s : ProofStep} {steps : ℤ → Checker.ProofStep} {limit : ℤ}
    (hs : SetOk s.vectSet) (h : Checker.checkStep u steps limit (translateStep s) = true) : s.vectSet.vects ≠ [] := by
  intro he
  unfold Checker.checkStep at h
  have e2 : Checker.nat (translateStep s).width = s.vectSet.channels := by simp [translateStep, Checker.nat]
  cases hw : s.witnesses with
  | huffman pol ws =>
    have e1 : (translateStep s).witnesses = .huffman pol (translateWitnessList ws) := by
      simp only [translateStep, hw, Decode.translateWitnesses]
    rw [e1] at h
    unfold Checker.checkHuffman at h
    rw [e1] at h
    have e4 : (translateStep s).vectList = asBoolVectList s.vectSet := rfl
    have e5 : extremalChannels pol s.vectSet = [] := by unfold extremalChannels; simp [he]
    simp only [e2, e4, extremalChannels_eq hs, Bool.and_eq_true, e5, Checker.sizeList_eq, decide_eq_true_eq] at h
    obtain ⟨_, _, h1, h2, _⟩ := h
    have := List.eq_nil_of_length_eq_zero h2.symm
    rw [this] at h1
    simp at h1
  | successors ws =>
    have e1 : (translateStep s).witnesses = .successor (translateWitnessList ws) := by
      simp only [translateStep, hw, Decode.translateWitnesses]
    rw [e1] at h
    unfold Checker.checkSuccessors at h
    rw [e1] at h
    have e4 : (translateStep s).vectList = asBoolVectList s.vectSet := rfl
    simp only [e2, e4, Bool.and_eq_true, Checker.isUnsortedVt, hs.rep.size, he, decide_eq_true_eq] at h
    have := h.2.1
    simp at this

theorem checkList_ok (f : ℤ → Result Unit) (low : ℤ) (len : ℕ) :
    checkList f low len = .ok () ↔ ∀ i, low ≤ i → i < low + len → f i = .ok () := by
  induction len generalizing low with
  | zero => simp [checkList]; omega
  | succ n ih =>
    simp only [checkList]
    cases h : f low with
    | error e =>
      simp only [reduceCtorEq, false_iff]
      intro h'
      have := h' low le_rfl (by omega)
      rw [h] at this
      cases this
    | ok x =>
      simp only [ih]
      constructor
      · intro h' i h1 h2
        by_cases hi : i = low
        · rw [hi, h]
        · exact h' i (by omega) (by push_cast at *; omega)
      · intro h' i h1 h2
        exact h' i (by omega) (by push_cast at *; omega)

theorem parCheckRange_ok (f : ℤ → Result Unit) (low : ℤ) (len : ℕ) :
    parCheckRange f low len = .ok () ↔ ∀ i, low ≤ i → i < low + len → f i = .ok () := by
  fun_induction parCheckRange f low len with
  | case1 low len h => exact checkList_ok f low len
  | case2 low len h mid a e ha ih1 ih2 =>
    simp only [reduceCtorEq, false_iff]
    intro h'
    have h1 : a = .ok () := ih1.2 fun i h1 h2 => h' i h1 (by omega)
    rw [ha] at h1
    cases h1
  | case3 low len h mid a b x ha ih1 ih2 =>
    have ha' : a = .ok () := ha
    have h1 := ih1.1 ha'
    constructor
    · intro h' i h2 h3
      by_cases hi : i < mid
      · exact h1 i h2 (by omega)
      · exact (ih2.1 h') i (by omega) (by omega)
    · intro h'
      exact ih2.2 fun i h2 h3 => h' i (by omega) (by omega)

theorem checkProof_congr (count : ℕ) (hpos : 0 < count) (steps steps' : ℤ → ProofStep)
    (h : ∀ i, 0 ≤ i → i < (count : ℤ) → steps i = steps' i) :
    checkProof count steps = checkProof count steps' := by
  have e : (fun n : ℤ => if 0 ≤ n ∧ n < (count : ℤ) then (.ok (steps n) : Result ProofStep) else .error .left) =
      fun n : ℤ => if 0 ≤ n ∧ n < (count : ℤ) then .ok (steps' n) else .error .left := by
    funext n
    split_ifs with hn
    · rw [h n hn.1 hn.2]
    · rfl
  unfold checkProof
  simp only [e]
  rw [h ((count : ℤ) - 1) (by omega) (by omega)]

/-- The two checkers give the same answer on certificates with genuine permutations. -/
theorem checkProof_iff (u : Checker.Undef) {count : ℕ} (hpos : 0 < count) (hc : (count : ℤ) < 2 ^ 63)
    (steps : ℤ → ProofStep) (hok : ∀ i, 0 ≤ i → i < (count : ℤ) → StepOk (steps i)) (w b : ℕ) :
    checkProof count steps = .ok (w, b) ↔
      Checker.checkProofGetBound u (Decode.translateProofSteps count steps) = some ((w : ℤ), (b : ℤ)) := by
  have hpar : (parCheckRange (checkStep fun n => if 0 ≤ n ∧ n < (count : ℤ) then .ok (steps n) else .error .left) 0
      count = .ok ()) ↔ Checker.checkProof u (Decode.translateProofSteps count steps) = true := by
    rw [parCheckRange_ok]
    unfold Checker.checkProof
    have e1 : Checker.nat (Decode.translateProofSteps count steps).length = count := by
      simp [Decode.translateProofSteps, Checker.nat]
    have e2 : (0 : ℤ) ≤ (Decode.translateProofSteps count steps).length := by simp [Decode.translateProofSteps]
    rw [e1]
    simp only [e2, decide_true, Bool.true_and, Checker.parRangeAll_iff]
    have e3 : ∀ k : ℕ, k < count → (Decode.translateProofSteps count steps).step (k : ℤ) =
        translateStep (steps k) := by
      intro k hk
      simp only [Decode.translateProofSteps]
      rw [wrap64_eq (by omega) (by omega)]
    have e4 : (Decode.translateProofSteps count steps).step = fun i => translateStep (steps (wrap64 i)) := rfl
    constructor
    · intro h k _ hk
      induction k using Nat.strong_induction_on with
      | _ k ih =>
        rw [e3 k (by omega), e4]
        refine (checkStep_iff u (by omega) (by omega) hc ?_ (hok k (by omega) (by omega))).1
          (h k (by omega) (by omega))
        intro j hj1 hj2
        obtain ⟨m, rfl⟩ := Int.eq_ofNat_of_zero_le hj1
        have hm := ih m (by omega) (by omega) (by omega)
        rw [e3 m (by omega)] at hm
        have hs := (hok m (by omega) (by omega)).set
        exact ⟨hs, nonempty_of_checkStep u hs hm⟩
    · intro h i hi1 hi2
      obtain ⟨k, rfl⟩ := Int.eq_ofNat_of_zero_le hi1
      have hk := h k (by omega) (by omega)
      rw [e3 k (by omega), e4] at hk
      refine (checkStep_iff u (by omega) (by omega) hc ?_ (hok k (by omega) (by omega))).2 hk
      intro j hj1 hj2
      obtain ⟨m, rfl⟩ := Int.eq_ofNat_of_zero_le hj1
      have hm := h m (by omega) (by omega)
      rw [e3 m (by omega)] at hm
      have hs := (hok m (by omega) (by omega)).set
      exact ⟨hs, nonempty_of_checkStep u hs hm⟩
  unfold checkProof Checker.checkProofGetBound
  have e5 : (0 : ℤ) < (Decode.translateProofSteps count steps).length := by
    simp only [Decode.translateProofSteps]; omega
  have e6 : (Decode.translateProofSteps count steps).step ((Decode.translateProofSteps count steps).length - 1) =
      translateStep (steps (count - 1)) := by
    simp only [Decode.translateProofSteps]
    rw [wrap64_eq (by omega) (by omega)]
  simp only [e5, decide_true, Bool.and_true, e6]
  cases hp : parCheckRange (checkStep fun n => if 0 ≤ n ∧ n < (count : ℤ) then .ok (steps n) else .error .left) 0 count with
  | error e =>
    rw [hp] at hpar
    rw [if_neg fun h => by cases hpar.2 h]
    simp
  | ok x =>
    rw [hp] at hpar
    rw [if_pos (hpar.1 rfl)]
    simp [translateStep]

end Sortnet.Ref
