import Verif.Proof.CanonRefine

/-!
# The canonicalization is correct and canonical
-/

namespace Sortnet.Canon

open Subsume (setBits trailingZeros isUnique swapPerm mem_setBits swapPerm_eq)

variable {n : ℕ}

/-! ### The end of the run: all used channels are fixed -/

/-- A set that is not constrained by the channels from `u` on only depends on the other channels. -/
theorem eq_of_agree {a : Bitmap n} {u : ℕ} (h : ∀ i : Fin n, u ≤ i.val → a.isChannelUnconstrained i = true)
    (x y : BitVec n) (hxy : ∀ i : Fin n, i.val < u → vecOf x i = vecOf y i) : a x = a y := by
  have key : ∀ S : List (Fin n), ∀ x : BitVec n, (∀ i, i ∉ S → vecOf x i = vecOf y i) →
      (∀ i : Fin n, i.val < u → vecOf x i = vecOf y i) → a x = a y := by
    intro S
    induction S with
    | nil =>
      intro x hx _
      rw [vec_ext fun i => hx i (by simp)]
    | cons i S ih =>
      intro x hx hlow
      by_cases hi : vecOf x i = vecOf y i
      · refine ih x ?_ hlow
        intro j hj
        by_cases hji : j = i
        · rw [hji, hi]
        · exact hx j (by simp [hj, hji])
      · have hui : u ≤ i.val := by
          by_contra hlt
          exact hi (hlow i (by omega))
        rw [(isChannelUnconstrained_iff a i).1 (h i hui) x]
        have hv : ∀ j, vecOf (x ^^^ bit i) j = if j = i then vecOf y i else vecOf x j := by
          intro j
          rw [vecOf_xor, vecOf_bit]
          split_ifs with hji
          · subst hji
            simp only [decide_true, Bool.xor_true]
            cases hxj : vecOf x j <;> cases hyj : vecOf y j <;> simp_all
          · simp [hji]
        refine ih _ ?_ ?_
        · intro j hj
          rw [hv]
          split_ifs with hji
          · rw [hji]
          · exact hx j (by simp [hj, hji])
        · intro j hj
          rw [hv]
          split_ifs with hji
          · rw [hji]
          · exact hlow j hj
  exact key (List.finRange n) x (fun i hi => absurd (List.mem_finRange i) hi) hxy

theorem eq_of_adm {a b : Bitmap n} {u : ℕ} {τ : Equiv.Perm (Fin n)} (hτ : Adm u u τ) (h : BIso τ a b)
    (ha : ∀ i : Fin n, u ≤ i.val → a.isChannelUnconstrained i = true) : a = b := by
  funext x
  have h1 := h.symm x
  rw [← h1]
  refine eq_of_agree ha _ _ ?_
  intro i hi
  rw [vecOf_permIdx, Function.comp_apply, hτ.inv.low i hi]

theorem final_eq {sA sB : Bitmap n} {inv : Bool} {u : ℕ} {LA LB : List (Cand n)}
    (h : Pair sA sB inv u u LA LB) {cA cB : Cand n} (hA : cA ∈ LA) (hB : cB ∈ LB)
    (mA : ∀ d ∈ LA, cA.bitmap.toList ≤ d.bitmap.toList) (mB : ∀ d ∈ LB, cB.bitmap.toList ≤ d.bitmap.toList) :
    cA.bitmap = cB.bitmap := by
  obtain ⟨b, hb, τ, hτ, hiso⟩ := h.half cA hA
  obtain ⟨a, ha, σ, hσ, hiso'⟩ := h.half' cB hB
  have e1 := eq_of_adm hτ hiso (h.invA cA hA).tail
  have e2 := eq_of_adm hσ hiso' (h.invB cB hB).tail
  apply toList_injective
  apply le_antisymm
  · rw [e2]; exact mA a ha
  · rw [e1]; exact mB b hb

/-- The result of the loop for both runs. -/
def Final (sA sB : Bitmap n) (inv : Bool) (u : ℕ) (cA cB : Cand n) : Prop :=
  cA.bitmap = cB.bitmap ∧ CInv sA inv u u cA ∧ CInv sB inv u u cB

theorem prune_final_pair (hash : List ℕ → ℕ) {sA sB : Bitmap n} {inv : Bool} {stA stB : St n}
    (hf : stA.fixed = stB.fixed) (hu : stA.used = stB.used) (hfu : stA.fixed = stA.used) (b : Bool)
    (h : Pair sA sB inv stA.fixed stA.used stA.layer stB.layer) :
    ∃ cA cB, prune hash b stA = some { stA with layer := [cA] } ∧ prune hash b stB = some { stB with layer := [cB] } ∧
      Final sA sB inv stA.used cA cB := by
  obtain ⟨cA, eA, hA, mA⟩ := prune_final_spec hash h.neA hfu b
  obtain ⟨cB, eB, hB, mB⟩ := prune_final_spec hash h.neB (by rw [← hf, ← hu, hfu]) b
  rw [hfu] at h
  exact ⟨cA, cB, eA, eB, final_eq h hA hB mA mB, h.invA cA hA, h.invB cB hB⟩

/-- `prune` for both runs while channels remain to be fixed. -/
theorem prune_pair (hash : List ℕ → ℕ) {sA sB : Bitmap n} {inv : Bool} {stA stB : St n}
    (hf : stA.fixed = stB.fixed) (hu : stA.used = stB.used) (hfu : stA.fixed ≠ stA.used) (b : Bool)
    (h : Pair sA sB inv stA.fixed stA.used stA.layer stB.layer) :
    ∃ LA LB, prune hash b stA = some { stA with layer := LA } ∧ prune hash b stB = some { stB with layer := LB } ∧
      Pair sA sB inv stA.fixed stA.used LA LB ∧
      (∀ c' ∈ LA ++ LB, ∃ c ∈ stA.layer ++ stB.layer, c'.partition = c.partition) := by
  obtain ⟨⟨LA, eA, pA⟩, ⟨LA', eA', pA'⟩⟩ := prune_spec hash h.neA hfu (fun c hc => (h.invA c hc).fpne)
  obtain ⟨⟨LB, eB, pB⟩, ⟨LB', eB', pB'⟩⟩ := prune_spec hash h.neB (st := stB) (by rw [← hf, ← hu]; exact hfu)
    (fun c hc => (h.invB c hc).fpne)
  have sub : ∀ {β : Type} [LinearOrder β] {φ ψ : Cand n → β} {XA XB : List (Cand n)},
      PruneSpec φ stA.layer XA → PruneSpec ψ stB.layer XB →
      ∀ c' ∈ XA ++ XB, ∃ c ∈ stA.layer ++ stB.layer, c'.partition = c.partition := by
    intro β _ φ ψ XA XB hXA hXB c' hc'
    rcases List.mem_append.1 hc' with hc' | hc'
    · obtain ⟨_, _, _, h3, _⟩ := hXA
      obtain ⟨c, hc, hs, _⟩ := h3 c' hc'
      exact ⟨c, by simp [hc], hs.partition⟩
    · obtain ⟨_, _, _, h3, _⟩ := hXB
      obtain ⟨c, hc, hs, _⟩ := h3 c' hc'
      exact ⟨c, by simp [hc], hs.partition⟩
  cases b with
  | true =>
    rw [← hf] at pB
    exact ⟨LA, LB, eA, eB, PruneSpec.pair (fun a _ b _ hr => lowFp_respects hash hr) h pA pB, sub pA pB⟩
  | false =>
    exact ⟨LA', LB', eA', eB', PruneSpec.pair (fun _ _ _ _ _ => rfl) h pA' pB', sub pA' pB'⟩

/-- `individualize` for both runs. -/
theorem individualize_pair (hash : List ℕ → ℕ) {sA sB : Bitmap n} {inv : Bool} {stA stB : St n}
    (hf : stA.fixed = stB.fixed) (hfu : stA.fixed < stA.used) (hun : stA.used ≤ n)
    (h : Pair sA sB inv stA.fixed stA.used stA.layer stB.layer)
    (hk : ∀ c ∈ stA.layer ++ stB.layer, singletonCount c.partition.reverse = some 0) :
    ∃ LA LB, individualize hash stA = some { stA with layer := LA, fixed := stA.fixed + 1 } ∧
      individualize hash stB = some { stB with layer := LB, fixed := stB.fixed + 1 } ∧
      Pair sA sB inv (stA.fixed + 1) stA.used LA LB := by
  let fx : Fin n := ⟨stA.fixed, by omega⟩
  obtain ⟨nA, xA⟩ := expand_spec (fx := fx) rfl hfu stA.layer h.invA (fun c hc => hk c (by simp [hc]))
  obtain ⟨nB, xB⟩ := expand_spec (fx := fx) rfl hfu stB.layer h.invB (fun c hc => hk c (by simp [hc]))
  obtain ⟨LA, eA, pA⟩ := individualize_spec hash (fx := fx) rfl nA (xA.ne h.neA)
  obtain ⟨LB, eB, pB⟩ := individualize_spec hash (fx := fx) hf nB (xB.ne h.neB)
  have hp := StepSpec.pair h xA xB
  rw [← hf] at pB
  exact ⟨LA, LB, eA, eB, PruneSpec.pair (fun a _ b _ hr => lowFp_respects hash hr) hp pA pB⟩

theorem loop_eq (hash : List ℕ → ℕ) (st : St n) :
    loop hash st = (pruneUsingFingerprints st).bind fun st => (moveSingletons st false).bind fun r =>
      (if r.2 then prune hash true r.1 else some r.1).bind fun st =>
        if st.fixed = st.used then some st
        else (individualize hash st).bind fun st => (prune hash false st).bind fun st =>
          if st.fixed = st.used then some st else (refine hash st).bind fun st => loop hash st := by
  rw [loop]
  simp only [Option.bind_eq_bind]
  congr 1
  funext st
  congr 1
  funext r
  split
  · rfl
  · rfl

theorem loop_pair (hash : List ℕ → ℕ) {sA sB : Bitmap n} {inv : Bool} (m : ℕ) (stA stB : St n)
    (hm : stA.used - stA.fixed ≤ m)
    (hf : stA.fixed = stB.fixed) (hu : stA.used = stB.used) (hfu : stA.fixed < stA.used) (hun : stA.used ≤ n)
    (h : Scored sA sB inv stA.fixed stA.used stA.layer stB.layer) :
    ∃ cA cB, loop hash stA = some { used := stA.used, layer := [cA], fixed := stA.used } ∧
      loop hash stB = some { used := stA.used, layer := [cB], fixed := stA.used } ∧
      Final sA sB inv stA.used cA cB := by
  induction m generalizing stA stB with
  | zero => omega
  | succ m ih =>
    -- `prune_using_fingerprints`
    obtain ⟨LA, eA, pA, ⟨vA, hvA⟩, subA⟩ := pruneUsingFingerprints_spec h.pair.neA
    obtain ⟨LB, eB, pB, ⟨vB, hvB⟩, subB⟩ := pruneUsingFingerprints_spec h.pair.neB
    have hpair := PruneSpec.pair h.score h.pair pA pB
    obtain ⟨a0, ha0⟩ := List.exists_mem_of_ne_nil _ hpair.neA
    obtain ⟨b0, hb0, hr0⟩ := hpair.half a0 ha0
    have hv : vA = vB := by
      rw [← hvA a0 ha0, ← hvB b0 hb0]
      exact h.score a0 (subA a0 ha0) b0 (subB b0 hb0) hr0
    have hcount : ∀ c ∈ LA ++ LB, singletonCount c.partition.reverse = some a0.partitionScore.1 := by
      intro c hc
      have hs : c.score = a0.score := by
        rcases List.mem_append.1 hc with hc | hc
        · rw [hvA c hc, hvA a0 ha0]
        · rw [hvB c hc, hvA a0 ha0, hv]
      have hc' : c ∈ stA.layer ++ stB.layer := by
        rcases List.mem_append.1 hc with hc | hc
        · exact List.mem_append_left _ (subA c hc)
        · exact List.mem_append_right _ (subB c hc)
      rw [h.count c hc']
      unfold Cand.score at hs
      rw [List.cons.injEq] at hs
      rw [hs.1]
    generalize a0.partitionScore.1 = k at hcount
    -- `move_singleton`
    obtain ⟨hle, MA, MB, emA, emB, hmp, hm0⟩ := moveSingletons_pair k { stA with layer := LA }
      { stB with layer := LB } false hf hu hun hfu.le hpair hcount
    simp only [Bool.false_or] at emA emB hmp hle
    by_cases hend : stA.fixed + k = stA.used
    · -- all channels are fixed
      have hk0 : 0 < k := by omega
      obtain ⟨cA, cB, fA, fB, hfin⟩ := prune_final_pair hash (sA := sA) (sB := sB) (inv := inv)
        (stA := { stA with layer := MA, fixed := stA.fixed + k })
        (stB := { stB with layer := MB, fixed := stB.fixed + k }) (by simp [hf]) hu hend true hmp
      refine ⟨cA, cB, ?_, ?_, hfin⟩
      · rw [loop_eq]
        simp only [eA, Option.bind_some, emA, hk0, decide_true, if_true, fA]
        rw [if_pos hend, hend]
      · rw [loop_eq]
        simp only [eB, Option.bind_some, emB, hk0, decide_true, if_true, fB]
        rw [if_pos (by rw [← hf, ← hu]; exact hend), ← hu, ← hf, hend]
    · -- some are left
      obtain ⟨NA, NB, fA, fB, hnp, hn0⟩ : ∃ NA NB,
          (if decide (0 < k) = true then prune hash true { stA with layer := MA, fixed := stA.fixed + k }
            else some { stA with layer := MA, fixed := stA.fixed + k }) =
              some { stA with layer := NA, fixed := stA.fixed + k } ∧
          (if decide (0 < k) = true then prune hash true { stB with layer := MB, fixed := stB.fixed + k }
            else some { stB with layer := MB, fixed := stB.fixed + k }) =
              some { stB with layer := NB, fixed := stB.fixed + k } ∧
          Pair sA sB inv (stA.fixed + k) stA.used NA NB ∧
          ∀ c ∈ NA ++ NB, singletonCount c.partition.reverse = some 0 := by
        by_cases hk0 : 0 < k
        · obtain ⟨NA, NB, fA, fB, hnp, hsub⟩ := prune_pair hash (sA := sA) (sB := sB) (inv := inv)
            (stA := { stA with layer := MA, fixed := stA.fixed + k })
            (stB := { stB with layer := MB, fixed := stB.fixed + k }) (by simp [hf]) hu hend true hmp
          refine ⟨NA, NB, ?_, ?_, hnp, ?_⟩
          · rw [if_pos (by simpa using hk0)]; exact fA
          · rw [if_pos (by simpa using hk0)]; exact fB
          · intro c hc
            obtain ⟨d, hd, e⟩ := hsub c hc
            rw [e]
            exact hm0 d hd
        · exact ⟨MA, MB, by rw [if_neg (by simpa using hk0)], by rw [if_neg (by simpa using hk0)], hmp, hm0⟩
      -- `individualize`
      obtain ⟨IA, IB, gA, gB, hip⟩ := individualize_pair hash (sA := sA) (sB := sB) (inv := inv)
        (stA := { stA with layer := NA, fixed := stA.fixed + k })
        (stB := { stB with layer := NB, fixed := stB.fixed + k }) (by simp [hf])
        (show stA.fixed + k < stA.used by omega) hun hnp hn0
      simp only at gA gB hip
      by_cases hend' : stA.fixed + k + 1 = stA.used
      · obtain ⟨cA, cB, pA', pB', hfin⟩ := prune_final_pair hash (sA := sA) (sB := sB) (inv := inv)
          (stA := { stA with layer := IA, fixed := stA.fixed + k + 1 })
          (stB := { stB with layer := IB, fixed := stB.fixed + k + 1 }) (by simp [hf]) hu hend' false hip
        refine ⟨cA, cB, ?_, ?_, hfin⟩
        · rw [loop_eq]
          simp only [eA, Option.bind_some, emA, fA]
          rw [if_neg hend]
          simp only [gA, Option.bind_some, pA']
          rw [if_pos hend', hend']
        · rw [loop_eq]
          simp only [eB, Option.bind_some, emB, fB]
          rw [if_neg (by rw [← hf, ← hu]; exact hend)]
          simp only [gB, Option.bind_some, pB']
          rw [if_pos (by rw [← hf, ← hu]; exact hend'), ← hu, ← hf, hend']
      · obtain ⟨QA, QB, pA', pB', hqp, _⟩ := prune_pair hash (sA := sA) (sB := sB) (inv := inv)
          (stA := { stA with layer := IA, fixed := stA.fixed + k + 1 })
          (stB := { stB with layer := IB, fixed := stB.fixed + k + 1 }) (by simp [hf]) hu hend' false hip
        obtain ⟨RA, RB, rA, rB, hsc⟩ := refine_spec hash (sA := sA) (sB := sB) (inv := inv)
          (stA := { stA with layer := QA, fixed := stA.fixed + k + 1 })
          (stB := { stB with layer := QB, fixed := stB.fixed + k + 1 }) (by simp [hf])
          (show stA.fixed + k + 1 < stA.used by omega) hun hqp
        simp only at rA rB hsc
        obtain ⟨cA, cB, l1, l2, hfin⟩ := ih { stA with layer := RA, fixed := stA.fixed + k + 1 }
          { stB with layer := RB, fixed := stB.fixed + k + 1 } (by simp only; omega) (by simp [hf]) hu
          (by simp only; omega) hun hsc
        refine ⟨cA, cB, ?_, ?_, hfin⟩
        · rw [loop_eq]
          simp only [eA, Option.bind_some, emA, fA]
          rw [if_neg hend]
          simp only [gA, Option.bind_some, pA']
          rw [if_neg hend', rA, Option.bind_some]
          exact l1
        · rw [loop_eq]
          simp only [eB, Option.bind_some, emB, fB]
          rw [if_neg (by rw [← hf, ← hu]; exact hend)]
          simp only [gB, Option.bind_some, pB']
          rw [if_neg (by rw [← hf, ← hu]; exact hend'), rB, Option.bind_some]
          exact l2

/-! ### `Canonicalize::new` -/

/-- Invariant of the loop, before the channels below `m` are processed. -/
structure NewInv (s : Bitmap n) (m : ℕ) (c : Cand n) (u : ℕ) : Prop where
  le : m ≤ u
  un : u ≤ n
  tail : ∀ i : Fin n, u ≤ i.val → c.bitmap.isChannelUnconstrained i = true
  mid : ∀ i : Fin n, m ≤ i.val → i.val < u → c.bitmap.isChannelUnconstrained i = false
  tracks : ∃ π : Equiv.Perm (Fin n), c.perm = π ∧ BIso π s c.bitmap
  invert : c.invert = false
  part : c.partition = []
  fp : c.fingerprint = []

theorem newLoop_spec (s : Bitmap n) (m : ℕ) (hm : m ≤ n) (c : Cand n) (u : ℕ) (h : NewInv s m c u) :
    ∃ c' u', newLoop ((List.finRange n).take m).reverse c u = some (c', u') ∧ NewInv s 0 c' u' := by
  induction m generalizing c u with
  | zero => exact ⟨c, u, by simp [newLoop], h⟩
  | succ m ih =>
    have hl : ((List.finRange n).take (m + 1)).reverse =
        (⟨m, by omega⟩ : Fin n) :: ((List.finRange n).take m).reverse := by
      rw [List.take_succ_eq_append_getElem (by simp; omega), List.reverse_append]
      simp
    rw [hl]
    unfold newLoop
    have hle := h.le
    have hun := h.un
    by_cases hc : c.bitmap.isChannelUnconstrained ⟨m, by omega⟩ = true
    · rw [if_pos hc]
      have hch : channel? n (u - 1) = some ⟨u - 1, by omega⟩ := by
        unfold channel?; rw [dif_pos]
      simp only [if_neg (show ¬ u = 0 by omega), hch, Option.bind_eq_bind, Option.bind_some]
      apply ih (by omega)
      refine ⟨by omega, by omega, ?_, ?_, ?_, h.invert, h.part, h.fp⟩
      · intro i hi
        rw [(BIso_swap _ _ _).isChannelUnconstrained]
        by_cases hiu : i.val = u - 1
        · rw [show i = ⟨u - 1, by omega⟩ from Fin.ext hiu, Equiv.swap_apply_right]
          exact hc
        · rw [Equiv.swap_apply_of_ne_of_ne (by rintro rfl; simp only at hi hiu; omega)
            (by rintro rfl; simp at hiu)]
          exact h.tail i (by omega)
      · intro i hi hi'
        rw [(BIso_swap _ _ _).isChannelUnconstrained]
        by_cases him : i.val = m
        · rw [show i = ⟨m, by omega⟩ from Fin.ext him, Equiv.swap_apply_left]
          exact h.mid _ (by simp only; omega) (by simp only; omega)
        · rw [Equiv.swap_apply_of_ne_of_ne (by rintro rfl; simp at him)
            (by rintro rfl; simp at hi')]
          exact h.mid i (by omega) (by omega)
      · obtain ⟨π, e, hiso⟩ := h.tracks
        refine ⟨π * Equiv.swap _ _, ?_, hiso.trans (BIso_swap _ _ _)⟩
        simp only
        rw [swapPerm_eq, e]
        rfl
    · rw [if_neg hc]
      apply ih (by omega)
      refine ⟨by omega, hun, h.tail, ?_, h.tracks, h.invert, h.part, h.fp⟩
      intro i hi hi'
      by_cases him : i.val = m
      · rw [show i = ⟨m, by omega⟩ from Fin.ext him]
        simpa using hc
      · exact h.mid i (by omega) hi'

theorem new_spec (s : Bitmap n) (inv : Bool) :
    ∃ (A : Bitmap n) (u : ℕ) (L : List (Cand n)), new s inv = some { used := u, layer := L, fixed := 0 } ∧
      u ≤ n ∧ (∃ π, BIso π s A) ∧ (∀ i : Fin n, A.isChannelUnconstrained i = true ↔ u ≤ i.val) ∧
      (∀ c ∈ L, Pre s inv u c) ∧ (∀ c ∈ L, c.bitmap = A ∨ inv = true ∧ c.bitmap = A.invert) ∧
      (∃ c ∈ L, c.bitmap = A) ∧ (inv = true → ∃ c ∈ L, c.bitmap = A.invert) := by
  obtain ⟨c, u, e, hc⟩ := newLoop_spec s n (Nat.le_refl _)
    { bitmap := s, invert := false, perm := fun i => i, fingerprint := [], partition := [],
      partitionScore := (0, 0) } n
    ⟨Nat.le_refl _, Nat.le_refl _, fun i hi => by omega, fun i hi hi' => by omega,
      ⟨1, rfl, BIso.refl s⟩, rfl, rfl, rfl⟩
  rw [List.take_of_length_le (by simp)] at e
  have htail : ∀ i : Fin n, c.bitmap.isChannelUnconstrained i = true ↔ u ≤ i.val := by
    intro i
    constructor
    · intro h
      by_contra hlt
      rw [hc.mid i (Nat.zero_le _) (by omega)] at h
      simp at h
    · exact hc.tail i
  obtain ⟨π, hπ, hiso⟩ := hc.tracks
  have pre : Pre s inv u c := ⟨⟨π, hπ, by rw [hc.invert]; exact hiso⟩, by rw [hc.invert]; simp, htail, hc.part, hc.fp⟩
  have pre' : inv = true → Pre s inv u { c with bitmap := c.bitmap.invert, invert := true } := by
    intro hinv
    refine ⟨⟨π, hπ, ?_⟩, fun _ => hinv, ?_, hc.part, hc.fp⟩
    · exact hiso.invert
    · intro i
      rw [← htail i]
      simp only [invert_isChannelUnconstrained]
  cases inv with
  | false =>
    refine ⟨c.bitmap, u, [c], ?_, hc.un, ⟨π, hiso⟩, htail, ?_, ?_, ⟨c, by simp, rfl⟩, by simp⟩
    · unfold new
      simp only [e, Option.bind_eq_bind, Option.bind_some, Bool.false_eq_true, if_false]
    · intro d hd
      rw [List.mem_singleton] at hd
      subst hd; exact pre
    · intro d hd
      rw [List.mem_singleton] at hd
      subst hd; exact Or.inl rfl
  | true =>
    by_cases heq : c.bitmap.invert.toList = c.bitmap.toList
    · refine ⟨c.bitmap, u, [c], ?_, hc.un, ⟨π, hiso⟩, htail, ?_, ?_, ⟨c, by simp, rfl⟩,
        fun _ => ⟨c, by simp, (toList_injective heq).symm⟩⟩
      · unfold new
        simp only [e, Option.bind_eq_bind, Option.bind_some, if_true, heq]
      · intro d hd
        rw [List.mem_singleton] at hd
        subst hd; exact pre
      · intro d hd
        rw [List.mem_singleton] at hd
        subst hd; exact Or.inl rfl
    · refine ⟨c.bitmap, u, [c, { c with bitmap := c.bitmap.invert, invert := true }], ?_, hc.un, ⟨π, hiso⟩,
        htail, ?_, ?_, ⟨c, by simp, rfl⟩, fun _ =>
          ⟨{ c with bitmap := c.bitmap.invert, invert := true }, by simp, rfl⟩⟩
      · unfold new
        simp only [e, Option.bind_eq_bind, Option.bind_some, if_true]
        rw [if_neg heq]
      · intro d hd
        simp only [List.mem_cons, List.not_mem_nil, or_false] at hd
        rcases hd with rfl | rfl
        · exact pre
        · exact pre' rfl
      · intro d hd
        simp only [List.mem_cons, List.not_mem_nil, or_false] at hd
        rcases hd with rfl | rfl
        · exact Or.inl rfl
        · exact Or.inr ⟨rfl, rfl⟩

/-! ### Two runs on equivalent inputs -/

/-- Equivalent inputs. -/
def Equivalent (inv : Bool) (a b : Bitmap n) : Prop :=
  ∃ τ, BIso τ a b ∨ inv = true ∧ BIso τ a.invert b

theorem card_le {uA uB : ℕ} (hB : uB ≤ n) (τ : Equiv.Perm (Fin n))
    (key : ∀ i : Fin n, i.val < uB → (τ i).val < uA) : uB ≤ uA := by
  have := Fintype.card_le_of_injective
    (fun i : Fin uB => (⟨(τ ⟨i.val, by omega⟩).val, key _ i.isLt⟩ : Fin uA)) (by
      intro a b e
      simp only [Fin.mk.injEq] at e
      have := τ.injective (Fin.ext e)
      simp only [Fin.mk.injEq] at this
      exact Fin.ext this)
  simpa using this

theorem used_eq {A B : Bitmap n} {τ : Equiv.Perm (Fin n)} {uA uB : ℕ} (hA : uA ≤ n) (hB : uB ≤ n)
    (h : BIso τ A B) (tA : ∀ i : Fin n, A.isChannelUnconstrained i = true ↔ uA ≤ i.val)
    (tB : ∀ i : Fin n, B.isChannelUnconstrained i = true ↔ uB ≤ i.val) :
    uA = uB ∧ Adm 0 uB τ := by
  have key : ∀ i : Fin n, i.val < uB ↔ (τ i).val < uA := by
    intro i
    have := h.isChannelUnconstrained i
    have h1 := tA (τ i)
    have h2 := tB i
    rw [this] at h2
    rw [h1] at h2
    omega
  have : uA = uB := by
    apply le_antisymm
    · refine card_le hA τ.symm ?_
      intro i hi
      rw [key]
      simpa using hi
    · exact card_le hB τ fun i hi => (key i).1 hi
  subst this
  exact ⟨rfl, ⟨fun i hi => by omega, key⟩⟩

theorem run_pair (hash : List ℕ → ℕ) (inv : Bool) (sA sB : Bitmap n) (h : Equivalent inv sA sB) :
    ∃ stA stB cA cB u, new sA inv = some stA ∧ new sB inv = some stB ∧ run hash stA = some cA ∧
      run hash stB = some cB ∧ cA.bitmap = cB.bitmap ∧
      (∃ π : Equiv.Perm (Fin n), cA.perm = π ∧ BIso π (if cA.invert then sA.invert else sA) cA.bitmap) ∧
      (cA.invert = true → inv = true) ∧ u ≤ n ∧
      (∀ i : Fin n, u ≤ i.val → cA.bitmap.isChannelUnconstrained i = true) := by
  obtain ⟨A, uA, LA, eA, hunA, ⟨πA, iA⟩, tA, preA, memA, exA, exA'⟩ := new_spec sA inv
  obtain ⟨B, uB, LB, eB, hunB, ⟨πB, iB⟩, tB, preB, memB, exB, exB'⟩ := new_spec sB inv
  have tA' : ∀ i : Fin n, A.invert.isChannelUnconstrained i = true ↔ uA ≤ i.val := by
    intro i; rw [invert_isChannelUnconstrained]; exact tA i
  obtain ⟨σ, hu, hadm, hAB⟩ : ∃ σ, uA = uB ∧ Adm 0 uA σ ∧ (BIso σ A B ∨ inv = true ∧ BIso σ A.invert B) := by
    obtain ⟨τ, h | ⟨hinv, h⟩⟩ := h
    · have hiso : BIso (πA⁻¹ * τ * πB) A B := (iA.symm.trans h).trans iB
      obtain ⟨e, hadm⟩ := used_eq hunA hunB hiso tA tB
      exact ⟨_, e, e ▸ hadm, Or.inl hiso⟩
    · have hiso : BIso (πA⁻¹ * τ * πB) A.invert B := (iA.invert.symm.trans h).trans iB
      obtain ⟨e, hadm⟩ := used_eq hunA hunB hiso tA' tB
      exact ⟨_, e, e ▸ hadm, Or.inr ⟨hinv, hiso⟩⟩
  subst hu
  have half : Half 0 uA LA LB := by
    intro a ha
    rcases memA a ha with ea | ⟨hinv, ea⟩
    · rcases hAB with hAB | ⟨hinv, hAB⟩
      · obtain ⟨b, hb, eb⟩ := exB
        exact ⟨b, hb, σ, hadm, by rw [ea, eb]; exact hAB⟩
      · obtain ⟨b, hb, eb⟩ := exB' hinv
        refine ⟨b, hb, σ, hadm, ?_⟩
        rw [ea, eb]
        have := hAB.invert
        rwa [invert_invert] at this
    · rcases hAB with hAB | ⟨_, hAB⟩
      · obtain ⟨b, hb, eb⟩ := exB' hinv
        exact ⟨b, hb, σ, hadm, by rw [ea, eb]; exact hAB.invert⟩
      · obtain ⟨b, hb, eb⟩ := exB
        exact ⟨b, hb, σ, hadm, by rw [ea, eb]; exact hAB⟩
  have half' : Half 0 uA LB LA := by
    intro b hb
    rcases memB b hb with eb | ⟨hinv, eb⟩
    · rcases hAB with hAB | ⟨hinv, hAB⟩
      · obtain ⟨a, ha, ea⟩ := exA
        exact ⟨a, ha, R.symm ⟨σ, hadm, by rw [ea, eb]; exact hAB⟩⟩
      · obtain ⟨a, ha, ea⟩ := exA' hinv
        exact ⟨a, ha, R.symm ⟨σ, hadm, by rw [ea, eb]; exact hAB⟩⟩
    · rcases hAB with hAB | ⟨_, hAB⟩
      · obtain ⟨a, ha, ea⟩ := exA' hinv
        exact ⟨a, ha, R.symm ⟨σ, hadm, by rw [ea, eb]; exact hAB.invert⟩⟩
      · obtain ⟨a, ha, ea⟩ := exA
        refine ⟨a, ha, R.symm ⟨σ, hadm, ?_⟩⟩
        rw [ea, eb]
        have := hAB.invert
        rwa [invert_invert] at this
  have neA : LA ≠ [] := by obtain ⟨c, hc, _⟩ := exA; exact List.ne_nil_of_mem hc
  have neB : LB ≠ [] := by obtain ⟨c, hc, _⟩ := exB; exact List.ne_nil_of_mem hc
  rcases Nat.eq_zero_or_pos uA with h0 | h0
  · subst h0
    obtain ⟨cA, LA', rfl⟩ := List.exists_cons_of_ne_nil neA
    obtain ⟨cB, LB', rfl⟩ := List.exists_cons_of_ne_nil neB
    have hconst : ∀ (X : Bitmap n), (∀ i : Fin n, X.isChannelUnconstrained i = true ↔ 0 ≤ i.val) → X.invert = X := by
      intro X hX
      funext x
      unfold Bitmap.invert
      exact eq_of_agree (u := 0) (fun i _ => (hX i).2 (Nat.zero_le _)) _ _ (fun i hi => by omega)
    have hcA : cA.bitmap = A := by
      rcases memA cA (by simp) with e | ⟨_, e⟩
      · exact e
      · rw [e, hconst A tA]
    have hcB : ∀ b ∈ cB :: LB', b.bitmap = B := by
      intro b hb
      rcases memB b hb with e | ⟨_, e⟩
      · exact e
      · rw [e, hconst B tB]
    obtain ⟨b, hb, τ, hτ, hiso⟩ := half cA (by simp)
    have e := eq_of_adm hτ hiso (fun i hi => ((preA cA (by simp)).tail i).2 hi)
    have pc := preA cA (by simp)
    refine ⟨_, _, cA, cB, 0, eA, eB, ?_, ?_, ?_, pc.tracks, pc.noinv, hunA, fun i hi => (pc.tail i).2 hi⟩
    · unfold run; simp
    · unfold run; simp
    · rw [e, hcB b hb, hcB cB (by simp)]
  · obtain ⟨IA, IB, fA, fB, hsc⟩ := initializePartitions_spec (sA := sA) (sB := sB) (inv := inv)
      (stA := { used := uA, layer := LA, fixed := 0 }) (stB := { used := uA, layer := LB, fixed := 0 })
      rfl h0 hunA neA neB preA preB half half'
    simp only at fA fB hsc
    obtain ⟨cA, cB, l1, l2, hbm, hcA, hcB⟩ := loop_pair hash (sA := sA) (sB := sB) (inv := inv) uA
      { used := uA, layer := IA, fixed := 0 } { used := uA, layer := IB, fixed := 0 } (by simp) rfl rfl h0 hunA hsc
    refine ⟨_, _, cA, cB, uA, eA, eB, ?_, ?_, hbm, hcA.tracks, hcA.noinv, hunA, hcA.tail⟩
    · unfold run
      simp only [if_pos h0, fA, Option.bind_eq_bind, Option.bind_some, l1]
      rfl
    · unfold run
      simp only [if_pos h0, fB, Option.bind_eq_bind, Option.bind_some, l2]
      rfl

end Sortnet.Canon

namespace Sortnet

variable {n : ℕ}

/-- `canonicalize` on equivalent inputs. -/
theorem canonicalize_pair (hash : List ℕ → ℕ) (hn : n ≤ 11) (inv : Bool) (sA sB : Bitmap n)
    (h : Canon.Equivalent inv sA sB) :
    ∃ t pA pB, sA.canonicalize hash inv = some (t, pA) ∧ sB.canonicalize hash inv = some (t, pB) ∧
      (∃ π : Equiv.Perm (Fin n), pA.perm = π ∧ BIso π (if pA.invert then sA.invert else sA) t) ∧
      (pA.invert = true → inv = true) := by
  unfold Bitmap.canonicalize
  by_cases h0 : n = 0
  · subst h0
    have hAB : sA = sB := by
      obtain ⟨τ, h | ⟨_, h⟩⟩ := h
      · funext x
        have := h x
        rw [← this]
        congr 1
        exact vec_ext fun i => i.elim0
      · funext x
        have := h x
        rw [show permIdx τ x = x from vec_ext fun i => i.elim0] at this
        rw [this]
        unfold Bitmap.invert
        congr 1
        exact vec_ext fun i => i.elim0
    subst hAB
    simp only [if_true]
    exact ⟨sA, _, _, rfl, rfl, ⟨1, rfl, BIso.refl _⟩, by simp⟩
  · rw [if_neg h0, if_neg (by simp [maxChannels]; exact hn)]
    obtain ⟨stA, stB, cA, cB, u, e1, e2, e3, e4, hb, ht, hi, _, _⟩ := Canon.run_pair hash inv sA sB h
    refine ⟨cA.bitmap, { invert := cA.invert, perm := cA.perm }, { invert := cB.invert, perm := cB.perm }, ?_, ?_,
      ht, hi⟩
    · simp only [e1, e3, Option.bind_eq_bind, Option.bind_some]
    · rw [if_neg h0, if_neg (by simp [maxChannels]; exact hn)]
      simp only [e2, e4, Option.bind_eq_bind, Option.bind_some, hb]

end Sortnet
