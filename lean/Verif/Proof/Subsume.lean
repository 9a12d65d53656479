import Verif.Proof.SubsumeMatch
import Verif.Proof.Abstraction
import Mathlib.Algebra.Group.End
import Mathlib.Tactic.Group

/-!
# `Subsume`: the search is sound, complete and terminates
-/

namespace Sortnet

namespace Subsume

variable {n : ℕ}

theorem permSet_permSet (σ π : Equiv.Perm (Fin n)) (A : Set (Fin n → Bool)) :
    permSet σ (permSet π A) = permSet (π * σ) A := by
  unfold permSet
  rw [Set.image_image]
  rfl

theorem permSet_one (A : Set (Fin n → Bool)) : permSet 1 A = A := by
  unfold permSet
  simp

theorem permSet_mono (π : Equiv.Perm (Fin n)) {A B : Set (Fin n → Bool)} (h : A ⊆ B) :
    permSet π A ⊆ permSet π B := Set.image_mono h

/-- The permutations recorded in a state. -/
structure PermOk (orig : Bool → Bitmap n) (st : St n) (ρ : Bool → Equiv.Perm (Fin n)) : Prop where
  perms : ∀ side, st.perms side = ρ side
  sets : ∀ side, (st.sets side).toSet = permSet (ρ side) (orig side).toSet

/-- The invariant of the search. -/
structure Inv (orig : Bool → Bitmap n) (st : St n) : Prop where
  permOk : ∃ ρ, PermOk orig st ρ
  minv : MInv st.matching
  closed : Closed st.matching ∅
  fixed_le : st.fixed ≤ n
  fixed : ∀ i : Fin n, i.val < st.fixed → st.matching false (st.perms false i) = bit (st.perms true i)

theorem inv_new (s t : Bitmap n) : Inv (fun side => if side then t else s) (new s t) where
  permOk := ⟨fun _ => 1, fun _ => rfl, fun side => by rw [permSet_one]; rfl⟩
  minv := ⟨fun _ _ _ => by simp [new], fun _ a => ⟨a, by simp [new]⟩⟩
  closed := by
    intro side v _ w h
    have hall : ∀ i : Fin n, i = w := by
      intro i
      have : vecOf (bit w) i = true := by rw [← h]; simp [new]
      simpa using this
    show BitVec.allOnes n = bit v
    apply vec_ext
    intro i
    simp [hall i, hall v]
  fixed_le := Nat.zero_le _
  fixed := fun i h => absurd h (Nat.not_lt_zero _)

theorem Step.inv {orig : Bool → Bitmap n} {st st' : St n} (h : Step st st') (hi : Inv orig st)
    (hc : Closed st'.matching ∅) : Inv orig st' where
  permOk := by
    obtain ⟨ρ, hρ⟩ := hi.permOk
    exact ⟨ρ, by rw [h.perms]; exact hρ.perms, by rw [h.sets]; exact hρ.sets⟩
  minv := h.minv
  closed := hc
  fixed_le := by rw [h.fixed]; exact hi.fixed_le
  fixed := by
    intro i hlt
    rw [h.fixed] at hlt
    have := hi.fixed i hlt
    rw [h.perms, eq_bit_iff (h.minv.nonempty _ _)]
    intro j hj
    have := h.sub _ _ _ hj
    rw [hi.fixed i hlt] at this
    simpa using this

/-! ## `move_unique` -/

theorem swapPerm_eq (p : Fin n → Fin n) (a b : Fin n) : swapPerm p a b = p ∘ Equiv.swap a b := by
  funext i
  unfold swapPerm
  simp only [Function.update_apply, Function.comp_apply, Equiv.swap_apply_def]
  split_ifs <;> simp_all

theorem swapPerm_swapPerm (p : Fin n → Fin n) (a b : Fin n) : swapPerm (swapPerm p a b) a b = p := by
  rw [swapPerm_eq, swapPerm_eq]
  funext i
  simp

theorem mem_freeChannels (st : St n) (i : Fin n) : i ∈ freeChannels st ↔ st.fixed ≤ i.val := by
  simp [freeChannels]

theorem pairwise_freeChannels (st : St n) : (freeChannels st).Pairwise (· < ·) :=
  List.Pairwise.filter _ (List.pairwise_lt_finRange n)

theorem position_some {ρ : Equiv.Perm (Fin n)} (c : Fin n) : position ρ c = some (ρ.symm c) := by
  unfold position
  have : (List.finRange n).filter (fun i => decide (ρ i = c)) = [ρ.symm c] := by
    have hnd : ((List.finRange n).filter (fun i => decide (ρ i = c))).Nodup :=
      (List.nodup_finRange n).filter _
    have := (List.perm_ext_iff_of_nodup hnd (List.nodup_singleton (ρ.symm c))).2 (by
      intro i; simp [Equiv.eq_symm_apply])
    exact List.perm_singleton.1 this
  rw [this]
  rfl

/-- The specification of one iteration of `move_unique`. -/
theorem moveStep_spec {orig : Bool → Bitmap n} {st : St n} (h : Inv orig st) (moved : Bool) (lo : Fin n)
    (hlo : st.fixed ≤ lo.val) :
    ∃ r st', moveStep st moved lo = some (r, st') ∧ Inv orig st' ∧ Ext st st' ∧ st'.matching = st.matching ∧
      ((r = true ∧ st'.fixed = st.fixed + 1) ∨
        (r = moved ∧ st' = st ∧ ∀ w, st.matching false (st.perms false lo) ≠ bit w)) := by
  obtain ⟨ρ, hρ⟩ := h.permOk
  unfold moveStep
  obtain ⟨u, hu, hu'⟩ := isUnique_some (h.minv.nonempty false (st.perms false lo))
  simp only [hu, Option.bind_eq_bind, Option.bind_some]
  cases u with
  | false =>
    refine ⟨moved, st, rfl, h, Ext.refl _, rfl, Or.inr ⟨rfl, rfl, ?_⟩⟩
    intro w hw
    exact absurd (hu'.2 ⟨w, hw⟩) (by simp)
  | true =>
    obtain ⟨c, hc⟩ := hu'.1 rfl
    obtain ⟨c', hc', hcc⟩ := trailingZeros_some (h.minv.nonempty false (st.perms false lo))
    have : c' = c := by rw [hc] at hcc; simpa using hcc
    subst this
    have hlt : st.fixed < n := lt_of_le_of_lt hlo lo.isLt
    have hback : st.matching true c' = bit (st.perms false lo) := h.closed false _ (by simp) _ hc
    set hi := (ρ true).symm c' with hhi
    have hpos : position (st.perms true) c' = some hi := by rw [hρ.perms]; exact position_some c'
    have hhic : st.perms true hi = c' := by rw [hρ.perms, hhi]; simp
    have hge : st.fixed ≤ hi.val := by
      by_contra hcon
      have h1 := h.fixed hi (by omega)
      rw [hhic] at h1
      have h2 := h.closed false _ (by simp) _ h1
      simp only [Bool.not_false] at h2
      rw [hback] at h2
      have h3 : vecOf (bit (st.perms false hi)) (st.perms false lo) = true := by rw [← h2]; simp
      simp only [vecOf_bit, decide_eq_true_eq, hρ.perms] at h3
      have := (ρ false).injective h3
      subst this
      omega
    simp only [hc', hpos, toChannel, hlt, dite_true, Option.bind_some]
    set target : Fin n := ⟨st.fixed, hlt⟩ with htarget
    refine ⟨true, _, rfl, ?_, ?_, rfl, Or.inl ⟨rfl, rfl⟩⟩
    · refine ⟨⟨fun side => ρ side * Equiv.swap target (pair false lo hi side), ?_, ?_⟩, h.minv, h.closed, hlt, ?_⟩
      · intro side
        show swapPerm _ _ _ = _
        rw [swapPerm_eq, hρ.perms]
        rfl
      · intro side
        show ((st.sets side).swapChannels _ _).toSet = _
        rw [swapChannels_toSet, hρ.sets, permSet_permSet]
      · intro i hi'
        show st.matching false (swapPerm (st.perms false) target lo i) =
          bit (swapPerm (st.perms true) target hi i)
        rw [swapPerm_eq, swapPerm_eq]
        simp only [Function.comp_apply]
        have hi'' : i.val < st.fixed + 1 := hi'
        by_cases hit : i = target
        · subst hit
          rw [Equiv.swap_apply_left, Equiv.swap_apply_left, hhic]
          exact hc
        · have hlt' : i.val < st.fixed := by
            have : i.val ≠ st.fixed := fun h => hit (Fin.ext h)
            omega
          have h1 : i ≠ lo := by rintro rfl; omega
          have h2 : i ≠ hi := by intro h; rw [h] at hlt'; omega
          rw [Equiv.swap_apply_of_ne_of_ne hit h1, Equiv.swap_apply_of_ne_of_ne hit h2]
          exact h.fixed i hlt'
    · refine ⟨[.swap target (pair false lo hi)], rfl, ?_⟩
      rw [List.foldl_cons, List.foldl_nil, undoAction]
      simp only [swapBoth, swapPerm_swapPerm, swapChannels_swapChannels]

theorem moveLoop_spec {orig : Bool → Bitmap n} (l : List (Fin n)) (hl : l.Pairwise (· < ·)) :
    ∀ {st : St n} (_ : Inv orig st) (moved : Bool) (_ : ∀ lo ∈ l, st.fixed ≤ lo.val),
    ∃ r st', moveLoop l moved st = some (r, st') ∧ Inv orig st' ∧ Ext st st' ∧ st'.matching = st.matching ∧
      st.fixed ≤ st'.fixed ∧ (r = true → moved = true ∨ st.fixed < st'.fixed) ∧
      (r = false → moved = false ∧ st' = st ∧ ∀ lo ∈ l, ∀ w, st.matching false (st.perms false lo) ≠ bit w) := by
  induction l with
  | nil =>
    intro st h moved _
    exact ⟨moved, st, rfl, h, Ext.refl _, rfl, le_rfl, fun h => Or.inl h, fun h => ⟨h, rfl, by simp⟩⟩
  | cons lo l ih =>
    intro st h moved hle
    obtain ⟨hlt, hl⟩ := List.pairwise_cons.1 hl
    obtain ⟨r1, st1, e1, i1, x1, m1, hcase⟩ := moveStep_spec h moved lo (hle lo (by simp))
    have hle1 : ∀ lo' ∈ l, st1.fixed ≤ lo'.val := by
      intro lo' hlo'
      have h1 := hle lo (by simp)
      have h2 : lo.val < lo'.val := hlt lo' hlo'
      rcases hcase with ⟨_, hf⟩ | ⟨_, rfl, _⟩ <;> omega
    obtain ⟨r2, st2, e2, i2, x2, m2, f2, t2, n2⟩ := ih hl i1 r1 hle1
    refine ⟨r2, st2, ?_, i2, x1.trans x2, m2.trans m1, ?_, ?_, ?_⟩
    · rw [moveLoop, e1]; exact e2
    · rcases hcase with ⟨_, hf⟩ | ⟨_, rfl, _⟩ <;> omega
    · intro hr
      rcases hcase with ⟨_, hf⟩ | ⟨rfl, rfl, _⟩
      · right; omega
      · exact t2 hr
    · intro hr
      obtain ⟨hr1, rfl, hall⟩ := n2 hr
      rcases hcase with ⟨hr1', hf⟩ | ⟨rfl, rfl, hno⟩
      · rw [hr1'] at hr1; simp at hr1
      · refine ⟨hr1, rfl, ?_⟩
        intro lo' hlo'
        rcases List.mem_cons.1 hlo' with rfl | hmem
        · exact hno
        · exact hall lo' hmem

theorem moveUnique_spec {orig : Bool → Bitmap n} {st : St n} (h : Inv orig st) :
    ∃ r st', moveUnique st = some (r, st') ∧ Inv orig st' ∧ Ext st st' ∧ st'.matching = st.matching ∧
      st.fixed ≤ st'.fixed ∧ (r = true → st.fixed < st'.fixed) ∧
      (r = false → st' = st ∧
        ∀ lo : Fin n, st.fixed ≤ lo.val → ∀ w, st.matching false (st.perms false lo) ≠ bit w) := by
  obtain ⟨r, st', h1, h2, h3, h4, h5, h6, h7⟩ := moveLoop_spec (freeChannels st) (pairwise_freeChannels st) h false
    (fun lo hlo => (mem_freeChannels st lo).1 hlo)
  refine ⟨r, st', h1, h2, h3, h4, h5, fun hr => ?_, fun hr => ?_⟩
  · rcases h6 hr with h | h
    · simp at h
    · exact h
  · exact ⟨(h7 hr).2.1, fun lo hlo => (h7 hr).2.2 lo ((mem_freeChannels st lo).2 hlo)⟩

/-! ## `filter_matching` -/

/-- `π` is a solution that the matching still allows. -/
def Sol (orig : Bool → Bitmap n) (π : Equiv.Perm (Fin n)) (m : Matching n) : Prop :=
  Compat π m ∧ permSet π (orig false).toSet ⊆ (orig true).toSet

theorem not_matched_of_exceeds {orig : Bool → Bitmap n} {st : St n} (h : Inv orig st)
    {π : Equiv.Perm (Fin n)} (hπ : Sol orig π st.matching) (lo hi : Fin n) (len : ℕ)
    (hex : abstractionExceeds len ((st.sets false).lowChannelsChannelAbstraction st.fixed lo)
        ((st.sets true).lowChannelsChannelAbstraction st.fixed hi) = true) :
    ¬ Matched π false (st.perms false lo) (st.perms true hi) := by
  obtain ⟨ρ, hρ⟩ := h.permOk
  intro hm
  simp only [Matched, hρ.perms] at hm
  let τ : Equiv.Perm (Fin n) := (ρ false)⁻¹ * π * ρ true
  have hτ : ∀ i : Fin n, i.val < st.fixed → τ i = i := by
    intro i hi
    have h1 := h.fixed i hi
    obtain ⟨w, hw⟩ := Matched.exists π false (st.perms false i)
    have h2 := hπ.1 _ _ _ hw
    rw [h1] at h2
    simp only [vecOf_bit, decide_eq_true_eq] at h2
    subst h2
    simp only [Matched, hρ.perms] at hw
    show (ρ false)⁻¹ (π (ρ true i)) = i
    rw [hw]; simp
  have hsub : permSet τ (st.sets false).toSet ⊆ (st.sets true).toSet := by
    rw [hρ.sets, hρ.sets, permSet_permSet]
    have : ρ false * τ = π * ρ true := by
      simp only [τ]; group
    rw [this, ← permSet_permSet]
    exact permSet_mono _ hπ.2
  have hl : τ hi = lo := by
    show (ρ false)⁻¹ (π (ρ true hi)) = lo
    rw [hm]; simp
  unfold abstractionExceeds at hex
  rw [List.any_eq_true] at hex
  obtain ⟨j, _, hj⟩ := hex
  have := lowAbs_mono τ st.fixed lo hi hτ hl _ _ hsub j
  simp only [gt_iff_lt, decide_eq_true_eq] at hj
  omega

theorem filterLoop_spec {orig : Bool → Bitmap n} {st0 : St n} (h0 : Inv orig st0) (l : List (Fin n × Fin n)) :
    ∀ {st : St n} (_ : Step st0 st) (_ : Closed st.matching ∅),
      ∃ r st', filterLoop st0 l st = some (r, st') ∧ Step st0 st' ∧
        (r = true → Closed st'.matching ∅) ∧
        (∀ π, Sol orig π st.matching → r = true ∧ Sol orig π st'.matching) := by
  induction l with
  | nil => intro st hs hc; exact ⟨true, st, rfl, hs, fun _ => hc, fun π h => ⟨rfl, h⟩⟩
  | cons p l ih =>
    intro st hs hc
    have key : ∃ r st1, filterStep st0 st p.1 p.2 = some (r, st1) ∧ Step st0 st1 ∧
        (r = true → Closed st1.matching ∅) ∧
        (∀ π, Sol orig π st.matching → r = true ∧ Sol orig π st1.matching) := by
      unfold filterStep
      dsimp only
      split_ifs with hg hex
      · have he := (getMatching_iff _ _).1 hg
        obtain ⟨r, st1, h1, h2, h3, h4⟩ := removeMatching_spec st _ ∅ hs.minv hc he
        refine ⟨r, st1, h1, hs.trans h2, fun hr => (h3 hr).1, ?_⟩
        intro π hπ
        have hnm : ¬ Matched π false (st.perms false p.1) (st.perms true p.2) := by
          rw [hs.perms]
          refine not_matched_of_exceeds h0 (π := π) ⟨?_, hπ.2⟩ p.1 p.2 _ hex
          exact fun s v w hvw => hs.sub _ _ _ (hπ.1 s v w hvw)
        have := h4 π hπ.1 hnm
        exact ⟨this.1, this.2, hπ.2⟩
      · exact ⟨true, st, rfl, hs, fun _ => hc, fun π h => ⟨rfl, h⟩⟩
      · exact ⟨true, st, rfl, hs, fun _ => hc, fun π h => ⟨rfl, h⟩⟩
    obtain ⟨r, st1, e1, s1, c1, p1⟩ := key
    rw [filterLoop, e1]
    simp only [Option.bind_eq_bind, Option.bind_some]
    cases r with
    | false =>
      refine ⟨false, st1, rfl, s1, by simp, fun π h => ?_⟩
      exact absurd (p1 π h).1 (by simp)
    | true =>
      obtain ⟨r2, st2, e2, s2, c2, p2⟩ := ih s1 (c1 rfl)
      exact ⟨r2, st2, by simpa using e2, s2, c2, fun π h => p2 π (p1 π h).2⟩

theorem filterMatching_spec {orig : Bool → Bitmap n} {st : St n} (h : Inv orig st) :
    ∃ r st', filterMatching st = some (r, st') ∧ Step st st' ∧
      (r = true → Inv orig st') ∧
      (∀ π, Sol orig π st.matching → r = true ∧ Sol orig π st'.matching) := by
  obtain ⟨r, st', h1, h2, h3, h4⟩ := filterLoop_spec h
    ((freeChannels st).flatMap fun lo => (freeChannels st).map fun hi => (lo, hi)) (Step.refl h.minv) h.closed
  exact ⟨r, st', h1, h2, fun hr => h2.inv h (h3 hr), h4⟩

/-! ## `select_guess` -/

theorem lexLt_fst {a b : ℕ × ℕ × ℕ} (h : lexLt a b = true) : a.1 ≤ b.1 := by
  unfold lexLt at h
  simp only [Bool.or_eq_true, Bool.and_eq_true, decide_eq_true_eq, beq_iff_eq] at h
  rcases h with h | h
  · exact h.le
  · exact h.1.le

theorem not_lexLt_fst {a b : ℕ × ℕ × ℕ} (h : ¬ lexLt a b = true) : b.1 ≤ a.1 := by
  unfold lexLt at h
  simp only [Bool.or_eq_true, Bool.and_eq_true, decide_eq_true_eq, beq_iff_eq, not_or] at h
  omega

theorem minChoice_spec (init : ℕ × ℕ × ℕ) (l : List (ℕ × ℕ × ℕ)) :
    (minChoice init l = init ∨ minChoice init l ∈ l) ∧ (minChoice init l).1 ≤ init.1 ∧
      ∀ x ∈ l, (minChoice init l).1 ≤ x.1 := by
  unfold minChoice
  induction l generalizing init with
  | nil => simp
  | cons x l ih =>
    rw [List.foldl_cons]
    split_ifs with h
    · obtain ⟨h1, h2, h3⟩ := ih x
      have := lexLt_fst h
      refine ⟨Or.inr ?_, by omega, ?_⟩
      · rcases h1 with h1 | h1
        · rw [h1]; simp
        · exact List.mem_cons_of_mem _ h1
      · intro y hy
        rcases List.mem_cons.1 hy with rfl | hy
        · exact h2
        · exact h3 y hy
    · obtain ⟨h1, h2, h3⟩ := ih init
      have := not_lexLt_fst h
      refine ⟨?_, h2, ?_⟩
      · rcases h1 with h1 | h1
        · exact Or.inl h1
        · exact Or.inr (List.mem_cons_of_mem _ h1)
      · intro y hy
        rcases List.mem_cons.1 hy with rfl | hy
        · omega
        · exact h3 y hy

theorem minChoice_mem {init : ℕ × ℕ × ℕ} {l : List (ℕ × ℕ × ℕ)} (h : ∃ x ∈ l, x.1 < init.1) :
    minChoice init l ∈ l := by
  obtain ⟨h1, _, h3⟩ := minChoice_spec init l
  obtain ⟨x, hx, hlt⟩ := h
  rcases h1 with h1 | h1
  · have := h3 x hx
    rw [h1] at this
    omega
  · exact h1

theorem countOnes_le (x : BitVec n) : countOnes x ≤ n := by
  unfold countOnes
  exact (List.length_filter_le _ _).trans (by simp)

theorem selectGuess_spec {orig : Bool → Bitmap n} {st : St n} (h : Inv orig st) (hn : n ≤ maxChannels)
    (hf : st.fixed ≠ n)
    (hno : ∀ lo : Fin n, st.fixed ≤ lo.val → ∀ w, st.matching false (st.perms false lo) ≠ bit w) :
    ∃ ch, selectGuess st = some ch ∧ vecOf (st.matching false (ch false)) (ch true) = true ∧
      st.matching true (ch true) ≠ bit (ch false) := by
  obtain ⟨ρ, hρ⟩ := h.permOk
  have hlt : st.fixed < n := lt_of_le_of_ne h.fixed_le hf
  have hne : ∃ x ∈ choices st, x.1 < (maxChannels + 1, 0, 0).1 := by
    refine ⟨(countOnes (st.matching false (st.perms false ⟨st.fixed, hlt⟩)), 0,
      (st.perms false ⟨st.fixed, hlt⟩).val), ?_, ?_⟩
    · unfold choices
      simp only [List.flatMap_cons, List.flatMap_nil, List.append_nil, List.mem_append]
      left
      rw [List.mem_map]
      exact ⟨⟨st.fixed, hlt⟩, (mem_freeChannels st _).2 le_rfl, rfl⟩
    · have := countOnes_le (st.matching false (st.perms false ⟨st.fixed, hlt⟩))
      dsimp only
      omega
  have hmem := minChoice_mem hne
  have hchoice : ∃ (side : Bool) (i : Fin n), st.fixed ≤ i.val ∧
      (minChoice (maxChannels + 1, 0, 0) (choices st)).2.1 = side.toNat ∧
      (minChoice (maxChannels + 1, 0, 0) (choices st)).2.2 = (st.perms side i).val := by
    generalize minChoice (maxChannels + 1, 0, 0) (choices st) = mc at hmem
    unfold choices at hmem
    simp only [List.flatMap_cons, List.flatMap_nil, List.append_nil, List.mem_append, List.mem_map] at hmem
    rcases hmem with ⟨i, hi, he⟩ | ⟨i, hi, he⟩
    · exact ⟨false, i, (mem_freeChannels st i).1 hi, by rw [← he], by rw [← he]⟩
    · exact ⟨true, i, (mem_freeChannels st i).1 hi, by rw [← he], by rw [← he]⟩
  obtain ⟨side, i, hi, h1, h2⟩ := hchoice
  have hside : ((minChoice (maxChannels + 1, 0, 0) (choices st)).2.1 != 0) = side := by
    rw [h1]; cases side <;> rfl
  unfold selectGuess
  simp only [hside]
  have hto : toChannel n (minChoice (maxChannels + 1, 0, 0) (choices st)).2.2 = some (st.perms side i) := by
    unfold toChannel
    rw [dif_pos (by rw [h2]; exact (st.perms side i).isLt)]
    simp [h2]
  simp only [hto, Option.bind_eq_bind, Option.bind_some]
  have hne' : ∃ x ∈ otherChoices st side (st.perms side i), x.1 < (maxChannels + 1, 0, 0).1 := by
    obtain ⟨b, hb⟩ := h.minv.nonempty side (st.perms side i)
    refine ⟨(countOnes (st.matching (!side) b), 0, b.val), ?_, ?_⟩
    · unfold otherChoices
      exact List.mem_map.2 ⟨b, (mem_setBits _ _).2 hb, rfl⟩
    · have := countOnes_le (st.matching (!side) b)
      dsimp only
      omega
  have hmem' := minChoice_mem hne'
  unfold otherChoices at hmem'
  rw [List.mem_map] at hmem'
  obtain ⟨o, ho, he⟩ := hmem'
  rw [mem_setBits] at ho
  have hto' : toChannel n (minChoice (maxChannels + 1, 0, 0) (otherChoices st side (st.perms side i))).2.2 = some o := by
    unfold otherChoices
    rw [← he]
    simp [toChannel]
  rw [hto']
  refine ⟨pair side (st.perms side i) o, by simp, ?_, ?_⟩
  · cases side
    · simpa [pair] using ho
    · simp only [pair]; simp; rw [h.minv.cons]; exact ho
  · intro hb
    have hcl := h.closed true _ (by simp) _ hb
    simp only [Bool.not_true] at hcl
    cases side
    · simp only [pair] at hcl
      simp at hcl
      exact hno i hi _ hcl
    · simp only [pair] at hcl
      simp at hcl
      obtain ⟨j, rfl⟩ : ∃ j, st.perms false j = o := by
        refine ⟨(ρ false).symm o, ?_⟩
        rw [hρ.perms]; simp
      by_cases hj : st.fixed ≤ j.val
      · exact hno j hj _ hcl
      · have := h.fixed j (by omega)
        rw [this] at hcl
        have h3 : vecOf (bit (st.perms true i)) (st.perms true j) = true := by rw [← hcl]; simp
        simp only [vecOf_bit, decide_eq_true_eq, hρ.perms] at h3
        have := (ρ true).injective h3
        subst this
        omega

/-! ## The result -/

theorem foldl_update_key {α β γ : Type} [DecidableEq β] (L : List α) (hL : L.Nodup) (key : α → β) (val : α → γ)
    (hk : Function.Injective key) (f : β → γ) (a : α) (ha : a ∈ L) :
    L.foldl (fun f i => Function.update f (key i) (val i)) f (key a) = val a := by
  have hother : ∀ (L : List α) (f : β → γ), a ∉ L →
      L.foldl (fun f i => Function.update f (key i) (val i)) f (key a) = f (key a) := by
    intro L
    induction L with
    | nil => intro f _; rfl
    | cons x L ih =>
      intro f hx
      rw [List.mem_cons, not_or] at hx
      rw [List.foldl_cons, ih _ hx.2, Function.update_of_ne]
      exact fun h => hx.1 (hk h)
  induction L generalizing f with
  | nil => simp at ha
  | cons x L ih =>
    obtain ⟨hx, hL⟩ := List.nodup_cons.1 hL
    rw [List.foldl_cons]
    rcases List.mem_cons.1 ha with rfl | ha
    · rw [hother L _ hx, Function.update_self]
    · exact ih hL _ ha

theorem resultPerm_eq {orig : Bool → Bitmap n} {st : St n} {ρ : Bool → Equiv.Perm (Fin n)}
    (hρ : PermOk orig st ρ) : resultPerm st = ⇑(ρ false * (ρ true)⁻¹) := by
  funext k
  obtain ⟨i, rfl⟩ := (ρ true).surjective k
  unfold resultPerm
  rw [hρ.perms, hρ.perms, foldl_update_key _ (List.nodup_finRange n) _ _ (ρ true).injective _ _ (List.mem_finRange i)]
  simp

/-- The specification of the search from a state. -/
def SearchSpec (orig : Bool → Bitmap n) (st : St n)
    (res : Option (Option (Fin n → Fin n) × St n)) : Prop :=
  ∃ r st', res = some (r, st') ∧ Ext st st' ∧
    (∀ p, r = some p → ∃ π : Equiv.Perm (Fin n), ⇑π = p ∧ permSet π (orig false).toSet ⊆ (orig true).toSet) ∧
    (r = none → ∀ π, ¬ Sol orig π st.matching)

theorem search_spec {orig : Bool → Bitmap n} (hn : n ≤ maxChannels) {st : St n} (h : Inv orig st) :
    SearchSpec orig st (search st) := by
  induction hm : edges st.matching + (n - st.fixed) using Nat.strongRecOn generalizing st with
  | _ e ih =>
  subst hm
  -- excluding a guess and continuing
  have hexcl : ∀ (st1 : St n) (guess : Bool → Fin n), Inv orig st1 →
      edges st1.matching + (n - st1.fixed) ≤ edges st.matching + (n - st.fixed) →
      vecOf (st1.matching false (guess false)) (guess true) = true →
      ∃ r st', exclude st1 guess = some (r, st') ∧ Ext st1 st' ∧
        (∀ p, r = some p → ∃ π : Equiv.Perm (Fin n), ⇑π = p ∧ permSet π (orig false).toSet ⊆ (orig true).toSet) ∧
        (r = none → ∀ π, ¬ Matched π false (guess false) (guess true) → ¬ Sol orig π st1.matching) := by
    intro st1 guess hi hle hg
    obtain ⟨r, st2, e2, s2, c2, p2⟩ := removeMatching_spec st1 guess ∅ hi.minv hi.closed hg
    rw [exclude, e2]
    simp only [Option.bind_eq_bind, Option.bind_some]
    cases r with
    | false =>
      refine ⟨none, st2, rfl, s2.ext, by simp, fun _ π hnm hsol => ?_⟩
      exact absurd (p2 π hsol.1 hnm).1 (by simp)
    | true =>
      obtain ⟨c2, g2⟩ := c2 rfl
      have hi2 := s2.inv hi c2
      have hlt := s2.sub.edges_lt hg g2
      obtain ⟨m, st3, e3, i3, x3, m3, f3, _, _⟩ := moveUnique_spec hi2
      have hf2 := s2.fixed
      obtain ⟨r4, st4, e4, x4, s4, n4⟩ := ih (edges st3.matching + (n - st3.fixed)) (by rw [m3]; omega) i3 rfl
      refine ⟨r4, st4, by simp [e3, e4], s2.ext.trans (x3.trans x4), s4, ?_⟩
      intro hr π hnm hsol
      refine n4 hr π ⟨?_, hsol.2⟩
      rw [m3]
      exact (p2 π hsol.1 hnm).2
  rw [search]
  split_ifs with hfix hsubs
  · -- all channels fixed and included
    obtain ⟨ρ, hρ⟩ := h.permOk
    refine ⟨_, st, rfl, Ext.refl _, ?_, by simp⟩
    intro p hp
    refine ⟨ρ false * (ρ true)⁻¹, ?_, ?_⟩
    · rw [← resultPerm_eq hρ]; exact Option.some.inj hp
    · have := (subsumesUnpermuted_iff _ _).1 hsubs
      rw [hρ.sets, hρ.sets] at this
      rw [← permSet_permSet]
      have h2 := permSet_mono (ρ true)⁻¹ this
      rwa [permSet_permSet (ρ true)⁻¹ (ρ true), mul_inv_cancel, permSet_one] at h2
  · -- all channels fixed and not included
    obtain ⟨ρ, hρ⟩ := h.permOk
    refine ⟨_, st, rfl, Ext.refl _, by simp, ?_⟩
    intro _ π hsol
    apply hsubs
    rw [subsumesUnpermuted_iff, hρ.sets, hρ.sets]
    have hπ : ρ false = π * ρ true := by
      ext1 i
      have h1 := h.fixed i (by rw [hfix]; exact i.isLt)
      obtain ⟨w, hw⟩ := Matched.exists π false (st.perms false i)
      have h2 := hsol.1 _ _ _ hw
      rw [h1] at h2
      simp only [vecOf_bit, decide_eq_true_eq] at h2
      subst h2
      simp only [Matched, hρ.perms] at hw
      exact hw.symm
    rw [hπ, ← permSet_permSet]
    exact permSet_mono _ hsol.2
  · obtain ⟨rf, st1, e1, s1, i1, p1⟩ := filterMatching_spec h
    rw [e1]
    simp only [Option.bind_eq_bind, Option.bind_some]
    cases rf with
    | false =>
      refine ⟨none, st1, rfl, s1.ext, by simp, fun _ π hsol => ?_⟩
      exact absurd (p1 π hsol).1 (by simp)
    | true =>
      have i1 := i1 rfl
      have hle1 := s1.sub.edges_le
      have hfx1 := s1.fixed
      have hfn := h.fixed_le
      obtain ⟨rm, st2, e2, i2, x2, m2, f2, t2, n2⟩ := moveUnique_spec i1
      simp only [e2, Option.bind_some, if_true]
      have hfn2 := i2.fixed_le
      cases rm with
      | true =>
        have ht := t2 rfl
        obtain ⟨r3, st3, e3, x3, s3, n3⟩ := ih (edges st2.matching + (n - st2.fixed)) (by rw [m2]; omega) i2 rfl
        refine ⟨r3, st3, by simpa using e3, s1.ext.trans (x2.trans x3), s3, ?_⟩
        intro hr π hsol
        refine n3 hr π ?_
        rw [m2]
        exact (p1 π hsol).2
      | false =>
        obtain ⟨rfl, hno⟩ := n2 rfl
        rw [if_neg (by simp), branch]
        obtain ⟨guess, eg, hg, hgb⟩ := selectGuess_spec i2 hn (by rw [hfx1]; exact hfix) hno
        obtain ⟨ri, st3, e3, s3, c3, p3⟩ := isolateMatching_spec st2 guess i2.minv i2.closed
        simp only [eg, e3, Option.bind_eq_bind, Option.bind_some]
        obtain ⟨rx, stx, ex, xx, sx, nx⟩ := hexcl st2 guess i2 (by omega) hg
        cases ri with
        | false =>
          rw [if_neg (by simp), s3.ext.rollback, ex]
          refine ⟨rx, stx, rfl, s1.ext.trans (x2.trans xx), sx, ?_⟩
          intro hr π hsol
          have hsol2 := (p1 π hsol).2
          refine nx hr π ?_ hsol2
          intro hmt
          exact absurd (p3 π hsol2.1 hmt).1 (by simp)
        | true =>
          obtain ⟨c3, b3⟩ := c3 rfl
          have i3 := s3.inv i2 c3
          obtain ⟨m, st4, e4, i4, x4, m4, f4, _, _⟩ := moveUnique_spec i3
          have hlt : edges st3.matching < edges st2.matching := by
            have : ∃ j, vecOf (st2.matching true (guess true)) j = true ∧ j ≠ guess false := by
              by_contra hcon
              push Not at hcon
              exact hgb ((eq_bit_iff (i2.minv.nonempty _ _) _).2 hcon)
            obtain ⟨j, hj, hjne⟩ := this
            refine s3.sub.edges_lt (a := j) (b := guess true) (by rw [i2.minv.cons]; exact hj) ?_
            rw [s3.minv.cons]
            show vecOf (st3.matching true (guess true)) j = false
            rw [b3]
            simp [hjne]
          have hfx3 := s3.fixed
          obtain ⟨r5, st5, e5, x5, s5, n5⟩ :=
            ih (edges st4.matching + (n - st4.fixed)) (by rw [m4]; omega) i4 rfl
          have hroll : rollback st5 st2.undo.length st2.fixed = st2 :=
            (s3.ext.trans (x4.trans x5)).rollback
          simp only [e4, e5, if_true, Option.bind_some, hroll]
          cases r5 with
          | some p => exact ⟨some p, st2, rfl, s1.ext.trans x2, s5, by simp⟩
          | none =>
            refine ⟨rx, stx, ex, s1.ext.trans (x2.trans xx), sx, ?_⟩
            intro hr π hsol
            have hsol2 := (p1 π hsol).2
            refine nx hr π ?_ hsol2
            intro hmt
            refine n5 rfl π ⟨?_, hsol.2⟩
            rw [m4]
            exact (p3 π hsol2.1 hmt).2

end Subsume

theorem subsumesPermuted_spec {n : ℕ} (hn : n ≤ maxChannels) (s t : Bitmap n) :
    ∃ r, s.subsumesPermuted t = some r ∧
      (∀ p, r = some p → ∃ π : Equiv.Perm (Fin n), ⇑π = p ∧ permSet π s.toSet ⊆ t.toSet) ∧
      (r = none → ¬ Subsumes s.toSet t.toSet) := by
  obtain ⟨r, st', e, _, h1, h2⟩ := Subsume.search_spec hn (Subsume.inv_new s t)
  refine ⟨r, by rw [Bitmap.subsumesPermuted, if_pos hn, e]; rfl, h1, ?_⟩
  rintro hr ⟨π, hπ⟩
  refine h2 hr π ⟨?_, hπ⟩
  intro side v w _
  simp [Subsume.new]

end Sortnet
