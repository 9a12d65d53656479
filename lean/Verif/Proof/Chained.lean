import Verif.Proof.Prune
import Verif.Theory.Token
import Verif.Theory.Huffman

/-!
# Well-formed output sets are preserved, and single extremal channels
-/

namespace Sortnet

variable {n : ℕ}

theorem ReachIn.head {A : Set (Fin n → Bool)} {b : Bool} {u v : Fin n → Bool} {i : Fin n} (hu : u ∈ A)
    (hi : u i = !b) (h : ReachIn A b (Function.update u i b) v) : ReachIn A b u v :=
  ((ReachIn.refl hu).step i hi h.mem_left).trans h

theorem ReachIn.reverse {A : Set (Fin n → Bool)} {b : Bool} {u v : Fin n → Bool} (h : ReachIn A b u v) :
    ReachIn A (!b) v u := by
  induction h with
  | refl h => exact .refl h
  | @step v i h1 h2 h3 ih =>
    refine ReachIn.head (i := i) h3 (by simp) ?_
    have : Function.update (Function.update v i b) i (!b) = v := by
      rw [Function.update_idem, ← h2, Function.update_eq_self]
    rw [this]; exact ih

theorem ReachIn.cases_head {A : Set (Fin n → Bool)} {b : Bool} {u v : Fin n → Bool} (h : ReachIn A b u v) :
    v = u ∨ ∃ i, u i = (!b) ∧ ReachIn A b (Function.update u i b) v := by
  induction h with
  | refl h => exact Or.inl rfl
  | @step v i h1 h2 h3 ih =>
    right
    rcases ih with rfl | ⟨j, hj1, hj2⟩
    · exact ⟨i, h2, .refl h3⟩
    · exact ⟨j, hj1, hj2.step i h2 h3⟩

/-- A vector directly above another one. -/
theorem exists_update_of_le {x y : Fin n → Bool} (h : x ≤ y) (hw : weight y = weight x + 1) :
    ∃ i, x i = false ∧ y = Function.update x i true := by
  have : ∃ i, x i = false ∧ y i = true := by
    by_contra hcon
    push Not at hcon
    have : y ≤ x := by
      intro i
      have h1 := hcon i
      cases hx : x i <;> cases hy : y i <;> simp_all
    have := weight_mono this
    omega
  obtain ⟨i, hi, hyi⟩ := this
  refine ⟨i, hi, ?_⟩
  refine (eq_of_le_of_weight ?_ ?_).symm
  · intro j
    by_cases e : j = i
    · subst e; simp [hyi]
    · simp only [Function.update_of_ne e]; exact h j
  · rw [weight_update_true hi, hw]

theorem eq_false_of_weight {x : Fin n → Bool} (h : weight x = 0) : x = fun _ => false := by
  refine (eq_of_le_of_weight (x := fun _ => false) (y := x) (fun i => Bool.false_le _) ?_).symm
  rw [h, weight_false]

theorem eq_true_of_weight {x : Fin n → Bool} (h : weight x = n) : x = fun _ => true := by
  refine eq_of_le_of_weight (fun i => Bool.le_true _) ?_
  rw [h, weight_true]

/-- Monotone weight-preserving maps preserve reachability. -/
theorem ReachIn.image {A : Set (Fin n → Bool)} {f : (Fin n → Bool) → (Fin n → Bool)}
    (hm : Monotone f) (hw : ∀ x, weight (f x) = weight x) {u v : Fin n → Bool} (h : ReachIn A true u v) :
    ReachIn (f '' A) true (f u) (f v) := by
  induction h with
  | refl h => exact .refl ⟨_, h, rfl⟩
  | @step v i h1 h2 h3 ih =>
    have hle : v ≤ Function.update v i true := by
      intro j
      by_cases e : j = i
      · subst e; simp [Bool.le_true]
      · simp [e]
    obtain ⟨j, hj1, hj2⟩ := exists_update_of_le (hm hle) (by
      rw [hw, hw, weight_update_true (by simpa using h2)])
    have hmem : f (Function.update v i true) ∈ f '' A := ⟨_, h3, rfl⟩
    rw [hj2] at hmem ⊢
    exact ih.step j (by simpa using hj1) hmem

theorem Chained.image {A : Set (Fin n → Bool)} (hA : Chained A) {f : (Fin n → Bool) → (Fin n → Bool)}
    (hm : Monotone f) (hw : ∀ x, weight (f x) = weight x) : Chained (f '' A) := by
  have h0 : f (fun _ => false) = fun _ => false := eq_false_of_weight (by rw [hw, weight_false])
  have h1 : f (fun _ => true) = fun _ => true := eq_true_of_weight (by rw [hw, weight_true])
  rintro _ ⟨v, hv, rfl⟩
  obtain ⟨h2, h3⟩ := hA v hv
  have h4 := h2.image hm hw
  have h5 := h3.image hm hw
  rw [h0] at h4
  rw [h1] at h5
  exact ⟨h4, h5⟩

theorem weight_comp_perm (π : Equiv.Perm (Fin n)) (x : Fin n → Bool) : weight (x ∘ π) = weight x := by
  unfold weight
  apply Finset.card_bij (fun i _ => π i)
  · intro i hi; simpa using hi
  · intro i _ j _ h; exact π.injective h
  · intro j hj
    exact ⟨π.symm j, by simpa using hj, by simp⟩

theorem weight_applyCmp (c : Fin n × Fin n) (x : Fin n → Bool) : weight (applyCmp c x) = weight x := by
  by_cases h : x c.1 = true ∧ x c.2 = false
  · rw [applyCmp_swap (by rintro ⟨h1, _⟩; simp [h1] at h), weight_comp_perm]
  · rw [applyCmp_id h]

theorem Chained.applyCmp {A : Set (Fin n → Bool)} (hA : Chained A) (c : Fin n × Fin n) :
    Chained (applyCmp c '' A) :=
  hA.image (fun _ _ h => applyCmp_mono c h) (weight_applyCmp c)

theorem Chained.permSet {A : Set (Fin n → Bool)} (hA : Chained A) (π : Equiv.Perm (Fin n)) :
    Chained (permSet π A) :=
  hA.image (fun _ _ h i => h (π i)) (weight_comp_perm π)

theorem ReachIn.compl {A : Set (Fin n → Bool)} {b : Bool} {u v : Fin n → Bool} (h : ReachIn A b u v) :
    ReachIn (complSet A) (!b) (vnot u) (vnot v) := by
  induction h with
  | refl h => exact .refl (mem_complSet.2 (by simpa using h))
  | @step v i h1 h2 h3 ih =>
    have : vnot (Function.update v i b) = Function.update (vnot v) i (!b) := by
      funext j
      by_cases e : j = i
      · subst e; simp
      · simp [e]
    rw [this]
    refine ih.step i (by simp [h2]) ?_
    rw [← this, mem_complSet, vnot_vnot]; exact h3

theorem Chained.complSet {A : Set (Fin n → Bool)} (hA : Chained A) : Chained (complSet A) := by
  intro v hv
  obtain ⟨h1, h2⟩ := hA _ (mem_complSet.1 hv)
  have h3 := h1.compl.reverse
  have h4 := h2.compl.reverse
  rw [vnot_vnot] at h3 h4
  exact ⟨h4, h3⟩

theorem reachIn_univ (u v : Fin n → Bool) (h : u ≤ v) :
    ReachIn Set.univ true u v := by
  induction hk : weight v - weight u generalizing v with
  | zero =>
    have hle := weight_mono h
    have := eq_of_le_of_weight h (by omega)
    subst this
    exact .refl trivial
  | succ k ih =>
    have : ∃ i, u i = false ∧ v i = true := by
      by_contra hcon
      push Not at hcon
      have : v ≤ u := by
        intro i
        have h1 := hcon i
        cases hx : u i <;> cases hy : v i <;> simp_all
      have := weight_mono this
      omega
    obtain ⟨i, hu, hv⟩ := this
    have hv' : Function.update (Function.update v i false) i true = v := by
      rw [Function.update_idem, ← hv, Function.update_eq_self]
    have hw := weight_update_true (v := Function.update v i false) (i := i) (by simp)
    rw [hv'] at hw
    have h1 : u ≤ Function.update v i false := by
      intro j
      by_cases e : j = i
      · subst e; simp [hu]
      · simp only [Function.update_of_ne e]; exact h j
    have h2 := ih _ h1 (by omega)
    have h3 := h2.step i (by simp) (Set.mem_univ _)
    rwa [hv'] at h3

theorem chained_univ : Chained (Set.univ : Set (Fin n → Bool)) := fun _ _ =>
  ⟨reachIn_univ _ _ (fun _ => Bool.false_le _), reachIn_univ _ _ (fun _ => Bool.le_true _)⟩

theorem toSet_allValues : (allValues n).toSet = Set.univ := by
  ext v; simp [Bitmap.mem_toSet, allValues]

theorem Chained.reach_const {A : Set (Fin n → Bool)} (hA : Chained A) (p : Bool) {v : Fin n → Bool}
    (hv : v ∈ A) : ReachIn A (!p) (fun _ => p) v ∧ ReachIn A (!p) v (fun _ => !p) := by
  obtain ⟨h1, h2⟩ := hA v hv
  cases p with
  | false => exact ⟨h1, h2⟩
  | true => exact ⟨h2.reverse, h1.reverse⟩

/-! ## Removing an extremal channel -/

theorem reachIn_remove {p : Bool} {c : Fin (n + 1)} {A : Set (Fin (n + 1) → Bool)}
    {u v : Fin (n + 1) → Bool} (hu : ReachIn A (!p) (extremalVec p c) u) (h : ReachIn A (!p) u v) :
    ReachIn (prunedSet p c A) (!p) (removeChannel c u) (removeChannel c v) := by
  induction h with
  | refl h => exact .refl ⟨u, hu, rfl⟩
  | @step v i h1 h2 h3 ih =>
    have hv := hu.trans h1
    have hvc := reachIn_chan hv
    have hne : i ≠ c := by rintro rfl; rw [hvc] at h2; simp at h2
    obtain ⟨j, rfl⟩ := (Fin.eq_self_or_eq_succAbove c i).resolve_left hne
    have : removeChannel c (Function.update v (c.succAbove j) (!p)) =
        Function.update (removeChannel c v) j (!p) := by
      funext k
      simp only [removeChannel, Function.update_apply, Fin.succAbove_right_inj]
    have hmem : removeChannel c (Function.update v (c.succAbove j) (!p)) ∈ prunedSet p c A :=
      ⟨_, hv.step _ h2 h3, rfl⟩
    rw [this] at hmem ⊢
    exact ih.step j h2 hmem

theorem removeChannel_extremal (p : Bool) (c : Fin (n + 1)) :
    removeChannel c (extremalVec p c) = fun _ => p := by
  funext i
  simp [removeChannel, extremalVec, Fin.succAbove_ne]

theorem Chained.prunedSet {A : Set (Fin (n + 1) → Bool)} (hA : Chained A) (p : Bool) (c : Fin (n + 1)) :
    Chained (prunedSet p c A) := by
  rintro _ ⟨v, hv, rfl⟩
  have h1 := reachIn_remove (.refl hv.mem_left) hv
  rw [removeChannel_extremal] at h1
  have h2 := reachIn_remove hv (hA.reach_const p hv.mem).2
  have e : removeChannel c (fun _ => !p) = fun _ => !p := rfl
  rw [e] at h2
  cases p with
  | false => exact ⟨h1, h2⟩
  | true => exact ⟨h2.reverse, h1.reverse⟩

/-- The pruned set is contained in the vectors with the channel fixed. -/
theorem prunedSet_subset (p : Bool) (c : Fin (n + 1)) (A : Set (Fin (n + 1) → Bool)) :
    prunedSet p c A ⊆ removeChannel c '' {v ∈ A | v c = !p} := by
  rintro _ ⟨v, hv, rfl⟩
  exact ⟨v, ⟨hv.mem, reachIn_chan hv⟩, rfl⟩

/-- Lower bounds for the pruned set are lower bounds for the set of the checker's rule. -/
theorem LB_pruneSet_of_prunedSet {p : Bool} {c : Fin (n + 1)} {A : Set (Fin (n + 1) → Bool)} {k : ℕ}
    (h : LB (prunedSet p c A) k) : LB (pruneSet (!p) c A) k := by
  rw [LB_pruneSet_iff]
  exact LB.mono (prunedSet_subset p c A) h

theorem extremalVec_eq (p : Bool) (c : Fin (n + 1)) :
    extremalVec p c = fun k => if k = c then !p else !!p := by
  funext k; simp [extremalVec]

/-- Lower bounds survive adding the extremal channel. -/
theorem LB_of_prunedSet {p : Bool} {c : Fin (n + 1)} {A : Set (Fin (n + 1) → Bool)} {k : ℕ}
    (hext : extremalVec p c ∈ A) (h : LB (prunedSet p c A) k) : LB A k := by
  refine LB_huffman_list (!p) [c] [k] (by simp) (by simp) ?_ ?_ (isPsumLog_singleton k)
  · simp only [List.mem_singleton, forall_eq]
    rw [← extremalVec_eq]; exact hext
  · exact .cons (LB_pruneSet_of_prunedSet h) .nil

/-- The network with channel `c` added. -/
def liftNet (c : Fin (n + 1)) (cn : List (Fin n × Fin n)) : List (Fin (n + 1) × Fin (n + 1)) :=
  cn.map fun d => (c.succAbove d.1, c.succAbove d.2)

theorem run_liftNet (c : Fin (n + 1)) (cn : List (Fin n × Fin n)) (x : Fin (n + 1) → Bool) :
    removeChannel c (run (liftNet c cn) x) = run cn (removeChannel c x) ∧ run (liftNet c cn) x c = x c := by
  induction cn generalizing x with
  | nil => exact ⟨rfl, rfl⟩
  | cons d cn ih =>
    have h1 : removeChannel c (applyCmp (c.succAbove d.1, c.succAbove d.2) x) =
        applyCmp d (removeChannel c x) := by
      funext k
      simp [removeChannel, applyCmp]
    have h2 : applyCmp (c.succAbove d.1, c.succAbove d.2) x c = x c := by
      simp [applyCmp, Fin.ne_succAbove]
    obtain ⟨i1, i2⟩ := ih (applyCmp (c.succAbove d.1, c.succAbove d.2) x)
    simp only [liftNet, List.map_cons, run_cons]
    change removeChannel c (run (liftNet c cn) _) = _ ∧ run (liftNet c cn) _ c = _
    rw [i1, i2, h1, h2]
    exact ⟨rfl, rfl⟩

theorem le_of_removeChannel {c : Fin (n + 1)} {x y : Fin (n + 1) → Bool} (h : removeChannel c x ≤ removeChannel c y)
    (hc : x c ≤ y c) : x ≤ y := by
  intro i
  rcases Fin.eq_self_or_eq_succAbove c i with rfl | ⟨j, rfl⟩
  · exact hc
  · exact h j

theorem run_const {ι : Type*} [DecidableEq ι] (cn : List (ι × ι)) (p : Bool) :
    run cn (fun _ => p) = fun _ => p := by
  induction cn with
  | nil => rfl
  | cons d cn ih =>
    rw [run_cons]
    have : applyCmp d (fun _ => p) = fun _ => p := by funext k; simp [applyCmp]
    rw [this, ih]

/-- With a single extremal channel, a network for the pruned set sorts the whole set. -/
theorem UB_of_prunedSet {p : Bool} {c : Fin (n + 1)} {A : Set (Fin (n + 1) → Bool)} (hA : Chained A) {k : ℕ}
    (honly : ∀ c', extremalVec p c' ∈ A → c' = c) (h : UB (prunedSet p c A) k) : UB A k := by
  obtain ⟨cn, hlen, hs⟩ := h
  refine ⟨liftNet c cn, by simpa [liftNet] using hlen, ?_⟩
  rw [Sorts_iff] at hs ⊢
  have hcase : ∀ v ∈ A, v = (fun _ => p) ∨ ReachIn A (!p) (extremalVec p c) v := by
    intro v hv
    rcases (hA.reach_const p hv).1.cases_head with rfl | ⟨i, hi, hr⟩
    · exact Or.inl rfl
    · right
      have e : Function.update (fun _ => p) i (!p) = extremalVec p i := by
        funext k; simp [Function.update_apply, extremalVec]
      rw [e] at hr
      have := honly i hr.mem_left
      subst this
      exact hr
  have hconst : ∀ x : Fin (n + 1) → Bool, run (liftNet c cn) (fun _ => p) ≤ run (liftNet c cn) x ∨
      run (liftNet c cn) x ≤ run (liftNet c cn) (fun _ => p) := by
    intro x
    rw [run_const]
    cases p with
    | false => exact Or.inl fun i => Bool.false_le _
    | true => exact Or.inr fun i => Bool.le_true _
  intro v hv w hw
  rcases hcase v hv with rfl | hv'
  · exact hconst w
  · rcases hcase w hw with rfl | hw'
    · exact (hconst v).symm
    · have hvc : run (liftNet c cn) v c = !p := by rw [(run_liftNet c cn v).2, reachIn_chan hv']
      have hwc : run (liftNet c cn) w c = !p := by rw [(run_liftNet c cn w).2, reachIn_chan hw']
      rcases hs _ ⟨v, hv', rfl⟩ _ ⟨w, hw', rfl⟩ with h | h
      · left
        apply le_of_removeChannel (c := c)
        · rw [(run_liftNet c cn v).1, (run_liftNet c cn w).1]; exact h
        · rw [hvc, hwc]
      · right
        apply le_of_removeChannel (c := c)
        · rw [(run_liftNet c cn v).1, (run_liftNet c cn w).1]; exact h
        · rw [hvc, hwc]

/-- A single extremal channel can be removed without changing the optimum. -/
theorem prunedSet_single {p : Bool} {c : Fin (n + 1)} {A : Set (Fin (n + 1) → Bool)} (hA : Chained A)
    (hext : extremalVec p c ∈ A) (honly : ∀ c', extremalVec p c' ∈ A → c' = c) :
    (∀ k, LB A k ↔ LB (prunedSet p c A) k) ∧ (∀ k, UB A k ↔ UB (prunedSet p c A) k) := by
  refine ⟨fun k => ⟨fun h cn hs => ?_, LB_of_prunedSet hext⟩, fun k => ⟨fun h => ?_, UB_of_prunedSet hA honly⟩⟩
  · exact h.le_UB (UB_of_prunedSet hA honly ⟨cn, le_rfl, hs⟩)
  · by_contra hcon
    have : LB (prunedSet p c A) (k + 1) := by
      intro cn hs
      by_contra hlt
      exact hcon ⟨cn, by omega, hs⟩
    have := (LB_of_prunedSet hext this).le_UB h
    omega

end Sortnet
