import Verif.Model.Subsume
import Verif.Proof.Bits
import Mathlib.Data.Fintype.Prod
import Mathlib.Data.Finset.Card

/-!
# `Subsume`: the matching, its undo stack and unit propagation
-/

namespace Sortnet

namespace Subsume

variable {n : ℕ}

/-! ## Masks -/

theorem mem_setBits (m : BitVec n) (i : Fin n) : i ∈ setBits m ↔ vecOf m i = true := by
  unfold setBits vecOf; simp [-BitVec.getLsbD_eq_getElem]

theorem ne_zero_iff (m : BitVec n) : m ≠ 0#n ↔ ∃ i, vecOf m i = true := by
  constructor
  · intro h
    by_contra hc
    push Not at hc
    exact h (vec_ext fun i => by rw [vecOf_zero]; simpa using hc i)
  · rintro ⟨i, hi⟩ rfl
    simp at hi

theorem trailingZeros_some {m : BitVec n} (h : ∃ i, vecOf m i = true) :
    ∃ i, trailingZeros m = some i ∧ vecOf m i = true := by
  obtain ⟨i, hi⟩ := h
  unfold trailingZeros
  cases hl : setBits m with
  | nil => have := (mem_setBits m i).2 hi; rw [hl] at this; simp at this
  | cons a l => exact ⟨a, rfl, (mem_setBits m a).1 (by rw [hl]; simp)⟩

theorem isUnique_some {m : BitVec n} (h : ∃ i, vecOf m i = true) :
    ∃ b, isUnique m = some b ∧ (b = true ↔ ∃ i, m = bit i) := by
  have h0 : m ≠ 0#n := (ne_zero_iff m).2 h
  refine ⟨m &&& (m - 1#n) == 0#n, by rw [isUnique, if_neg h0], ?_⟩
  rw [beq_iff_eq]
  have hn : m.toNat ≠ 0 := fun hz => h0 (BitVec.eq_of_toNat_eq (by simpa using hz))
  have hpos : 0 < n := by
    rcases Nat.eq_zero_or_pos n with rfl | h
    · exact absurd (Subsingleton.elim _ _) h0
    · exact h
  have hsub : (m - 1#n).toNat = m.toNat - 1 := by
    rw [BitVec.toNat_sub]
    have h1 : (1#n).toNat = 1 := by
      simp [BitVec.toNat_ofNat]; omega
    have := m.isLt
    rw [h1, show 2 ^ n - 1 + m.toNat = (m.toNat - 1) + 2 ^ n by omega, Nat.add_mod_right,
      Nat.mod_eq_of_lt (by omega)]
  have e : m &&& (m - 1#n) = 0#n ↔ m.toNat &&& (m.toNat - 1) = 0 := by
    constructor
    · intro h
      have := congrArg BitVec.toNat h
      rwa [BitVec.toNat_and, hsub, BitVec.toNat_ofNat, Nat.zero_mod] at this
    · intro h
      apply BitVec.eq_of_toNat_eq
      rw [BitVec.toNat_and, hsub, BitVec.toNat_ofNat, Nat.zero_mod, h]
  rw [e, Nat.and_sub_one_eq_zero_iff_isPowerOfTwo hn]
  constructor
  · rintro ⟨k, hk⟩
    have hkn : k < n := by
      have := m.isLt
      rw [hk] at this
      exact (Nat.pow_lt_pow_iff_right (by norm_num)).1 this
    refine ⟨⟨k, hkn⟩, BitVec.eq_of_toNat_eq ?_⟩
    rw [hk, bit, BitVec.toNat_twoPow, Nat.mod_eq_of_lt]
    exact Nat.pow_lt_pow_right (by norm_num) hkn
  · rintro ⟨i, rfl⟩
    refine ⟨i, ?_⟩
    rw [bit, BitVec.toNat_twoPow, Nat.mod_eq_of_lt]
    exact Nat.pow_lt_pow_right (by norm_num) i.isLt

theorem eq_bit_iff {m : BitVec n} (h : ∃ i, vecOf m i = true) (c : Fin n) :
    m = bit c ↔ ∀ i, vecOf m i = true → i = c := by
  constructor
  · rintro rfl i hi; simpa using hi
  · intro hc
    obtain ⟨j, hj⟩ := h
    have := hc j hj
    subst this
    apply vec_ext
    intro i
    rw [vecOf_bit]
    by_cases hi : i = j
    · subst hi; simp [hj]
    · simp only [hi, decide_false]
      by_contra hne
      exact hi (hc i (by simpa using hne))

/-! ## Invariants of the matching -/

abbrev Matching (n : ℕ) := Bool → Fin n → BitVec n

/-- Both sides store the same edges and no mask is empty. -/
structure MInv (m : Matching n) : Prop where
  cons : ∀ side a b, vecOf (m side a) b = vecOf (m (!side) b) a
  nonempty : ∀ side a, ∃ b, vecOf (m side a) b = true

/-- Unit propagation is complete, except possibly for the channels in `X`. -/
def Closed (m : Matching n) (X : Set (Bool × Fin n)) : Prop :=
  ∀ side v, (side, v) ∉ X → ∀ w, m side v = bit w → m (!side) w = bit v

/-- Number of edges. -/
def edges (m : Matching n) : ℕ :=
  (Finset.univ.filter fun p : Fin n × Fin n => vecOf (m false p.1) p.2 = true).card

/-- `m'` has no edge that `m` does not have. -/
def Sub (m' m : Matching n) : Prop := ∀ side a b, vecOf (m' side a) b = true → vecOf (m side a) b = true

theorem Sub.refl (m : Matching n) : Sub m m := fun _ _ _ h => h

theorem Sub.trans {a b c : Matching n} (h : Sub a b) (h' : Sub b c) : Sub a c :=
  fun _ _ _ hh => h' _ _ _ (h _ _ _ hh)

theorem Sub.edges_le {m' m : Matching n} (h : Sub m' m) : edges m' ≤ edges m := by
  apply Finset.card_le_card
  intro p
  simp only [Finset.mem_filter, Finset.mem_univ, true_and]
  exact h _ _ _

theorem Sub.edges_lt {m' m : Matching n} (h : Sub m' m) {a b : Fin n} (h1 : vecOf (m false a) b = true)
    (h2 : vecOf (m' false a) b = false) : edges m' < edges m := by
  apply Finset.card_lt_card
  refine ⟨?_, ?_⟩
  · intro p
    simp only [Finset.mem_filter, Finset.mem_univ, true_and]
    exact h _ _ _
  · intro hc
    have : (a, b) ∈ Finset.univ.filter fun p : Fin n × Fin n => vecOf (m false p.1) p.2 = true := by
      simp [h1]
    have := hc this
    simp [h2] at this

/-- The edge `v` (on side `side`) -- `w` belongs to the permutation `π` (which maps channels of side `1`
to channels of side `0`). -/
def Matched (π : Equiv.Perm (Fin n)) : Bool → Fin n → Fin n → Prop
  | true, v, w => π v = w
  | false, v, w => π w = v

/-- All edges of `π` are present. -/
def Compat (π : Equiv.Perm (Fin n)) (m : Matching n) : Prop :=
  ∀ side v w, Matched π side v w → vecOf (m side v) w = true

theorem Matched.exists (π : Equiv.Perm (Fin n)) (side : Bool) (v : Fin n) : ∃ w, Matched π side v w := by
  cases side
  · exact ⟨π.symm v, by simp [Matched]⟩
  · exact ⟨π v, rfl⟩

theorem Matched.flip {π : Equiv.Perm (Fin n)} {side : Bool} {v w : Fin n} :
    Matched π (!side) w v ↔ Matched π side v w := by
  cases side <;> rfl

theorem Matched.unique {π : Equiv.Perm (Fin n)} {side : Bool} {v w w' : Fin n}
    (h : Matched π side v w) (h' : Matched π side v w') : w = w' := by
  cases side
  · simp only [Matched] at h h'; exact π.injective (h.trans h'.symm)
  · simp only [Matched] at h h'; exact h.symm.trans h'

theorem Matched.unique' {π : Equiv.Perm (Fin n)} {side : Bool} {v v' w : Fin n}
    (h : Matched π side v w) (h' : Matched π side v' w) : v = v' :=
  Matched.unique (Matched.flip.2 h) (Matched.flip.2 h')

/-! ## The undo stack -/

theorem foldl_undo_with (l : List (Undo n)) (st : St n) (u : List (Undo n)) (f : ℕ) :
    l.foldl undoAction { st with undo := u, fixed := f } =
      { l.foldl undoAction st with undo := u, fixed := f } := by
  induction l generalizing st with
  | nil => rfl
  | cons a l ih =>
    rw [List.foldl_cons, List.foldl_cons, ← ih]
    congr 1
    cases a <;> rfl

/-- The undo stack of `st'` leads back to `st`. -/
def Ext (st st' : St n) : Prop :=
  ∃ l, st'.undo = l ++ st.undo ∧
    { l.foldl undoAction st' with undo := st.undo, fixed := st.fixed } = st

theorem Ext.refl (st : St n) : Ext st st := ⟨[], rfl, rfl⟩

theorem Ext.trans {a b c : St n} (h : Ext a b) (h' : Ext b c) : Ext a c := by
  obtain ⟨l, hl, e⟩ := h
  obtain ⟨l', hl', e'⟩ := h'
  refine ⟨l' ++ l, by rw [hl', hl, List.append_assoc], ?_⟩
  rw [List.foldl_append]
  have : l.foldl undoAction b = { l.foldl undoAction (l'.foldl undoAction c) with
      undo := b.undo, fixed := b.fixed } := by
    rw [← foldl_undo_with, e']
  rw [this] at e
  exact e

theorem Ext.rollback {st st' : St n} (h : Ext st st') :
    rollback st' st.undo.length st.fixed = st := by
  obtain ⟨l, hl, e⟩ := h
  unfold Subsume.rollback
  have hk : st'.undo.length - st.undo.length = l.length := by rw [hl, List.length_append]; omega
  have := foldl_undo_with l st' st'.undo st.fixed
  dsimp only
  rw [hk, hl, List.take_left, List.drop_left]
  rw [hl] at this
  rw [this]
  exact e

/-! ## Removing an edge -/

theorem setMask_apply (m : Matching n) (side : Bool) (c : Fin n) (v : BitVec n) (side' : Bool) (c' : Fin n) :
    setMask m side c v side' c' = if side' = side ∧ c' = c then v else m side' c' := by
  unfold setMask
  by_cases h : side' = side
  · subst h
    rw [Function.update_self]
    by_cases hc : c' = c
    · subst hc; simp
    · simp [hc]
  · simp [h]

/-- The edge `(ch 0, ch 1)` seen from either side. -/
def IsEdge (ch : Bool → Fin n) (side : Bool) (a b : Fin n) : Prop := a = ch side ∧ b = ch (!side)

theorem dropEdge_matching (st : St n) (ch : Bool → Fin n) (side : Bool) (a b : Fin n) :
    vecOf ((dropEdge st ch).matching side a) b = true ↔
      vecOf (st.matching side a) b = true ∧ ¬ IsEdge ch side a b := by
  unfold dropEdge IsEdge
  dsimp only
  rw [setMask_apply]
  cases side
  · rw [if_neg (by simp), setMask_apply]
    by_cases ha : a = ch false
    · subst ha; simp
    · simp [ha]
  · by_cases ha : a = ch true
    · subst ha; simp [setMask_apply]
    · simp [ha, setMask_apply]

theorem addEdge_matching (m : Matching n) (ch : Bool → Fin n) (s side : Bool) (a b : Fin n) :
    vecOf (addEdge m ch s side a) b = true ↔ vecOf (m side a) b = true ∨ IsEdge ch side a b := by
  unfold addEdge IsEdge
  cases s <;> cases side <;> simp only [setMask_apply] <;>
    by_cases ha : a = ch false <;> by_cases ha' : a = ch true <;> simp_all

theorem matching_ext {m m' : Matching n} (h : ∀ side a b, vecOf (m side a) b = true ↔ vecOf (m' side a) b = true) :
    m = m' := by
  funext side a
  apply vec_ext
  intro b
  exact Bool.eq_iff_iff.2 (h side a b)

theorem Ext.dropEdge {st : St n} {ch : Bool → Fin n} (hm : MInv st.matching)
    (he : vecOf (st.matching false (ch false)) (ch true) = true) : Ext st (dropEdge st ch) := by
  refine ⟨[.matching ch], rfl, ?_⟩
  have : addEdge (addEdge (Subsume.dropEdge st ch).matching ch false) ch true = st.matching := by
    apply matching_ext
    intro side a b
    rw [addEdge_matching, addEdge_matching, dropEdge_matching]
    constructor
    · rintro ((h | h) | h)
      · exact h.1
      all_goals
        obtain ⟨rfl, rfl⟩ := h
        cases side
        · exact he
        · rw [hm.cons]; exact he
    · intro h
      by_cases hi : IsEdge ch side a b
      · exact Or.inr hi
      · exact Or.inl (Or.inl ⟨h, hi⟩)
  rw [List.foldl_cons, List.foldl_nil, undoAction, this]
  rfl

theorem getMatching_iff (st : St n) (ch : Bool → Fin n) :
    getMatching st ch = true ↔ vecOf (st.matching false (ch false)) (ch true) = true := by
  unfold getMatching
  rw [bne_iff_ne, ne_zero_iff]
  simp

/-- What every operation on the matching guarantees, successful or not. -/
structure Step (st st' : St n) : Prop where
  sets : st'.sets = st.sets
  perms : st'.perms = st.perms
  fixed : st'.fixed = st.fixed
  minv : MInv st'.matching
  sub : Sub st'.matching st.matching
  ext : Ext st st'

theorem Step.refl {st : St n} (h : MInv st.matching) : Step st st :=
  ⟨rfl, rfl, rfl, h, Sub.refl _, Ext.refl _⟩

theorem Step.trans {a b c : St n} (h : Step a b) (h' : Step b c) : Step a c :=
  ⟨h'.sets.trans h.sets, h'.perms.trans h.perms, h'.fixed.trans h.fixed, h'.minv, h'.sub.trans h.sub,
    h.ext.trans h'.ext⟩

/-- The specification of `removeMatching`. -/
def RemoveSpec (st : St n) (ch : Bool → Fin n) (X : Set (Bool × Fin n)) : Prop :=
  MInv st.matching → Closed st.matching X → vecOf (st.matching false (ch false)) (ch true) = true →
  ∃ r st', removeMatching st ch = some (r, st') ∧ Step st st' ∧
    (r = true → Closed st'.matching X ∧ vecOf (st'.matching false (ch false)) (ch true) = false) ∧
    (∀ π, Compat π st.matching → ¬ Matched π false (ch false) (ch true) →
      r = true ∧ Compat π st'.matching)

theorem pair_self (side : Bool) (a b : Fin n) : pair side a b side = a := by simp [pair]
theorem pair_not (side : Bool) (a b : Fin n) : pair side a b (!side) = b := by simp [pair]

theorem removeOthers_spec (k : ℕ)
    (hP : ∀ (st : St n) ch X, edges st.matching ≤ k → RemoveSpec st ch X) :
    ∀ (st : St n) (side : Bool) (keep other : Fin n) (X : Set (Bool × Fin n)), edges st.matching ≤ k →
      MInv st.matching → Closed st.matching (insert (side, keep) X) → st.matching side keep = bit other →
      ∃ r st', removeOthers st side keep other = some (r, st') ∧ Step st st' ∧
        (r = true → Closed st'.matching X ∧ st'.matching (!side) other = bit keep) ∧
        (∀ π, Compat π st.matching → r = true ∧ Compat π st'.matching) := by
  intro st
  induction hm : edges st.matching using Nat.strongRecOn generalizing st with
  | _ e ih =>
  intro side keep other X hk hinv hcl hkeep
  subst hm
  rw [removeOthers]
  have hother : vecOf (st.matching (!side) other) keep = true := by
    rw [← hinv.cons, hkeep]; simp
  split_ifs with h0
  · have hb : st.matching (!side) other = bit keep := by
      rw [eq_bit_iff ⟨_, hother⟩]
      intro i hi
      by_contra hne
      have := congrArg (vecOf · i) h0
      simp [hi, hne] at this
    refine ⟨true, st, rfl, Step.refl hinv, fun _ => ⟨?_, hb⟩, fun π hπ => ⟨rfl, hπ⟩⟩
    intro s v hX w hw
    by_cases hv : (s, v) = (side, keep)
    · obtain ⟨rfl, rfl⟩ := Prod.mk.inj hv
      have : vecOf (bit other) w = true := by rw [← hkeep, hw]; simp
      simp only [vecOf_bit, decide_eq_true_eq] at this
      subst this
      exact hb
    · exact hcl s v (by simp only [Set.mem_insert_iff, not_or]; exact ⟨hv, hX⟩) w hw
  · obtain ⟨target, ht, htm⟩ := trailingZeros_some ((ne_zero_iff _).1 h0)
    simp only [vecOf_and, vecOf_not, vecOf_bit, Bool.and_eq_true, Bool.not_eq_true',
      decide_eq_false_iff_not] at htm
    have hedge : vecOf (st.matching false (pair side target other false)) (pair side target other true) = true := by
      cases side
      · simp only [pair]; simp; rw [hinv.cons]; exact htm.1
      · simp only [pair]; simp; exact htm.1
    obtain ⟨r, st', hr, hstep, hcl', hπ'⟩ := hP st (pair side target other) _ hk hinv hcl hedge
    rw [ht]
    simp only [Option.bind_eq_bind, Option.bind_some, hr]
    cases r
    · refine ⟨false, st', rfl, hstep, by simp, ?_⟩
      intro π hπ
      have hmk : Matched π side keep other := by
        obtain ⟨w, hw⟩ := Matched.exists π side keep
        have := hπ _ _ _ hw
        rw [hkeep] at this
        simp only [vecOf_bit, decide_eq_true_eq] at this
        subst this; exact hw
      have hnm : ¬ Matched π side target other := fun h => htm.2 (h.unique' hmk)
      have := hπ' π hπ (by cases side <;> simpa [pair, Matched] using hnm)
      exact absurd this.1 (by simp)
    · obtain ⟨hclX, hedge'⟩ := hcl' rfl
      have hkeep' : st'.matching side keep = bit other := by
        rw [eq_bit_iff (hstep.minv.nonempty _ _)]
        intro i hi
        have := hstep.sub _ _ _ hi
        rw [hkeep] at this
        simpa using this
      have hlt : edges st'.matching < edges st.matching := hstep.sub.edges_lt hedge hedge'
      obtain ⟨r2, st2, hr2, hstep2, h2, h3⟩ :=
        ih _ hlt st' rfl side keep other X (by omega) hstep.minv hclX hkeep'
      refine ⟨r2, st2, by simpa using hr2, hstep.trans hstep2, h2, ?_⟩
      intro π hπ
      have hmk : Matched π side keep other := by
        obtain ⟨w, hw⟩ := Matched.exists π side keep
        have := hπ _ _ _ hw
        rw [hkeep] at this
        simp only [vecOf_bit, decide_eq_true_eq] at this
        subst this; exact hw
      have hnm : ¬ Matched π side target other := fun h => htm.2 (h.unique' hmk)
      exact h3 π (hπ' π hπ (by cases side <;> simpa [pair, Matched] using hnm)).2

theorem propagate_spec (k : ℕ)
    (hP : ∀ (st : St n) ch X, edges st.matching ≤ k → RemoveSpec st ch X)
    (st : St n) (ch : Bool → Fin n) (side : Bool) (X : Set (Bool × Fin n)) (hk : edges st.matching ≤ k)
    (hinv : MInv st.matching) (hcl : Closed st.matching (insert (side, ch side) X)) :
    ∃ r st', propagate st ch side = some (r, st') ∧ Step st st' ∧
      (r = true → Closed st'.matching X) ∧
      (∀ π, Compat π st.matching → r = true ∧ Compat π st'.matching) := by
  rw [propagate]
  obtain ⟨b, hb, hb'⟩ := isUnique_some (hinv.nonempty side (ch side))
  simp only [hb, Option.bind_eq_bind, Option.bind_some]
  cases b
  · refine ⟨true, st, rfl, Step.refl hinv, fun _ => ?_, fun π hπ => ⟨rfl, hπ⟩⟩
    intro s v hX w hw
    by_cases hv : (s, v) = (side, ch side)
    · obtain ⟨rfl, rfl⟩ := Prod.mk.inj hv
      exact absurd (hb'.2 ⟨w, hw⟩) (by simp)
    · exact hcl s v (by simp only [Set.mem_insert_iff, not_or]; exact ⟨hv, hX⟩) w hw
  · obtain ⟨o, ho⟩ := hb'.1 rfl
    obtain ⟨o', ho', hoo⟩ := trailingZeros_some (hinv.nonempty side (ch side))
    have : o' = o := by rw [ho] at hoo; simpa using hoo
    subst this
    rw [ho']
    obtain ⟨r, st', h1, h2, h3, h4⟩ := removeOthers_spec k hP st side (ch side) o' X hk hinv hcl ho
    exact ⟨r, st', by simpa using h1, h2, fun h => (h3 h).1, h4⟩

theorem removeMatching_spec_aux (k : ℕ) :
    ∀ (st : St n) ch X, edges st.matching ≤ k → RemoveSpec st ch X := by
  induction k with
  | zero =>
    intro st ch X hk hinv hcl he
    have : (ch false, ch true) ∈ Finset.univ.filter fun p : Fin n × Fin n => vecOf (st.matching false p.1) p.2 = true := by
      simp [he]
    have h0 : 0 < edges st.matching := Finset.card_pos.2 ⟨_, this⟩
    omega
  | succ k ih =>
    intro st ch X hk hinv hcl he
    rw [removeMatching, if_neg (by rw [(getMatching_iff st ch).2 he]; simp)]
    have he' : vecOf (st.matching true (ch true)) (ch false) = true := by rw [hinv.cons]; exact he
    obtain ⟨u0, hu0, hu0'⟩ := isUnique_some (hinv.nonempty false (ch false))
    obtain ⟨u1, hu1, hu1'⟩ := isUnique_some (hinv.nonempty true (ch true))
    simp only [hu0, hu1, Option.bind_eq_bind, Option.bind_some]
    cases u0 with
    | true =>
      refine ⟨false, st, by simp, Step.refl hinv, by simp, ?_⟩
      intro π hπ hnm
      exfalso
      obtain ⟨w, hw⟩ := hu0'.1 rfl
      obtain ⟨w', hw'⟩ := Matched.exists π false (ch false)
      have h1 := hπ _ _ _ hw'
      rw [hw] at h1 he
      simp only [vecOf_bit, decide_eq_true_eq] at h1 he
      rw [h1, ← he] at hw'
      exact hnm hw'
    | false =>
    cases u1 with
    | true =>
      refine ⟨false, st, by simp, Step.refl hinv, by simp, ?_⟩
      intro π hπ hnm
      exfalso
      obtain ⟨w, hw⟩ := hu1'.1 rfl
      obtain ⟨w', hw'⟩ := Matched.exists π true (ch true)
      have h1 := hπ _ _ _ hw'
      rw [hw] at h1 he'
      simp only [vecOf_bit, decide_eq_true_eq] at h1 he'
      rw [h1, ← he'] at hw'
      exact hnm (Matched.flip.1 hw')
    | false =>
    have hnu : ∀ side w, st.matching side (ch side) ≠ bit w := by
      intro side w hw
      cases side
      · exact absurd (hu0'.2 ⟨w, hw⟩) (by simp)
      · exact absurd (hu1'.2 ⟨w, hw⟩) (by simp)
    have hedge : ∀ side, vecOf (st.matching side (ch side)) (ch (!side)) = true := by
      intro side; cases side
      · exact he
      · exact he'
    have hd := dropEdge_matching st ch
    have hsub : Sub (dropEdge st ch).matching st.matching := fun s a b h => ((hd s a b).1 h).1
    have hinv1 : MInv (dropEdge st ch).matching := by
      refine ⟨?_, ?_⟩
      · intro side a b
        rw [Bool.eq_iff_iff, hd, hd, hinv.cons]
        unfold IsEdge
        rw [Bool.not_not, and_comm (a := a = _)]
      · intro side a
        by_cases ha : a = ch side
        · subst ha
          by_contra hc
          push Not at hc
          apply hnu side (ch (!side))
          rw [eq_bit_iff (hinv.nonempty _ _)]
          intro i hi
          by_contra hne
          exact hc i ((hd _ _ _).2 ⟨hi, fun h => hne h.2⟩)
        · obtain ⟨b, hb⟩ := hinv.nonempty side a
          exact ⟨b, (hd _ _ _).2 ⟨hb, fun h => ha h.1⟩⟩
    have hstep1 : Step st (dropEdge st ch) := ⟨rfl, rfl, rfl, hinv1, hsub, Ext.dropEdge hinv he⟩
    have hgone : vecOf ((dropEdge st ch).matching false (ch false)) (ch true) = false := by
      rw [← Bool.not_eq_true, hd]
      rintro ⟨_, h⟩
      exact h ⟨rfl, rfl⟩
    have hlt : edges (dropEdge st ch).matching < edges st.matching := hsub.edges_lt he hgone
    have hsame : ∀ side a, a ≠ ch side → (dropEdge st ch).matching side a = st.matching side a := by
      intro side a ha
      apply vec_ext
      intro b
      rw [Bool.eq_iff_iff, hd]
      exact ⟨fun h => h.1, fun h => ⟨h, fun hh => ha hh.1⟩⟩
    have hcl1 : Closed (dropEdge st ch).matching (insert (false, ch false) (insert (true, ch true) X)) := by
      intro side v hX w hw
      simp only [Set.mem_insert_iff, not_or] at hX
      obtain ⟨hf, ht, hX⟩ := hX
      have hv : v ≠ ch side := by
        rintro rfl
        cases side
        · exact hf rfl
        · exact ht rfl
      rw [hsame _ _ hv] at hw
      have hcw := hcl side v hX w hw
      have hwne : w ≠ ch (!side) := by
        rintro rfl
        have := hedge (!side)
        rw [hcw] at this
        simp only [vecOf_bit, decide_eq_true_eq, Bool.not_not] at this
        exact hv this.symm
      rw [hsame _ _ hwne]
      exact hcw
    obtain ⟨r1, st1, hr1, hs1, hc1, hp1⟩ :=
      propagate_spec k ih (dropEdge st ch) ch false _ (by omega) hinv1 hcl1
    have hπ1 : ∀ π, Compat π st.matching → ¬ Matched π false (ch false) (ch true) →
        Compat π (dropEdge st ch).matching := by
      intro π hπ hnm s v w hvw
      rw [hd]
      refine ⟨hπ s v w hvw, ?_⟩
      rintro ⟨rfl, rfl⟩
      cases s
      · exact hnm hvw
      · exact hnm (Matched.flip.1 hvw)
    simp only [hr1, Option.bind_some]
    cases r1 with
    | false =>
      refine ⟨false, st1, by simp, hstep1.trans hs1, by simp, ?_⟩
      intro π hπ hnm
      exact absurd (hp1 π (hπ1 π hπ hnm)).1 (by simp)
    | true =>
      have hle1 := hs1.sub.edges_le
      obtain ⟨r2, st2, hr2, hs2, hc2, hp2⟩ :=
        propagate_spec k ih st1 ch true X (by omega) hs1.minv (hc1 rfl)
      refine ⟨r2, st2, by simpa using hr2, hstep1.trans (hs1.trans hs2), ?_, ?_⟩
      · intro h
        refine ⟨hc2 h, ?_⟩
        by_contra hne
        have := (hs1.trans hs2).sub _ _ _ (by simpa using hne : vecOf (st2.matching false (ch false)) (ch true) = true)
        rw [hgone] at this
        simp at this
      · intro π hπ hnm
        exact hp2 π (hp1 π (hπ1 π hπ hnm)).2

theorem removeMatching_spec (st : St n) (ch : Bool → Fin n) (X : Set (Bool × Fin n)) : RemoveSpec st ch X :=
  removeMatching_spec_aux _ st ch X le_rfl

theorem isolateMatching_spec (st : St n) (ch : Bool → Fin n) (hinv : MInv st.matching)
    (hcl : Closed st.matching ∅) :
    ∃ r st', isolateMatching st ch = some (r, st') ∧ Step st st' ∧
      (r = true → Closed st'.matching ∅ ∧ st'.matching true (ch true) = bit (ch false)) ∧
      (∀ π, Compat π st.matching → Matched π false (ch false) (ch true) →
        r = true ∧ Compat π st'.matching) := by
  induction hm : edges st.matching using Nat.strongRecOn generalizing st with
  | _ e ih =>
  subst hm
  rw [isolateMatching]
  split_ifs with h0
  · refine ⟨true, st, rfl, Step.refl hinv, fun _ => ⟨hcl, ?_⟩, fun π hπ _ => ⟨rfl, hπ⟩⟩
    rw [eq_bit_iff (hinv.nonempty _ _)]
    intro i hi
    by_contra hne
    have := congrArg (vecOf · i) h0
    simp [hi, hne] at this
  · obtain ⟨target, ht, htm⟩ := trailingZeros_some ((ne_zero_iff _).1 h0)
    simp only [vecOf_and, vecOf_not, vecOf_bit, Bool.and_eq_true, Bool.not_eq_true',
      decide_eq_false_iff_not] at htm
    have hedge : vecOf (st.matching false (pair false target (ch true) false))
        (pair false target (ch true) true) = true := by
      simp only [pair]; simp; rw [hinv.cons]; exact htm.1
    obtain ⟨r, st', hr, hstep, hcl', hπ'⟩ := removeMatching_spec st _ ∅ hinv hcl hedge
    rw [ht]
    simp only [Option.bind_eq_bind, Option.bind_some, hr]
    have hnm : ∀ π, Matched π false (ch false) (ch true) →
        ¬ Matched π false (pair false target (ch true) false) (pair false target (ch true) true) := by
      intro π h h'
      simp only [pair] at h'
      simp at h'
      exact htm.2 (h'.unique' h)
    cases r with
    | false =>
      refine ⟨false, st', rfl, hstep, by simp, ?_⟩
      intro π hπ hmt
      exact absurd (hπ' π hπ (hnm π hmt)).1 (by simp)
    | true =>
      obtain ⟨hclX, hedge'⟩ := hcl' rfl
      have hlt : edges st'.matching < edges st.matching := hstep.sub.edges_lt hedge hedge'
      obtain ⟨r2, st2, hr2, hstep2, h2, h3⟩ := ih _ hlt st' hstep.minv hclX rfl
      refine ⟨r2, st2, by simpa using hr2, hstep.trans hstep2, h2, ?_⟩
      intro π hπ hmt
      exact h3 π (hπ' π hπ (hnm π hmt)).2 hmt

end Subsume

end Sortnet
