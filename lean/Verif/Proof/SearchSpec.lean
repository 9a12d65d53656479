import Verif.Proof.SearchRank
import Verif.Proof.KnownBounds
import Verif.Props.C07
import Verif.Props.C08
import Verif.Props.C13
import Verif.Props.C21
import Mathlib.Tactic.IntervalCases

/-!
# The rules of the search, and the invariant of the state map
-/

namespace Sortnet

namespace Search

/-- Output sets the search works with: well formed, at most 11 channels. -/
def OK (A : OSet) : Prop := Chained A.s.toSet ∧ A.n ≤ 11

/-! ## Canonical forms -/

theorem canon_spec {hash : List ℕ → ℕ} {A : OSet} (h : OK A) : ∃ B, canon hash A = some B ∧ OK B ∧
    B.n = A.n ∧ (∀ k, LB B.s.toSet k ↔ LB A.s.toSet k) ∧ (∀ k, UB B.s.toSet k ↔ UB A.s.toSet k) := by
  obtain ⟨n, s⟩ := A
  obtain ⟨hc, hn⟩ := h
  obtain ⟨t, p, e, ⟨π, _, hset⟩, _, hl, hu⟩ := C17_witness hn hash s true
  refine ⟨⟨n, t⟩, ?_, ⟨?_, hn⟩, rfl, hl, hu⟩
  · unfold canon; rw [e]; rfl
  · dsimp only
    rw [hset]
    split
    · exact hc.complSet.permSet π
    · exact hc.permSet π

theorem canon_of_eq {hash : List ℕ → ℕ} {A B : OSet} (h : OK A) (e : canon hash A = some B) : OK B ∧
    B.n = A.n ∧ (∀ k, LB B.s.toSet k ↔ LB A.s.toSet k) ∧ (∀ k, UB B.s.toSet k ↔ UB A.s.toSet k) := by
  obtain ⟨B', e', h'⟩ := canon_spec (hash := hash) h
  rw [e] at e'
  cases e'
  exact h'

theorem sorted_iff {A : OSet} (h : OK A) : A.s.isSorted = true ↔ IsChain (· ≤ ·) A.s.toSet :=
  C13_is_sorted A.s h.1

theorem not_chain {A : OSet} (h : OK A) (hs : A.s.isSorted = false) : ¬ IsChain (· ≤ ·) A.s.toSet := by
  rw [← sorted_iff h, hs]; simp

/-! ## Successors -/

theorem successor_toSet {A B : OSet} {i j : Fin A.n} (hij : i ≠ j) (h : successor A i j = some B) :
    ∃ e : B.n = A.n, ∃ t : Bitmap A.n, B = ⟨A.n, t⟩ ∧ t.toSet = applyCmp (j, i) '' A.s.toSet := by
  obtain ⟨n, s⟩ := A
  unfold successor at h
  dsimp only at h i j
  split at h
  · simp only [Option.some.injEq] at h
    subst h
    exact ⟨rfl, _, rfl, applyComparator_toSet s hij⟩
  · exact absurd h (by simp)

theorem successor_ok {A B : OSet} {i j : Fin A.n} (hA : OK A) (hij : i ≠ j) (h : successor A i j = some B) :
    OK B := by
  obtain ⟨_, t, rfl, ht⟩ := successor_toSet hij h
  refine ⟨?_, hA.2⟩
  dsimp only
  rw [ht]
  exact hA.1.applyCmp _

theorem successor_ub {A B : OSet} {i j : Fin A.n} (hij : i ≠ j) (h : successor A i j = some B) {k : ℕ}
    (hk : UB B.s.toSet k) : UB A.s.toSet (k + 1) := by
  obtain ⟨_, t, rfl, ht⟩ := successor_toSet hij h
  dsimp only at hk
  rw [ht] at hk
  exact UB_successor _ hk

theorem successor_none {A : OSet} {i j : Fin A.n} (hij : i ≠ j) (h : successor A i j = none) :
    Redundant (j, i) A.s.toSet := by
  unfold successor at h
  dsimp only at h
  split at h
  · exact absurd h (by simp)
  · next hf =>
    have hf' := mt (applyComparator_flag A.s hij).2 hf
    by_contra hcon
    simp only [Redundant, not_or, not_forall, not_not] at hcon
    obtain ⟨⟨v, hv, h1, h2⟩, w, hw, h3, h4⟩ := hcon
    exact hf' ⟨⟨v, hv, h2, h1⟩, w, hw, h4, h3⟩

theorem successor_lb {A : OSet} (hA : OK A) (hs : A.s.isSorted = false) {k : ℕ}
    (h : ∀ i j : Fin A.n, j < i → ∀ B, successor A i j = some B → LB B.s.toSet k) :
    LB A.s.toSet (k + 1) := by
  refine LB_successor (not_chain hA hs) fun c hc => ?_
  have key : ∀ i j : Fin A.n, j < i → ¬ Redundant (j, i) A.s.toSet → LB (applyCmp (j, i) '' A.s.toSet) k := by
    intro i j hji hr
    cases hB : successor A i j with
    | none => exact absurd (successor_none hji.ne' hB) hr
    | some B =>
      have hl := h i j hji B hB
      obtain ⟨_, t, rfl, ht⟩ := successor_toSet hji.ne' hB
      dsimp only at hl
      rw [ht] at hl
      exact hl
  obtain ⟨a, b⟩ := c
  rcases lt_trichotomy a b with hab | hab | hab
  · exact Or.inl (key b a hab hc)
  · subst hab
    exfalso
    apply hc
    left
    rintro x _ ⟨h1, h2⟩
    dsimp only at h1 h2
    rw [h1] at h2; simp at h2
  · right
    refine key a b hab fun hr => hc ?_
    rcases hr with hr | hr
    · right; rintro x hx ⟨h1, h2⟩; exact hr x hx ⟨h2, h1⟩
    · left; rintro x hx ⟨h1, h2⟩; exact hr x hx ⟨h2, h1⟩

theorem exists_successor {A : OSet} (hA : OK A) (hs : A.s.isSorted = false) {u : ℕ} (hu : UB A.s.toSet u) :
    ∃ i j : Fin A.n, j < i ∧ ∃ B, successor A i j = some B := by
  by_contra hcon
  push Not at hcon
  have := successor_lb (k := u) hA hs fun i j hji B hB => absurd hB (hcon i j hji B)
  have := this.le_UB hu
  omega

/-! ## Pruning -/

theorem mem_extremal {A : OSet} {pol : Bool} {c : Fin A.n} :
    c ∈ extremal A pol ↔ A.s.channelIsExtremal pol c = true := by
  simp [extremal]

theorem prune_some {A : OSet} {pol : Bool} {c : Fin A.n} (hc : c ∈ extremal A pol) :
    ∃ B, prune A pol c = some B := by
  obtain ⟨n, s⟩ := A
  cases n with
  | zero => exact c.elim0
  | succ n =>
    rw [mem_extremal] at hc
    obtain ⟨t, ht⟩ := Option.isSome_iff_exists.1 (pruneExtremalChannel_isSome.2 hc)
    exact ⟨⟨n, t⟩, by unfold prune; dsimp only; rw [ht]; rfl⟩

theorem prune_ok {A B : OSet} {pol : Bool} {c : Fin A.n} (hA : OK A) (h : prune A pol c = some B) : OK B := by
  obtain ⟨n, s⟩ := A
  cases n with
  | zero => exact c.elim0
  | succ n =>
    unfold prune at h
    dsimp only at h
    rw [Option.map_eq_some_iff] at h
    obtain ⟨t, ht, rfl⟩ := h
    have hn : n + 1 ≤ 11 := hA.2
    refine ⟨?_, by dsimp only; omega⟩
    dsimp only
    rw [pruneExtremalChannel_toSet ht]
    exact hA.1.prunedSet _ _

theorem prune_single {A B : OSet} {pol : Bool} {c : Fin A.n} (hA : OK A) (hc : extremal A pol = [c])
    (h : prune A pol c = some B) :
    (∀ k, LB A.s.toSet k ↔ LB B.s.toSet k) ∧ (∀ k, UB A.s.toSet k ↔ UB B.s.toSet k) := by
  have hmem : ∀ c', A.s.channelIsExtremal pol c' = true ↔ c' = c := by
    intro c'
    rw [← mem_extremal, hc]; simp
  obtain ⟨n, s⟩ := A
  cases n with
  | zero => exact c.elim0
  | succ n =>
    unfold prune at h
    dsimp only at h
    rw [Option.map_eq_some_iff] at h
    obtain ⟨t, ht, rfl⟩ := h
    have := C21_single_extremal s hA.1 pol c hmem t ht
    exact ⟨this.1, this.2.1⟩

theorem nodup_extremal (A : OSet) (pol : Bool) : (extremal A pol).Nodup :=
  (List.nodup_finRange _).filter _

theorem length_extremal (A : OSet) (pol : Bool) : (extremal A pol).length ≤ A.n := by
  unfold extremal
  exact (List.length_filter_le _ _).trans (by simp)

/-- The Huffman rule for the program. -/
theorem huffman_lb {A : OSet} {pol : Bool} {bs : List ℕ} {v : ℕ}
    (h : List.Forall₂ (fun c b => ∃ B, prune A pol c = some B ∧ LB B.s.toSet b) (extremal A pol) bs)
    (hb : ∀ b ∈ bs, b < 256) (hv : maxPlus1Huffman bs = some v) : LB A.s.toSet v := by
  have hnd := nodup_extremal A pol
  obtain ⟨n, s⟩ := A
  generalize extremal ⟨n, s⟩ pol = cs at h hnd
  cases n with
  | zero =>
    cases h with
    | nil =>
      have h0 : maxPlus1Huffman [] = some 0 := by decide +kernel
      rw [h0] at hv
      cases hv
      exact LB_zero _
    | @cons c _ _ _ _ _ => exact c.elim0
  | succ n =>
    have hex : ∃ ts : List (Bitmap n), List.Forall₂ (fun c t => s.pruneExtremalChannel pol c = some t) cs ts ∧
        List.Forall₂ (fun (t : Bitmap n) b => LB t.toSet b) ts bs := by
      clear hb hv hnd
      induction h with
      | nil => exact ⟨[], .nil, .nil⟩
      | cons h1 _ ih =>
        obtain ⟨B, hB, hl⟩ := h1
        unfold prune at hB
        dsimp only at hB
        rw [Option.map_eq_some_iff] at hB
        obtain ⟨t, ht, rfl⟩ := hB
        obtain ⟨ts, h3, h4⟩ := ih
        exact ⟨t :: ts, .cons ht h3, .cons hl h4⟩
    obtain ⟨ts, h1, h2⟩ := hex
    exact C08_program s pol cs ts bs hnd h1 h2 hb v hv

/-- A value the Huffman rule gives for `A` and lower bounds of the sets obtained by pruning its extremal channels. -/
def HuffLB (A : OSet) (pol : Bool) (v : ℕ) : Prop :=
  ∃ bs, List.Forall₂ (fun c b => ∃ B, prune A pol c = some B ∧ LB B.s.toSet b) (extremal A pol) bs ∧
    (∀ b ∈ bs, b < 256) ∧ maxPlus1Huffman bs = some v

theorem HuffLB.le_UB {A : OSet} {pol : Bool} {v k : ℕ} (h : HuffLB A pol v) (hk : UB A.s.toSet k) : v ≤ k := by
  obtain ⟨bs, h1, h2, h3⟩ := h
  exact (huffman_lb h1 h2 h3).le_UB hk

/-- The Huffman rule is monotone. -/
theorem huffman_mono {bs cs : List ℕ} {v w : ℕ} (h : List.Forall₂ (· ≤ ·) bs cs) (hc : ∀ c ∈ cs, c < 256)
    (hv : maxPlus1Huffman bs = some v) (hw : maxPlus1Huffman cs = some w) : v ≤ w := by
  by_cases hne : cs = []
  · subst hne
    cases h
    rw [hv] at hw
    cases hw
    exact Nat.le_refl _
  · have hne' : bs ≠ [] := by
      rintro rfl
      cases h
      exact hne rfl
    have hb : ∀ b ∈ bs, b < 256 := by
      intro b hb
      clear hv hw hne hne'
      induction h with
      | nil => simp at hb
      | cons h1 _ ih =>
        rcases List.mem_cons.1 hb with rfl | hb
        · have := hc _ (List.mem_cons_self ..)
          omega
        · exact ih (fun c h => hc c (List.mem_cons_of_mem _ h)) hb
    rw [maxPlus1Huffman_spec bs hne' hb isPsumLog_clog] at hv
    rw [maxPlus1Huffman_spec cs hne hc isPsumLog_clog] at hw
    have hle : Nat.clog 2 (psum bs) ≤ Nat.clog 2 (psum cs) :=
      IsPsumLog.mono (psum_le_psum h) isPsumLog_clog isPsumLog_clog
    split_ifs at hv hw
    cases hv
    cases hw
    exact hle

/-- No overflow for at most 11 values of at most 35. -/
theorem huffman_some {bs : List ℕ} (hlen : bs.length ≤ 11) (hb : ∀ b ∈ bs, b ≤ 35) :
    ∃ v, maxPlus1Huffman bs = some v ∧ v ≤ 39 := by
  by_cases hne : bs = []
  · subst hne; exact ⟨0, by decide +kernel, by omega⟩
  · rw [maxPlus1Huffman_spec bs hne (fun b h => by have := hb b h; omega) isPsumLog_clog]
    have hle : Nat.clog 2 (psum bs) ≤ 39 := by
      rw [isPsumLog_clog (bs := bs) 39]
      have : ∀ l : List ℕ, (∀ b ∈ l, b ≤ 35) → psum l ≤ l.length * 2 ^ 35 := by
        intro l hl
        induction l with
        | nil => simp [psum]
        | cons b l ih =>
          have h1 := ih fun x hx => hl x (List.mem_cons_of_mem _ hx)
          have h2 : 2 ^ b ≤ 2 ^ 35 := Nat.pow_le_pow_right (by omega) (hl b (List.mem_cons_self ..))
          have e : psum (b :: l) = 2 ^ b + psum l := by simp [psum]
          rw [e, List.length_cons, Nat.add_mul]
          omega
      have h1 := this bs hb
      have h2 : bs.length * 2 ^ 35 ≤ 11 * 2 ^ 35 := Nat.mul_le_mul_right _ hlen
      omega
    rw [if_pos (by omega)]
    exact ⟨_, rfl, hle⟩

theorem huffman_singleton (x : ℕ) : maxPlus1Huffman [x] = some x := by
  rw [maxPlus1Huffman]
  simp [heapPop]

/-! ## Default states -/

theorem default_hi_le (A : OSet) (h : A.n ≤ 11) : (defaultState A).hi ≤ 35 := by
  unfold defaultState
  split_ifs
  · simp
  · simp
  · obtain ⟨n, s⟩ := A
    dsimp only at *
    interval_cases n <;> simp [knownBounds]

theorem UB_of_sorting {n k : ℕ} {cn : List (Fin n × Fin n)} (h : SortingNetwork n cn) (hl : cn.length ≤ k)
    (A : Set (Fin n → Bool)) : UB A k := ⟨cn, hl, h.sorts A⟩

theorem sorting2 : SortingNetwork 2 [(0, 1)] := KnownBounds.sortingNetwork_of_check (by decide +kernel)

theorem default_ub {A : OSet} (hA : OK A) : UB A.s.toSet (defaultState A).hi := by
  unfold defaultState
  split_ifs with h1 h2
  · exact UB_zero ((sorted_iff hA).1 h1)
  · obtain ⟨n, s⟩ := A
    dsimp only at *
    have hn : n = 2 := by
      by_contra hne
      apply h1
      unfold Bitmap.isSorted
      rw [if_pos (by omega)]
    subst hn
    exact UB_of_sorting sorting2 (Nat.le_refl _) _
  · obtain ⟨n, s⟩ := A
    have hn : n ≤ 11 := hA.2
    clear hA h1
    dsimp only at *
    rw [Nat.not_le] at h2
    interval_cases n
    · exact UB_of_sorting KnownBounds.sorting3 (by decide) _
    · exact UB_of_sorting KnownBounds.sorting4 (by decide) _
    · exact UB_of_sorting KnownBounds.sorting5 (by decide) _
    · exact UB_of_sorting KnownBounds.sorting6 (by decide) _
    · exact UB_of_sorting KnownBounds.sorting7 (by decide) _
    · exact UB_of_sorting KnownBounds.sorting8 (by decide) _
    · exact UB_of_sorting KnownBounds.sorting9 (by decide) _
    · exact UB_of_sorting KnownBounds.sorting10 (by decide) _
    · exact UB_of_sorting KnownBounds.sorting11 (by decide) _

theorem default_lo (A : OSet) : (defaultState A).lo ≤ 1 ∧
    (A.s.isSorted = true → (defaultState A).lo = 0) := by
  unfold defaultState
  split_ifs with h1 h2 <;> simp [h1]

/-- A set with different bounds by default is unsorted and has at least three channels. -/
theorem default_open {A : OSet} (h : (defaultState A).lo ≠ (defaultState A).hi) :
    3 ≤ A.n ∧ A.s.isSorted = false := by
  unfold defaultState at h
  split_ifs at h with h1 h2
  · simp at h
  · simp at h
  · exact ⟨by omega, by simpa using h1⟩

/-! ## Justification of lower bounds -/

/-- `b` is implied by the Huffman rule for one polarity from the lower bounds `lb`. -/
def HuffJust (hash : List ℕ → ℕ) (lb : OSet → ℕ) (A : OSet) (pol : Bool) (b : ℕ) : Prop :=
  ∃ bs, List.Forall₂ (fun c x => ∃ T C, prune A pol c = some T ∧ canon hash T = some C ∧ x ≤ lb C)
    (extremal A pol) bs ∧ (∀ x ∈ bs, x < 256) ∧ maxPlus1Huffman bs = some b

/-- `b` is implied by the successor rule from the lower bounds `lb`. -/
def SuccJust (hash : List ℕ → ℕ) (lb : OSet → ℕ) (A : OSet) (b : ℕ) : Prop :=
  A.s.isSorted = false ∧ ∀ i j : Fin A.n, j < i → ∀ T C, successor A i j = some T → canon hash T = some C →
    b ≤ lb C + 1

/-- `b` is at most 1 and only positive for unsorted sets, or implied by one of the rules. -/
def Just (hash : List ℕ → ℕ) (lb : OSet → ℕ) (A : OSet) (b : ℕ) : Prop :=
  (b ≤ 1 ∧ (A.s.isSorted = true → b = 0)) ∨ (∃ pol, HuffJust hash lb A pol b) ∨ SuccJust hash lb A b

theorem Just.mono {hash : List ℕ → ℕ} {lb lb' : OSet → ℕ} (h : ∀ B, lb B ≤ lb' B) {A : OSet} {b : ℕ}
    (hj : Just hash lb A b) : Just hash lb' A b := by
  rcases hj with hj | ⟨pol, bs, h1, h2, h3⟩ | ⟨h1, h2⟩
  · exact Or.inl hj
  · refine Or.inr (Or.inl ⟨pol, bs, h1.imp ?_, h2, h3⟩)
    rintro c x ⟨T, C, e1, e2, hx⟩
    exact ⟨T, C, e1, e2, hx.trans (h C)⟩
  · exact Or.inr (Or.inr ⟨h1, fun i j hji T C e1 e2 => (h2 i j hji T C e1 e2).trans (by have := h C; omega)⟩)

theorem Just.lb {hash : List ℕ → ℕ} {lb : OSet → ℕ} (h : ∀ B, OK B → LB B.s.toSet (lb B)) {A : OSet} {b : ℕ}
    (hA : OK A) (hj : Just hash lb A b) : LB A.s.toSet b := by
  rcases hj with ⟨h1, h2⟩ | ⟨pol, bs, h1, h2, h3⟩ | ⟨h1, h2⟩
  · cases hs : A.s.isSorted with
    | true => rw [h2 hs]; exact LB_zero _
    | false => exact (LB_one (not_chain hA hs)).le h1
  · refine huffman_lb (h1.imp ?_) h2 h3
    rintro c x ⟨T, C, e1, e2, hx⟩
    have hT := prune_ok hA e1
    obtain ⟨hC, _, hl, _⟩ := canon_of_eq hT e2
    exact ⟨T, e1, (hl x).1 ((h C hC).le hx)⟩
  · cases b with
    | zero => exact LB_zero _
    | succ b =>
      refine successor_lb hA h1 fun i j hji T hT => ?_
      have hT' := successor_ok hA hji.ne' hT
      obtain ⟨C, e, hC, _, hl, _⟩ := canon_spec (hash := hash) hT'
      exact (hl b).1 ((h C hC).le (by have := h2 i j hji T C hT e; omega))

/-! ## Invariant of the state map -/

/-- The invariant of the contents of the state map. -/
structure SInv (hash : List ℕ → ℕ) (σ : Store) : Prop where
  dom : ∀ A v, σ A = some v → OK A ∧ 3 ≤ A.n ∧ A.s.isSorted = false
  just : ∀ A, OK A → Just hash (fun B => (σ.get B).lo) A (σ.get A).lo
  lb : ∀ A, OK A → LB A.s.toSet (σ.get A).lo
  ub : ∀ A, OK A → UB A.s.toSet (σ.get A).hi
  top : ∀ A, OK A → (σ.get A).hi ≤ 35
  huff : ∀ A, OK A → (σ.get A).hhi ≤ 40 ∧ (σ.get A).hlo ≤ (σ.get A).lo
  hup : ∀ A, OK A → ∀ pol w, HuffLB A pol w → w ≤ (σ.get A).hhi

theorem default_huff (A : OSet) : (defaultState A).hhi = (defaultState A).hi ∧
    (defaultState A).hlo = (defaultState A).lo := by
  unfold defaultState
  split_ifs <;> simp

theorem SInv_empty (hash : List ℕ → ℕ) : SInv hash fun _ => none := by
  have hg : ∀ A, Store.get (fun _ => none) A = defaultState A := fun _ => rfl
  have hj : ∀ A, OK A → Just hash (fun B => (Store.get (fun _ => none) B).lo) A
      (Store.get (fun _ => none) A).lo := by
    intro A _; rw [hg]; exact Or.inl (default_lo A)
  refine ⟨by simp, hj, ?_, ?_, ?_, ?_, ?_⟩
  · intro A hA
    rw [hg]
    obtain ⟨h1, h2⟩ := default_lo A
    cases hs : A.s.isSorted with
    | true => rw [h2 hs]; exact LB_zero _
    | false => exact (LB_one (not_chain hA hs)).le h1
  · intro A hA; rw [hg]; exact default_ub hA
  · intro A hA; rw [hg]; exact default_hi_le A hA.2
  · intro A hA
    rw [hg, (default_huff A).1, (default_huff A).2]
    have := default_hi_le A hA.2
    exact ⟨by omega, Nat.le_refl _⟩
  · intro A hA pol w hw
    rw [hg, (default_huff A).1]
    exact hw.le_UB (default_ub hA)

/-- A number that decreases whenever a state is changed. -/
def State.weight (v : State) : ℕ := 100 * (v.hi - v.lo) + v.hhi + (40 - v.hlo)

/-- Bound for how often a state will be changed. -/
def State.todo (v : State) : ℕ := if v.lo = v.hi then 0 else v.weight + 1

/-- Lower bounds only grow, upper bounds only shrink, and every change is progress. -/
def Evolves (σ σ' : Store) : Prop := ∀ A, (σ.get A).lo ≤ (σ'.get A).lo ∧ (σ'.get A).hi ≤ (σ.get A).hi ∧
  (σ'.get A = σ.get A ∨ (σ'.get A).weight < (σ.get A).weight)

theorem Evolves.refl (σ : Store) : Evolves σ σ := fun _ => ⟨Nat.le_refl _, Nat.le_refl _, Or.inl rfl⟩

theorem Evolves.trans {σ σ' σ'' : Store} (h : Evolves σ σ') (h' : Evolves σ' σ'') : Evolves σ σ'' := fun A =>
  ⟨(h A).1.trans (h' A).1, (h' A).2.1.trans (h A).2.1, by
    rcases (h A).2.2 with e | e <;> rcases (h' A).2.2 with e' | e'
    · exact Or.inl (e'.trans e)
    · right; rw [e] at e'; exact e'
    · right; rw [e']; exact e
    · exact Or.inr (lt_trans e' e)⟩

theorem get_set_self (σ : Store) (A : OSet) (v : State) : (σ.set A v).get A = v := by
  simp [Store.get, Store.set]

theorem get_set_ne (σ : Store) {A B : OSet} (h : B ≠ A) (v : State) : (σ.set A v).get B = σ.get B := by
  simp [Store.get, Store.set, h]

theorem evolves_set {σ : Store} {A : OSet} {v : State} (h1 : (σ.get A).lo ≤ v.lo) (h2 : v.hi ≤ (σ.get A).hi)
    (h3 : v.weight < (σ.get A).weight) : Evolves σ (σ.set A v) := by
  intro B
  by_cases h : B = A
  · subst h; rw [get_set_self]; exact ⟨h1, h2, Or.inr h3⟩
  · rw [get_set_ne _ h]; exact ⟨Nat.le_refl _, Nat.le_refl _, Or.inl rfl⟩

theorem SInv.set {hash : List ℕ → ℕ} {σ : Store} (h : SInv hash σ) {A : OSet} {v : State} (hA : OK A)
    (hn : 3 ≤ A.n) (hs : A.s.isSorted = false) (h1 : (σ.get A).lo ≤ v.lo) (h2 : v.hi ≤ (σ.get A).hi)
    (hu : UB A.s.toSet v.hi) (hw : v.weight < (σ.get A).weight) (hh : v.hhi ≤ 40 ∧ v.hlo ≤ v.lo)
    (hj : v.lo = (σ.get A).lo ∨ Just hash (fun B => (σ.get B).lo) A v.lo)
    (hp : ∀ pol w, HuffLB A pol w → w ≤ v.hhi) : SInv hash (σ.set A v) := by
  have he := evolves_set h1 h2 hw
  have hjA : Just hash (fun B => (σ.get B).lo) A v.lo := by
    rcases hj with hj | hj
    · rw [hj]; exact h.just A hA
    · exact hj
  refine ⟨?_, ?_, ?_, ?_, ?_, ?_, ?_⟩
  · intro B w hB
    by_cases e : B = A
    · subst e; exact ⟨hA, hn, hs⟩
    · refine h.dom B w ?_
      simpa [Store.set, e] using hB
  · intro B hB
    by_cases e : B = A
    · subst e
      rw [get_set_self]
      exact hjA.mono fun C => (he C).1
    · rw [get_set_ne _ e]
      exact (h.just B hB).mono fun C => (he C).1
  · intro B hB
    by_cases e : B = A
    · subst e
      rw [get_set_self]
      exact hjA.lb (fun C hC => h.lb C hC) hA
    · rw [get_set_ne _ e]; exact h.lb B hB
  · intro B hB
    by_cases e : B = A
    · subst e
      rw [get_set_self]; exact hu
    · rw [get_set_ne _ e]; exact h.ub B hB
  · intro B hB
    exact (he B).2.1.trans (h.top B hB)
  · intro B hB
    by_cases e : B = A
    · subst e
      rw [get_set_self]; exact hh
    · rw [get_set_ne _ e]; exact h.huff B hB
  · intro B hB
    by_cases e : B = A
    · subst e
      rw [get_set_self]; exact hp
    · rw [get_set_ne _ e]; exact h.hup B hB

/-- A state with different bounds belongs to an unsorted set with at least three channels. -/
theorem SInv.open {hash : List ℕ → ℕ} {σ : Store} (h : SInv hash σ) {A : OSet}
    (hne : (σ.get A).lo ≠ (σ.get A).hi) : 3 ≤ A.n ∧ A.s.isSorted = false := by
  cases hv : σ A with
  | some v => exact (h.dom A v hv).2
  | none =>
    have : σ.get A = defaultState A := by simp [Store.get, hv]
    rw [this] at hne
    exact default_open hne

/-- `v` has been the state of `A` at some earlier time. -/
structure Known (σ : Store) (A : OSet) (v : State) : Prop where
  lo : v.lo ≤ (σ.get A).lo
  hi : (σ.get A).hi ≤ v.hi
  ub : UB A.s.toSet v.hi
  top : v.hi ≤ 35
  hhi : v.hhi ≤ 40
  later : σ.get A = v ∨ (σ.get A).weight < v.weight

theorem SInv.known {hash : List ℕ → ℕ} {σ : Store} (h : SInv hash σ) {A : OSet} (hA : OK A) :
    Known σ A (σ.get A) :=
  ⟨Nat.le_refl _, Nat.le_refl _, h.ub A hA, h.top A hA, (h.huff A hA).1, Or.inl rfl⟩

theorem Known.mono {σ σ' : Store} {A : OSet} {v : State} (h : Known σ A v) (he : Evolves σ σ') : Known σ' A v :=
  ⟨h.lo.trans (he A).1, (he A).2.1.trans h.hi, h.ub, h.top, h.hhi, by
    rcases h.later with e | e <;> rcases (he A).2.2 with e' | e'
    · exact Or.inl (e'.trans e)
    · right; rw [e] at e'; exact e'
    · right; rw [e']; exact e
    · exact Or.inr (lt_trans e' e)⟩

theorem Known.lb {hash : List ℕ → ℕ} {σ : Store} (h : SInv hash σ) {A : OSet} (hA : OK A) {v : State}
    (hk : Known σ A v) : LB A.s.toSet v.lo := (h.lb A hA).le hk.lo

theorem Known.lo_le {hash : List ℕ → ℕ} {σ : Store} (h : SInv hash σ) {A : OSet} (hA : OK A) {v : State}
    (hk : Known σ A v) : v.lo ≤ v.hi := (hk.lb h hA).le_UB hk.ub

theorem State.todo_pos {v : State} (h : v.lo ≠ v.hi) : 1 ≤ v.todo := by
  unfold State.todo; rw [if_neg h]; omega

theorem State.todo_closed {v : State} (h : v.lo = v.hi) : v.todo = 0 := by
  unfold State.todo; rw [if_pos h]

theorem State.todo_lt {v w : State} (hw : w.lo ≠ w.hi) (h : v.weight < w.weight) : v.todo < w.todo := by
  unfold State.todo; rw [if_neg hw]; split_ifs <;> omega

theorem Known.todo_max {σ : Store} {A : OSet} {v : State} (hk : Known σ A v) : v.todo ≤ 3600 := by
  have h1 := hk.top
  have h2 := hk.hhi
  unfold State.todo State.weight
  split_ifs <;> omega

theorem Known.todo_lt {σ : Store} {A : OSet} {v : State} (hk : Known σ A v) (hv : v.lo ≠ v.hi)
    (hne : σ.get A ≠ v) : (σ.get A).todo < v.todo := by
  rcases hk.later with e | e
  · exact absurd e hne
  · exact State.todo_lt hv e

theorem Known.todo_le {hash : List ℕ → ℕ} {σ : Store} (h : SInv hash σ) {A : OSet} (hA : OK A) {v : State}
    (hk : Known σ A v) : (σ.get A).todo ≤ v.todo := by
  by_cases hv : v.lo = v.hi
  · have h1 := (h.known hA).lo_le h hA
    have h2 := hk.lo
    have h3 := hk.hi
    rw [State.todo_closed (v := σ.get A) (by omega)]
    omega
  · rcases hk.later with e | e
    · rw [e]
    · exact Nat.le_of_lt (State.todo_lt hv e)

end Search

end Sortnet
