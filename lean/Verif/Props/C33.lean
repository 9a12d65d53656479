import Verif.Props.C28
import Verif.Theory.Log

/-!
# C33: the log of the search justifies itself

The rules are in Spec/Log.lean.
-/

namespace Sortnet

open Search

/-- What `dump_states` writes: the sets in the state map with their lower bounds. -/
def Search.logOf (σ : Store) : Log := fun n X b => ∃ (s : Bitmap n) (v : State), σ ⟨n, s⟩ = some v ∧ s.toSet = X ∧ v.lo = b

namespace Search

theorem canon_equiv {hash : List ℕ → ℕ} {n : ℕ} {s t : Bitmap n} (hn : n ≤ 11) (h : canon hash ⟨n, s⟩ = some ⟨n, t⟩) :
    PermInvEquiv t.toSet s.toSet := by
  obtain ⟨t', p, e, ⟨π, _, hset⟩, _⟩ := C17_witness hn hash s true
  unfold canon at h
  dsimp only at h
  rw [e] at h
  simp only [Option.map_some, Option.some.injEq, OSet.mk.injEq, heq_eq_eq, true_and] at h
  subst h
  have key : ∀ X : Set (Fin n → Bool), permSet π.symm (permSet π X) = X := by
    intro X
    ext x
    simp only [mem_permSet]
    constructor
    · intro h; convert h using 1; funext i; simp
    · intro h; convert h using 1; funext i; simp
  rw [hset]
  split
  · right
    refine ⟨π.symm, ?_⟩
    have : complSet (permSet π (complSet s.toSet)) = permSet π s.toSet := by
      ext x
      simp only [mem_complSet, mem_permSet]
      constructor
      · intro h; convert h using 1; funext i; simp [vnot]
      · intro h; convert h using 1; funext i; simp [vnot]
    rw [this, key]
  · exact Or.inl ⟨π.symm, key _⟩

/-- Bounds of canonical forms that are stored or default are known. -/
theorem known_canon {hash : List ℕ → ℕ} {σ : Store} (hi : SInv hash σ) {n : ℕ} {s : Bitmap n} (hs : OK ⟨n, s⟩)
    {C : OSet} (hC : canon hash ⟨n, s⟩ = some C) {b : ℕ} (hb : b ≤ (σ.get C).lo) :
    (logOf σ).Known s.toSet b := by
  obtain ⟨hCok, hCn, hl, hu⟩ := canon_of_eq hs hC
  obtain ⟨m, t⟩ := C
  obtain rfl : m = n := hCn
  cases hv : σ ⟨m, t⟩ with
  | some v =>
    have e : σ.get ⟨m, t⟩ = v := by simp [Store.get, hv]
    rw [e] at hb
    exact Or.inr (Or.inr ⟨t.toSet, v.lo, ⟨t, v, hv, rfl, rfl⟩, hb, canon_equiv hs.2 hC⟩)
  | none =>
    have e : σ.get ⟨m, t⟩ = defaultState ⟨m, t⟩ := by simp [Store.get, hv]
    rw [e] at hb
    obtain ⟨h1, h2⟩ := default_lo ⟨m, t⟩
    by_cases h0 : b = 0
    · exact Or.inl h0
    · right; left
      refine ⟨by omega, ?_⟩
      intro hch
      have h3 : UB t.toSet 0 := (hu 0).2 (UB_zero hch)
      have h4 := (sorted_iff hCok).2 (UB_zero_iff.1 h3)
      rw [h2 h4] at hb
      omega

/-- The justification of the invariant in terms of the rules. -/
theorem Just.justified {hash : List ℕ → ℕ} {σ : Store} (hi : SInv hash σ) {A : OSet} (hA : OK A) {b : ℕ}
    (h : Just hash (fun B => (σ.get B).lo) A b) : (logOf σ).Justified A.s.toSet b := by
  rcases h with ⟨h1, h2⟩ | ⟨pol, bs, hf, hb, hv⟩ | ⟨hs, hsucc⟩
  · by_cases h0 : b = 0
    · exact Or.inl h0
    · refine Or.inr (Or.inl ⟨by omega, not_chain hA ?_⟩)
      cases hs : A.s.isSorted with
      | true => exact absurd (h2 hs) h0
      | false => rfl
  · by_cases hne : bs = []
    · subst hne
      have h0 : maxPlus1Huffman [] = some 0 := by decide +kernel
      rw [h0] at hv
      cases hv
      exact Or.inl rfl
    · refine Or.inr (Or.inr (Or.inl ?_))
      have hnd := nodup_extremal A pol
      have hmem := fun c => mem_extremal (A := A) (pol := pol) (c := c)
      obtain ⟨n, s⟩ := A
      generalize hcs : extremal ⟨n, s⟩ pol = cs at hf hnd hmem
      cases n with
      | zero =>
        cases hf with
        | nil => exact absurd rfl hne
        | @cons c _ _ _ _ _ => exact c.elim0
      | succ n =>
        have hvb : b < 256 := by
          rw [maxPlus1Huffman_spec bs hne hb isPsumLog_clog] at hv
          split_ifs at hv with h1
          cases hv
          exact h1
        refine ⟨pol, cs, bs, b, hnd, ?_, ?_, (C07_optimal bs hne hb b hvb).1 hv, Nat.le_refl _⟩
        · intro c
          rw [hmem c]
          exact channelIsExtremal_iff s pol c
        · refine hf.imp fun c x => ?_
          rintro ⟨P, C, e1, e2, hx⟩
          have hP := prune_ok hA e1
          unfold prune at e1
          dsimp only at e1
          rw [Option.map_eq_some_iff] at e1
          obtain ⟨t, ht, rfl⟩ := e1
          have := known_canon hi hP e2 hx
          rw [pruneExtremalChannel_toSet ht] at this
          exact this
  · refine Or.inr (Or.inr (Or.inr ⟨not_chain hA hs, ?_⟩))
    intro i j hij ⟨x, hx, h1, h2⟩ ⟨y, hy, h3, h4⟩
    cases hB : successor A j i with
    | none =>
      exfalso
      rcases successor_none hij.ne' hB with hr | hr
      · exact hr x hx ⟨h1, h2⟩
      · exact hr y hy ⟨h3, h4⟩
    | some B =>
      have hBok := successor_ok hA hij.ne' hB
      obtain ⟨C, hC, _⟩ := canon_spec (hash := hash) hBok
      have hle := hsucc j i hij B C hB hC
      obtain ⟨_, t, rfl, ht⟩ := successor_toSet hij.ne' hB
      have hle' : b ≤ (σ.get C).lo + 1 := hle
      have := known_canon hi hBok hC (b := b - 1) (by omega)
      rw [ht] at this
      exact this

end Search

/-- C33.  In every reachable state, in particular at the end of the search, the log of the contents of the
state map justifies itself: every lower bound is at most 1 (and the set not sorted) or is implied by the
Huffman rule or the successor rule from the bounds in the same log. -/
theorem C33_self_justified (hash : List ℕ → ℕ) (limit : Option ℕ) (initial : OSet)
    (h0 : Chained initial.s.toSet) (hn : initial.n ≤ 11) (G : Global) (h : Run hash limit initial G) :
    (logOf G.store).SelfJustified := by
  obtain ⟨_, _, _, β, hG, _⟩ := h.inv h0 hn
  rintro n X b ⟨s, v, hv, rfl, rfl⟩
  have hA := (hG.sinv.dom _ v hv).1
  have hj := hG.sinv.just _ hA
  have e : G.store.get ⟨n, s⟩ = v := by simp [Store.get, hv]
  rw [e] at hj
  exact hj.justified hG.sinv hA

/-- The rules are sound: all bounds of any log that justifies itself are correct. -/
theorem C33_sound (L : Log) (h : L.SelfJustified) (n : ℕ) (X : Set (Fin n → Bool)) (b : ℕ) (hX : L n X b) :
    LB X b := h.lb hX

/-- When the search returns `r`, the initial set is known from the log with bound `r`. -/
theorem C33_root (hash : List ℕ → ℕ) (limit : Option ℕ) (initial : OSet)
    (h0 : Chained initial.s.toSet) (hn : initial.n ≤ 11) (G : Global) (h : Run hash limit initial G) (r : ℕ)
    (hr : Returned G r) : (logOf G.store).Known initial.s.toSet r := by
  obtain ⟨A, hA, hok, β, hG, _⟩ := h.inv h0 hn
  obtain ⟨t, v, ht, hs, rfl⟩ := hr
  obtain ⟨t', ht', hroot, _⟩ := hG.main
  rw [ht] at ht'
  cases ht'
  have hd := hG.task 0 t ht
  rw [hs, hroot] at hd
  obtain ⟨hk, _⟩ := hd.1 G.store (Rely.refl _ _) hG.sinv
  exact known_canon hG.sinv ⟨h0, hn⟩ hA hk.lo

/-- Non-vacuity: the log of the example run on four channels has an entry with the bound 5, which is more
than the default. -/
example : ∃ G, Run (fun _ => 0) none ⟨4, allValues 4⟩ G ∧ ∃ X, logOf G.store 4 X 5 := by
  obtain ⟨G, h1, h2⟩ := C28_example
  refine ⟨G, h1, ?_⟩
  rcases C33_root (fun _ => 0) none ⟨4, allValues 4⟩ (by dsimp only; rw [toSet_allValues]; exact chained_univ) (by decide) G h1 5
    h2 with h | ⟨h, _⟩ | ⟨Y, b, ⟨s, v, hv, hs, hb⟩, h5, _⟩
  · simp at h
  · simp at h
  · have hX := C33_self_justified (fun _ => 0) none ⟨4, allValues 4⟩
      (by dsimp only; rw [toSet_allValues]; exact chained_univ) (by decide) G h1
    have hlb := (C28_entries (fun _ => 0) none ⟨4, allValues 4⟩
      (by dsimp only; rw [toSet_allValues]; exact chained_univ) (by decide) G h1 _ v hv)
    have : UB s.toSet 5 := UB_of_sorting KnownBounds.sorting4 (by decide) _
    have := hlb.2.2.2.1.le_UB this
    exact ⟨s.toSet, s, v, hv, rfl, by omega⟩

end Sortnet
