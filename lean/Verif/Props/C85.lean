import Verif.Proof.Progress
import Verif.Props.C29

/-!
# C85: the progress lines of the search

While it runs, `search` logs lines `bounds: ..`.  They report what has been proved so far.  `Logged` (`Model/Progress.lean`)
collects them; `v.lo` and `v.hi` are the two numbers of a line.
-/

namespace Sortnet

open Search

variable {hash : List ℕ → ℕ} {limit : Option ℕ} {initial : OSet} {L : List State} {G : Global}

/-- The lines do not restrict the search: a run with lines is a run, and every run has lines. -/
theorem C85_runs : Run hash limit initial G ↔ ∃ L, LoggedRun hash limit initial L G := by
  constructor
  · rintro ⟨A, hA, h⟩
    obtain ⟨L, h⟩ := h.logged
    exact ⟨L, A, hA, h⟩
  · rintro ⟨L, A, hA, h⟩
    exact ⟨A, hA, h.reach⟩

/-- C85.  Every line has a lower and an upper bound of the number of comparators that the initial set needs. -/
theorem C85_correct (h0 : Chained initial.s.toSet) (hn : initial.n ≤ 11) (h : LoggedRun hash limit initial L G) :
    ∀ v ∈ L, LB initial.s.toSet v.lo ∧ UB initial.s.toSet v.hi ∧ v.lo ≤ v.hi := by
  obtain ⟨A, hA, hl⟩ := h
  obtain ⟨hok, _, h1, h2⟩ := canon_of_eq ⟨h0, hn⟩ hA
  have hi := hl.inv hok
  exact fun v hv => ⟨(h1 _).1 (hi.lb v hv), (h2 _).1 (hi.ub v hv), hi.le v hv⟩

/-- C85.  A line follows another one only if the bounds on that one differ and its lower bound is below the limit.  The new bounds
are at least as good.  The lower bound has grown, or the two bounds coincide now. -/
theorem C85_progress (h0 : Chained initial.s.toSet) (hn : initial.n ≤ 11) (h : LoggedRun hash limit initial L G) :
    L.IsChain fun a b => a.lo < a.hi ∧ (∀ l ∈ limit, a.lo < l) ∧ a.lo ≤ b.lo ∧ b.hi ≤ a.hi ∧ (a.lo < b.lo ∨ b.lo = b.hi) := by
  obtain ⟨A, hA, hl⟩ := h
  have hi := hl.inv (canon_of_eq ⟨h0, hn⟩ hA).1
  have hc : L.IsChain (Better limit) := hi.chain.of_cons
  refine List.IsChain.imp_of_mem_imp ?_ hc
  rintro a b ha _ ⟨h1, h2⟩
  refine ⟨lt_of_le_of_ne (hi.le a ha) fun e => h1 (Or.inl e), fun l hl => ?_, h2⟩
  by_contra hlt
  exact h1 (Or.inr ⟨l, hl, Nat.le_of_not_lt hlt⟩)

/-- C85.  There are less than 35 lines. -/
theorem C85_few (h0 : Chained initial.s.toSet) (hn : initial.n ≤ 11) (h : LoggedRun hash limit initial L G) : L.length < 35 := by
  obtain ⟨A, hA, hl⟩ := h
  have hok := (canon_of_eq ⟨h0, hn⟩ hA).1
  have hi := hl.inv hok
  have hd : (defaultState A).lo ≤ (defaultState A).hi := by
    obtain ⟨β, hG, _⟩ := GInv.reach hok (Reach.init (hash := hash) (limit := limit))
    exact (hG.sinv.known hok).lo_le hG.sinv hok
  have h1 := chain_length hi.chain (by
    intro v hv
    rcases List.mem_cons.1 hv with rfl | hv
    · exact hd
    · exact hi.le v hv)
  have h2 := default_hi_le A hok.2
  have h3 : (defaultState A).lo = 1 ∨ (defaultState A).hi = 0 := by
    unfold defaultState
    split_ifs <;> simp
  omega

/-- C85.  When the search has returned, the last line has the returned bound, and it is exact or has reached the limit.  A search
without lines returns 0 or 1. -/
theorem C85_result (h0 : Chained initial.s.toSet) (hn : initial.n ≤ 11) (h : LoggedRun hash limit initial L G) {r : ℕ}
    (hr : Returned G r) : (L = [] → r ≤ 1) ∧ ∀ v ∈ L.getLast?, v.lo = r ∧ (v.lo = v.hi ∨ ∃ l ∈ limit, l ≤ v.lo) := by
  obtain ⟨A, hA, hl⟩ := h
  have hi := hl.inv (canon_of_eq ⟨h0, hn⟩ hA).1
  obtain ⟨t, w, ht, e, rfl⟩ := hr
  have hw := hi.whr.2.2 t ht
  rw [e] at hw
  obtain ⟨h1, rfl, h2⟩ := hw
  constructor
  · rintro rfl
    rw [h1]
    exact (default_lo A).1
  · intro v hv
    have hne : L ≠ [] := by
      rintro rfl
      simp at hv
    rw [List.getLast?_eq_some_getLast hne, Option.mem_some_iff] at hv
    rw [List.getLast_cons hne] at h1
    rw [h1, hv] at h2 ⊢
    exact ⟨rfl, h2⟩

/-- Non-vacuity: a search for all vectors on four channels that logs `3..5` and `5..5` and returns 5. -/
theorem C85_example : ∃ L G, LoggedRun (fun _ => 0) none ⟨4, allValues 4⟩ L G ∧ Returned G 5 ∧
    L.map (fun v => (v.lo, v.hi)) = [(3, 5), (5, 5)] := by
  have h : ((canon (fun _ => 0) ⟨4, allValues 4⟩).bind fun A =>
      (execLog (fun _ => 0) exampleSchedule [] (Search.init (fun _ => 0) none A)).map fun p =>
        (p.1.map fun v => (v.lo, v.hi), result p.2)) = some ([(3, 5), (5, 5)], some 5) := by
    decide +kernel
  rw [Option.bind_eq_some_iff] at h
  obtain ⟨A, hA, h⟩ := h
  rw [Option.map_eq_some_iff] at h
  obtain ⟨⟨L, G⟩, hG, h⟩ := h
  rw [Prod.mk.injEq] at h
  exact ⟨L, G, ⟨A, hA, execLog_logged .init hG⟩, result_returned h.2, h.1⟩

/-- The four-channel set meets the hypotheses. -/
example : Chained (⟨4, allValues 4⟩ : OSet).s.toSet ∧ (⟨4, allValues 4⟩ : OSet).n ≤ 11 :=
  ⟨by dsimp only; rw [toSet_allValues]; exact chained_univ, by decide⟩

end Sortnet
