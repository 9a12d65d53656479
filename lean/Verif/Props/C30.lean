import Verif.Props.C28

/-!
# C30: bounds only improve
-/

namespace Sortnet

open Search

/-- C30.  If the state `G'` can be reached from the reachable state `G`, then for every set the lower bound
in `G'` is at least that in `G` and the upper bound at most that in `G`. -/
theorem C30_monotone (hash : List ℕ → ℕ) (limit : Option ℕ) (initial : OSet)
    (h0 : Chained initial.s.toSet) (hn : initial.n ≤ 11) (G G' : Global) (h : Run hash limit initial G)
    (h' : Relation.ReflTransGen (Step hash) G G') (A : OSet) :
    (G.store.get A).lo ≤ (G'.store.get A).lo ∧ (G'.store.get A).hi ≤ (G.store.get A).hi := by
  obtain ⟨A0, _, _, β, hG, _⟩ := h.inv h0 hn
  have key : (∃ β' : ℕ →₀ ℕ, GInv hash limit A0 β' G') ∧ Evolves G.store G'.store := by
    induction h' with
    | refl => exact ⟨⟨β, hG⟩, Evolves.refl _⟩
    | tail _ hs ih =>
      obtain ⟨⟨β', hG'⟩, he⟩ := ih
      obtain ⟨_, hs'⟩ := id hs
      obtain ⟨β'', hG'', _⟩ := hG'.act hs'
      exact ⟨⟨β'', hG''⟩, he.trans (hG'.evolves hs)⟩
  exact ⟨(key.2 A).1, (key.2 A).2.1⟩

/-- Non-vacuity: in a run for all vectors on three channels the lower bound of that set grows from 1
to 3. -/
example : ∃ A G G', canon (fun _ => 0) ⟨3, allValues 3⟩ = some A ∧ Run (fun _ => 0) none ⟨3, allValues 3⟩ G ∧
    Run (fun _ => 0) none ⟨3, allValues 3⟩ G' ∧ (G.store.get A).lo = 1 ∧ (G'.store.get A).lo = 3 := by
  have h : ((canon (fun _ => 0) ⟨3, allValues 3⟩).bind fun A =>
      (exec (fun _ => 0) (List.replicate 20 (1, 0)) (init (fun _ => 0) none A)).bind fun G' =>
        some (((init (fun _ => 0) none A).store.get A).lo, (G'.store.get A).lo)) =
      some (1, 3) := by decide +kernel
  rw [Option.bind_eq_some_iff] at h
  obtain ⟨A, hA, h⟩ := h
  rw [Option.bind_eq_some_iff] at h
  obtain ⟨G', hG', h⟩ := h
  simp only [Option.some.injEq, Prod.mk.injEq] at h
  exact ⟨A, _, G', hA, ⟨A, hA, .init⟩, ⟨A, hA, exec_reach .init hG'⟩, h.1, h.2⟩

end Sortnet
