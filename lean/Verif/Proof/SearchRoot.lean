import Verif.Proof.Pipeline
import Verif.Proof.SearchOwn

/-!
# The entry of the initial set at the end of a search
-/

namespace Sortnet

open Search

variable {hash : List ℕ → ℕ}

namespace Search

/-- The condition under which the main task stops, `search.rs:61-64`. -/
def Stops (limit : Option ℕ) (v : State) : Prop := v.lo = v.hi ∨ ∃ l ∈ limit, v.lo ≥ l

/-- The states of a search that stops at once. -/
def Idle (hash : List ℕ → ℕ) (limit : Option ℕ) (A : OSet) (G : Global) : Prop :=
  (∀ B, G.store B = none) ∧ (∀ i, i ≠ 0 → G.tasks i = none) ∧ ∃ t, G.tasks 0 = some t ∧ t.queued = false ∧ t.cancelled = false ∧
    (t.status = .sleep (code hash (.start limit A)) [] [] ∨ t.status = .run (code hash (.start limit A)) [] [] ∨
      t.status = .run (.ret (.goto (.main limit A (defaultState A)))) [] [] ∨
      t.status = .run (code hash (.main limit A (defaultState A))) [] [] ∨
      t.status = .unwind (defaultState A) [] [] ∨ t.status = .done (defaultState A))

theorem Idle.step {limit : Option ℕ} {A : OSet} (hs : Stops limit (defaultState A)) {G G' : Global} (h : Idle hash limit A G)
    (ha : Step hash G G') : Idle hash limit A G' := by
  obtain ⟨hσ, hno, t, ht, hq, hc, hst⟩ := h
  obtain ⟨i, ha⟩ := ha
  have hi : ∀ u, G.tasks i = some u → i = 0 ∧ u = t := by
    intro u hu
    by_cases h0 : i = 0
    · subst h0
      rw [ht] at hu
      exact ⟨rfl, (Option.some.inj hu).symm⟩
    · rw [hno i h0] at hu
      cases hu
  have hmain : code hash (.main limit A (defaultState A)) = .ret (.done (defaultState A)) := by
    unfold code
    exact if_pos hs
  have hstart : code hash (.start limit A) = .get A fun s => .ret (.goto (.main limit A s)) := rfl
  have key : ∀ s : Status, (s = .sleep (code hash (.start limit A)) [] [] ∨ s = .run (code hash (.start limit A)) [] [] ∨
      s = .run (.ret (.goto (.main limit A (defaultState A)))) [] [] ∨
      s = .run (code hash (.main limit A (defaultState A))) [] [] ∨
      s = .unwind (defaultState A) [] [] ∨ s = .done (defaultState A)) → Idle hash limit A (G.setStatus 0 t s) := by
    intro s h
    refine ⟨hσ, fun j hj => ?_, { t with status := s }, by simp [Global.setStatus], hq, hc, h⟩
    simp only [Global.setStatus]
    rw [Function.update_of_ne hj]
    exact hno j hj
  rw [hmain, hstart] at hst
  cases ha with
  | get hu e =>
    obtain ⟨rfl, rfl⟩ := hi _ hu
    rcases hst with h | h | h | h | h | h <;> rw [h] at e <;> cases e
    refine key _ (Or.inr (Or.inr (Or.inl ?_)))
    have : G.store.get A = defaultState A := by simp [Store.get, hσ]
    rw [this]
  | wake hu e =>
    obtain ⟨rfl, rfl⟩ := hi _ hu
    rcases hst with h | h | h | h | h | h <;> rw [h] at e <;> cases e
    exact key _ (Or.inr (Or.inl rfl))
  | worker hu e =>
    obtain ⟨rfl, rfl⟩ := hi _ hu
    rw [hq] at e
    cases e
  | goto hu e =>
    obtain ⟨rfl, rfl⟩ := hi _ hu
    rcases hst with h | h | h | h | h | h <;> rw [h] at e <;> cases e
    exact key _ (Or.inr (Or.inr (Or.inr (Or.inl rfl))))
  | ret hu e =>
    obtain ⟨rfl, rfl⟩ := hi _ hu
    rcases hst with h | h | h | h | h | h <;> rw [h] at e <;> cases e
    exact key _ (Or.inr (Or.inr (Or.inr (Or.inr (Or.inl rfl)))))
  | finish hu e =>
    obtain ⟨rfl, rfl⟩ := hi _ hu
    rcases hst with h | h | h | h | h | h <;> rw [h] at e <;> cases e
    exact key _ (Or.inr (Or.inr (Or.inr (Or.inr (Or.inr rfl)))))
  | unwind hu e hm =>
    obtain ⟨rfl, rfl⟩ := hi _ hu
    rcases hst with h | h | h | h | h | h <;> rw [h] at e <;> cases e
    simp at hm
  | unwindPanic hu e hm =>
    obtain ⟨rfl, rfl⟩ := hi _ hu
    rcases hst with h | h | h | h | h | h <;> rw [h] at e <;> cases e
    simp at hm
  | dropSleep hu e hk =>
    obtain ⟨rfl, rfl⟩ := hi _ hu
    rw [hc] at hk
    cases hk
  | _ hu e =>
    obtain ⟨rfl, rfl⟩ := hi _ hu
    exfalso
    rcases hst with h | h | h | h | h | h <;> rw [h] at e <;> cases e

/-- A search that stops at once leaves the state map empty. -/
theorem Reach.idle {limit : Option ℕ} {A : OSet} (hs : Stops limit (defaultState A)) {G : Global} (h : Reach hash limit A G) :
    Idle hash limit A G := by
  induction h with
  | init => exact ⟨fun _ => rfl, fun i hi => by simp [Search.init, hi], _, rfl, rfl, rfl, Or.inl rfl⟩
  | step _ ha ih => exact ih.step hs ha

end Search

/-- What the main task returns is what is in the state map. -/
theorem Search.Reach.ownRoot {limit : Option ℕ} {A : OSet} (hA : OK A) {G : Global} (h : Reach hash limit A G) :
    G.OwnRoot A (Below A) true := by
  induction h with
  | init =>
    intro i t ht
    unfold Search.init at ht
    dsimp only at ht
    split at ht
    · rename_i hi
      cases ht
      exact ⟨fun _ => Or.inl ⟨code_track (low_below hash A true) _ ⟨rfl, Or.inl rfl⟩, by intro f hf; cases hf⟩, fun h => absurd hi h⟩
    · simp at ht
  | step hr hs ih =>
    obtain ⟨i, ha⟩ := hs
    obtain ⟨β, hG, _⟩ := GInv.reach hA hr
    obtain ⟨t, ht, _⟩ := hG.main
    exact ih.act (low_below hash A true) ⟨t, ht⟩ (Or.inl rfl) ha

/-- When a search has returned, its initial set is in the state map, with the returned bound, or the state map is empty, and the
returned bound is the default one. -/
theorem root_stored {limit : Option ℕ} {initial : OSet} (h0 : Chained initial.s.toSet) (hn : initial.n ≤ 11) {G : Global}
    (h : Run hash limit initial G) {r : ℕ} (hr : Returned G r) :
    ∃ A, canon hash initial = some A ∧ ((∃ v, G.store A = some v ∧ v.lo = r) ∨ (∀ B, G.store B = none) ∧ r ≤ 1) := by
  obtain ⟨A, hA, hok, β, hG, _⟩ := h.inv h0 hn
  refine ⟨A, hA, ?_⟩
  obtain ⟨A', hA', hreach⟩ := h
  rw [hA] at hA'
  obtain rfl := Option.some.inj hA'
  obtain ⟨t, v, ht, e, rfl⟩ := hr
  have hv : v = G.store.get A := by
    have := hreach.ownRoot hok 0 t ht
    rw [e] at this
    exact this.1 rfl
  by_cases hs : Stops limit (defaultState A)
  · obtain ⟨hσ, _⟩ := hreach.idle hs
    refine Or.inr ⟨hσ, ?_⟩
    rw [hv]
    simp only [Store.get, hσ]
    exact (default_lo _).1
  · left
    obtain ⟨t', ht', hroot, _⟩ := hG.main
    rw [ht] at ht'
    obtain rfl := Option.some.inj ht'
    have hd := hG.task 0 t ht
    rw [e, hroot] at hd
    obtain ⟨_, hlim⟩ := hd.1 G.store (Rely.refl _ _) hG.sinv
    cases hst : G.store A with
    | some w => exact ⟨w, rfl, by rw [hv]; simp [Store.get, hst]⟩
    | none =>
      exfalso
      rw [Store.get, hst] at hv
      subst hv
      exact hs hlim

end Sortnet
