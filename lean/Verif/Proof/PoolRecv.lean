import Verif.Spec.PoolRecv
import Verif.Proof.PoolBase

/-!
# How many entries a worker receives
-/

namespace Sortnet

namespace Pool

variable {Prio : Type}

/-- The limit, the counter and the number of entries received so far. -/
def counter : PC Prio → Option (ℕ × ℕ × ℕ)
  | .recv l c => some (l, c, c)
  | .gcCheck l c _ | .gc l c _ _ _ | .gcTest l c _ _ _ _ | .gcRelease l c _ _ _ _ | .insert l c _ => some (l, c, c + 1)
  | _ => none

theorem counter_afterCall {t : ℕ} {b : Bool} {e : Option (Entry Prio)} : counter (afterCall t b e) = none := by
  cases e <;> rfl

theorem counter_step [LinearOrder Prio] {s s' : St Prio} {i l c m : ℕ} (hs : Step s s')
    (h : counter (s.thread i) = some (l, c, m)) (hc : c < l ∨ c = 0) :
    s'.thread i = .pop ∨ ∃ c', (c' < l ∨ c' = 0) ∧
      ((Receives s s' i ∧ counter (s'.thread i) = some (l, c', m + 1)) ∨
        (¬ Receives s s' i ∧ counter (s'.thread i) = some (l, c', m))) := by
  unfold Receives
  cases hs
  all_goals try dsimp only [St.goto, St.emit, St.setSlot, St.dropTo, St.Alive] at *
  all_goals grind [counter, counter_afterCall]

theorem Received.inv [LinearOrder Prio] {s : St Prio} {i k m : ℕ} (h : Received i k m s) :
    ∃ c, (c < 2 * k ∨ c = 0) ∧ counter (s.thread i) = some (2 * k, c, m) := by
  induction h with
  | @enter s s' h1 hs h2 =>
    refine ⟨0, Or.inr rfl, ?_⟩
    cases hs
    all_goals try dsimp only [St.goto, St.emit, St.setSlot, St.dropTo, St.Alive] at *
    all_goals grind [counter, counter_afterCall]
  | receive _ hs hr ih =>
    obtain ⟨c, h1, h2⟩ := ih
    rcases counter_step hs h2 h1 with hp | ⟨c', h3, ⟨_, h4⟩ | ⟨h4, _⟩⟩
    · obtain ⟨_, _, _, _, hc⟩ := hr
      rw [hp] at hc
      simp at hc
    · exact ⟨c', h3, h4⟩
    · exact absurd hr h4
  | other _ hs hr hp ih =>
    obtain ⟨c, h1, h2⟩ := ih
    rcases counter_step hs h2 h1 with hc | ⟨c', h3, ⟨h4, _⟩ | ⟨_, h4⟩⟩
    · exact absurd hc hp
    · exact absurd h4 hr
    · exact ⟨c', h3, h4⟩

theorem Received.le [LinearOrder Prio] {s : St Prio} {i k m : ℕ} (h : Received i k m s) : m ≤ max 1 (2 * k) := by
  obtain ⟨c, h1, h2⟩ := h.inv
  have : m ≤ c + 1 := by
    revert h2
    cases s.thread i <;> simp only [counter, Option.some.injEq, Prod.mk.injEq, reduceCtorEq, false_implies] <;> omega
  omega

end Pool

end Sortnet
