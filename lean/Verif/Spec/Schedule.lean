import Verif.Model.Search

/-!
# Waiting tasks and executions of the search
-/

namespace Sortnet

namespace Search

/-- Task `i` waits for task `j`: `j` holds the lock `i` waits for, or `i` is suspended and `j` is a child
task it is waiting for. -/
inductive WaitsFor (G : Global) (i j : ℕ) : Prop
  | lock (t u : Task) (A : OSet) (tok : ℕ) (p : Prog Exit) (owned : List Res) (stack : List Frame) :
      G.tasks i = some t → t.status = .wait A tok p owned stack →
      G.tasks j = some u → Res.lock A tok ∈ u.res → WaitsFor G i j
  | child (t : Task) (h : Handle) (p : Prog Exit) (owned : List Res) (stack : List Frame) :
      G.tasks i = some t → t.status = .sleep p owned stack → Res.handle h ∈ owned → h.tid = j →
      WaitsFor G i j

/-- Task `i` cannot continue by itself: it waits for a lock that has not been released, or it is suspended
and none of the child tasks it waits for has finished. -/
def Blocked (G : Global) (i : ℕ) : Prop :=
  ∃ t, G.tasks i = some t ∧
    ((∃ A tok p owned stack, t.status = .wait A tok p owned stack ∧ G.sent tok = false) ∨
     (∃ p owned stack, t.status = .sleep p owned stack ∧ (∃ h, Res.handle h ∈ owned) ∧
        ∀ h, Res.handle h ∈ owned → ∀ c, G.tasks h.tid = some c → ∀ v, c.status ≠ .done v))

/-- Task `i` has been started and is not finished. -/
def Unfinished (G : Global) (i : ℕ) : Prop :=
  ∃ t, G.tasks i = some t ∧ t.scheduled = true ∧ (∀ v, t.status ≠ .done v) ∧ t.status ≠ .taken ∧
    t.status ≠ .panicked ∧ t.status ≠ .dropping []

/-- The status of task `i`. -/
def statusOf (G : Global) (i : ℕ) : Option Status := (G.tasks i).map Task.status

/-- An execution of the search: at time `k` task `who k` makes an atomic step, or nothing happens if `who k` is
`none`. -/
structure Execution (hash : List ℕ → ℕ) (limit : Option ℕ) (A : OSet) (G : ℕ → Global) (who : ℕ → Option ℕ) :
    Prop where
  start : G 0 = init hash limit A
  act : ∀ k i, who k = some i → Act hash i (G k) (G (k + 1))
  idle : ∀ k, who k = none → G (k + 1) = G k

/-- A task that from some time on has been started, is not finished and could continue eventually makes a step. -/
def Fair (G : ℕ → Global) (who : ℕ → Option ℕ) : Prop :=
  ∀ i k, (∀ k', k ≤ k' → Unfinished (G k') i ∧ ¬ Blocked (G k') i) → ∃ k', k ≤ k' ∧ who k' = some i

/-- At time `k` a task is resumed although it cannot continue. -/
def Spurious (G : ℕ → Global) (who : ℕ → Option ℕ) (k : ℕ) : Prop :=
  ∃ i, who k = some i ∧ Blocked (G k) i ∧ ¬ ∃ l, statusOf (G (k + 1)) i = some (.dropping l)

end Search

end Sortnet
