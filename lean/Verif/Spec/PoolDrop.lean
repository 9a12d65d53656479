import Verif.Model.Search

/-!
# Cancelled tasks and their descendants
-/

namespace Sortnet

namespace Search

/-- Task `i` has been cancelled, or its handle is a variable of a task for which this holds: it will be cancelled as soon
as that task is dropped. -/
inductive Doomed (G : Global) : ℕ → Prop
  | cancelled {i : ℕ} {t : Task} : G.tasks i = some t → t.cancelled = true → Doomed G i
  | child {i j : ℕ} {u : Task} {h : Handle} : Doomed G j → G.tasks j = some u → Res.handle h ∈ u.res → h.tid = i →
      Doomed G i

end Search

end Sortnet
