import Verif.Model.Search

/-!
# The lines `bounds: ..` that the search logs

The main task logs the state it gets from every call of `improve` (`search.rs:65-66`).  In `Model/Search.lean` this is the
action in which the main task, returning from a call with a single caller, continues this caller.
-/

namespace Sortnet

namespace Search

/-- The lines logged when the search goes from one state to the next: one line when the main task stops returning to its
outermost function and runs it.  Only the argument of the line is modelled, not its layout.  Models code at `search.rs:65-66`. -/
def lines (G G' : Global) : List State :=
  match (G.tasks 0).map Task.status, (G'.tasks 0).map Task.status with
  | some (.unwind v [] [_]), some (.run _ _ _) => [v]
  | _, _ => []

/-- The states that can be reached and the lines logged on the way.
Models code at `search.rs:58-70,127-509` and `thread_pool.rs:141-204`. -/
inductive Logged (hash : List ℕ → ℕ) (limit : Option ℕ) (A : OSet) : List State → Global → Prop
  | init : Logged hash limit A [] (init hash limit A)
  | step {L : List State} {G G' : Global} : Logged hash limit A L G → Step hash G G' → Logged hash limit A (L ++ lines G G') G'

/-- A run of `Search::search(initial, limit, ..)` up to the state `G`, with the lines `bounds: ..` logged so far.
Models code at `search.rs:31-78`. -/
def LoggedRun (hash : List ℕ → ℕ) (limit : Option ℕ) (initial : OSet) (L : List State) (G : Global) : Prop :=
  ∃ A, canon hash initial = some A ∧ Logged hash limit A L G

end Search

end Sortnet
