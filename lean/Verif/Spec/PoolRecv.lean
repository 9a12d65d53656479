import Verif.Model.Pool

/-!
# Specification: how many entries a worker receives while it has the lock of the pending queue
-/

namespace Sortnet

namespace Pool

variable {Prio : Type} [LinearOrder Prio]

/-- In the step the worker receives an entry from the channel. -/
def Receives (s s' : St Prio) (i : ℕ) : Prop := ∃ l c e, s.thread i = .recv l c ∧ s'.thread i = .gcCheck l c e

/-- Worker `i` is in the loop that receives entries (`thread_pool.rs:157-180`), which it entered when there were `k` entries in
the channel, and has received `m` entries since then. -/
inductive Received (i : ℕ) : (k m : ℕ) → St Prio → Prop
  | enter {s s' : St Prio} : s.thread i = .limit → Step s s' → s'.thread i ≠ .limit → Received i s.chan.length 0 s'
  | receive {k m : ℕ} {s s' : St Prio} : Received i k m s → Step s s' → Receives s s' i → Received i k (m + 1) s'
  | other {k m : ℕ} {s s' : St Prio} : Received i k m s → Step s s' → ¬ Receives s s' i → s'.thread i ≠ .pop → Received i k m s'

end Pool

end Sortnet
