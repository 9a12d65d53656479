import Mathlib.Data.List.Basic
import Mathlib.Tactic.Common

/-!
# Models of the two other implementations of the Huffman bound

* `max_plus_1_huffman` of `/repo/src/huffman.rs` (used by the search and by the proof generation),
* `huffmanBound` of `/repo/checker/snocheck/src/Check.hs` (reference checker).

The third one, `sucmax_value_bound_huffman` of the extracted checker, is in `Verif.Model.Checker`.
-/

set_option linter.unusedVariables false

namespace Sortnet

/-! ## Rust -/

/-- `BinaryHeap<Reverse<u8>>::pop`: removes a smallest element.  The heap of the standard library is
modelled as the list of its elements.  Models code at `huffman.rs:4-8`. -/
def heapPop : List ℕ → Option (ℕ × List ℕ)
  | [] => none
  | x :: xs =>
    match heapPop xs with
    | none => some (x, [])
    | some (y, ys) => if x ≤ y then some (x, y :: ys) else some (y, x :: ys)

theorem heapPop_length {l : List ℕ} {x : ℕ} {xs : List ℕ} (h : heapPop l = some (x, xs)) :
    xs.length + 1 = l.length := by
  induction l generalizing x xs with
  | nil => simp [heapPop] at h
  | cons a l ih =>
    simp only [heapPop] at h
    split at h
    · next h0 =>
      cases l with
      | nil => simp at h; simp [h.2.symm]
      | cons b l =>
        exfalso
        simp only [heapPop] at h0
        split at h0 <;> (try split at h0) <;> simp at h0
    · next y ys h0 =>
      have := ih h0
      split at h <;> simp only [Option.some.injEq, Prod.mk.injEq] at h <;> obtain ⟨_, rfl⟩ := h <;>
        simp only [List.length_cons] <;> omega

/-- `max_plus_1_huffman`, `huffman.rs:3-14`.  `none` is an overflow of `u8` (a panic with overflow
checks, wrong results without). -/
def maxPlus1Huffman (heap : List ℕ) : Option ℕ :=
  match h : heapPop heap with
  | none => some 0
  | some (first, heap1) =>
    match h1 : heapPop heap1 with
    | some (second, heap2) =>
      if max first second + 1 < 256 then maxPlus1Huffman ((max first second + 1) :: heap2) else none
    | none => some first
termination_by heap.length
decreasing_by
  have e1 := heapPop_length h
  have e2 := heapPop_length h1
  rw [List.length_cons]; omega

/-! ## Reference checker -/

/-- `Data.IntMap.Strict.insertWith (+)` on maps represented as lists sorted by key.  Keys and counts
are `Int`s in the code; they are never negative there.  Models code at `Check.hs:88`. -/
def imInsertAdd (k c : ℕ) : List (ℕ × ℕ) → List (ℕ × ℕ)
  | [] => [(k, c)]
  | (k', c') :: m =>
    if k < k' then (k, c) :: (k', c') :: m
    else if k = k' then (k, c + c') :: m
    else (k', c') :: imInsertAdd k c m

/-- `Data.IntMap.Strict.insert`.  Models code at `Check.hs:84`. -/
def imInsert (k c : ℕ) : List (ℕ × ℕ) → List (ℕ × ℕ)
  | [] => [(k, c)]
  | (k', c') :: m =>
    if k < k' then (k, c) :: (k', c') :: m
    else if k = k' then (k, c) :: m
    else (k', c') :: imInsert k c m

/-- `Data.IntMap.Strict.fromListWith (+)`.  Models code at `Check.hs:72`. -/
def imFromListAdd (l : List (ℕ × ℕ)) : List (ℕ × ℕ) := l.foldl (fun m e => imInsertAdd e.1 e.2 m) []

/-- `queuePop`, `Check.hs:81-85`; the `minViewWithKey` of a map is the head of the sorted list. -/
def queuePop : List (ℕ × ℕ) → Option (ℕ × List (ℕ × ℕ))
  | [] => none
  | (item, count) :: rest =>
    let rest' := if count > 1 then imInsert item (count - 1) rest else rest
    some (item, rest')

/-- `queuePush`, `Check.hs:87-88`. -/
def queuePush (item : ℕ) (queue : List (ℕ × ℕ)) : List (ℕ × ℕ) := imInsertAdd item 1 queue

/-- Number of elements of a queue (used for termination only).  Models code at `Check.hs:74-79`. -/
def queueSize (q : List (ℕ × ℕ)) : ℕ := (q.map fun e => max e.2 1).sum

theorem queueSize_insertAdd (k : ℕ) (q : List (ℕ × ℕ)) :
    queueSize (imInsertAdd k 1 q) ≤ queueSize q + 1 := by
  induction q with
  | nil => simp [imInsertAdd, queueSize]
  | cons e q ih =>
    obtain ⟨k', c'⟩ := e
    simp only [imInsertAdd]
    split_ifs <;> simp only [queueSize, List.map_cons, List.sum_cons] at * <;> omega

theorem queueSize_insert (k c : ℕ) (q : List (ℕ × ℕ)) :
    queueSize (imInsert k c q) ≤ queueSize q + max c 1 := by
  induction q with
  | nil => simp [imInsert, queueSize]
  | cons e q ih =>
    obtain ⟨k', c'⟩ := e
    simp only [imInsert]
    split_ifs <;> simp only [queueSize, List.map_cons, List.sum_cons] at * <;> omega

theorem queueSize_pop {q q' : List (ℕ × ℕ)} {i : ℕ} (h : queuePop q = some (i, q')) :
    queueSize q' + 1 ≤ queueSize q := by
  cases q with
  | nil => simp [queuePop] at h
  | cons e q =>
    obtain ⟨k, c⟩ := e
    simp only [queuePop, Option.some.injEq, Prod.mk.injEq] at h
    obtain ⟨_, rfl⟩ := h
    have h1 := queueSize_insert k (c - 1) q
    have e : queueSize ((k, c) :: q) = max c 1 + queueSize q := by simp [queueSize]
    split_ifs <;> omega

/-- `huffmanBound'`, `Check.hs:74-79`; `none` is the incomplete pattern of the outer `case`. -/
def huffmanBound' (queue : List (ℕ × ℕ)) : Option ℕ :=
  match h : queuePop queue with
  | none => none
  | some (item, queue') =>
    match h1 : queuePop queue' with
    | none => some item
    | some (item2, queue'') => huffmanBound' (queuePush (1 + max item item2) queue'')
termination_by queueSize queue
decreasing_by
  have e1 := queueSize_pop h
  have e2 := queueSize_pop h1
  have e3 := queueSize_insertAdd (1 + max item item2) queue''
  unfold queuePush
  omega

/-- `huffmanBound`, `Check.hs:71-72`. -/
def huffmanBound (bs : List ℕ) : Option ℕ := huffmanBound' (imFromListAdd (bs.map fun k => (k, 1)))

end Sortnet
