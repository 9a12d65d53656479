import Verif.Model.Search

/-!
# Model of the command `search`

`cmd_search` (`src/bin/sortnetopt.rs:101-114`) applies the comparators of the option `--prefix` to the set of all vectors and
searches from there.  The program is built without overflow checks and debug assertions (release profile): the assertions in
`apply_comparator` (`output_set.rs:569-571`) are not checked, and shifts take the number of bits modulo 64.
-/

namespace Sortnet

namespace Search

/-- `1 << channel` for a `usize`, `output_set.rs:573-574`. -/
def shiftMask (c : ℕ) : ℕ := 2 ^ (c % 64)

/-- `apply_comparator` with any two numbers as channels, `output_set.rs:568-597`. -/
def applyComparatorRaw {n : ℕ} (s : Bitmap n) (c0 c1 : ℕ) : Bitmap n × Bool :=
  let mask0 := BitVec.ofNat n (shiftMask c0)
  let mask1 := BitVec.ofNat n (shiftMask c1)
  let comparatorMask := shiftMask c0 ||| shiftMask c1
  let r := maskLoop n comparatorMask
    (fun x (st : Bitmap n × Bool × Bool) =>
      let outOfOrder := st.1 (x ^^^ mask0)
      let bitmap1 := Function.update st.1 (x ^^^ mask0) false
      let inOrder := bitmap1 (x ^^^ mask1)
      (Function.update bitmap1 (x ^^^ mask1) (inOrder || outOfOrder),
        st.2.1 || outOfOrder, st.2.2 || inOrder))
    comparatorMask (s, false, false)
  (r.1, r.2.1 && r.2.2)

/-- The loop over `prefix.chunks(2)`, `sortnetopt.rs:106-108`; `none` is the panic in `pair[1]` for an incomplete pair. -/
def applyPrefix {n : ℕ} : List ℕ → Bitmap n → Option (Bitmap n)
  | [], s => some s
  | [_], _ => none
  | a :: b :: l, s => applyPrefix l (applyComparatorRaw s a b).1

/-- A run of the command `search` up to the state `G`, `sortnetopt.rs:101-114`; the options are the number of channels, the
limit and the prefix. -/
def CmdSearch (hash : List ℕ → ℕ) (n : ℕ) (limit : Option ℕ) (pre : List ℕ) (G : Global) : Prop :=
  ∃ s, applyPrefix pre (allValues n) = some s ∧ Run hash limit ⟨n, s⟩ G

end Search

end Sortnet
