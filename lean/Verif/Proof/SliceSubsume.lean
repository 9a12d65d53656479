import Verif.Model.SliceSubsume
import Verif.Proof.SliceOps
import Verif.Proof.Subsume

/-! # `Subsume` with its vectors computes what `Model/Subsume.lean` says -/

namespace Sortnet.SliceSubsume

open Slice

variable {n : ℕ} {σ : Type}

/-! ## Vectors -/

/-- The vector with the values of a function. -/
def vec (f : Fin n → σ) : List σ := (List.finRange n).map f

theorem vec_length (f : Fin n → σ) : (vec f).length = n := by simp [vec]

theorem getElem?_vec (f : Fin n → σ) (c : Fin n) : (vec f)[c.val]? = some (f c) := by simp [vec]

theorem put_vec (f : Fin n → σ) (c : Fin n) (v : σ) : put (vec f) c v = some (vec (Function.update f c v)) := by
  unfold put
  rw [if_pos (by rw [vec_length]; exact c.isLt)]
  congr 1
  apply List.ext_getElem
  · simp [vec_length]
  · intro i h1 h2
    simp only [vec, List.getElem_set, List.getElem_map, List.getElem_finRange, Function.update_apply, Fin.ext_iff]
    by_cases h : c.val = i
    · simp [h]
    · have : ¬ i = c.val := fun e => h e.symm
      simp [h, this]

theorem swap_vec (f : Fin n → σ) (a b : Fin n) :
    swap (vec f) a b = some (vec (Function.update (Function.update f a (f b)) b (f a))) := by
  simp [swap, getElem?_vec, put_vec]

theorem range_vec (hn : n ≤ 11) : collect capC (List.range n) = vec (fun i : Fin n => i.val) := by
  unfold collect vec
  rw [List.take_of_length_le (by simpa [capC] using hn), ← List.map_coe_finRange_eq_range]

theorem replicate_vec (hn : n ≤ 11) (z : ℕ) : collect capC (List.replicate n z) = vec (fun _ : Fin n => z) := by
  rw [collect_replicate (by simpa [capC] using hn)]
  simp [vec, List.map_const']

/-! ## Masks -/

theorem shl16_eq (hn : n ≤ 11) (c : Fin n) : shl16 c = some (bit c).toNat := by
  unfold shl16
  rw [if_pos (by have := c.isLt; omega), shift_eq]

theorem and_not16 (hn : n ≤ 11) (x m : BitVec n) : x.toNat &&& not16 m.toNat = (x &&& ~~~ m).toNat := by
  apply Nat.eq_of_testBit_eq
  intro i
  rw [BitVec.toNat_and, Nat.testBit_and, Nat.testBit_and, not16, Nat.testBit_xor, Nat.testBit_two_pow_sub_one,
    BitVec.testBit_toNat, BitVec.testBit_toNat, BitVec.testBit_toNat, BitVec.getLsbD_not]
  by_cases h : i < n
  · have : i < 16 := by omega
    simp [h, this]
  · simp [BitVec.getLsbD_of_ge x i (by omega)]

theorem range16 (hn : n ≤ 11) : ∃ k, List.range 16 = (List.finRange n).map Fin.val ++ (List.range k).map (n + ·) := by
  obtain ⟨k, hk⟩ : ∃ k, 16 = n + k := ⟨16 - n, by omega⟩
  exact ⟨k, by rw [hk, List.range_add, List.map_coe_finRange_eq_range]⟩

theorem testBit_high (x : BitVec n) {i : ℕ} (h : n ≤ i) : x.toNat.testBit i = false :=
  Nat.testBit_lt_two_pow (lt_of_lt_of_le x.isLt (Nat.pow_le_pow_right (by norm_num) h))

theorem setBits16_eq (hn : n ≤ 11) (x : BitVec n) : setBits16 x.toNat = (Subsume.setBits x).map Fin.val := by
  unfold setBits16 Subsume.setBits
  obtain ⟨k, hk⟩ := range16 hn
  rw [hk, List.filter_append, List.filter_map, (List.filter_eq_nil_iff (l := (List.range k).map (n + ·))).2]
  · rw [List.append_nil]
    rfl
  · intro a ha
    obtain ⟨b, _, rfl⟩ := List.mem_map.1 ha
    simp [testBit_high x (Nat.le_add_right n b)]

theorem countOnes16_eq (hn : n ≤ 11) (x : BitVec n) : countOnes16 x.toNat = countOnes x := by
  have := congrArg List.length (setBits16_eq hn x)
  rw [List.length_map] at this
  exact this

theorem trailingZeros16_eq (hn : n ≤ 11) {x : BitVec n} {c : Fin n} (h : Subsume.trailingZeros x = some c) :
    trailingZeros16 x.toNat = c.val := by
  have e : (setBits16 x.toNat).head? = some c.val := by
    rw [setBits16_eq hn, List.head?_map]
    unfold Subsume.trailingZeros at h
    rw [h]; rfl
  unfold setBits16 at e
  rw [List.head?_filter] at e
  unfold trailingZeros16
  rw [e]; rfl

theorem isUnique_eq (x : BitVec n) : isUnique x.toNat = Subsume.isUnique x := by
  unfold isUnique Subsume.isUnique sub
  by_cases h : x = 0#n
  · subst h; simp
  · have h0 : x.toNat ≠ 0 := fun e => h (BitVec.eq_of_toNat_eq (by simpa using e))
    have hn : n ≠ 0 := by rintro rfl; exact h (Subsingleton.elim _ _)
    have h1 : (x - 1#n).toNat = x.toNat - 1 := by
      rw [BitVec.toNat_sub_of_le]
      · rw [BitVec.toNat_ofNat, Nat.mod_eq_of_lt (Nat.one_lt_two_pow hn)]
      · rw [BitVec.le_def, BitVec.toNat_ofNat, Nat.mod_eq_of_lt (Nat.one_lt_two_pow hn)]; omega
    rw [if_neg h, if_pos (by omega), Option.bind_eq_bind, Option.bind_some, ← h1, ← BitVec.toNat_and]
    congr 1
    rw [Bool.eq_iff_iff, beq_iff_eq, beq_iff_eq]
    constructor
    · intro e; exact BitVec.eq_of_toNat_eq (by simpa using e)
    · intro e; rw [e]; simp

theorem mask_eq_zero (x : BitVec n) : x.toNat = 0 ↔ x = 0#n :=
  ⟨fun e => BitVec.eq_of_toNat_eq (by simpa using e), fun e => by rw [e]; simp⟩

/-! ## States -/

/-- Channels as numbers. -/
def nums (ch : Bool → Fin n) : Bool → ℕ := fun side => ch side

theorem nums_pair (side : Bool) (a b : Fin n) : nums (Subsume.pair side a b) = pair side a b := by
  funext s
  unfold nums Subsume.pair pair
  split <;> rfl

/-- An entry of the undo stack. -/
def encUndo : Subsume.Undo n → Undo
  | .matching ch => .matching (nums ch)
  | .swap target source => .swap target (nums source)

/-- A state with its vectors. -/
def enc (st : Subsume.St n) (buffer : List ℕ) : St where
  channels := n
  sets := fun side => ofBitmap (st.sets side)
  perms := fun side => vec fun i => (st.perms side i).val
  matching := fun side => vec fun i => (st.matching side i).toNat
  undo := st.undo.map encUndo
  fixed := st.fixed
  buffer := buffer

variable {st : Subsume.St n} {buffer : List ℕ}

theorem setMask_enc (side : Bool) (c : Fin n) (v : BitVec n) :
    setMask (enc st buffer) side c v.toNat =
      some (enc { st with matching := Subsume.setMask st.matching side c v } buffer) := by
  unfold setMask
  simp only [enc, put_vec, Option.bind_eq_bind, Option.bind_some]
  congr 2
  funext s
  unfold Subsume.setMask
  by_cases h : s = side
  · subst h
    simp only [Function.update_self]
    congr 1
    funext i
    simp only [Function.update_apply]
    split <;> rfl
  · simp [Function.update_of_ne h]

theorem mask_enc (side : Bool) (c : Fin n) : ((enc st buffer).matching side)[c.val]? = some (st.matching side c).toNat :=
  getElem?_vec _ c

theorem perm_enc (side : Bool) (c : Fin n) : ((enc st buffer).perms side)[c.val]? = some (st.perms side c).val :=
  getElem?_vec _ c

theorem orBit_enc (hn : n ≤ 11) (side : Bool) (c d : Fin n) :
    orBit (enc st buffer) side c d =
      some (enc { st with matching := Subsume.setMask st.matching side c (st.matching side c ||| bit d) } buffer) := by
  unfold orBit
  rw [shl16_eq hn, mask_enc]
  simp only [Option.bind_eq_bind, Option.bind_some]
  rw [or_toNat, setMask_enc]

theorem clearBit_enc (hn : n ≤ 11) (side : Bool) (c d : Fin n) :
    clearBit (enc st buffer) side c d =
      some (enc { st with matching := Subsume.setMask st.matching side c (st.matching side c &&& ~~~ bit d) } buffer) := by
  unfold clearBit
  rw [shl16_eq hn, mask_enc]
  simp only [Option.bind_eq_bind, Option.bind_some]
  rw [and_not16 hn, setMask_enc]

theorem swapSide_enc (side : Bool) (target source : Fin n) :
    swapSide (enc st buffer) side target source =
      some (enc { st with
        sets := Function.update st.sets side ((st.sets side).swapChannels target source)
        perms := Function.update st.perms side (Subsume.swapPerm (st.perms side) target source) } buffer) := by
  unfold swapSide
  simp only [enc, swapChannels_eq, swap_vec, Option.bind_eq_bind, Option.bind_some]
  congr 2
  · funext s
    by_cases h : s = side
    · subst h; simp
    · simp [Function.update_of_ne h]
  · funext s
    by_cases h : s = side
    · subst h
      simp only [Function.update_self]
      congr 1
      funext i
      simp only [Subsume.swapPerm, Function.update_apply]
      split
      · rfl
      · split <;> rfl
    · simp [Function.update_of_ne h]

theorem swapBoth_enc (target : Fin n) (source : Bool → Fin n) :
    (swapSide (enc st buffer) false target (source false)).bind (fun st => swapSide st true target (source true)) =
      some (enc (Subsume.swapBoth st target source) buffer) := by
  rw [swapSide_enc, Option.bind_some, swapSide_enc]
  congr 2
  unfold Subsume.swapBoth
  congr 1
  · funext s
    cases s <;> simp [Function.update]
  · funext s
    cases s <;> simp [Function.update]

theorem undoAction_enc (hn : n ≤ 11) (u : Subsume.Undo n) :
    undoAction (enc st buffer) (encUndo u) = some (enc (Subsume.undoAction st u) buffer) := by
  cases u with
  | matching ch =>
    simp only [undoAction, encUndo, nums, orBit_enc hn, Option.bind_eq_bind, Option.bind_some]
    rfl
  | swap target source => exact swapBoth_enc target source

theorem undoActions_enc (hn : n ≤ 11) (l : List (Subsume.Undo n)) (st : Subsume.St n) :
    (l.map encUndo).foldlM undoAction (enc st buffer) = some (enc (l.foldl Subsume.undoAction st) buffer) := by
  induction l generalizing st with
  | nil => rfl
  | cons u l ih =>
    rw [List.map_cons, List.foldlM_cons, undoAction_enc hn, List.foldl_cons]
    exact ih _

theorem rollback_enc (hn : n ≤ 11) {depth : ℕ} (fixed : ℕ) (hd : depth ≤ st.undo.length) :
    rollback (enc st buffer) depth fixed = some (enc (Subsume.rollback st depth fixed) buffer) := by
  unfold rollback Subsume.rollback sub
  have hl : (enc st buffer).undo.length = st.undo.length := by simp [enc]
  rw [hl, if_pos hd, Option.bind_eq_bind, Option.bind_some]
  have e : (enc st buffer).undo.take (st.undo.length - depth) =
      (st.undo.take (st.undo.length - depth)).map encUndo := by simp [enc, List.map_take]
  have := undoActions_enc (buffer := buffer) hn (st.undo.take (st.undo.length - depth)) { st with fixed := fixed }
  rw [e]
  change (List.foldlM undoAction (enc { st with fixed := fixed } buffer) _ >>= _) = _
  rw [this, Option.bind_eq_bind, Option.bind_some]
  simp [enc, List.map_drop]

theorem getMatching_enc (hn : n ≤ 11) (ch : Bool → Fin n) :
    getMatching (enc st buffer) (nums ch) = some (Subsume.getMatching st ch) := by
  unfold getMatching Subsume.getMatching nums
  rw [shl16_eq hn, mask_enc]
  simp only [Option.bind_eq_bind, Option.bind_some, Option.some.injEq]
  rw [← BitVec.toNat_and, Bool.eq_iff_iff, bne_iff_ne, bne_iff_ne, Ne, mask_eq_zero]

/-! ## `remove_matching` -/

theorem dropEdge_enc (hn : n ≤ 11) (ch : Bool → Fin n) :
    (clearBit { enc st buffer with undo := .matching (nums ch) :: (enc st buffer).undo } false (ch false) (ch true)).bind
      (fun st => clearBit st true (ch true) (ch false)) = some (enc (Subsume.dropEdge st ch) buffer) := by
  change (clearBit (enc { st with undo := .matching ch :: st.undo } buffer) false (ch false) (ch true)).bind _ = _
  rw [clearBit_enc hn, Option.bind_some, clearBit_enc hn]
  rfl

theorem dropEdge_undo (ch : Bool → Fin n) : st.undo.length ≤ (Subsume.dropEdge st ch).undo.length := by
  simp [Subsume.dropEdge]

/-- What the refinement says about a step that leaves the fixed channels and the buffer alone. -/
def Good (st : Subsume.St n) (r : Bool × Subsume.St n) (f : St → Option (Bool × St)) : Prop :=
  r.2.fixed = st.fixed ∧ st.undo.length ≤ r.2.undo.length ∧ r.2.sets = st.sets ∧ r.2.perms = st.perms ∧
    ∀ buffer, f (enc st buffer) = some (r.1, enc r.2 buffer)

theorem Good.trans {st : Subsume.St n} {r r' : Bool × Subsume.St n} {f g h : St → Option (Bool × St)} (h1 : Good st r f)
    (h2 : Good r.2 r' g) (e : ∀ buffer, f (enc st buffer) = some (r.1, enc r.2 buffer) →
      h (enc st buffer) = g (enc r.2 buffer)) : Good st r' h :=
  ⟨h2.1.trans h1.1, h1.2.1.trans h2.2.1, h2.2.2.1.trans h1.2.2.1, h2.2.2.2.1.trans h1.2.2.2.1,
    fun b => (e b (h1.2.2.2.2 b)).trans (h2.2.2.2.2 b)⟩

theorem remove_enc (hn : n ≤ 11) :
    (∀ (st : Subsume.St n) ch r, Subsume.removeMatching st ch = some r →
      Good st r fun st => removeMatching st (nums ch)) ∧
    (∀ (st : Subsume.St n) ch side r, Subsume.propagate st ch side = some r →
      Good st r fun st => propagate st (nums ch) side) ∧
    (∀ (st : Subsume.St n) side keep other r, Subsume.removeOthers st side keep other = some r →
      Good st r fun st => removeOthers st side keep other) := by
  refine Subsume.removeMatching.mutual_partial_correctness
    (fun st ch r => Good st r fun st => removeMatching st (nums ch))
    (fun st ch side r => Good st r fun st => propagate st (nums ch) side)
    (fun st side keep other r => Good st r fun st => removeOthers st side keep other) ?_ ?_ ?_
  · intro propagate' ih st ch r hr
    split at hr
    · simp at hr
    next hg =>
    simp only [Option.bind_eq_bind, Option.bind_eq_some_iff] at hr
    obtain ⟨u0, hu0, hr⟩ := hr
    have key : ∀ buffer, removeMatching (enc st buffer) (nums ch) =
        (if u0 = true then some (false, enc st buffer)
        else do
          let u1 ← Subsume.isUnique (st.matching true (ch true))
          if u1 then some (false, enc st buffer)
          else do
            let r ← propagate (enc (Subsume.dropEdge st ch) buffer) (nums ch) false
            if r.1 then propagate r.2 (nums ch) true else (some (false, r.2))) := by
      intro buffer
      rw [removeMatching, getMatching_enc hn]
      simp only [Option.bind_eq_bind, Option.bind_some]
      rw [if_neg hg]
      have m0 : ((enc st buffer).matching false)[nums ch false]? = some (st.matching false (ch false)).toNat := mask_enc _ _
      have m1 : ((enc st buffer).matching true)[nums ch true]? = some (st.matching true (ch true)).toNat := mask_enc _ _
      rw [m0, m1]
      simp only [Option.bind_some, isUnique_eq, hu0]
      split
      · rfl
      · refine Option.bind_congr fun u1 _ => ?_
        split
        · rfl
        · have := dropEdge_enc (st := st) (buffer := buffer) hn ch
          rw [← Option.bind_assoc]
          unfold nums at *
          rw [this]
          rfl
    split at hr
    · next h0 =>
      cases hr
      refine ⟨rfl, le_rfl, rfl, rfl, fun b => ?_⟩
      beta_reduce
      rw [key, if_pos h0]
    · next h0 =>
      rw [Option.bind_eq_some_iff] at hr
      obtain ⟨u1, hu1, hr⟩ := hr
      split at hr
      · next h1 =>
        cases hr
        refine ⟨rfl, le_rfl, rfl, rfl, fun b => ?_⟩
        beta_reduce
        rw [key, if_neg h0, hu1]
        simp [h1]
      · next h1 =>
        rw [Option.bind_eq_some_iff] at hr
        obtain ⟨r1, hr1, hr⟩ := hr
        have g1 := ih _ _ _ _ hr1
        have key' : ∀ buffer, removeMatching (enc st buffer) (nums ch) =
            if r1.1 then propagate (enc r1.2 buffer) (nums ch) true else some (false, enc r1.2 buffer) := by
          intro buffer
          rw [key, if_neg h0, hu1]
          simp only [Option.bind_eq_bind, Option.bind_some, if_neg h1, g1.2.2.2.2 buffer]
        split at hr
        · next h2 =>
          have g2 := ih _ _ _ _ hr
          refine ⟨g2.1.trans g1.1, (dropEdge_undo ch).trans (g1.2.1.trans g2.2.1), g2.2.2.1.trans g1.2.2.1,
            g2.2.2.2.1.trans g1.2.2.2.1, fun b => ?_⟩
          beta_reduce
          rw [key', if_pos h2]
          exact g2.2.2.2.2 b
        · next h2 =>
          cases hr
          refine ⟨g1.1, (dropEdge_undo ch).trans g1.2.1, g1.2.2.1, g1.2.2.2.1, fun b => ?_⟩
          beta_reduce
          rw [key', if_neg h2]
  · intro removeOthers' ih st ch side r hr
    simp only [Option.bind_eq_bind, Option.bind_eq_some_iff] at hr
    obtain ⟨u, hu, hr⟩ := hr
    have key : ∀ buffer, propagate (enc st buffer) (nums ch) side =
        if u = true then removeOthers (enc st buffer) side (nums ch side) (trailingZeros16 (st.matching side (ch side)).toNat)
        else some (true, enc st buffer) := by
      intro buffer
      rw [propagate]
      have m0 : ((enc st buffer).matching side)[nums ch side]? = some (st.matching side (ch side)).toNat := mask_enc _ _
      rw [m0]
      simp only [Option.bind_eq_bind, Option.bind_some, isUnique_eq, hu]
    split at hr
    · next h0 =>
      rw [Option.bind_eq_some_iff] at hr
      obtain ⟨other, ho, hr⟩ := hr
      have g := ih _ _ _ _ _ hr
      refine ⟨g.1, g.2.1, g.2.2.1, g.2.2.2.1, fun b => ?_⟩
      beta_reduce
      rw [key, if_pos h0, trailingZeros16_eq hn ho]
      exact g.2.2.2.2 b
    · next h0 =>
      cases hr
      refine ⟨rfl, le_rfl, rfl, rfl, fun b => ?_⟩
      beta_reduce
      rw [key, if_neg h0]
  · intro removeMatching' removeOthers' ih1 ih2 st side keep other r hr
    have key : ∀ buffer, removeOthers (enc st buffer) side keep other =
        (if (st.matching (!side) other &&& ~~~ bit keep) = 0#n then some (true, enc st buffer)
        else do
          let r ← removeMatching (enc st buffer)
            (pair side (trailingZeros16 (st.matching (!side) other &&& ~~~ bit keep).toNat) other)
          if r.1 then removeOthers r.2 side keep other else (some (false, r.2))) := by
      intro buffer
      rw [removeOthers, mask_enc, shl16_eq hn]
      simp only [Option.bind_eq_bind, Option.bind_some]
      rw [and_not16 hn]
      simp only [mask_eq_zero]
    dsimp only at hr
    split at hr
    · next h0 =>
      cases hr
      refine ⟨rfl, le_rfl, rfl, rfl, fun b => ?_⟩
      beta_reduce
      rw [key, if_pos h0]
    · next h0 =>
      simp only [Option.bind_eq_bind, Option.bind_eq_some_iff] at hr
      obtain ⟨target, ht, r1, hr1, hr⟩ := hr
      have g1 := ih1 _ _ _ hr1
      have key' : ∀ buffer, removeOthers (enc st buffer) side keep other =
          if r1.1 then removeOthers (enc r1.2 buffer) side keep other else some (false, enc r1.2 buffer) := by
        intro buffer
        rw [key, if_neg h0, trailingZeros16_eq hn ht, ← nums_pair]
        have := g1.2.2.2.2 buffer
        beta_reduce at this
        rw [this]
        rfl
      split at hr
      · next h1 =>
        have g2 := ih2 _ _ _ _ _ hr
        refine g1.trans g2 fun b _ => ?_
        beta_reduce
        rw [key', if_pos h1]
      · next h1 =>
        cases hr
        refine ⟨g1.1, g1.2.1, g1.2.2.1, g1.2.2.2.1, fun b => ?_⟩
        beta_reduce
        rw [key', if_neg h1]

theorem removeMatching_enc (hn : n ≤ 11) {st : Subsume.St n} {ch : Bool → Fin n} {r : Bool × Subsume.St n}
    (h : Subsume.removeMatching st ch = some r) : Good st r fun st => removeMatching st (nums ch) :=
  (remove_enc hn).1 st ch r h

theorem isolateMatching_enc (hn : n ≤ 11) {st : Subsume.St n} {ch : Bool → Fin n} {r : Bool × Subsume.St n}
    (h : Subsume.isolateMatching st ch = some r) : Good st r fun st => isolateMatching st (nums ch) := by
  refine Subsume.isolateMatching.partial_correctness ch (fun st r => Good st r fun st => isolateMatching st (nums ch)) ?_
    st r h
  intro iso ih st r hr
  have key : ∀ buffer, isolateMatching (enc st buffer) (nums ch) =
      (if (st.matching true (ch true) &&& ~~~ bit (ch false)) = 0#n then some (true, enc st buffer)
      else do
        let r ← removeMatching (enc st buffer)
          (pair false (trailingZeros16 (st.matching true (ch true) &&& ~~~ bit (ch false)).toNat) (ch true))
        if r.1 then isolateMatching r.2 (nums ch) else (some (false, r.2))) := by
    intro buffer
    have m0 : ((enc st buffer).matching true)[nums ch true]? = some (st.matching true (ch true)).toNat := mask_enc _ _
    have s0 : shl16 (nums ch false) = some (bit (ch false)).toNat := shl16_eq hn _
    rw [isolateMatching, m0, s0]
    simp only [Option.bind_eq_bind, Option.bind_some]
    rw [and_not16 hn]
    simp only [mask_eq_zero]
    rfl
  dsimp only at hr
  split at hr
  · next h0 =>
    cases hr
    refine ⟨rfl, le_rfl, rfl, rfl, fun b => ?_⟩
    beta_reduce
    rw [key, if_pos h0]
  · next h0 =>
    simp only [Option.bind_eq_bind, Option.bind_eq_some_iff] at hr
    obtain ⟨target, ht, r1, hr1, hr⟩ := hr
    have g1 := removeMatching_enc hn hr1
    have key' : ∀ buffer, isolateMatching (enc st buffer) (nums ch) =
        if r1.1 then isolateMatching (enc r1.2 buffer) (nums ch) else some (false, enc r1.2 buffer) := by
      intro buffer
      rw [key, if_neg h0, trailingZeros16_eq hn ht, ← nums_pair]
      have := g1.2.2.2.2 buffer
      beta_reduce at this
      rw [this]
      rfl
    split at hr
    · next h1 =>
      refine g1.trans (ih _ _ hr) fun b _ => ?_
      beta_reduce
      rw [key', if_pos h1]
    · next h1 =>
      cases hr
      refine ⟨g1.1, g1.2.1, g1.2.2.1, g1.2.2.2.1, fun b => ?_⟩
      beta_reduce
      rw [key', if_neg h1]

end Sortnet.SliceSubsume
