import Verif.Model.Decode
import Verif.Proof.ProofEncode
import Verif.Proof.RefSets

/-! # Decoding what was encoded -/

namespace Sortnet.Decode

theorem wrap64_of_lt {x : ℤ} (h0 : 0 ≤ x) (h1 : x < 2 ^ 63) : wrap64 x = x := by
  unfold wrap64
  rw [Int.bmod_def]
  omega

theorem wrap64_nat {x : ℕ} (h : x < 2 ^ 63) : wrap64 (x : ℤ) = x := by
  unfold wrap64
  rw [Int.bmod_def]
  omega

theorem index_append_left (u : Undef) {a b : List UInt8} {i : ℕ} (h : i < a.length) : index u (a ++ b) i = index u a i := by
  simp [index, List.getD_eq_getElem?_getD, List.getElem?_append_left h]

theorem toNat_ofNat (x : ℕ) : (UInt8.ofNat x).toNat = x % 256 := by simp

theorem leBytes_length (m x : ℕ) : (leBytes m x).length = m := by
  induction m generalizing x with
  | zero => rfl
  | succ m ih => rw [leBytes, List.length_cons, ih]

theorem leBytes_getElem? (m x k : ℕ) (h : k < m) : (leBytes m x)[k]? = some (UInt8.ofNat (x / 256 ^ k)) := by
  induction m generalizing x k with
  | zero => omega
  | succ m ih =>
    cases k with
    | zero => simp [leBytes]
    | succ k =>
      rw [leBytes, List.getElem?_cons_succ, ih _ _ (by omega), Nat.div_div_eq_div_mul, pow_succ, mul_comm (256 ^ k)]

theorem readLE_succ (u : Undef) (k : ℕ) (bs : List UInt8) : readLE u (k + 1) bs =
    wrap64 (readLE u k bs + wrap64 ((index u bs k).toNat * 2 ^ (8 * k))) := by
  unfold readLE
  rw [List.range_succ, List.map_append, List.foldl_append, List.map_cons, List.map_nil, List.foldl_cons, List.foldl_nil]

theorem index_leBytes (u : Undef) {x m : ℕ} (r : List UInt8) (k : ℕ) (hk : k < m) :
    (index u (leBytes m x ++ r) k).toNat = x / 256 ^ k % 256 := by
  unfold index
  rw [List.getD_eq_getElem?_getD, List.getElem?_append_left (by rw [leBytes_length]; omega),
    leBytes_getElem? _ _ _ hk, Option.getD_some, toNat_ofNat]

theorem two_pow_eight (k : ℕ) : (2 : ℤ) ^ (8 * k) = ((256 ^ k : ℕ) : ℤ) := by
  rw [pow_mul, Nat.cast_pow]; norm_num

theorem mod_pow_succ (x k : ℕ) : x % 256 ^ (k + 1) = x % 256 ^ k + (x / 256 ^ k % 256) * 256 ^ k := by
  rw [pow_succ, Nat.mod_mul, mul_comm (256 ^ k)]

theorem readLE_leBytes (u : Undef) {x m : ℕ} (h : ∀ y : ℕ, y ≤ x → wrap64 (y : ℤ) = y) (r : List UInt8) (k : ℕ)
    (hk : k ≤ m) : readLE u k (leBytes m x ++ r) = (x % 256 ^ k : ℕ) := by
  induction k with
  | zero => simp [readLE, Nat.mod_one]
  | succ k ih =>
    have hle : x % 256 ^ (k + 1) ≤ x := Nat.mod_le _ _
    have hsum := mod_pow_succ x k
    rw [readLE_succ, ih (Nat.le_of_succ_le hk), index_leBytes u r k hk, two_pow_eight, ← Nat.cast_mul,
      h _ (le_trans (by rw [hsum]; exact Nat.le_add_left _ _) hle), ← Nat.cast_add, ← hsum, h _ hle]

theorem read32LE_leBytes (u : Undef) {x : ℕ} (h : x < 2 ^ 32) (r : List UInt8) :
    read32LE u (leBytes 4 x ++ r) = x := by
  rw [read32LE, readLE_leBytes u (fun y hy => wrap64_nat (by omega)) r 4 (le_refl _), Nat.mod_eq_of_lt (by omega)]

theorem read64LE_leBytes (u : Undef) {x : ℕ} (h : x < 2 ^ 63) (r : List UInt8) :
    read64LE u (leBytes 8 x ++ r) = x := by
  rw [read64LE, readLE_leBytes u (fun y hy => wrap64_nat (by omega)) r 8 (le_refl _), Nat.mod_eq_of_lt (by omega)]

/-! ## Sets of vectors -/

theorem ctz_lt : ∀ n : Fin 256, n ≠ 0 → ctz (UInt8.ofNat n) < 8 := by decide +kernel

theorem testBit_ctz : ∀ n : Fin 256, n ≠ 0 → ∀ i : Fin 8, (n : ℕ).testBit i =
    (decide ((i : ℕ) = ctz (UInt8.ofNat n)) || (UInt8.ofNat n &&& (UInt8.ofNat n - 1)).toNat.testBit i) := by
  decide +kernel

theorem addByte_spec (s : List (BitVec 64) × ℕ) (b : UInt8) : (addByte s b).2 = s.2 + 8 ∧
    (s.1.Nodup → (addByte s b).1.Nodup) ∧ ∀ v, v ∈ (addByte s b).1 ↔
      v ∈ s.1 ∨ ∃ i, i < 8 ∧ b.toNat.testBit i = true ∧ v = BitVec.ofNat 64 (s.2 + i) := by
  fun_induction addByte s b with
  | case1 s => simp
  | case2 s b hb ih =>
    obtain ⟨ih1, ih2, ih3⟩ := ih
    have hb' : (⟨b.toNat, b.toNat_lt⟩ : Fin 256) ≠ 0 := by
      intro h
      apply hb
      apply UInt8.toNat_inj.1
      simpa using congrArg Fin.val h
    have hc := ctz_lt ⟨b.toNat, b.toNat_lt⟩ hb'
    have ht := fun i : Fin 8 => testBit_ctz ⟨b.toNat, b.toNat_lt⟩ hb' i
    simp only [UInt8.ofNat_toNat] at hc ht
    refine ⟨ih1, fun h => ih2 (Ref.nodup_isInsert h), fun v => ?_⟩
    rw [ih3]
    simp only [Ref.mem_isInsert]
    constructor
    · rintro ((rfl | h) | ⟨i, hi, h1, rfl⟩)
      · exact Or.inr ⟨ctz b, hc, by rw [ht ⟨_, hc⟩]; simp, rfl⟩
      · exact Or.inl h
      · exact Or.inr ⟨i, hi, by rw [ht ⟨i, hi⟩, h1, Bool.or_true], rfl⟩
    · rintro (h | ⟨i, hi, h1, rfl⟩)
      · exact Or.inl (Or.inr h)
      · rw [ht ⟨i, hi⟩, Bool.or_eq_true, decide_eq_true_iff] at h1
        rcases h1 with h1 | h1
        · exact Or.inl (Or.inl (by rw [← h1]))
        · exact Or.inr ⟨i, hi, h1, rfl⟩

theorem testBit_and (b : UInt8) (i : ℕ) (hi : i < 8) : ((b &&& (1 <<< UInt8.ofNat i)) != 0) = b.toNat.testBit i := by
  have : ∀ (n : Fin 256) (i : Fin 8), ((UInt8.ofNat n &&& (1 <<< UInt8.ofNat i)) != 0) = (n : ℕ).testBit i := by
    decide +kernel
  have h := this ⟨b.toNat, b.toNat_lt⟩ ⟨i, hi⟩
  simpa only [UInt8.ofNat_toNat] using h

theorem foldl_addByte (l : List Bool) (s : List (BitVec 64)) (k : ℕ) :
    (s.Nodup → ((packBits l).foldl addByte (s, k)).1.Nodup) ∧ ∀ v, v ∈ ((packBits l).foldl addByte (s, k)).1 ↔
      v ∈ s ∨ ∃ i, l[i]? = some true ∧ v = BitVec.ofNat 64 (k + i) := by
  fun_induction packBits l generalizing s k with
  | case1 l h =>
    rw [List.length_eq_zero_iff] at h
    simp [h]
  | case2 l h ih =>
    rw [List.foldl_cons]
    obtain ⟨a1, a2, a3⟩ := addByte_spec (s, k) (packByte (l.take 8))
    obtain ⟨i1, i2⟩ := ih (addByte (s, k) (packByte (l.take 8))).1 (addByte (s, k) (packByte (l.take 8))).2
    refine ⟨fun hn => i1 (a2 hn), fun v => ?_⟩
    have e : addByte (s, k) (packByte (l.take 8)) =
      ((addByte (s, k) (packByte (l.take 8))).1, (addByte (s, k) (packByte (l.take 8))).2) := rfl
    rw [e, i2, a3, a1]
    dsimp only
    constructor
    · rintro ((h | ⟨i, hi, h1, rfl⟩) | ⟨i, h1, rfl⟩)
      · exact Or.inl h
      · rw [← testBit_and _ _ hi, packByte_bit _ _ hi, List.getElem?_take_of_lt hi] at h1
        refine Or.inr ⟨i, ?_, rfl⟩
        cases hl : l[i]? with
        | none => rw [hl] at h1; simp at h1
        | some b => rw [hl] at h1; simp at h1; rw [h1]
      · rw [List.getElem?_drop] at h1
        exact Or.inr ⟨8 + i, h1, by rw [Nat.add_assoc]⟩
    · rintro (h | ⟨i, h1, rfl⟩)
      · exact Or.inl (Or.inl h)
      · by_cases hi : i < 8
        · refine Or.inl (Or.inr ⟨i, hi, ?_, rfl⟩)
          rw [← testBit_and _ _ hi, packByte_bit _ _ hi, List.getElem?_take_of_lt hi, h1]
          rfl
        · refine Or.inr ⟨i - 8, ?_, ?_⟩
          · rw [List.getElem?_drop, show 8 + (i - 8) = i by omega, h1]
          · rw [show k + 8 + (i - 8) = k + i by omega]

theorem toList_getElem? {n : ℕ} (s : Bitmap n) (i : ℕ) :
    s.toList[i]? = some true ↔ ∃ x : BitVec n, s x = true ∧ x.toNat = i := by
  constructor
  · intro h
    obtain ⟨hi, h⟩ := List.getElem?_eq_some_iff.1 h
    rw [toList_length] at hi
    refine ⟨BitVec.ofNat n i, ?_, by rw [BitVec.toNat_ofNat, Nat.mod_eq_of_lt hi]⟩
    rw [← h]
    simp [Bitmap.toList, indices]
  · rintro ⟨x, hx, rfl⟩
    rw [List.getElem?_eq_some_iff]
    refine ⟨by rw [toList_length]; exact x.isLt, ?_⟩
    simp [Bitmap.toList, indices, hx]

/-- Decoding a packed set. -/
theorem fromBytes_packed {n : ℕ} (s : Bitmap n) : (fromBytes n s.packed).vects.Nodup ∧
    ∀ v, v ∈ (fromBytes n s.packed).vects ↔ ∃ x : BitVec n, s x = true ∧ v = BitVec.ofNat 64 x.toNat := by
  obtain ⟨h1, h2⟩ := foldl_addByte s.toList [] 0
  refine ⟨h1 List.nodup_nil, fun v => ?_⟩
  show v ∈ ((packBits s.toList).foldl addByte ([], 0)).1 ↔ _
  rw [h2]
  simp only [List.not_mem_nil, false_or, Nat.zero_add, toList_getElem?]
  constructor
  · rintro ⟨i, ⟨x, hx, rfl⟩, rfl⟩
    exact ⟨x, hx, rfl⟩
  · rintro ⟨x, hx, rfl⟩
    exact ⟨_, ⟨x, hx, rfl⟩, rfl⟩

theorem fits_ofNat {n : ℕ} (x : BitVec n) : Ref.Fits n (BitVec.ofNat 64 x.toNat) := by
  intro i hi
  simp only [BitVec.getLsbD_ofNat]
  rw [Nat.testBit_lt_two_pow (lt_of_lt_of_le x.isLt (Nat.pow_le_pow_right (by omega) hi)), Bool.and_false]

theorem mem_asBoolVectList {n : ℕ} (hn : n ≤ 64) (s : Bitmap n) (l : List Bool) :
    l ∈ Ref.asBoolVectList (fromBytes n s.packed) ↔ ∃ x ∈ s.toSet, l = List.ofFn x := by
  unfold Ref.asBoolVectList
  simp only [List.mem_map, (fromBytes_packed s).2]
  have key : ∀ x : BitVec n, (List.range n).map (Ref.testBit (BitVec.ofNat 64 x.toNat)) = List.ofFn fun i : Fin n => x.getLsbD i := by
    intro x
    apply List.ext_getElem
    · simp
    · intro i h1 h2
      have hi : i < n := by simpa using h1
      simp only [List.getElem_map, List.getElem_range, List.getElem_ofFn, Ref.testBit, BitVec.getLsbD_ofNat]
      rw [show decide (i < 64) = true from decide_eq_true (by omega), Bool.true_and]
      rfl
  constructor
  · rintro ⟨v, ⟨x, hx, rfl⟩, rfl⟩
    exact ⟨fun i => x.getLsbD i, ⟨x, hx, fun i => rfl⟩, key x⟩
  · rintro ⟨w, ⟨x, hx, hw⟩, rfl⟩
    refine ⟨_, ⟨x, hx, rfl⟩, ?_⟩
    rw [funext hw]
    exact key x

theorem nodup_asBoolVectList {n : ℕ} (s : Bitmap n) : (Ref.asBoolVectList (fromBytes n s.packed)).Nodup := by
  unfold Ref.asBoolVectList
  obtain ⟨h1, h2⟩ := fromBytes_packed s
  refine (List.nodup_map_iff_inj_on h1).2 ?_
  intro v hv w hw h
  obtain ⟨x, _, rfl⟩ := (h2 v).1 hv
  obtain ⟨y, _, rfl⟩ := (h2 w).1 hw
  exact Ref.boolVect_inj (fits_ofNat x) (fits_ofNat y) h

/-! ## References -/

theorem decodeWitnesses_refs (u : Undef) (n : ℕ) (refs : List (Option CertRef))
    (h : ∀ r, some r ∈ refs → r.perm.length = n ∧ (∀ p ∈ r.perm, p < 256) ∧ r.id < 2 ^ 32) :
    decodeWitnesses u n (refs.flatMap refBytes) =
      refs.map fun r => r.map fun r => { stepId := r.id, invert := r.invert, perm := r.perm } := by
  induction refs with
  | nil => rw [List.flatMap_nil, decodeWitnesses]; rfl
  | cons r refs ih =>
    have ih := ih fun r hr => h r (List.mem_cons_of_mem _ hr)
    rw [List.flatMap_cons]
    cases r with
    | none =>
      rw [refBytes, List.cons_append, List.nil_append, decodeWitnesses, if_neg (by decide), if_pos rfl, ih]
      rfl
    | some r =>
      obtain ⟨h1, h2, h3⟩ := h r List.mem_cons_self
      have hb : UInt8.ofNat r.invert.toNat = 0 ∨ UInt8.ofNat r.invert.toNat = 1 := by
        cases r.invert <;> decide
      have e : ((r.perm.map UInt8.ofNat ++ leBytes 4 r.id) ++ refs.flatMap refBytes).drop n =
          leBytes 4 r.id ++ refs.flatMap refBytes := by
        rw [List.append_assoc, List.drop_append_of_le_length (by simp [h1]), List.drop_of_length_le (by simp [h1]),
          List.nil_append]
      have e1 : ((r.perm.map UInt8.ofNat ++ leBytes 4 r.id) ++ refs.flatMap refBytes).take n = r.perm.map UInt8.ofNat := by
        rw [List.append_assoc, List.take_append_of_le_length (by simp [h1]), List.take_of_length_le (by simp [h1])]
      rw [refBytes, CertRef.bytes, List.cons_append, decodeWitnesses, if_pos hb, e, e1, read32LE_leBytes u h3,
        List.drop_append_of_le_length (by rw [leBytes_length]), List.drop_of_length_le (by rw [leBytes_length]),
        List.nil_append, ih, List.map_cons]
      congr 1
      simp only [Option.map_some, Option.some.injEq, Ref.Witness.mk.injEq]
      refine ⟨Int.toNat_natCast _, by cases r.invert <;> decide, ?_⟩
      rw [List.map_map]
      conv_rhs => rw [← List.map_id r.perm]
      apply List.map_congr_left
      intro p hp
      rw [Function.comp_apply, toNat_ofNat, Nat.mod_eq_of_lt (h2 p hp)]
      rfl

/-! ## Steps -/

theorem bit_packedLen {n : ℕ} (hn : n < 64) : bit (n - 3) = packedLen n := by
  have : ∀ n : Fin 64, bit (n - 3) = packedLen n := by decide +kernel
  exact this ⟨n, hn⟩

theorem decodeProofStep_bytes (u : Undef) {c : CertStep} (h : c.Representable) :
    c.Decoded (decodeProofStep u c.bytes) := by
  obtain ⟨hn, hb, hr, _⟩ := h
  have e0 : (index u c.bytes 0).toNat = c.set.n := by
    show (UInt8.ofNat c.set.n).toNat = _
    rw [toNat_ofNat, Nat.mod_eq_of_lt (by omega)]
  have e1 : (index u c.bytes 1).toNat = c.bound := by
    show (UInt8.ofNat c.bound).toNat = _
    rw [toNat_ofNat, Nat.mod_eq_of_lt hb]
  have hp := packed_length c.set.s
  have e2 : take (bit (c.set.n - 3)) (drop 2 c.bytes) = c.set.s.packed := by
    rw [bit_packedLen hn, take, Int.toNat_natCast]
    show (c.set.s.packed ++ _).take _ = _
    rw [List.take_append_of_le_length (by rw [hp]), List.take_of_length_le (by rw [hp])]
  have e3 : drop (bit (c.set.n - 3) + 2) c.bytes = (match c.kind with
      | .huffman pol => UInt8.ofNat pol.toNat
      | .successors => 2) :: c.refs.flatMap refBytes := by
    rw [bit_packedLen hn, drop, show ((packedLen c.set.n : ℤ) + 2).toNat = packedLen c.set.n + 2 by omega]
    show (c.set.s.packed ++ _).drop _ = _
    rw [List.drop_append_of_le_length (by rw [hp]), List.drop_of_length_le (by rw [hp]), List.nil_append]
    cases c.kind <;> rfl
  unfold decodeProofStep
  dsimp only
  rw [e0, e1, e2, e3]
  refine ⟨rfl, fun l => mem_asBoolVectList (by omega) c.set.s l, nodup_asBoolVectList c.set.s, rfl, ?_⟩
  dsimp only
  unfold CertStep.witnesses
  cases hk : c.kind with
  | huffman pol =>
    have hr' := fun r hr' => hr r hr'
    simp only [hk] at hr'
    dsimp only
    show (if UInt8.ofNat pol.toNat = 0 then Ref.Witnesses.huffman false (decodeWitnesses u (c.set.n - 1) (c.refs.flatMap refBytes))
      else if UInt8.ofNat pol.toNat = 1 then _ else _) = _
    cases pol
    · rw [if_pos (by decide), decodeWitnesses_refs u _ _ hr']
    · rw [if_neg (by decide), if_pos (by decide), show drop 1 (UInt8.ofNat true.toNat :: c.refs.flatMap refBytes) =
        c.refs.flatMap refBytes from rfl, decodeWitnesses_refs u _ _ hr']
  | successors =>
    have hr' := fun r hr' => hr r hr'
    simp only [hk] at hr'
    dsimp only
    have : index u ((2 : UInt8) :: c.refs.flatMap refBytes) 0 = 2 := rfl
    rw [this, if_neg (by decide), if_neg (by decide), if_pos rfl, show drop 1 ((2 : UInt8) :: c.refs.flatMap refBytes) =
        c.refs.flatMap refBytes from rfl, decodeWitnesses_refs u _ _ hr']

/-! ## The file -/

open ProofGen

theorem offsetTable_length (o : ℕ) (steps : List (List UInt8)) : (offsetTable o steps).length = 12 * steps.length := by
  induction steps generalizing o with
  | nil => rfl
  | cons s steps ih =>
    rw [offsetTable, List.length_append, List.length_append, ih, le64_eq, le32_eq, leBytes_length, leBytes_length,
      List.length_cons]
    omega

theorem offsetTable_drop (o : ℕ) (steps : List (List UInt8)) (i : ℕ) (hi : i < steps.length) (tail : List UInt8) :
    ∃ rest, (offsetTable o steps ++ tail).drop (12 * i) =
      leBytes 8 (o + (steps.take i).flatten.length) ++ (leBytes 4 steps[i].length ++ rest) := by
  induction steps generalizing o i with
  | nil => simp at hi
  | cons s steps ih =>
    cases i with
    | zero =>
      refine ⟨offsetTable (o + s.length) steps ++ tail, ?_⟩
      rw [offsetTable, le64_eq, le32_eq]
      simp
    | succ i =>
      obtain ⟨rest, hr⟩ := ih (o + s.length) i (by simpa using hi)
      refine ⟨rest, ?_⟩
      rw [offsetTable, List.append_assoc, List.drop_append, le64_eq, le32_eq, List.length_append, leBytes_length, leBytes_length,
        List.drop_of_length_le (by rw [List.length_append, leBytes_length, leBytes_length]; omega), List.nil_append,
        show 12 * (i + 1) - (8 + 4) = 12 * i by omega, hr, List.take_succ_cons, List.flatten_cons, List.length_append,
        Nat.add_assoc]
      rfl

theorem flatten_drop (steps : List (List UInt8)) (i : ℕ) (hi : i < steps.length) :
    ∃ rest, steps.flatten.drop (steps.take i).flatten.length = steps[i] ++ rest := by
  induction steps generalizing i with
  | nil => simp at hi
  | cons s steps ih =>
    cases i with
    | zero => exact ⟨steps.flatten, by simp⟩
    | succ i =>
      obtain ⟨rest, hr⟩ := ih i (by simpa using hi)
      refine ⟨rest, ?_⟩
      rw [List.take_succ_cons, List.flatten_cons, List.flatten_cons, List.length_append, List.drop_append,
        List.drop_of_length_le (by omega), List.nil_append, Nat.add_sub_cancel_left, hr]
      rfl

theorem stepCount_writeProof (u : Undef) {steps : List (List UInt8)} (h : steps.length < 2 ^ 32) :
    stepCount u (writeProof steps) = steps.length := by
  rw [stepCount, writeProof, le32_eq, List.append_assoc, read32LE_leBytes u h]

theorem stepData_writeProof (u : Undef) {steps : List (List UInt8)} (h : steps.length < 2 ^ 32)
    (hl : (writeProof steps).length < 2 ^ 63) (i : ℕ) (hi : i < steps.length) (hs : steps[i].length < 2 ^ 32) :
    stepData u (writeProof steps) i = steps[i] := by
  obtain ⟨rest, hr⟩ := offsetTable_drop (4 + 12 * steps.length) steps i hi steps.flatten
  obtain ⟨rest', hr'⟩ := flatten_drop steps i hi
  have hlen : (writeProof steps).length = 4 + 12 * steps.length + steps.flatten.length := by
    rw [writeProof, List.length_append, List.length_append, offsetTable_length, le32_eq, leBytes_length]
  have htake : (steps.take i).flatten.length ≤ steps.flatten.length := by
    conv_rhs => rw [← List.take_append_drop i steps]
    rw [List.flatten_append, List.length_append]
    omega
  have e1 : drop (wrap64 (4 + 12 * (i : ℤ))) (writeProof steps) =
      leBytes 8 (4 + 12 * steps.length + (steps.take i).flatten.length) ++ (leBytes 4 steps[i].length ++ rest) := by
    rw [show (4 + 12 * (i : ℤ)) = ((4 + 12 * i : ℕ) : ℤ) by push_cast; rfl, wrap64_nat (by omega), drop, Int.toNat_natCast,
      writeProof, List.append_assoc, ← List.drop_drop, List.drop_left' (by rw [le32_eq, leBytes_length]), hr]
  have e2 : drop ((4 + 12 * steps.length + (steps.take i).flatten.length : ℕ) : ℤ) (writeProof steps) = steps[i] ++ rest' := by
    rw [drop, Int.toNat_natCast, ← List.drop_drop, writeProof,
      List.drop_left' (by rw [List.length_append, offsetTable_length, le32_eq, leBytes_length]), hr']
  have e3 : drop 8 (leBytes 8 (4 + 12 * steps.length + (steps.take i).flatten.length) ++ (leBytes 4 steps[i].length ++ rest)) =
      leBytes 4 steps[i].length ++ rest := by
    show List.drop 8 _ = _
    rw [List.drop_append_of_le_length (by rw [leBytes_length]), List.drop_of_length_le (by rw [leBytes_length]), List.nil_append]
  unfold stepData
  dsimp only
  rw [e1, read64LE_leBytes u (by omega), e2, e3, read32LE_leBytes u hs, take, Int.toNat_natCast,
    List.take_append_of_le_length (le_refl _), List.take_of_length_le (le_refl _)]

end Sortnet.Decode
