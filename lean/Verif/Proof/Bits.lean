import Verif.Spec.Bitmap
import Verif.Theory.Vec
import Mathlib.Data.List.Nodup
import Mathlib.Tactic.Ring

/-!
# Bit vectors as channel values, and the masked loop
-/

namespace Sortnet

/-- The channel values encoded by an array index: channel `i` is bit `i`. -/
def vecOf {n : ℕ} (x : BitVec n) : Fin n → Bool := fun i => x.getLsbD i

/-- The array index encoding channel values. -/
def idxOf {n : ℕ} (v : Fin n → Bool) : BitVec n :=
  (BitVec.ofBoolListLE (List.ofFn v)).cast (by simp)

theorem vecOf_idxOf {n : ℕ} (v : Fin n → Bool) : vecOf (idxOf v) = v := by
  funext i
  simp only [vecOf, idxOf, BitVec.getLsbD_cast, BitVec.getLsbD_ofBoolListLE]
  simp

theorem idxOf_vecOf {n : ℕ} (x : BitVec n) : idxOf (vecOf x) = x := by
  apply BitVec.eq_of_getLsbD_eq
  intro i hi
  have := congrFun (vecOf_idxOf (vecOf x)) ⟨i, hi⟩
  simpa [vecOf] using this

/-- Array indices and channel values are in bijection. -/
def vecEquiv (n : ℕ) : BitVec n ≃ (Fin n → Bool) := ⟨vecOf, idxOf, idxOf_vecOf, vecOf_idxOf⟩

theorem vecOf_injective {n : ℕ} : Function.Injective (vecOf (n := n)) := (vecEquiv n).injective

theorem vecOf_surjective {n : ℕ} : Function.Surjective (vecOf (n := n)) := (vecEquiv n).surjective

@[simp] theorem vecOf_xor {n : ℕ} (x y : BitVec n) (i : Fin n) :
    vecOf (x ^^^ y) i = (vecOf x i ^^ vecOf y i) := by simp [vecOf]
@[simp] theorem vecOf_or {n : ℕ} (x y : BitVec n) (i : Fin n) :
    vecOf (x ||| y) i = (vecOf x i || vecOf y i) := by simp [vecOf]
@[simp] theorem vecOf_and {n : ℕ} (x y : BitVec n) (i : Fin n) :
    vecOf (x &&& y) i = (vecOf x i && vecOf y i) := by simp [vecOf]
@[simp] theorem vecOf_not {n : ℕ} (x : BitVec n) (i : Fin n) :
    vecOf (~~~ x) i = !(vecOf x i) := by simp [vecOf]
@[simp] theorem vecOf_bit {n : ℕ} (c i : Fin n) : vecOf (bit c) i = decide (i = c) := by
  simp only [vecOf, bit, BitVec.getLsbD_twoPow, Fin.ext_iff]
  simp [c.isLt, eq_comm]
@[simp] theorem vecOf_allOnes {n : ℕ} (i : Fin n) : vecOf (BitVec.allOnes n) i = true := by
  simp [vecOf]
@[simp] theorem vecOf_zero {n : ℕ} (i : Fin n) : vecOf (0#n) i = false := by
  simp [vecOf]

theorem vec_ext {n : ℕ} {x y : BitVec n} (h : ∀ i, vecOf x i = vecOf y i) : x = y :=
  vecOf_injective (funext h)

theorem Bitmap.mem_toSet {n : ℕ} (s : Bitmap n) (v : Fin n → Bool) :
    v ∈ s.toSet ↔ s (idxOf v) = true := by
  constructor
  · rintro ⟨x, hx, h⟩
    have : v = vecOf x := funext h
    rw [this, idxOf_vecOf]; exact hx
  · intro h
    exact ⟨_, h, fun i => (congrFun (vecOf_idxOf v) i).symm⟩

theorem Bitmap.vecOf_mem {n : ℕ} (s : Bitmap n) (x : BitVec n) : vecOf x ∈ s.toSet ↔ s x = true := by
  rw [mem_toSet, idxOf_vecOf]

theorem Bitmap.toSet_eq_image {n : ℕ} (s : Bitmap n) : s.toSet = vecOf '' {x | s x = true} := by
  ext v
  constructor
  · intro h; exact ⟨idxOf v, (s.mem_toSet v).1 h, vecOf_idxOf v⟩
  · rintro ⟨x, hx, rfl⟩; exact (s.vecOf_mem x).2 hx

theorem Bitmap.toSet_injective {n : ℕ} : Function.Injective (Bitmap.toSet (n := n)) := by
  intro s t h
  funext x
  have := congrArg (vecOf x ∈ ·) h
  simp only [vecOf_mem, eq_iff_iff] at this
  exact Bool.eq_iff_iff.2 this

/-! ## The masked loop -/

theorem nat_or_eq_of_and_eq {a m : ℕ} (h : a &&& m = m) : a ||| m = a := by
  apply Nat.eq_of_testBit_eq
  intro k
  have := congrArg (Nat.testBit · k) h
  simp only [Nat.testBit_and] at this
  simp only [Nat.testBit_or]
  cases h1 : a.testBit k <;> cases h2 : m.testBit k <;> simp_all

theorem nat_mask_step {m i j : ℕ} (hi : i &&& m = m) (hj : j &&& m = m) (hij : i < j) :
    (i + 1) ||| m ≤ j := by
  induction m using Nat.strongRecOn generalizing i j with
  | _ m ih =>
    rcases Nat.eq_zero_or_pos m with rfl | hm
    · rw [Nat.or_zero]; exact hij
    · have hj2 : (j / 2) &&& (m / 2) = m / 2 := by rw [← Nat.and_div_two, hj]
      have hi2 : (i / 2) &&& (m / 2) = m / 2 := by rw [← Nat.and_div_two, hi]
      have hbit : ∀ a, a &&& m = m → m % 2 ≤ a % 2 := by
        intro a ha
        have := congrArg (· % 2) ha
        simp only [Nat.and_mod_two_pow (n := 1), pow_one] at this
        rw [← this]
        exact Nat.and_le_left
      have hbi := hbit i hi
      have hbj := hbit j hj
      have h1 := Nat.or_div_two (a := i + 1) (b := m)
      have h2 := Nat.or_mod_two_pow (a := i + 1) (b := m) (n := 1)
      simp only [pow_one] at h2
      rcases Nat.mod_two_eq_zero_or_one i with h0 | h0
      · have e1 : (i + 1) / 2 = i / 2 := by omega
        have e2 : m % 2 = 0 := by omega
        rw [e1, nat_or_eq_of_and_eq hi2] at h1
        rw [e2, Nat.or_zero] at h2
        omega
      · have e1 : (i + 1) / 2 = i / 2 + 1 := by omega
        have e2 : (i + 1) % 2 = 0 := by omega
        rw [e1] at h1
        rw [e2, Nat.zero_or] at h2
        have := ih (m / 2) (by omega) hi2 hj2 (by omega)
        omega

theorem nat_or_and_mask (a m : ℕ) : (a ||| m) &&& m = m := by
  apply Nat.eq_of_testBit_eq
  intro k
  simp only [Nat.testBit_and, Nat.testBit_or]
  cases a.testBit k <;> cases m.testBit k <;> rfl

theorem filter_range'_skip {p : ℕ → Bool} {a b k : ℕ} (hab : a ≤ b) (h : ∀ x, a ≤ x → x < b → p x = false) :
    (List.range' a k).filter p = (List.range' b (k - (b - a))).filter p := by
  induction k generalizing a with
  | zero => simp
  | succ k ih =>
    by_cases hlt : a < b
    · rw [List.range'_succ, List.filter_cons_of_neg (by simp [h a le_rfl hlt]),
        ih (Nat.succ_le_of_lt hlt) (fun x hx => h x (by omega))]
      congr 2; omega
    · have : a = b := by omega
      subst this; simp

/-- The indices visited by the masked loop: all supersets of the mask, in increasing order. -/
def maskIndices (n mask : ℕ) : List (BitVec n) :=
  ((List.range (2 ^ n)).filter fun i => i &&& mask = mask).map (BitVec.ofNat n)

theorem maskLoop_eq_aux {σ : Type} (n mask : ℕ) (f : BitVec n → σ → σ) (index : ℕ) (s : σ)
    (h : index &&& mask = mask) :
    maskLoop n mask f index s =
      (((List.range' index (2 ^ n - index)).filter fun i => i &&& mask = mask).map (BitVec.ofNat n)).foldl
        (fun s x => f x s) s := by
  fun_induction maskLoop n mask f index s with
  | case1 index s hlt ih =>
    rw [ih (nat_or_and_mask _ _)]
    have hle : index + 1 ≤ (index + 1) ||| mask := Nat.left_le_or
    have : 2 ^ n - index = (2 ^ n - (index + 1)) + 1 := by omega
    rw [this, List.range'_succ, List.filter_cons_of_pos (by simpa using h), List.map_cons, List.foldl_cons]
    rw [filter_range'_skip hle]
    · congr 4; omega
    · intro x hx hx'
      simp only [decide_eq_false_iff_not]
      intro hm
      have := nat_mask_step h hm hx
      omega
  | case2 index s hlt =>
    have : 2 ^ n - index = 0 := by omega
    simp [this]

theorem maskLoop_eq {σ : Type} (n mask : ℕ) (f : BitVec n → σ → σ) (s : σ) :
    maskLoop n mask f mask s = (maskIndices n mask).foldl (fun s x => f x s) s := by
  rw [maskLoop_eq_aux n mask f mask s (by simp), maskIndices, List.range_eq_range',
    filter_range'_skip (Nat.zero_le mask)]
  · simp
  · intro x _ hx
    simp only [decide_eq_false_iff_not]
    intro h
    have : x &&& mask ≤ x := Nat.and_le_left
    omega

theorem mem_maskIndices {n : ℕ} (mask x : BitVec n) :
    x ∈ maskIndices n mask.toNat ↔ x &&& mask = mask := by
  simp only [maskIndices, List.mem_map, List.mem_filter, List.mem_range, decide_eq_true_eq]
  constructor
  · rintro ⟨i, ⟨hi, hm⟩, rfl⟩
    apply BitVec.eq_of_toNat_eq
    simpa [Nat.mod_eq_of_lt hi] using hm
  · intro h
    refine ⟨x.toNat, ⟨x.isLt, ?_⟩, by simp⟩
    rw [← BitVec.toNat_and, h]

theorem maskIndices_nodup (n mask : ℕ) : (maskIndices n mask).Nodup := by
  have : List.Sublist (maskIndices n mask) (indices n) := by
    unfold maskIndices indices
    exact List.Sublist.map _ List.filter_sublist
  exact this.nodup (indices_nodup n)

/-- A fold whose step `i` only reads and writes the block of cells with key `i` acts on every block
independently. -/
theorem foldl_local {ι α β γ : Type} [DecidableEq ι] (key : α → ι) (g : ι → (α → β) → (α → β))
    (h : ι → (α → β) → γ → γ) (L : List ι) (hnd : L.Nodup)
    (hloc : ∀ i ∈ L, ∀ s x, key x ≠ i → g i s x = s x)
    (hread : ∀ i ∈ L, ∀ s s', (∀ x, key x = i → s x = s' x) → ∀ x, key x = i → g i s x = g i s' x)
    (hread' : ∀ i ∈ L, ∀ s s' a, (∀ x, key x = i → s x = s' x) → h i s a = h i s' a)
    (s : α → β) (a : γ) :
    (∀ x, (L.foldl (fun (st : (α → β) × γ) i => (g i st.1, h i st.1 st.2)) (s, a)).1 x =
      if key x ∈ L then g (key x) s x else s x) ∧
    (L.foldl (fun (st : (α → β) × γ) i => (g i st.1, h i st.1 st.2)) (s, a)).2 =
      L.foldl (fun a i => h i s a) a := by
  induction L generalizing s a with
  | nil => simp
  | cons i L ih =>
    obtain ⟨hi, hnd⟩ := List.nodup_cons.1 hnd
    have hil : i ∈ i :: L := by simp
    obtain ⟨ih1, ih2⟩ := ih hnd (fun j hj => hloc j (List.mem_cons_of_mem _ hj))
      (fun j hj => hread j (List.mem_cons_of_mem _ hj))
      (fun j hj => hread' j (List.mem_cons_of_mem _ hj)) (g i s) (h i s a)
    simp only [List.foldl_cons]
    constructor
    · intro x
      rw [ih1 x]
      by_cases hx : key x ∈ L
      · have hne : key x ≠ i := by rintro rfl; exact hi hx
        simp only [hx, if_true, List.mem_cons, or_true]
        apply hread _ (List.mem_cons_of_mem _ hx) _ _ _ x rfl
        intro y hy
        exact hloc i hil _ _ (by rw [hy]; exact hne)
      · by_cases hxi : key x = i
        · subst hxi; simp [hx]
        · simp [hx, hxi, hloc i hil _ _ hxi]
    · rw [ih2]
      have : ∀ (L : List ι) (a : γ), i ∉ L →
          (∀ j ∈ L, ∀ s s' a, (∀ x, key x = j → s x = s' x) → h j s a = h j s' a) →
          L.foldl (fun a j => h j (g i s) a) a = L.foldl (fun a j => h j s a) a := by
        intro L
        induction L with
        | nil => intros; rfl
        | cons j L ihL =>
          intro a hj hr
          rw [List.mem_cons, not_or] at hj
          simp only [List.foldl_cons]
          rw [hr j (by simp) (g i s) s a, ihL _ hj.2 (fun k hk => hr k (List.mem_cons_of_mem _ hk))]
          intro y hy
          exact hloc i hil _ _ (by rw [hy]; exact fun e => hj.1 e.symm)
      exact this L _ hi (fun j hj => hread' j (List.mem_cons_of_mem _ hj))

theorem foldl_local' {ι α β : Type} [DecidableEq ι] (key : α → ι) (g : ι → (α → β) → (α → β))
    (L : List ι) (hnd : L.Nodup)
    (hloc : ∀ i ∈ L, ∀ s x, key x ≠ i → g i s x = s x)
    (hread : ∀ i ∈ L, ∀ s s', (∀ x, key x = i → s x = s' x) → ∀ x, key x = i → g i s x = g i s' x)
    (s : α → β) (x : α) :
    (L.foldl (fun s i => g i s) s) x = if key x ∈ L then g (key x) s x else s x := by
  have h1 := (foldl_local key g (fun _ _ (u : Unit) => u) L hnd hloc hread (by simp) s ()).1 x
  rw [← h1]
  clear h1 hloc hread hnd
  have : ∀ (L : List ι) s, L.foldl (fun s i => g i s) s =
      (L.foldl (fun (st : (α → β) × Unit) i => (g i st.1, st.2)) (s, ())).1 := by
    intro L
    induction L with
    | nil => intros; rfl
    | cons i L ih => intro s; simp only [List.foldl_cons]; rw [ih]
  rw [this]

theorem foldl_or_eq {α : Type} (f : α → Bool) (L : List α) (b : Bool) :
    L.foldl (fun b i => b || f i) b = (b || L.any f) := by
  induction L generalizing b with
  | nil => simp
  | cons i L ih => simp [ih, Bool.or_assoc]

theorem foldl_and_eq {α : Type} (f : α → Bool) (L : List α) (b : Bool) :
    L.foldl (fun b i => b && f i) b = (b && L.all f) := by
  induction L generalizing b with
  | nil => simp
  | cons i L ih => simp [ih, Bool.and_assoc]

end Sortnet
