import Verif.Spec.Shards
import Mathlib.Data.List.Lex
import Mathlib.Tactic.IntervalCases
import Verif.Model.StateMap
import Verif.Proof.Pack

/-!
# The sharded map is a map
-/

namespace Sortnet

namespace Search

theorem bytes_toNat_inj {a b : List UInt8} (h : a.map UInt8.toNat = b.map UInt8.toNat) : a = b :=
  List.map_injective_iff.2 (fun _ _ h => UInt8.toNat_inj.1 h) h

theorem bytesLt_irrefl (a : List UInt8) : ¬ bytesLt a a := lt_irrefl _

theorem bytesLt_trans {a b c : List UInt8} (h1 : bytesLt a b) (h2 : bytesLt b c) : bytesLt a c := lt_trans h1 h2

theorem bytesLt_total {a b : List UInt8} (h1 : ¬ bytesLt a b) (h2 : a ≠ b) : bytesLt b a := by
  unfold bytesLt at *
  rcases lt_trichotomy (a.map UInt8.toNat) (b.map UInt8.toNat) with h | h | h
  · exact absurd h h1
  · exact absurd (bytes_toNat_inj h) h2
  · exact h

namespace BMap

variable {T : Type}

theorem mem_insert {m : BMap T} {k : List UInt8} {v : T} {e : List UInt8 × T} (h : e ∈ m.insert k v) :
    e = (k, v) ∨ e ∈ m := by
  induction m with
  | nil => simpa [insert] using h
  | cons x m ih =>
    obtain ⟨k', v'⟩ := x
    rw [insert] at h
    split_ifs at h
    · rcases List.mem_cons.1 h with h | h
      · exact Or.inl h
      · exact Or.inr (List.mem_cons_of_mem _ h)
    · rcases List.mem_cons.1 h with h | h
      · exact Or.inl h
      · exact Or.inr h
    · rcases List.mem_cons.1 h with h | h
      · exact Or.inr (by rw [h]; exact List.mem_cons_self)
      · rcases ih h with h | h
        · exact Or.inl h
        · exact Or.inr (List.mem_cons_of_mem _ h)

theorem mem_remove {m : BMap T} {k : List UInt8} {e : List UInt8 × T} (h : e ∈ m.remove k) : e ∈ m := by
  induction m with
  | nil => simpa [remove] using h
  | cons x m ih =>
    obtain ⟨k', v'⟩ := x
    rw [remove] at h
    split_ifs at h
    · exact List.mem_cons_of_mem _ h
    · rcases List.mem_cons.1 h with h | h
      · rw [h]; exact List.mem_cons_self
      · exact List.mem_cons_of_mem _ (ih h)

theorem Sorted.insert {m : BMap T} (hm : Sorted m) (k : List UInt8) (v : T) : Sorted (m.insert k v) := by
  induction m with
  | nil => simp [BMap.insert, Sorted]
  | cons x m ih =>
    obtain ⟨k', v'⟩ := x
    have hm' := List.pairwise_cons.1 hm
    rw [BMap.insert]
    split_ifs with h1 h2
    · subst h1
      exact List.pairwise_cons.2 hm'
    · refine List.pairwise_cons.2 ⟨?_, hm⟩
      intro e he
      rcases List.mem_cons.1 he with rfl | he
      · exact h2
      · exact bytesLt_trans h2 (hm'.1 e he)
    · refine List.pairwise_cons.2 ⟨?_, ih hm'.2⟩
      intro e he
      rcases mem_insert he with rfl | he
      · exact bytesLt_total h2 h1
      · exact hm'.1 e he

theorem Sorted.remove {m : BMap T} (hm : Sorted m) (k : List UInt8) : Sorted (m.remove k) := by
  induction m with
  | nil => exact hm
  | cons x m ih =>
    obtain ⟨k', v'⟩ := x
    have hm' := List.pairwise_cons.1 hm
    rw [BMap.remove]
    split_ifs with h1
    · exact hm'.2
    · exact List.pairwise_cons.2 ⟨fun e he => hm'.1 e (mem_remove he), ih hm'.2⟩

theorem get_eq_some_iff {m : BMap T} (hm : Sorted m) {k : List UInt8} {v : T} : m.get k = some v ↔ (k, v) ∈ m := by
  induction m with
  | nil => simp [get]
  | cons x m ih =>
    obtain ⟨k', v'⟩ := x
    have hm' := List.pairwise_cons.1 hm
    rw [get]
    split_ifs with h
    · subst h
      constructor
      · intro h; cases h; exact List.mem_cons_self
      · intro h
        rcases List.mem_cons.1 h with h | h
        · cases h; rfl
        · exact absurd (hm'.1 _ h) (bytesLt_irrefl _)
    · rw [ih hm'.2, List.mem_cons]
      constructor
      · exact Or.inr
      · rintro (h' | h')
        · cases h'; exact absurd rfl h
        · exact h'

theorem get_insert {m : BMap T} (hm : Sorted m) (k : List UInt8) (v : T) (k' : List UInt8) :
    (m.insert k v).get k' = if k' = k then some v else m.get k' := by
  induction m with
  | nil => simp [insert, get]
  | cons x m ih =>
    obtain ⟨l, w⟩ := x
    have hm' := List.pairwise_cons.1 hm
    rw [insert]
    by_cases h1 : k = l
    · subst h1
      rw [if_pos rfl, get, get]
      by_cases h : k' = k
      · rw [if_pos h, if_pos h]
      · rw [if_neg h, if_neg h, if_neg h]
    · rw [if_neg h1]
      by_cases h2 : bytesLt k l
      · rw [if_pos h2, get]
      · rw [if_neg h2, get, ih hm'.2, get]
        by_cases h : k' = l
        · rw [if_pos h, if_pos h, if_neg (by rintro rfl; exact h1 h)]
        · rw [if_neg h, if_neg h]

theorem get_remove {m : BMap T} (hm : Sorted m) (k : List UInt8) (k' : List UInt8) :
    (m.remove k).get k' = if k' = k then none else m.get k' := by
  induction m with
  | nil => simp [remove, get]
  | cons x m ih =>
    obtain ⟨l, w⟩ := x
    have hm' := List.pairwise_cons.1 hm
    rw [remove]
    by_cases h1 : k = l
    · subst h1
      rw [if_pos rfl, get]
      by_cases h : k' = k
      · rw [if_pos h, h]
        cases hg : BMap.get m k with
        | none => rfl
        | some v => exact absurd (hm'.1 _ ((get_eq_some_iff hm'.2).1 hg)) (bytesLt_irrefl _)
      · rw [if_neg h, if_neg h]
    · rw [if_neg h1, get, ih hm'.2, get]
      by_cases h : k' = l
      · rw [if_pos h, if_pos h, if_neg (by rintro rfl; exact h1 h)]
      · rw [if_neg h, if_neg h]

theorem Sorted.nodup {m : BMap T} (hm : Sorted m) : (m.map (·.1)).Nodup := by
  rw [List.Nodup, List.pairwise_map]
  exact hm.imp fun h e => by rw [e] at h; exact bytesLt_irrefl _ h

end BMap

namespace OSMap

variable {T : Type}

/-- Replaces the map for a number of channels. -/
def setField (m : OSMap T) (f : BMap T) : ℕ → OSMap T
  | 3 => { m with m3 := f }
  | 4 => { m with m4 := f }
  | 5 => { m with m5 := f }
  | 6 => { m with m6 := f }
  | 7 => { m with m7 := f }
  | 8 => { m with m8 := f }
  | 9 => { m with m9 := f }
  | 10 => { m with m10 := f }
  | 11 => { m with m11 := f }
  | _ => m

theorem field_setField {m : OSMap T} {f : BMap T} {c : ℕ} (h1 : 2 < c) (h2 : c ≤ 11) (d : ℕ) :
    (m.setField f c).field d = if d = c then f else m.field d := by
  interval_cases c <;>
  · by_cases h : 2 < d ∧ d ≤ 11
    · obtain ⟨h3, h4⟩ := h
      interval_cases d <;> rfl
    · have e : ∀ m : OSMap T, m.field d = [] := by
        intro m
        unfold field
        split <;> first | rfl | omega
      rw [e, e, if_neg (by omega)]

theorem field_of_out {m : OSMap T} {d : ℕ} (h : ¬ (2 < d ∧ d ≤ 11)) : m.field d = [] := by
  unfold field
  split <;> first | rfl | omega

theorem field_empty (d : ℕ) : (empty : OSMap T).field d = [] := by
  unfold field
  split <;> rfl

theorem arrayRef_packed {n : ℕ} (s : Bitmap n) (h : 2 < n) : arrayRef s.packed (2 ^ (n - 3)) = some s.packed := by
  obtain ⟨k, rfl⟩ : ∃ k, n = k + 3 := ⟨n - 3, by omega⟩
  have e : s.packed.length = 2 ^ (k + 3 - 3) := by
    rw [packed_length, packedLen, Nat.add_sub_cancel, pow_add]
    omega
  unfold arrayRef
  rw [if_pos (by omega), List.take_of_length_le (by omega)]

theorem getWithPacked_eq (m : OSMap T) (A : OSet) :
    m.getWithPacked A.n A.s.packed = some ((m.field A.n).get A.s.packed) := by
  obtain ⟨n, s⟩ := A
  dsimp only
  by_cases h : 2 < n ∧ n ≤ 11
  · obtain ⟨h1, h2⟩ := h
    have h3 := arrayRef_packed s h1
    interval_cases n <;> (unfold getWithPacked; exact congrArg (Option.map _) h3)
  · unfold getWithPacked
    rw [field_of_out h]
    split <;> first | rfl | omega

theorem setWithPacked_eq (m : OSMap T) (A : OSet) (h : mapOk A) (v : T) :
    m.setWithPacked A.n A.s.packed v = some (m.setField ((m.field A.n).insert A.s.packed v) A.n) := by
  obtain ⟨n, s⟩ := A
  obtain ⟨h1, h2⟩ := h
  dsimp only at h1 h2 ⊢
  have h3 := arrayRef_packed s h1
  interval_cases n <;> (unfold setWithPacked; exact congrArg (Option.map _) h3)

theorem removeWithPacked_eq (m : OSMap T) (A : OSet) (h : mapOk A) :
    m.removeWithPacked A.n A.s.packed = some (m.setField ((m.field A.n).remove A.s.packed) A.n) := by
  obtain ⟨n, s⟩ := A
  obtain ⟨h1, h2⟩ := h
  dsimp only at h1 h2 ⊢
  have h3 := arrayRef_packed s h1
  interval_cases n <;> (unfold removeWithPacked; exact congrArg (Option.map _) h3)

theorem setWithPacked_none (m : OSMap T) (c : ℕ) (p : List UInt8) (v : T) (h : ¬ (2 < c ∧ c ≤ 11)) :
    m.setWithPacked c p v = none := by
  unfold setWithPacked
  split <;> first | rfl | omega

end OSMap

/-! ## Shards -/

section

variable {T : Type} (hash : List UInt8 → ℕ)

variable {hash}

theorem shardOf_lt {len : ℕ} (h : 0 < len) (p : List UInt8) : shardOf hash len p < len := by
  unfold shardOf
  have := Nat.and_le_right (n := hash p) (m := len - 1)
  omega

theorem shards_index {sh : List (OSMap T)} (h : 0 < sh.length) (p : List UInt8) :
    ∃ m, sh[shardOf hash sh.length p]? = some m :=
  ⟨_, List.getElem?_eq_getElem (shardOf_lt h p)⟩

theorem ShardsOK.update {sh : List (OSMap T)} (h : ShardsOK hash sh) {A : OSet} (hA : mapOk A) {m : OSMap T}
    (hm : sh[shardOf hash sh.length A.s.packed]? = some m) {f : BMap T} (hf : f.Sorted)
    (hmem : ∀ e ∈ f, e.1 = A.s.packed ∨ e ∈ m.field A.n) :
    ShardsOK hash (sh.set (shardOf hash sh.length A.s.packed) (m.setField f A.n)) := by
  obtain ⟨h0, h⟩ := h
  refine ⟨by rw [List.length_set]; exact h0, ?_⟩
  intro i m' hm' c
  rw [List.length_set]
  rw [List.getElem?_set] at hm'
  split_ifs at hm' with h1 h2
  · subst h1
    cases hm'
    rw [OSMap.field_setField hA.1 hA.2]
    by_cases hc : c = A.n
    · rw [if_pos hc]
      refine ⟨hf, fun e he => ?_⟩
      rcases hmem e he with h3 | h3
      · subst hc
        exact ⟨A.s, h3.symm, by rw [h3]⟩
      · rw [← hc] at h3
        exact (h _ m hm c).2 e h3
    · rw [if_neg hc]
      exact h _ m hm c
  · exact h i m' hm' c

theorem shardsGet_update {sh : List (OSMap T)} (h0 : 0 < sh.length) {A : OSet} (hA : mapOk A)
    {m : OSMap T} (hm : sh[shardOf hash sh.length A.s.packed]? = some m) {f : BMap T} (B : OSet) :
    shardsGet hash (sh.set (shardOf hash sh.length A.s.packed) (m.setField f A.n)) B =
      if B.n = A.n ∧ shardOf hash sh.length B.s.packed = shardOf hash sh.length A.s.packed then
        f.get B.s.packed else shardsGet hash sh B := by
  unfold shardsGet
  rw [List.length_set, List.getElem?_set]
  by_cases h1 : shardOf hash sh.length A.s.packed = shardOf hash sh.length B.s.packed
  · rw [if_pos h1, if_pos (shardOf_lt h0 _)]
    dsimp only
    rw [OSMap.field_setField hA.1 hA.2]
    by_cases h2 : B.n = A.n
    · rw [if_pos h2, if_pos ⟨h2, h1.symm⟩]
    · rw [if_neg h2, if_neg (fun h => h2 h.1)]
      rw [← h1, hm]
  · rw [if_neg h1, if_neg (fun h => h1 h.2.symm)]

theorem OSet.eq_of_packed {A B : OSet} (h1 : B.n = A.n) (h2 : B.s.packed = A.s.packed) : B = A := by
  obtain ⟨n, s⟩ := A
  obtain ⟨m, t⟩ := B
  obtain rfl : m = n := h1
  exact congrArg _ (packed_injective h2)

/-- Setting an entry. -/
theorem shards_set {sh : List (OSMap T)} (h : ShardsOK hash sh) {A : OSet} (hA : mapOk A) (v : T) :
    ∃ m m', sh[shardOf hash sh.length A.s.packed]? = some m ∧ m.setWithPacked A.n A.s.packed v = some m' ∧
      ShardsOK hash (sh.set (shardOf hash sh.length A.s.packed) m') ∧
      ∀ B, shardsGet hash (sh.set (shardOf hash sh.length A.s.packed) m') B =
        if B = A then some v else shardsGet hash sh B := by
  obtain ⟨m, hm⟩ := shards_index h.1 A.s.packed
  have hs := (h.2 _ m hm A.n).1
  refine ⟨m, _, hm, OSMap.setWithPacked_eq m A hA v, h.update hA hm (hs.insert _ _) ?_, ?_⟩
  · intro e he
    rcases BMap.mem_insert he with rfl | he
    · exact Or.inl rfl
    · exact Or.inr he
  · intro B
    rw [shardsGet_update h.1 hA hm]
    split_ifs with h1 h2 h2
    · rw [BMap.get_insert hs, h2, if_pos rfl]
    · rw [BMap.get_insert hs, if_neg (fun e => h2 (OSet.eq_of_packed h1.1 e))]
      unfold shardsGet
      rw [h1.2, hm]
      dsimp only
      rw [← congrArg m.field h1.1]
    · exact absurd ⟨by rw [h2], by rw [h2]⟩ h1
    · rfl

/-- Removing an entry. -/
theorem shards_remove {sh : List (OSMap T)} (h : ShardsOK hash sh) {A : OSet} (hA : mapOk A) :
    ∃ m m', sh[shardOf hash sh.length A.s.packed]? = some m ∧ m.removeWithPacked A.n A.s.packed = some m' ∧
      ShardsOK hash (sh.set (shardOf hash sh.length A.s.packed) m') ∧
      ∀ B, shardsGet hash (sh.set (shardOf hash sh.length A.s.packed) m') B =
        if B = A then none else shardsGet hash sh B := by
  obtain ⟨m, hm⟩ := shards_index h.1 A.s.packed
  have hs := (h.2 _ m hm A.n).1
  refine ⟨m, _, hm, OSMap.removeWithPacked_eq m A hA, h.update hA hm (hs.remove _) ?_, ?_⟩
  · intro e he
    exact Or.inr (BMap.mem_remove he)
  · intro B
    rw [shardsGet_update h.1 hA hm]
    split_ifs with h1 h2 h2
    · rw [BMap.get_remove hs, h2, if_pos rfl]
    · rw [BMap.get_remove hs, if_neg (fun e => h2 (OSet.eq_of_packed h1.1 e))]
      unfold shardsGet
      rw [h1.2, hm]
      dsimp only
      rw [← congrArg m.field h1.1]
    · exact absurd ⟨by rw [h2], by rw [h2]⟩ h1
    · rfl

theorem shards_get {sh : List (OSMap T)} (h : ShardsOK hash sh) (A : OSet) :
    ∃ m, sh[shardOf hash sh.length A.s.packed]? = some m ∧
      m.getWithPacked A.n A.s.packed = some (shardsGet hash sh A) := by
  obtain ⟨m, hm⟩ := shards_index h.1 A.s.packed
  refine ⟨m, hm, ?_⟩
  rw [OSMap.getWithPacked_eq]
  unfold shardsGet
  rw [hm]

theorem shardsOK_replicate {k : ℕ} (h : 0 < k) : ShardsOK hash (List.replicate k (OSMap.empty : OSMap T)) := by
  refine ⟨by simpa using h, ?_⟩
  intro i m hm c
  rw [List.getElem?_replicate] at hm
  split_ifs at hm
  cases hm
  rw [OSMap.field_empty]
  exact ⟨List.Pairwise.nil, by simp⟩

theorem shardsGet_replicate {k : ℕ} (A : OSet) : shardsGet hash (List.replicate k (OSMap.empty : OSMap T)) A = none := by
  unfold shardsGet
  rw [List.getElem?_replicate]
  split_ifs
  · dsimp only; rw [OSMap.field_empty]; rfl
  · rfl

/-! ## Draining -/

theorem OSMap.mem_drainPacked {m : OSMap T} {c : ℕ} {p : List UInt8} {v : T} :
    (c, p, v) ∈ m.drainPacked ↔ (p, v) ∈ m.field c := by
  unfold drainPacked
  simp only [List.mem_append, List.mem_map, Prod.mk.injEq]
  by_cases h : 2 < c ∧ c ≤ 11
  · obtain ⟨h1, h2⟩ := h
    interval_cases c <;> simp [field]
  · rw [OSMap.field_of_out h]
    constructor
    · rintro ((((((((⟨_, _, h3, _⟩ | ⟨_, _, h3, _⟩) | ⟨_, _, h3, _⟩) | ⟨_, _, h3, _⟩) | ⟨_, _, h3, _⟩) | ⟨_, _, h3, _⟩) |
        ⟨_, _, h3, _⟩) | ⟨_, _, h3, _⟩) | ⟨_, _, h3, _⟩) <;> omega
    · intro h3; simp at h3

theorem OSMap.nodup_drainPacked {m : OSMap T} (h : ∀ c, (m.field c).Sorted) :
    (m.drainPacked.map fun e => (e.1, e.2.1)).Nodup := by
  have key : ∀ (c : ℕ) (b : BMap T), b.Sorted →
      (List.map ((fun e => (e.1, e.2.1)) ∘ fun e => (c, e.1, e.2)) b : List (ℕ × List UInt8)).Nodup := by
    intro c b hb
    have := hb.nodup
    rw [List.Nodup, List.pairwise_map] at this ⊢
    exact this.imp fun h e => h (Prod.mk.inj e).2
  have h3 := key 3 _ (h 3)
  have h4 := key 4 _ (h 4)
  have h5 := key 5 _ (h 5)
  have h6 := key 6 _ (h 6)
  have h7 := key 7 _ (h 7)
  have h8 := key 8 _ (h 8)
  have h9 := key 9 _ (h 9)
  have h10 := key 10 _ (h 10)
  have h11 := key 11 _ (h 11)
  simp only [field] at h3 h4 h5 h6 h7 h8 h9 h10 h11
  unfold drainPacked
  simp only [List.map_append, List.map_map]
  refine List.Nodup.append (List.Nodup.append (List.Nodup.append (List.Nodup.append (List.Nodup.append
    (List.Nodup.append (List.Nodup.append (List.Nodup.append h3 h4 ?_) h5 ?_) h6 ?_) h7 ?_) h8 ?_) h9 ?_) h10 ?_) h11 ?_
  all_goals
    intro x hx hy
    simp only [List.mem_append, List.mem_map, Function.comp_apply] at hx hy
    obtain ⟨_, _, rfl⟩ := hy
    simp at hx

theorem OSMap.len_drainPacked (m : OSMap T) : m.drainPacked.length = m.len := by
  unfold drainPacked len
  simp only [List.length_append, List.length_map]

theorem shards_drain {sh : List (OSMap T)} (h : ShardsOK hash sh) (c : ℕ) (p : List UInt8) (v : T) :
    (c, p, v) ∈ sh.flatMap OSMap.drainPacked ↔
      ∃ s : Bitmap c, s.packed = p ∧ shardsGet hash sh ⟨c, s⟩ = some v := by
  rw [List.mem_flatMap]
  constructor
  · rintro ⟨m, hm, he⟩
    rw [OSMap.mem_drainPacked] at he
    obtain ⟨i, hi, hm⟩ := List.mem_iff_getElem.1 hm
    have hm' : sh[i]? = some m := by rw [List.getElem?_eq_getElem hi, hm]
    obtain ⟨hs, hk⟩ := h.2 i m hm' c
    obtain ⟨s, h1, h2⟩ := hk _ he
    refine ⟨s, h1, ?_⟩
    unfold shardsGet
    dsimp only at h1 h2 ⊢
    rw [h1, h2, hm']
    exact (BMap.get_eq_some_iff hs).2 he
  · rintro ⟨s, rfl, hg⟩
    obtain ⟨m, hm⟩ := shards_index (hash := hash) h.1 s.packed
    unfold shardsGet at hg
    dsimp only at hg
    rw [hm] at hg
    exact ⟨m, List.mem_of_getElem? hm, OSMap.mem_drainPacked.2 ((BMap.get_eq_some_iff (h.2 _ m hm c).1).1 hg)⟩

theorem shards_drain_nodup {sh : List (OSMap T)} (h : ShardsOK hash sh) :
    ((sh.flatMap OSMap.drainPacked).map fun e => (e.1, e.2.1)).Nodup := by
  rw [List.map_flatMap, List.nodup_flatMap]
  constructor
  · intro m hm
    obtain ⟨i, hi, hm⟩ := List.mem_iff_getElem.1 hm
    exact OSMap.nodup_drainPacked fun c => (h.2 i m (by rw [List.getElem?_eq_getElem hi, hm]) c).1
  · rw [List.pairwise_iff_getElem]
    intro i j hi hj hij
    intro x hx hy
    obtain ⟨⟨c, p, v⟩, he, rfl⟩ := List.mem_map.1 hx
    obtain ⟨⟨c', p', v'⟩, he', e⟩ := List.mem_map.1 hy
    obtain ⟨rfl, rfl⟩ := Prod.mk.inj e
    rw [OSMap.mem_drainPacked] at he he'
    obtain ⟨_, _, h1⟩ := (h.2 i _ (List.getElem?_eq_getElem hi) c').2 _ he
    obtain ⟨_, _, h2⟩ := (h.2 j _ (List.getElem?_eq_getElem hj) c').2 _ he'
    dsimp only at h1 h2
    omega

end

end Search

end Sortnet
