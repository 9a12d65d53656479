import Verif.Proof.ConcOwns
import Verif.Proof.StateMap

/-!
# The concurrent state map refines the atomic one
-/

namespace Sortnet

namespace Search

namespace Conc

/-! ## Locks of the shards -/

/-- The locks of the shards and who is in which section. -/
structure Locks (rw : Bool → ℕ → Rw) (hd : ℕ → Option Sec) : Prop where
  wr : ∀ t s, hd t = some s → s.write = true → (rw s.locks s.shard).writer = some t
  wr' : ∀ a i t, (rw a i).writer = some t → ∃ s, hd t = some s ∧ s.write = true ∧ s.locks = a ∧ s.shard = i
  rd : ∀ t s, hd t = some s → s.write = false → t ∈ (rw s.locks s.shard).readers
  rd' : ∀ a i t, t ∈ (rw a i).readers → ∃ s, hd t = some s ∧ s.write = false ∧ s.locks = a ∧ s.shard = i
  excl : ∀ a i, (rw a i).writer ≠ none → (rw a i).readers = ∅
  sane : ∀ a i, (rw a i).poisoned = false

section

variable {rw : Bool → ℕ → Rw} {hd : ℕ → Option Sec}

theorem Locks.unique (h : Locks rw hd) {t u : ℕ} {s s' : Sec} (ht : hd t = some s) (hu : hd u = some s')
    (h1 : s.locks = s'.locks) (h2 : s.shard = s'.shard) (hw : s.write = true) : t = u := by
  have h3 := h.wr t s ht hw
  rw [h1, h2] at h3
  by_cases h4 : s'.write = true
  · rw [h.wr u s' hu h4] at h3
    injection h3 with h3
    exact h3.symm
  · have h5 := h.rd u s' hu (by simpa using h4)
    rw [h.excl _ _ (by rw [h3]; simp)] at h5
    simp at h5

theorem Locks.acquire (h : Locks rw hd) {t : ℕ} {s : Sec} (ht : hd t = none) {r : Rw}
    (hr : (rw s.locks s.shard).acquire s.write t = some r) :
    Locks (fun a i => if a = s.locks ∧ i = s.shard then r else rw a i) (Function.update hd t (some s)) := by
  obtain ⟨h1, h2, h3, h4, h5, h6⟩ := h
  unfold Rw.acquire at hr
  have h6' := h6 s.locks s.shard
  split_ifs at hr with g1 g2 g3
  · cases hr
    constructor
    all_goals grind
  · cases hr
    constructor
    all_goals grind

theorem Locks.release (h : Locks rw hd) {t : ℕ} {s : Sec} (ht : hd t = some s) :
    Locks (fun a i => if a = s.locks ∧ i = s.shard then (rw s.locks s.shard).release s.write t else rw a i)
      (Function.update hd t none) := by
  have hu := fun u s' (hu : hd u = some s') => h.unique ht hu
  obtain ⟨h1, h2, h3, h4, h5, h6⟩ := h
  have h6' := h6 s.locks s.shard
  unfold Rw.release
  constructor
  all_goals grind

end

/-! ## Accesses -/

/-- The shards are what they should be. -/
structure MemOk (hash : List UInt8 → ℕ) (N : ℕ) (M : Mem) : Prop where
  lenS : M.map.stateShards.length = N
  lenL : M.map.lockShards.length = N
  okS : ShardsOK hash M.map.stateShards
  okL : ShardsOK hash M.map.lockShards

/-- The states. -/
abbrev Mem.st (hash : List UInt8 → ℕ) (M : Mem) : OSet → Option State := shardsGet hash M.map.stateShards

/-- The entries of the table of locks. -/
abbrev Mem.lk (hash : List UInt8 → ℕ) (M : Mem) : OSet → Option ℕ := shardsGet hash M.map.lockShards

/-- The number of states before the shard `i`. -/
def sumTo (sh : List (OSMap State)) (i : ℕ) : ℕ := ((sh.take i).map OSMap.len).sum

/-- The number of states from the shard `i` on. -/
def sumFrom (sh : List (OSMap State)) (i : ℕ) : ℕ := ((sh.drop i).map OSMap.len).sum

theorem sumTo_add_sumFrom (sh : List (OSMap State)) (i : ℕ) :
    sumTo sh i + sumFrom sh i = (sh.map OSMap.len).sum := by
  unfold sumTo sumFrom
  rw [← List.sum_append, ← List.map_append, List.take_append_drop]

theorem sumTo_succ {sh : List (OSMap State)} {i : ℕ} {x : OSMap State} (h : sh[i]? = some x) :
    sumTo sh (i + 1) = sumTo sh i + x.len := by
  unfold sumTo
  rw [List.take_add_one, h]
  simp

theorem sumFrom_succ {sh : List (OSMap State)} {i : ℕ} {x : OSMap State} (h : sh[i]? = some x) :
    sumFrom sh i = x.len + sumFrom sh (i + 1) := by
  unfold sumFrom
  obtain ⟨hi, rfl⟩ := List.getElem?_eq_some_iff.1 h
  rw [List.drop_eq_getElem_cons hi, List.map_cons, List.sum_cons]

theorem BMap.length_insert {T : Type} (m : BMap T) (k : List UInt8) (v : T) :
    m.length ≤ (m.insert k v).length ∧ (m.insert k v).length ≤ m.length + 1 := by
  induction m with
  | nil => simp [BMap.insert]
  | cons x m ih =>
    obtain ⟨k', v'⟩ := x
    rw [BMap.insert]
    split_ifs
    · simp
    · simp
    · simp only [List.length_cons]
      omega

theorem OSMap.len_setWithPacked {T : Type} {m m' : OSMap T} {c : ℕ} {p : List UInt8} {v : T}
    (h : m.setWithPacked c p v = some m') : m.len ≤ m'.len ∧ m'.len ≤ m.len + 1 := by
  unfold OSMap.setWithPacked at h
  split at h
  all_goals first
    | (obtain ⟨k, -, rfl⟩ := Option.map_eq_some_iff.1 h
       unfold OSMap.len
       dsimp only
       have := BMap.length_insert (k := k) (v := v)
       grind)
    | cases h

theorem sum_set {sh : List (OSMap State)} {i : ℕ} {x y : OSMap State} (h : sh[i]? = some x)
    (h1 : x.len ≤ y.len) (h2 : y.len ≤ x.len + 1) :
    (∀ j, sumTo sh j ≤ sumTo (sh.set i y) j) ∧ (∀ j, sumFrom sh j ≤ sumFrom (sh.set i y) j) ∧
    ((sh.set i y).map OSMap.len).sum ≤ (sh.map OSMap.len).sum + 1 := by
  have key : ∀ (sh : List (OSMap State)) (i : ℕ), (∀ z, sh[i]? = some z → z = x) →
      (sh.map OSMap.len).sum ≤ ((sh.set i y).map OSMap.len).sum ∧
      ((sh.set i y).map OSMap.len).sum ≤ (sh.map OSMap.len).sum + 1 := by
    intro sh
    induction sh with
    | nil => simp
    | cons z sh ih =>
      intro i hi
      cases i with
      | zero =>
        have := hi z rfl
        subst this
        simp only [List.set_cons_zero, List.map_cons, List.sum_cons]
        omega
      | succ i =>
        have := ih i (fun w hw => hi w (by simpa using hw))
        simp only [List.set_cons_succ, List.map_cons, List.sum_cons]
        omega
  refine ⟨fun j => ?_, fun j => ?_, (key sh i fun z hz => by rw [h] at hz; injection hz with e; exact e.symm).2⟩
  · unfold sumTo
    rw [List.take_set]
    refine (key _ _ fun z hz => ?_).1
    rw [List.getElem?_take] at hz
    split_ifs at hz
    rw [h] at hz
    injection hz with e
    exact e.symm
  · unfold sumFrom
    rw [List.drop_set]
    split_ifs with hij
    · exact le_rfl
    · refine (key _ _ fun z hz => ?_).1
      rw [List.getElem?_drop, show j + (i - j) = i by omega, h] at hz
      injection hz with e
      exact e.symm

variable {hash : List UInt8 → ℕ} {N : ℕ}

theorem MemOk.pos {M : Mem} (h : MemOk hash N M) : 0 < N := h.lenS ▸ h.okS.1

/-- The number of states is the sum of the numbers in the shards. -/
theorem MemOk.size {M : Mem} (h : MemOk hash N M) :
    {A | M.st hash A ≠ none}.ncard = (M.map.stateShards.map OSMap.len).sum := by
  have h1 : (M.map.stateShards.map OSMap.len).sum =
      ((M.map.stateShards.flatMap OSMap.drainPacked).map fun e => (e.1, e.2.1)).length := by
    rw [List.length_map, List.length_flatMap]
    exact congrArg List.sum (List.map_congr_left fun x _ => (OSMap.len_drainPacked x).symm)
  rw [h1, ← List.toFinset_card_of_nodup (shards_drain_nodup h.okS), ← Set.ncard_coe_finset]
  have hinj : Function.Injective fun A : OSet => (A.n, A.s.packed) := by
    intro A B e
    injection e with e1 e2
    exact OSet.eq_of_packed e1 e2
  rw [← Set.ncard_image_of_injective _ hinj]
  congr 1
  ext ⟨c, p⟩
  simp only [Set.mem_image, Set.mem_ofPred_eq, Prod.mk.injEq, Finset.mem_coe, List.mem_toFinset, List.mem_map]
  constructor
  · rintro ⟨A, hA, rfl, rfl⟩
    obtain ⟨v, hv⟩ := Option.ne_none_iff_exists'.1 hA
    exact ⟨(A.n, A.s.packed, v), (shards_drain h.okS _ _ _).2 ⟨A.s, rfl, hv⟩, rfl, rfl⟩
  · rintro ⟨⟨c', p', v⟩, he, rfl, rfl⟩
    obtain ⟨s, e1, e2⟩ := (shards_drain h.okS _ _ _).1 he
    exact ⟨⟨c', s⟩, by rw [show M.st hash ⟨c', s⟩ = some v from e2]; simp, rfl, e1⟩

theorem MemOk.finish_get {M : Mem} (h : MemOk hash N M) (A : OSet) :
    finish M (.get A (shardOf hash N A.s.packed)) =
      some (M, .done (.state ((M.st hash A).getD (defaultState A)))) := by
  obtain ⟨x, h1, h2⟩ := shards_get h.okS A
  rw [h.lenS] at h1
  simp only [finish, h1, Option.bind_eq_bind, Option.bind_some, h2]
  show _ = some (M, PC.done (.state ((shardsGet hash M.map.stateShards A).getD _)))
  cases shardsGet hash M.map.stateShards A <;> rfl

theorem MemOk.finish_len {M : Mem} (h : MemOk hash N M) {i : ℕ} (hi : i < N) (acc : ℕ) :
    ∃ x, M.map.stateShards[i]? = some x ∧ finish M (.len i acc) = some (M, lenFrom N (i + 1) (acc + x.len)) := by
  refine ⟨_, List.getElem?_eq_getElem (h.lenS ▸ hi), ?_⟩
  simp only [finish, List.getElem?_eq_getElem (h.lenS ▸ hi : i < M.map.stateShards.length),
    Option.bind_eq_bind, Option.bind_some, h.lenS]

theorem MemOk.finish_set {M : Mem} (h : MemOk hash N M) {A : OSet} (hA : mapOk A) (v : State) :
    ∃ M', finish M (.set A v (shardOf hash N A.s.packed)) = some (M', .done .unit) ∧ MemOk hash N M' ∧
      M'.map.lockShards = M.map.lockShards ∧ M'.sent = M.sent ∧ M'.nextToken = M.nextToken ∧
      M'.st hash = Function.update (M.st hash) A (some v) ∧
      (∀ j, sumTo M.map.stateShards j ≤ sumTo M'.map.stateShards j) ∧
      (∀ j, sumFrom M.map.stateShards j ≤ sumFrom M'.map.stateShards j) ∧
      (M'.map.stateShards.map OSMap.len).sum ≤ (M.map.stateShards.map OSMap.len).sum + 1 := by
  obtain ⟨x, y, h1, h2, h3, h4⟩ := shards_set h.okS hA v
  rw [h.lenS] at h1 h3 h4
  have h5 := OSMap.len_setWithPacked h2
  refine ⟨{ M with map := { M.map with stateShards := M.map.stateShards.set (shardOf hash N A.s.packed) y } },
    ?_, ⟨?_, h.lenL, h3, h.okL⟩, rfl, rfl, rfl, ?_, sum_set h1 h5.1 h5.2⟩
  · simp only [finish, h1, Option.bind_eq_bind, Option.bind_some, h2]
  · simp [h.lenS]
  · funext B
    show shardsGet hash _ B = _
    rw [h4, Function.update_apply]

theorem MemOk.finish_lock_wait {M : Mem} (h : MemOk hash N M) {A : OSet} {tok : ℕ} (ht : M.lk hash A = some tok) :
    finish M (.lock A (shardOf hash N A.s.packed)) = some (M, .await tok) := by
  obtain ⟨x, h1, h2⟩ := shards_get h.okL A
  rw [h.lenL] at h1
  rw [show shardsGet hash M.map.lockShards A = some tok from ht] at h2
  simp only [finish, h1, Option.bind_eq_bind, Option.bind_some, h2]

theorem MemOk.finish_lock {M : Mem} (h : MemOk hash N M) {A : OSet} (hA : mapOk A) (ht : M.lk hash A = none) :
    ∃ M', finish M (.lock A (shardOf hash N A.s.packed)) =
        some (M', .done (.held (mkLock hash N A M.nextToken))) ∧ MemOk hash N M' ∧
      M'.map.stateShards = M.map.stateShards ∧ M'.sent = M.sent ∧ M'.nextToken = M.nextToken + 1 ∧
      M'.lk hash = Function.update (M.lk hash) A (some M.nextToken) := by
  obtain ⟨x, g1, g2⟩ := shards_get h.okL A
  obtain ⟨x', y, h1, h2, h3, h4⟩ := shards_set h.okL hA M.nextToken
  rw [h.lenL] at g1 h1 h3 h4
  rw [g1] at h1
  cases h1
  rw [show shardsGet hash M.map.lockShards A = none from ht] at g2
  refine ⟨{ M with map := { M.map with lockShards := M.map.lockShards.set (shardOf hash N A.s.packed) y },
                   nextToken := M.nextToken + 1 },
    ?_, ⟨h.lenS, ?_, h.okS, h3⟩, rfl, rfl, rfl, ?_⟩
  · simp only [finish, g1, Option.bind_eq_bind, Option.bind_some, g2, h2, mkLock]
  · simp [h.lenL]
  · funext B
    show shardsGet hash _ B = _
    rw [h4, Function.update_apply]

theorem MemOk.begin_unlock {M : Mem} (h : MemOk hash N M) {A : OSet} {tok : ℕ} (ht : M.lk hash A = some tok) :
    begin M (.unlock (mkLock hash N A tok)) = some { M with sent := Function.update M.sent tok true } := by
  obtain ⟨x, h1, h2⟩ := shards_get h.okL A
  rw [h.lenL] at h1
  rw [show shardsGet hash M.map.lockShards A = some tok from ht] at h2
  simp only [begin, mkLock, h1, Option.bind_eq_bind, Option.bind_some, h2, if_true]

theorem MemOk.finish_unlock {M : Mem} (h : MemOk hash N M) {A : OSet} (hA : mapOk A) (tok : ℕ) :
    ∃ M', finish M (.unlock (mkLock hash N A tok)) = some (M', .done .unit) ∧ MemOk hash N M' ∧
      M'.map.stateShards = M.map.stateShards ∧ M'.sent = M.sent ∧ M'.nextToken = M.nextToken ∧
      M'.lk hash = Function.update (M.lk hash) A none := by
  obtain ⟨x', y, h1, h2, h3, h4⟩ := shards_remove h.okL hA
  rw [h.lenL] at h1 h3 h4
  refine ⟨{ M with map := { M.map with lockShards := M.map.lockShards.set (shardOf hash N A.s.packed) y } },
    ?_, ⟨h.lenS, ?_, h.okS, h3⟩, rfl, rfl, rfl, ?_⟩
  · simp only [finish, mkLock, h1, Option.bind_eq_bind, Option.bind_some, h2]
  · simp [h.lenL]
  · funext B
    show shardsGet hash _ B = _
    rw [h4, Function.update_apply]

end Conc

end Search

end Sortnet
