import Verif.Proof.StateMap
import Verif.Spec.StateHist

/-!
# C34: the state map behaves like a map
-/

namespace Sortnet

open Search

namespace Search

theorem StateMap.set_spec {hash : List UInt8 → ℕ} {m : StateMap} (h : ShardsOK hash m.stateShards) {A : OSet}
    (hA : mapOk A) (v : State) :
    ∃ m', m.set hash A v = some m' ∧ ShardsOK hash m'.stateShards ∧ m'.lockShards = m.lockShards ∧
      m'.stateShards.length = m.stateShards.length ∧
      ∀ B, shardsGet hash m'.stateShards B = if B = A then some v else shardsGet hash m.stateShards B := by
  obtain ⟨x, y, h1, h2, h3, h4⟩ := shards_set h hA v
  refine ⟨{ m with stateShards := m.stateShards.set (shardOf hash m.stateShards.length A.s.packed) y }, ?_, h3, rfl, by simp, h4⟩
  unfold StateMap.set
  simp only [h1, Option.bind_eq_bind, Option.bind_some, h2]

theorem StateMap.get_spec {hash : List UInt8 → ℕ} {m : StateMap} (h : ShardsOK hash m.stateShards) (A : OSet) :
    m.get hash A = some ((shardsGet hash m.stateShards A).getD (defaultState A)) := by
  obtain ⟨x, h1, h2⟩ := shards_get h A
  unfold StateMap.get
  simp only [h1, Option.bind_eq_bind, Option.bind_some, h2]
  cases shardsGet hash m.stateShards A <;> rfl

theorem StateMap.run_spec {hash : List UInt8 → ℕ} (hist : List (OSet × State)) (hh : ∀ e ∈ hist, mapOk e.1)
    {m : StateMap} (h : ShardsOK hash m.stateShards) :
    ∃ m', m.run hash hist = some m' ∧ ShardsOK hash m'.stateShards ∧
      ∀ B, shardsGet hash m'.stateShards B = (lastSet hist B).or (shardsGet hash m.stateShards B) := by
  induction hist generalizing m with
  | nil => exact ⟨m, rfl, h, fun B => rfl⟩
  | cons e hist ih =>
    obtain ⟨A, v⟩ := e
    obtain ⟨m1, e1, h1, -, -, g1⟩ := StateMap.set_spec h (hh _ List.mem_cons_self) v
    obtain ⟨m2, e2, h2, g2⟩ := ih (fun e he => hh e (List.mem_cons_of_mem _ he)) h1
    refine ⟨m2, by rw [StateMap.run, e1]; exact e2, h2, fun B => ?_⟩
    rw [g2, g1]
    unfold lastSet
    rw [List.reverse_cons, List.find?_append]
    cases List.find? (fun e => decide (e.1 = B)) hist.reverse with
    | some x => rfl
    | none =>
      simp only [Option.map_none, Option.none_or]
      by_cases hB : B = A
      · subst hB
        simp
      · have hB' : ¬ A = B := fun h => hB h.symm
        simp [hB, hB']

end Search

/-- C34.  For every number of CPUs (and hence of shards), every hash function and every history of calls of
`set` for sets with 3 to 11 channels: no call panics, and `get` gives the last state that was set for exactly
that output set, and otherwise the default. -/
theorem C34_last_set (hash : List UInt8 → ℕ) (threads : ℕ) (hist : List (OSet × State))
    (hh : ∀ e ∈ hist, 3 ≤ e.1.n ∧ e.1.n ≤ 11) :
    ∃ m, (StateMap.new threads).run hash hist = some m ∧
      ∀ A, m.get hash A = some ((lastSet hist A).getD (defaultState A)) := by
  obtain ⟨m, h1, h2, h3⟩ := StateMap.run_spec (hash := hash) hist hh
    (m := StateMap.new threads) (shardsOK_replicate (Nat.pos_of_isPowerOfTwo (Nat.isPowerOfTwo_nextPowerOfTwo _)))
  refine ⟨m, h1, fun A => ?_⟩
  rw [StateMap.get_spec h2, h3]
  rw [show shardsGet hash (StateMap.new threads).stateShards A = none from shardsGet_replicate A, Option.or_none]

/-- The map is the one used in the model of the search: `set` and `get` do what the functions on `Store` do. -/
theorem C34_refines_store (hash : List UInt8 → ℕ) (m : StateMap) (h : ShardsOK hash m.stateShards) (A : OSet)
    (hA : 3 ≤ A.n ∧ A.n ≤ 11) (v : State) :
    ∃ m', m.set hash A v = some m' ∧ ShardsOK hash m'.stateShards ∧
      shardsGet hash m'.stateShards = Store.set (shardsGet hash m.stateShards) A v ∧
      ∀ B, m.get hash B = some (Store.get (shardsGet hash m.stateShards) B) := by
  obtain ⟨m', h1, h2, -, -, h3⟩ := StateMap.set_spec h hA v
  exact ⟨m', h1, h2, funext h3, fun B => StateMap.get_spec h B⟩

/-- Setting a state outside of 3 to 11 channels panics. -/
theorem C34_out_of_range (hash : List UInt8 → ℕ) (m : StateMap) (A : OSet) (hA : ¬ (3 ≤ A.n ∧ A.n ≤ 11))
    (v : State) : m.set hash A v = none := by
  unfold StateMap.set
  simp only [Option.bind_eq_bind]
  cases m.stateShards[shardOf hash m.stateShards.length A.s.packed]? with
  | none => rfl
  | some x => simp [OSMap.setWithPacked_none x A.n A.s.packed v hA]

/-- Draining all shards gives exactly the states that were set, each set once, and `len` is their number. -/
theorem C34_drain (hash : List UInt8 → ℕ) (threads : ℕ) (hist : List (OSet × State))
    (hh : ∀ e ∈ hist, 3 ≤ e.1.n ∧ e.1.n ≤ 11) (m : StateMap) (hm : (StateMap.new threads).run hash hist = some m) :
    (∀ c p v, (c, p, v) ∈ m.drain ↔ ∃ s : Bitmap c, s.packed = p ∧ lastSet hist ⟨c, s⟩ = some v) ∧
    (m.drain.map fun e => (e.1, e.2.1)).Nodup ∧ m.len = m.drain.length := by
  obtain ⟨m', h1, h2, h3⟩ := StateMap.run_spec (hash := hash) hist hh
    (m := StateMap.new threads) (shardsOK_replicate (Nat.pos_of_isPowerOfTwo (Nat.isPowerOfTwo_nextPowerOfTwo _)))
  rw [hm] at h1
  cases h1
  refine ⟨fun c p v => ?_, shards_drain_nodup h2, ?_⟩
  · unfold StateMap.drain
    rw [shards_drain h2]
    refine exists_congr fun s => and_congr_right fun _ => ?_
    rw [h3, show shardsGet hash (StateMap.new threads).stateShards _ = none from shardsGet_replicate _,
      Option.or_none]
  · unfold StateMap.len StateMap.drain
    rw [List.length_flatMap]
    exact congrArg List.sum (List.map_congr_left fun x _ => (OSMap.len_drainPacked x).symm)

/-- The lock map is the one used in the model of the search: taking a lock that is held gives its token and
changes nothing, taking a free lock enters the new token, and dropping a lock that is held removes it. -/
theorem C34_locks (hash : List UInt8 → ℕ) (m : StateMap) (h : ShardsOK hash m.lockShards) (A : OSet)
    (hA : 3 ≤ A.n ∧ A.n ≤ 11) (token : ℕ) :
    (∀ t, shardsGet hash m.lockShards A = some t → m.getLock hash A token = some (m, some t)) ∧
    (shardsGet hash m.lockShards A = none → ∃ m', m.getLock hash A token = some (m', none) ∧
      ShardsOK hash m'.lockShards ∧ m'.stateShards = m.stateShards ∧
      shardsGet hash m'.lockShards = fun B => if B = A then some token else shardsGet hash m.lockShards B) ∧
    (shardsGet hash m.lockShards A = some token → ∃ m', m.dropLock hash A token = some m' ∧
      ShardsOK hash m'.lockShards ∧ m'.stateShards = m.stateShards ∧
      shardsGet hash m'.lockShards = fun B => if B = A then none else shardsGet hash m.lockShards B) := by
  obtain ⟨x, g1, g2⟩ := shards_get h A
  refine ⟨fun t ht => ?_, fun hn => ?_, fun ht => ?_⟩
  · unfold StateMap.getLock
    simp only [g1, Option.bind_eq_bind, Option.bind_some, g2, ht]
  · obtain ⟨y, z, s1, s2, s3, s4⟩ := shards_set h hA token
    rw [g1] at s1
    cases s1
    refine ⟨{ m with lockShards := m.lockShards.set (shardOf hash m.lockShards.length A.s.packed) z }, ?_, s3, rfl, funext s4⟩
    unfold StateMap.getLock
    simp only [g1, Option.bind_eq_bind, Option.bind_some, g2, hn, s2]
  · obtain ⟨y, z, s1, s2, s3, s4⟩ := shards_remove h hA
    rw [g1] at s1
    cases s1
    refine ⟨{ m with lockShards := m.lockShards.set (shardOf hash m.lockShards.length A.s.packed) z }, ?_, s3, rfl, funext s4⟩
    unfold StateMap.dropLock
    simp only [g1, Option.bind_eq_bind, Option.bind_some, g2, ht, s2, if_true]

/-- A history with two sets on three channels, one of which is set twice. -/
def exampleHistory : List (OSet × State) :=
  [(⟨3, allValues 3⟩, ⟨1, 3, 1, 3⟩), (⟨3, fun x => x == 1#3 || x == 2#3⟩, ⟨1, 1, 1, 1⟩),
   (⟨3, allValues 3⟩, ⟨2, 3, 2, 3⟩)]

/-- Non-vacuity: eight shards and a hash function that puts everything into shard 5. -/
example :
    (((StateMap.new 1).run (fun _ => 13) exampleHistory).bind fun m => m.get (fun _ => 13) ⟨3, allValues 3⟩) =
      some ⟨2, 3, 2, 3⟩ ∧
    (((StateMap.new 1).run (fun _ => 13) exampleHistory).map fun m => m.drain) =
      some [(3, [6], ⟨1, 1, 1, 1⟩), (3, [255], ⟨2, 3, 2, 3⟩)] := by
  decide +kernel

end Sortnet
