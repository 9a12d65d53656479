import Verif.Proof.ConcGrow

/-!
# C59: the state map with concurrent callers
-/

namespace Sortnet

open Search Search.Conc

variable (hash : List UInt8 → ℕ) (threads : ℕ) (ms : List (ℕ × Move)) (g : G) (es : List Event)
  (h : Conc.run hash (Conc.init threads) ms = some (g, es)) (hv : ∀ x ∈ es, x.Valid)

include h hv

/-- C59.  For every number of CPUs (and hence of shards), every hash function, any number of callers and every
interleaving of their steps: what the callers see is what they can see if there is a single map and every
operation takes effect in one step between its call and its return. -/
theorem C59_atomic : ∃ S, Atomic.Exec Atomic.init es S := by
  obtain ⟨-, S, h1, -⟩ := sim_run (Inv.init hash threads) (Rel.init hash threads) h hv
  exact ⟨S, h1⟩

/-- No two callers access the same shard at the same time, unless both only read it. -/
theorem C59_no_race (t u : ℕ) (s s' : Sec) (htu : t ≠ u) (ht : g.pc t = .busy s) (hu : g.pc u = .busy s')
    (h1 : s.locks = s'.locks) (h2 : s.shard = s'.shard) : ¬ s.Modifies ∧ ¬ s'.Modifies := by
  obtain ⟨hi, -⟩ := sim_run (Inv.init hash threads) (Rel.init hash threads) h hv
  have ht' : (g.pc t).holds = some s := by rw [ht]; rfl
  have hu' : (g.pc u).holds = some s' := by rw [hu]; rfl
  constructor
  · intro hw
    exact htu (hi.locks.unique ht' hu' h1 h2 hw.write)
  · intro hw
    exact htu (hi.locks.unique hu' ht' h1.symm h2.symm hw.write).symm

/-- `set` modifies a shard. -/
example (hash : List UInt8 → ℕ) (A : OSet) (hA : 3 ≤ A.n ∧ A.n ≤ 11) (v : State) :
    (Sec.set A v (shardOf hash (shardsFor 1) A.s.packed)).Modifies := by
  obtain ⟨M, h1, -, -, -, -, h2, -⟩ := (Inv.init hash 1).mem.finish_set hA v
  refine ⟨_, M, _, h1, fun e => ?_⟩
  have := congrFun h2 A
  rw [Function.update_self] at this
  unfold Mem.st at this
  rw [e, show shardsGet hash (Conc.init 1).mem.map.stateShards A = none from shardsGet_replicate A] at this
  cases this

/-- No call panics, and no lock is poisoned. -/
theorem C59_no_panic : (∀ t, g.pc t ≠ .panicked) ∧ ∀ a i, (g.rw a i).poisoned = false := by
  obtain ⟨hi, -⟩ := sim_run (Inv.init hash threads) (Rel.init hash threads) h hv
  refine ⟨fun t ht => ?_, hi.locks.sane⟩
  have := hi.wf t
  rw [ht] at this
  exact this

/-- There is never more than one `StateLock` for a set. -/
theorem C59_mutual_exclusion : (g.owned.map fun l => (l.channels, l.packed)).Nodup := by
  obtain ⟨hi, -⟩ := sim_run (Inv.init hash threads) (Rel.init hash threads) h hv
  refine (List.Nodup.of_map _ hi.owns.nodup).map_on ?_
  intro l hl m hm e
  obtain ⟨A, -, e1, h1⟩ := hi.owns.ownedGood l hl
  obtain ⟨B, -, e2, h2⟩ := hi.owns.ownedGood m hm
  injection e with e3 e4
  have hAB : A = B := by
    rw [e1, e2] at e3 e4
    exact OSet.eq_of_packed e3 e4
  subst hAB
  rw [h1] at h2
  injection h2 with h2
  rw [e1, e2, h2]

/-- There is no deadlock: every caller in a call can make a step, or it waits for a shard that another caller has
who can make a step, or it is a call of `lock` that waits for the release of the lock. -/
theorem C59_progress (t : ℕ) (h1 : g.pc t ≠ .idle) (h2 : ∀ tok, g.pc t = .await tok → g.mem.sent tok = true) :
    (step hash g t .go).isSome ∨
    ∃ s u s', g.pc t = .want s ∧ (g.pc u).holds = some s' ∧ s'.locks = s.locks ∧ s'.shard = s.shard ∧
      (step hash g u .go).isSome := by
  obtain ⟨hi, -⟩ := sim_run (Inv.init hash threads) (Rel.init hash threads) h hv
  have holder : ∀ u s, (g.pc u).holds = some s → (step hash g u .go).isSome := by
    intro u s hu
    cases hp : g.pc u with
    | inside s' => simp only [step, hp]; split <;> rfl
    | busy s' => simp only [step, hp]; split <;> rfl
    | after s' next => simp only [step, hp]; rfl
    | _ => rw [hp] at hu; cases hu
  cases hp : g.pc t with
  | idle => exact absurd hp h1
  | want s =>
    by_cases hw : (g.rw s.locks s.shard).writer = none
    · by_cases hs : s.write = true
      · by_cases hr : (g.rw s.locks s.shard).readers = ∅
        · left
          simp [step, hp, Rw.acquire, hw, hs, hr, hi.locks.sane]
        · right
          obtain ⟨u, hu⟩ := Finset.nonempty_iff_ne_empty.2 hr
          obtain ⟨s', e1, -, e3, e4⟩ := hi.locks.rd' _ _ u hu
          exact ⟨s, u, s', rfl, e1, e3, e4, holder u s' e1⟩
      · left
        simp [step, hp, Rw.acquire, hw, hs, hi.locks.sane]
    · right
      obtain ⟨u, hu⟩ := Option.ne_none_iff_exists'.1 hw
      obtain ⟨s', e1, -, e3, e4⟩ := hi.locks.wr' _ _ u hu
      exact ⟨s, u, s', rfl, e1, e3, e4, holder u s' e1⟩
  | inside s => exact Or.inl (holder t s (by rw [hp]; rfl))
  | busy s => exact Or.inl (holder t s (by rw [hp]; rfl))
  | after s next => exact Or.inl (holder t s (by rw [hp]; rfl))
  | await tok =>
    left
    simp [step, hp, h2 tok hp]
  | done r =>
    left
    cases r <;> simp [step, hp]
  | panicked =>
    have := hi.wf t
    rw [hp] at this
    exact this.elim

/-- No wake-up is lost: as long as a call of `lock` waits without a message, there is a `StateLock` that sends it
when it is dropped, or it is about to be returned by `lock`, or a call that drops it has not sent the message
yet. -/
theorem C59_no_lost_wakeup (t tok : ℕ) (ht : g.pc t = .await tok) (hs : g.mem.sent tok = false) :
    ∃ l : StateLock, l.token = tok ∧ (l ∈ g.owned ∨ ∃ u, (∃ s, g.pc u = .after s (.done (.held l))) ∨
      g.pc u = .done (.held l) ∨ g.pc u = .want (.unlock l) ∨ g.pc u = .inside (.unlock l)) := by
  obtain ⟨hi, -⟩ := sim_run (Inv.init hash threads) (Rel.init hash threads) h hv
  rcases hi.owns.wait t tok (by rw [ht]; rfl) with h1 | ⟨A, hA⟩
  · rw [hs] at h1
    cases h1
  · rcases hi.owns.all A tok hA with ⟨l, hl, e⟩ | ⟨u, l, hl, e⟩
    · exact ⟨l, e, Or.inl hl⟩
    · refine ⟨l, e, Or.inr ⟨u, ?_⟩⟩
      have hsent := hi.owns.crSent u l hl
      rw [e, hs] at hsent
      have hw := hi.wf u
      cases hp : g.pc u with
      | want s =>
        rw [hp] at hl
        cases s with
        | unlock m => cases hl; exact Or.inr (Or.inr (Or.inl rfl))
        | _ => cases hl
      | inside s =>
        rw [hp] at hl
        cases s with
        | unlock m => cases hl; exact Or.inr (Or.inr (Or.inr rfl))
        | _ => cases hl
      | busy s =>
        rw [hp] at hl hsent
        cases s with
        | unlock m => cases hsent
        | _ => cases hl
      | after s next =>
        rw [hp] at hl hw
        cases next with
        | done r =>
          cases r with
          | held m => cases hl; exact Or.inl ⟨s, rfl⟩
          | _ => cases hl
        | want s' =>
          cases s' with
          | len i acc => cases hl
          | _ => exact hw.2.elim
        | await tok' => cases hl
        | _ => exact hw.2.elim
      | done r =>
        rw [hp] at hl
        cases r with
        | held m => cases hl; exact Or.inr (Or.inl rfl)
        | _ => cases hl
      | _ => rw [hp] at hl; cases hl

/-- `len` counts the shards one after the other while other callers set states.  Nevertheless there is a moment
between the call and the return at which the number of states is the result. -/
theorem C59_len (t : ℕ) (g0 g1 g2 : G) (ms' : List (ℕ × Move)) (es' : List Event) (n : ℕ)
    (h0 : step hash g t (.call .len) = some (g0, some (.call t .len)))
    (h1 : Conc.run hash g0 ms' = some (g1, es')) (hv' : ∀ x ∈ es', x.Valid) (hret : ∀ r, .ret t r ∉ es')
    (h2 : step hash g1 t .go = some (g2, some (.ret t (.num n)))) :
    ∃ ms'' g' es'', ms'' <+: ms' ∧ Conc.run hash g0 ms'' = some (g', es'') ∧ g'.mem.map.len = n := by
  obtain ⟨hi, S, -, hr⟩ := sim_run (Inv.init hash threads) (Rel.init hash threads) h hv
  obtain ⟨i0, S0, st, r0⟩ := sim_call hi hr h0 (by intro x hx; cases hx; trivial)
  have hlen : g.mem.map.len = g0.mem.map.len := by
    cases hp : g.pc t with
    | idle =>
      simp only [step, hp] at h0
      cases h0
      rfl
    | _ => simp only [step, hp] at h0; cases h0
  have hc : Counts S0 g0.mem.map.len t g0.mem.map.len := by
    cases st with
    | call _ hne => exact absurd rfl hne
    | callLen ha =>
      left
      show Function.update S.pc t _ t = _
      rw [Function.update_self, hi.mem.size' hr, hlen]
  obtain ⟨S1, r1, hc1⟩ := counts_run i0 r0 hc h1 hv' hret
  have hdone : g1.pc t = .done (.num n) := by
    cases hp : g1.pc t with
    | done r =>
      simp only [step, hp] at h2
      cases r with
      | num m => cases h2; rfl
      | _ => cases h2
    | idle => simp only [step, hp] at h2; cases h2
    | panicked => simp only [step, hp] at h2; cases h2
    | want s => simp only [step, hp] at h2; split at h2 <;> [cases h2; (split at h2 <;> cases h2)]
    | inside s => simp only [step, hp] at h2; split at h2 <;> cases h2
    | busy s => simp only [step, hp] at h2; split at h2 <;> cases h2
    | after s next => simp only [step, hp] at h2; cases h2
    | await tok => simp only [step, hp] at h2; split at h2 <;> cases h2
  have hp := r1.pc t
  rw [hdone] at hp
  rcases hc1 with hc1 | ⟨m, e1, e2, e3⟩
  · rw [show S1.pc t = .done (.num n) from hp] at hc1
    cases hc1
  · rw [show S1.pc t = .done (.num n) from hp] at e1
    cases e1
    exact run_between h1 e2 e3

/-- The numbers that `log_stats` logs (`search.rs:109-111`) never decrease: if a call of `len` begins after another one, by the
same or another caller, has returned, then it gives at least as many states. -/
theorem C59_len_grows (t u n m : ℕ) (a b c d : List Event)
    (he : es = a ++ .ret t (.num n) :: (b ++ .call u .len :: (c ++ .ret u (.num m) :: d))) : n ≤ m := by
  obtain ⟨S, hS⟩ := C59_atomic hash threads ms g es h hv
  have e : es = (a ++ [.ret t (.num n)]) ++ (b ++ [.call u .len]) ++ (c ++ .ret u (.num m) :: d) := by
    rw [he]
    simp
  rw [e] at hS
  exact hS.len_le (t := t) (u := u) (by simp) (by simp) (by simp)

omit h hv

/-- A schedule with two callers and eight shards: caller 1 waits for the lock that caller 0 holds while it sets
the state, and caller 1 continues after the message has been sent and before the entry has been removed. -/
def exampleConc : List (ℕ × Move) :=
  let A : OSet := ⟨3, allValues 3⟩
  let go (t k : ℕ) : List (ℕ × Move) := List.replicate k (t, .go)
  [(0, .call (.lock A))] ++ go 0 2 ++ [(1, .call (.lock A))] ++ go 0 3 ++ go 1 4 ++
  [(0, .call (.set A ⟨2, 3, 2, 3⟩))] ++ go 0 5 ++ [(2, .call (.get A))] ++ go 2 5 ++
  [(0, .call (.unlock ⟨3, [255], 5, 0⟩))] ++ go 0 2 ++ go 1 2 ++ go 0 3

/-- Non-vacuity: the execution exists, with these events. -/
example :
    (Conc.run (fun _ => 13) (Conc.init 1) exampleConc).map (·.2) =
      some [.call 0 (.lock ⟨3, allValues 3⟩), .call 1 (.lock ⟨3, allValues 3⟩), .ret 0 (.held ⟨3, [255], 5, 0⟩),
        .call 0 (.set ⟨3, allValues 3⟩ ⟨2, 3, 2, 3⟩), .ret 0 .unit, .call 2 (.get ⟨3, allValues 3⟩),
        .ret 2 (.state ⟨2, 3, 2, 3⟩), .call 0 (.unlock ⟨3, [255], 5, 0⟩), .ret 1 .free, .ret 0 .unit] := by
  decide +kernel

/-- Non-vacuity of `C59_len`: a call of `len` counts the eight shards while a state is set. -/
example :
    (Conc.run (fun _ => 13) (Conc.init 1) ([(0, .call .len)] ++ List.replicate 10 (0, .go) ++
      [(1, .call (.set ⟨3, allValues 3⟩ ⟨2, 3, 2, 3⟩))] ++ List.replicate 5 (1, .go) ++
      List.replicate 23 (0, .go))).map (·.2) =
      some [.call 0 .len, .call 1 (.set ⟨3, allValues 3⟩ ⟨2, 3, 2, 3⟩), .ret 1 .unit, .ret 0 (.num 1)] := by
  decide +kernel

/-- Non-vacuity of `C59_len_grows`: two calls of `len`, with a state set in between. -/
example :
    (Conc.run (fun _ => 13) (Conc.init 1) ([(0, .call .len)] ++ List.replicate 33 (0, .go) ++
      [(1, .call (.set ⟨3, allValues 3⟩ ⟨2, 3, 2, 3⟩))] ++ List.replicate 5 (1, .go) ++
      [(2, .call .len)] ++ List.replicate 33 (2, .go))).map (·.2) =
      some ([.call 0 .len] ++ .ret 0 (.num 0) :: ([.call 1 (.set ⟨3, allValues 3⟩ ⟨2, 3, 2, 3⟩), .ret 1 .unit] ++ .call 2 .len ::
        ([] ++ .ret 2 (.num 1) :: []))) := by
  decide +kernel

/-- The condition on the calls is needed: a state for two channels makes the call panic and poisons the shard. -/
example :
    (Conc.run (fun _ => 13) (Conc.init 1) ([(0, .call (.set ⟨2, allValues 2⟩ ⟨1, 1, 1, 1⟩))] ++
      List.replicate 3 (0, .go) ++ [(1, .call (.get ⟨3, allValues 3⟩)), (1, .go)])).map
        (fun r => (r.1.pc 0, r.1.pc 1, (r.1.rw false 5).poisoned)) = some (.panicked, .panicked, true) := by
  decide +kernel

end Sortnet
