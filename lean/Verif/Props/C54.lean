import Verif.Model.Cmd
import Verif.Props.C53
import Verif.Theory.Standard

/-!
# C54: the command `search` with a prefix
-/

namespace Sortnet

open Search

/-- The option `--prefix` for a list of comparators: for every comparator first the channel that gets the maximum, then the
channel that gets the minimum. -/
def prefixArgs {n : ℕ} (pre : List (Fin n × Fin n)) : List ℕ := pre.flatMap fun c => [c.2.val, c.1.val]

/-- `r` is the minimum number of comparators that have to be added to `pre` to sort all vectors, up to a relabelling of the
outputs. -/
def MinCompletion {n : ℕ} (pre : List (Fin n × Fin n)) (r : ℕ) : Prop :=
  (∃ cn, Sorts (pre ++ cn) Set.univ ∧ cn.length = r) ∧ ∀ cn, Sorts (pre ++ cn) Set.univ → r ≤ cn.length

/-- `r` is the minimum number of comparators that have to be added to `pre` to get a sorting network. -/
def MinStandardCompletion {n : ℕ} (pre : List (Fin n × Fin n)) (r : ℕ) : Prop :=
  (∃ cn, Standard cn ∧ SortingNetwork n (pre ++ cn) ∧ cn.length = r) ∧
    ∀ cn, SortingNetwork n (pre ++ cn) → r ≤ cn.length

theorem shiftMask_eq {n : ℕ} (hn : n ≤ 64) (c : Fin n) : shiftMask c = (bit c).toNat := by
  have hc := c.2
  rw [shiftMask, Nat.mod_eq_of_lt (by omega), bit, BitVec.toNat_twoPow, Nat.mod_eq_of_lt]
  exact Nat.pow_lt_pow_right (by omega) hc

theorem applyComparatorRaw_eq {n : ℕ} (hn : n ≤ 64) (s : Bitmap n) (c0 c1 : Fin n) :
    applyComparatorRaw s c0 c1 = s.applyComparator c0 c1 := by
  simp only [applyComparatorRaw, Bitmap.applyComparator, shiftMask_eq hn, BitVec.ofNat_toNat, BitVec.setWidth_eq,
    BitVec.toNat_or]

theorem maskLoop_fst {σ τ : Type} (n mask : ℕ) (f : BitVec n → σ × τ → σ × τ) (hf : ∀ x st, (f x st).1 = st.1)
    (index : ℕ) (st : σ × τ) : (maskLoop n mask f index st).1 = st.1 := by
  fun_induction maskLoop n mask f index st with
  | case1 index st hlt ih => rw [ih, hf]
  | case2 => rfl

/-- A comparator with two equal channels has no effect. -/
theorem applyComparatorRaw_self {n : ℕ} (s : Bitmap n) (c : ℕ) : (applyComparatorRaw s c c).1 = s := by
  unfold applyComparatorRaw
  refine maskLoop_fst n _ _ ?_ _ _
  intro x st
  funext y
  simp only [Function.update_apply]
  split
  · next h => simp [h]
  · rfl

theorem applyComparatorRaw_large {n : ℕ} (s : Bitmap n) (c0 c1 : ℕ) (h : n ≤ c0 % 64 ∨ n ≤ c1 % 64) :
    applyComparatorRaw s c0 c1 = (s, false) := by
  have : ¬ (shiftMask c0 ||| shiftMask c1) < 2 ^ n := by
    rw [Nat.not_lt]
    rcases h with h | h
    · exact (Nat.pow_le_pow_right (by omega) h).trans Nat.left_le_or
    · exact (Nat.pow_le_pow_right (by omega) h).trans Nat.right_le_or
  unfold applyComparatorRaw
  dsimp only
  rw [maskLoop, if_neg this]
  rfl

theorem applyPrefix_args {n : ℕ} (hn : n ≤ 64) (pre : List (Fin n × Fin n)) (s : Bitmap n) :
    ∃ s', applyPrefix (prefixArgs pre) s = some s' ∧ s'.toSet = run pre '' s.toSet := by
  induction pre generalizing s with
  | nil => exact ⟨s, rfl, by simp [show (run [] : (Fin n → Bool) → _) = id from rfl]⟩
  | cons c pre ih =>
    obtain ⟨c1, c0⟩ := c
    obtain ⟨s', h1, h2⟩ := ih (applyComparatorRaw s c0 c1).1
    refine ⟨s', h1, ?_⟩
    have h3 : (applyComparatorRaw s c0 c1).1.toSet = applyCmp (c1, c0) '' s.toSet := by
      by_cases hc : c0 = c1
      · subst hc
        rw [applyComparatorRaw_self, show (applyCmp (c0, c0) : (Fin n → Bool) → _) = id from funext fun x =>
          applyCmp_self c0 x, Set.image_id]
      · rw [applyComparatorRaw_eq hn, applyComparator_toSet s hc]
    rw [h2, h3, Set.image_image]
    rfl

theorem Chained.run {n : ℕ} {A : Set (Fin n → Bool)} (hA : Chained A) (pre : List (Fin n × Fin n)) :
    Chained (run pre '' A) := by
  induction pre generalizing A with
  | nil => simpa [show (Sortnet.run [] : (Fin n → Bool) → _) = id from rfl] using hA
  | cons c pre ih =>
    have := ih (hA.applyCmp c)
    rwa [Set.image_image] at this

theorem sorts_append {n : ℕ} (pre cn : List (Fin n × Fin n)) (A : Set (Fin n → Bool)) :
    Sorts cn (run pre '' A) ↔ Sorts (pre ++ cn) A := by
  unfold Sorts
  rw [Set.image_image]
  simp only [run_append]

/-- For a standard prefix the two notions agree. -/
theorem minCompletion_iff {n : ℕ} {pre : List (Fin n × Fin n)} (hp : Standard pre) {r : ℕ} :
    MinCompletion pre r ↔ MinStandardCompletion pre r := by
  have key : ∀ cn, Sorts (pre ++ cn) Set.univ → ∃ cn', Standard cn' ∧ SortingNetwork n (pre ++ cn') ∧
      cn'.length ≤ cn.length := by
    intro cn h
    obtain ⟨cn', π, h1, h2, h3⟩ := untangle cn
    refine ⟨cn', h1, sortingNetwork_of_standard ?_ ?_, h2⟩
    · intro c hc
      rcases List.mem_append.1 hc with hc | hc
      · exact hp c hc
      · exact h1 c hc
    · rw [Sorts_iff] at h ⊢
      intro x hx y hy
      have := h x hx y hy
      rw [run_append, run_append, h3 Bool _ (run pre x), h3 Bool _ (run pre y), comp_le_comp_iff,
        comp_le_comp_iff] at this
      rwa [run_append, run_append]
  constructor
  · rintro ⟨⟨cn, h1, rfl⟩, h2⟩
    obtain ⟨cn', h3, h4, h5⟩ := key cn h1
    have := h2 cn' (h4.sorts _)
    exact ⟨⟨cn', h3, h4, by omega⟩, fun cn h => h2 cn (h.sorts _)⟩
  · rintro ⟨⟨cn, h1, h2, rfl⟩, h3⟩
    refine ⟨⟨cn, h2.sorts _, rfl⟩, fun cn h => ?_⟩
    obtain ⟨cn', h4, h5, h6⟩ := key cn h
    exact (h3 cn' h5).trans h6

theorem isOpt_run_iff {n : ℕ} {pre : List (Fin n × Fin n)} {r : ℕ} :
    IsOpt (run pre '' Set.univ) r ↔ MinCompletion pre r := by
  unfold IsOpt LB UB MinCompletion
  simp only [sorts_append]
  constructor
  · rintro ⟨h1, cn, h2, h3⟩
    have := h1 cn h3
    exact ⟨⟨cn, h3, by omega⟩, h1⟩
  · rintro ⟨⟨cn, h2, rfl⟩, h1⟩
    exact ⟨h1, cn, le_rfl, h2⟩

theorem Search.CmdSearch.run {hash : List ℕ → ℕ} {n : ℕ} (hn : n ≤ 11) {limit : Option ℕ} {pre : List (Fin n × Fin n)}
    {G : Global} (h : CmdSearch hash n limit (prefixArgs pre) G) :
    ∃ s : Bitmap n, s.toSet = run pre '' Set.univ ∧ Chained s.toSet ∧ Run hash limit ⟨n, s⟩ G := by
  obtain ⟨s, h1, h2⟩ := h
  obtain ⟨s', h3, h4⟩ := applyPrefix_args (by omega) pre (allValues n)
  rw [h1] at h3
  cases h3
  rw [toSet_allValues] at h4
  exact ⟨s, h4, by rw [h4]; exact chained_univ.run pre, h2⟩

/-- C54.  The result of `search` without a limit is the minimum number of comparators that complete the prefix. -/
theorem C54_exact (hash : List ℕ → ℕ) (n : ℕ) (hn : n ≤ 11) (pre : List (Fin n × Fin n)) (G : Global)
    (h : CmdSearch hash n none (prefixArgs pre) G) (r : ℕ) (hr : Returned G r) : MinCompletion pre r := by
  obtain ⟨s, h1, h2, h3⟩ := h.run hn
  have := C29_exact hash ⟨n, s⟩ h2 hn G h3 r hr
  dsimp only at this
  rw [h1] at this
  exact isOpt_run_iff.1 this

/-- If the prefix consists of standard comparators, it is the minimum number of comparators that complete the prefix to a
sorting network. -/
theorem C54_standard (hash : List ℕ → ℕ) (n : ℕ) (hn : n ≤ 11) (pre : List (Fin n × Fin n)) (hp : Standard pre)
    (G : Global) (h : CmdSearch hash n none (prefixArgs pre) G) (r : ℕ) (hr : Returned G r) :
    MinStandardCompletion pre r :=
  (minCompletion_iff hp).1 (C54_exact hash n hn pre G h r hr)

/-- With a limit, the result is a lower bound, and exact if it is below the limit. -/
theorem C54_limit (hash : List ℕ → ℕ) (n : ℕ) (hn : n ≤ 11) (limit : ℕ) (pre : List (Fin n × Fin n)) (G : Global)
    (h : CmdSearch hash n (some limit) (prefixArgs pre) G) (r : ℕ) (hr : Returned G r) :
    (∀ cn, Sorts (pre ++ cn) Set.univ → r ≤ cn.length) ∧ (r < limit → MinCompletion pre r) := by
  obtain ⟨s, h1, h2, h3⟩ := h.run hn
  obtain ⟨h4, h5⟩ := C29_limit hash limit ⟨n, s⟩ h2 hn G h3 r hr
  dsimp only at h4 h5
  rw [h1] at h4 h5
  refine ⟨fun cn hcn => h4 cn ((sorts_append pre cn _).2 hcn), fun hlt => ?_⟩
  rcases h5 with h5 | h5
  · exact isOpt_run_iff.1 h5
  · omega

/-- The command is started for every prefix, and then it terminates for some schedule: the theorems are not vacuous. -/
theorem C54_returns (hash : List ℕ → ℕ) (n : ℕ) (hn : n ≤ 11) (limit : Option ℕ) (pre : List (Fin n × Fin n)) :
    ∃ G r, CmdSearch hash n limit (prefixArgs pre) G ∧ Returned G r := by
  obtain ⟨s, h1, h2⟩ := applyPrefix_args (by omega) pre (allValues n)
  rw [toSet_allValues] at h2
  obtain ⟨A, W, ev, hA, hW, _, _, k, r, hr⟩ := C53_exists hash limit ⟨n, s⟩ (by rw [h2]; exact chained_univ.run pre) hn
  exact ⟨(W k).G, r, ⟨s, h1, A, hA, (hW.wreach k).reach⟩, hr⟩

/-- The command ends, with this result, if the workers eventually go on whenever some task is running or in the queue (see C53). -/
theorem C54_total (hash : List ℕ → ℕ) (n : ℕ) (hn : n ≤ 11) (pre : List (Fin n × Fin n)) (s : Bitmap n)
    (hs : applyPrefix (prefixArgs pre) (allValues n) = some s) (A : OSet) (hA : canon hash ⟨n, s⟩ = some A)
    (W : ℕ → World) (ev : ℕ → Option Event) (h : WExecution hash none A W ev)
    (hx : ∃ K, ∀ k, K ≤ k → ∀ i, ev k ≠ some (.extra i))
    (hwork : ∀ k, (∃ i, Runnable (W k) i) → ∃ k', k ≤ k' ∧ ev k' ≠ none) :
    ∃ k r, Returned (W k).G r ∧ MinCompletion pre r := by
  obtain ⟨s', h1, h2⟩ := applyPrefix_args (by omega) pre (allValues n)
  rw [hs] at h1
  cases h1
  rw [toSet_allValues] at h2
  obtain ⟨k, r, h3, h4⟩ := C53_total hash none ⟨n, s⟩ (by rw [h2]; exact chained_univ.run pre) hn A hA W ev h hx rfl hwork
  dsimp only at h4
  rw [h2] at h4
  exact ⟨k, r, h3, isOpt_run_iff.1 h4⟩

/-- Every list of an even number of channels below `n` is the option for some prefix. -/
theorem C54_args (n : ℕ) (l : List ℕ) (hl : l.length % 2 = 0) (hc : ∀ c ∈ l, c < n) :
    ∃ pre : List (Fin n × Fin n), prefixArgs pre = l := by
  induction l using List.twoStepInduction with
  | nil => exact ⟨[], rfl⟩
  | singleton a => simp at hl
  | cons_cons a b l ih _ =>
    obtain ⟨pre, rfl⟩ := ih (by simp at hl; omega) fun c h => hc c (by simp [h])
    exact ⟨(⟨b, hc b (by simp)⟩, ⟨a, hc a (by simp)⟩) :: pre, rfl⟩

/-- An odd number of channels is rejected: the command panics before the search starts. -/
theorem C54_odd (hash : List ℕ → ℕ) (n : ℕ) (limit : Option ℕ) (l : List ℕ) (hl : l.length % 2 = 1) (G : Global) :
    ¬ CmdSearch hash n limit l G := by
  have : ∀ s : Bitmap n, applyPrefix l s = none := by
    induction l using List.twoStepInduction with
    | nil => simp at hl
    | singleton a => intro s; rfl
    | cons_cons a b l ih _ => intro s; exact ih (by simp at hl; omega) _
  rintro ⟨s, h, _⟩
  rw [this] at h
  cases h

/-- A channel that does not exist is not reported: the pair is ignored. -/
theorem C54_ignored (hash : List ℕ → ℕ) (n : ℕ) (limit : Option ℕ) (l l' : List ℕ) (hl : l.length % 2 = 0) (a b : ℕ)
    (ha : a < 64) (hb : b < 64) (h : n ≤ a ∨ n ≤ b) (G : Global) :
    CmdSearch hash n limit (l ++ a :: b :: l') G ↔ CmdSearch hash n limit (l ++ l') G := by
  have : ∀ s : Bitmap n, applyPrefix (l ++ a :: b :: l') s = applyPrefix (l ++ l') s := by
    induction l using List.twoStepInduction with
    | nil =>
      intro s
      rw [List.nil_append, List.nil_append, applyPrefix, applyComparatorRaw_large]
      rwa [Nat.mod_eq_of_lt ha, Nat.mod_eq_of_lt hb]
    | singleton a => simp at hl
    | cons_cons a b l ih _ => intro s; exact ih (by simp at hl; omega) _
  unfold CmdSearch
  rw [this]

/-- Non-vacuity: with the first layer of two comparators given, the command for four channels returns 3, for some
schedule. -/
example : prefixArgs [((0 : Fin 4), (1 : Fin 4)), (2, 3)] = [1, 0, 3, 2] ∧
    Standard [((0 : Fin 4), (1 : Fin 4)), (2, 3)] ∧
    ∃ G, CmdSearch (fun _ => 0) 4 none [1, 0, 3, 2] G ∧ Returned G 3 := by
  have hp : Standard [((0 : Fin 4), (1 : Fin 4)), (2, 3)] := by simp [Standard]
  refine ⟨rfl, hp, ?_⟩
  obtain ⟨G, r, h1, h2⟩ := C54_returns (fun _ => 0) 4 (by omega) none [((0 : Fin 4), (1 : Fin 4)), (2, 3)]
  obtain ⟨⟨cn, _, h4, rfl⟩, h5⟩ := C54_standard _ 4 (by omega) _ hp G h1 _ h2
  have h6 := h5 [(0, 2), (1, 3), (1, 2)] (by unfold SortingNetwork Monotone; decide +kernel)
  have h7 := C29_three_four.2.2 _ h4
  simp only [List.length_cons, List.length_append, List.length_nil] at h6 h7
  have h8 : cn.length = 3 := by omega
  exact ⟨G, h1, h8 ▸ h2⟩

/-- A comparator in the other direction is not the same prefix: the pair `0, 1` moves the maximum to channel 0. -/
example : prefixArgs [((1 : Fin 2), (0 : Fin 2))] = [0, 1] ∧ MinCompletion [((1 : Fin 2), (0 : Fin 2))] 0 ∧
    ¬ SortingNetwork 2 [((1 : Fin 2), (0 : Fin 2))] := by
  refine ⟨rfl, ⟨⟨[], ?_, rfl⟩, fun _ _ => Nat.zero_le _⟩, ?_⟩
  · rw [Sorts_iff]
    have : ∀ x y : Fin 2 → Bool, (∀ i, run [((1 : Fin 2), (0 : Fin 2))] x i ≤ run [((1 : Fin 2), (0 : Fin 2))] y i) ∨
        ∀ i, run [((1 : Fin 2), (0 : Fin 2))] y i ≤ run [((1 : Fin 2), (0 : Fin 2))] x i := by decide +kernel
    exact fun x _ y _ => this x y
  · unfold SortingNetwork Monotone; decide +kernel

end Sortnet
