import Verif.Proof.ConcSim

/-!
# The number of states with concurrent callers
-/

namespace Sortnet

namespace Search

namespace Conc

variable {hash : List UInt8 → ℕ} {N : ℕ} {g : G} {S : Atomic}

theorem finish_len_le {M M' : Mem} {s : Sec} {p : PC} (h : finish M s = some (M', p)) :
    M.map.len ≤ M'.map.len ∧ M'.map.len ≤ M.map.len + 1 := by
  cases s with
  | get A i =>
    simp only [finish, Option.bind_eq_bind, Option.bind_eq_some_iff] at h
    obtain ⟨x, -, r, -, h⟩ := h
    cases r <;> · cases h; omega
  | len i acc =>
    simp only [finish, Option.bind_eq_bind, Option.bind_eq_some_iff] at h
    obtain ⟨x, -, h⟩ := h
    cases h
    omega
  | set A v i =>
    simp only [finish, Option.bind_eq_bind, Option.bind_eq_some_iff] at h
    obtain ⟨x, h1, y, h2, h⟩ := h
    cases h
    have h3 := OSMap.len_setWithPacked h2
    have h4 := sum_set h1 h3.1 h3.2
    have h5 := h4.2.1 0
    unfold StateMap.len
    exact ⟨h5, h4.2.2⟩
  | lock A i =>
    simp only [finish, Option.bind_eq_bind, Option.bind_eq_some_iff] at h
    obtain ⟨x, -, r, -, h⟩ := h
    cases r with
    | some tok => cases h; omega
    | none =>
      simp only [Option.bind_eq_some_iff] at h
      obtain ⟨y, -, h⟩ := h
      cases h
      exact ⟨le_rfl, Nat.le_succ _⟩
  | unlock l =>
    simp only [finish, Option.bind_eq_bind, Option.bind_eq_some_iff] at h
    obtain ⟨x, -, y, -, h⟩ := h
    cases h
    exact ⟨le_rfl, Nat.le_succ _⟩

theorem begin_len {M M' : Mem} {s : Sec} (h : begin M s = some M') : M'.map = M.map := by
  cases s with
  | unlock l =>
    simp only [begin, Option.bind_eq_bind, Option.bind_eq_some_iff] at h
    obtain ⟨x, -, y, -, h⟩ := h
    split_ifs at h
    cases h
    rfl
  | _ => cases h; rfl

/-- A step adds at most one state and removes none. -/
theorem step_len {g g' : G} {t : ℕ} {m : Move} {e : Option Event} (h : step hash g t m = some (g', e)) :
    g.mem.map.len ≤ g'.mem.map.len ∧ g'.mem.map.len ≤ g.mem.map.len + 1 := by
  cases m with
  | call op =>
    simp only [step] at h
    split at h
    · split at h
      · split_ifs at h
        cases h
        exact ⟨le_rfl, Nat.le_succ _⟩
      · cases h
        exact ⟨le_rfl, Nat.le_succ _⟩
    · cases h
  | cancel =>
    simp only [step] at h
    split at h
    · cases h
      exact ⟨le_rfl, Nat.le_succ _⟩
    · cases h
  | go =>
    simp only [step] at h
    cases hp : g.pc t with
    | idle => rw [hp] at h; cases h
    | want s =>
      simp only [hp] at h
      split_ifs at h
      · cases h
        exact ⟨le_rfl, Nat.le_succ _⟩
      · split at h
        · cases h
          exact ⟨le_rfl, Nat.le_succ _⟩
        · cases h
    | inside s =>
      simp only [hp] at h
      split at h
      · rename_i M hM
        cases h
        show g.mem.map.len ≤ M.map.len ∧ _
        rw [begin_len hM]
        refine ⟨le_rfl, ?_⟩
        show M.map.len ≤ _
        rw [begin_len hM]
        exact Nat.le_succ _
      · cases h
        exact ⟨le_rfl, Nat.le_succ _⟩
    | busy s =>
      simp only [hp] at h
      split at h
      · rename_i M next hM
        cases h
        exact finish_len_le hM
      · cases h
        exact ⟨le_rfl, Nat.le_succ _⟩
    | after s next =>
      simp only [hp] at h
      cases h
      exact ⟨le_rfl, Nat.le_succ _⟩
    | await tok =>
      simp only [hp] at h
      split_ifs at h
      cases h
      exact ⟨le_rfl, Nat.le_succ _⟩
    | done r =>
      simp only [hp] at h
      split at h <;> · cases h; exact ⟨le_rfl, Nat.le_succ _⟩
    | panicked => rw [hp] at h; cases h

/-- A call of `len` that started with `lo` states. -/
def Counts (S : Atomic) (total t lo : ℕ) : Prop :=
  S.pc t = .counting lo ∨ ∃ n, S.pc t = .done (.num n) ∧ lo ≤ n ∧ n ≤ total

theorem MemOk.size' (h : MemOk hash N g.mem) (hr : Rel hash g S) : S.size = g.mem.map.len := by
  unfold Atomic.size
  rw [hr.store, h.size]
  rfl

theorem counts_step {S' : Atomic} {g' : G} (h : Inv hash N g) (hr : Rel hash g S) {t lo : ℕ}
    (hc : Counts S g.mem.map.len t lo) {e : Option Event} (hs : StepOr S e S')
    (hm : g.mem.map.len ≤ g'.mem.map.len) (hne : ∀ r, e ≠ some (.ret t r)) :
    Counts S' g'.mem.map.len t lo := by
  have hc' : Counts S g'.mem.map.len t lo := by
    rcases hc with hc | ⟨n, h1, h2, h3⟩
    · exact Or.inl hc
    · exact Or.inr ⟨n, h1, h2, h3.trans hm⟩
  rcases hs with hs | ⟨-, rfl⟩
  · have other : ∀ u a, u ≠ t → Counts S g'.mem.map.len t lo →
        (Function.update S.pc u a t = .counting lo ∨
          ∃ n, Function.update S.pc u a t = .done (.num n) ∧ lo ≤ n ∧ n ≤ g'.mem.map.len) := by
      intro u a hu hc
      rw [Function.update_of_ne (Ne.symm hu)]
      exact hc
    have absurd' : ∀ a, S.pc t = a → a ≠ .counting lo → (∀ n, a ≠ .done (.num n)) → False := by
      rintro a rfl h1 h2
      rcases hc with hc | ⟨n, h3, -⟩
      · exact h1 hc
      · exact h2 n h3
    cases hs with
    | @ret u r hu =>
      refine other u _ ?_ hc'
      rintro rfl
      exact hne r rfl
    | @len u lo' n hu h1 h2 =>
      by_cases e : u = t
      · subst e
        rcases hc with hc | ⟨m, h3, -⟩
        · rw [hu] at hc
          injection hc with hc
          subst hc
          rw [h.mem.size' hr] at h2
          exact Or.inr ⟨n, by simp, h1, h2.trans hm⟩
        · rw [hu] at h3
          cases h3
      · exact other u _ e hc'
    | @call u op hu _ => exact other u _ (by rintro rfl; exact absurd' _ hu (by simp) (by simp)) hc'
    | @get u A hu => exact other u _ (by rintro rfl; exact absurd' _ hu (by simp) (by simp)) hc'
    | @set u A v hu => exact other u _ (by rintro rfl; exact absurd' _ hu (by simp) (by simp)) hc'
    | @lock u A l hu => exact other u _ (by rintro rfl; exact absurd' _ hu (by simp) (by simp)) hc'
    | @wait u A tok hu => exact other u _ (by rintro rfl; exact absurd' _ hu (by simp) (by simp)) hc'
    | @wake u tok hu => exact other u _ (by rintro rfl; exact absurd' _ hu (by simp) (by simp)) hc'
    | @cancel u tok hu => exact other u _ (by rintro rfl; exact absurd' _ hu (by simp) (by simp)) hc'
    | @unlock u l A hu => exact other u _ (by rintro rfl; exact absurd' _ hu (by simp) (by simp)) hc'
    | @callLen u hu => exact other u _ (by rintro rfl; exact absurd' _ hu (by simp) (by simp)) hc'
  · exact hc'

theorem counts_run {ms : List (ℕ × Move)} : ∀ {g : G} {S : Atomic}, Inv hash N g → Rel hash g S → ∀ {t lo : ℕ},
    Counts S g.mem.map.len t lo → ∀ {g' : G} {es : List Event}, run hash g ms = some (g', es) →
    (∀ x ∈ es, x.Valid) → (∀ r, .ret t r ∉ es) →
    ∃ S', Rel hash g' S' ∧ Counts S' g'.mem.map.len t lo := by
  induction ms with
  | nil =>
    intro g S h hr t lo hc g' es hs hv hn
    cases hs
    exact ⟨S, hr, hc⟩
  | cons um ms ih =>
    obtain ⟨u, m⟩ := um
    intro g S h hr t lo hc g' es hs hv hn
    rw [run] at hs
    simp only [Option.bind_eq_bind, Option.bind_eq_some_iff] at hs
    obtain ⟨⟨g1, e⟩, h1, ⟨g2, es'⟩, h2, h3⟩ := hs
    cases h3
    obtain ⟨i1, S1, st, r1⟩ := sim_step h hr h1 (fun x hx => hv x (by
      rw [List.mem_append]
      exact Or.inl (Option.mem_toList.2 hx)))
    have hc1 := counts_step (g' := g1) h hr hc st (step_len h1).1 (by
      rintro r rfl
      exact hn r (by simp))
    exact ih i1 r1 hc1 h2 (fun x hx => hv x (List.mem_append_right _ hx))
      (fun r hr' => hn r (List.mem_append_right _ hr'))

/-- The number of states takes all values in between. -/
theorem run_between {ms : List (ℕ × Move)} : ∀ {g g' : G} {es : List Event}, run hash g ms = some (g', es) →
    ∀ {n : ℕ}, g.mem.map.len ≤ n → n ≤ g'.mem.map.len →
    ∃ ms' g'' es', ms' <+: ms ∧ run hash g ms' = some (g'', es') ∧ g''.mem.map.len = n := by
  induction ms with
  | nil =>
    intro g g' es hs n h1 h2
    cases hs
    exact ⟨[], g, [], List.prefix_rfl, rfl, le_antisymm h1 h2⟩
  | cons um ms ih =>
    obtain ⟨u, m⟩ := um
    intro g g' es hs n h1 h2
    rw [run] at hs
    simp only [Option.bind_eq_bind, Option.bind_eq_some_iff] at hs
    obtain ⟨⟨g1, e⟩, h3, ⟨g2, es'⟩, h4, h5⟩ := hs
    cases h5
    by_cases hn : g.mem.map.len = n
    · exact ⟨[], g, [], List.nil_prefix, rfl, hn⟩
    · have := (step_len h3).2
      obtain ⟨ms', g'', es'', p, q, r⟩ := ih h4 (n := n) (by dsimp only at this ⊢; omega) h2
      refine ⟨(u, m) :: ms', g'', e.toList ++ es'', ?_, ?_, r⟩
      · exact List.cons_prefix_cons.2 ⟨rfl, p⟩
      · rw [run]
        simp only [Option.bind_eq_bind, h3, Option.bind_some, q]

end Conc

end Search

end Sortnet
