import Verif.Spec.ConcMap

/-!
# Who has which lock

The table of the locks, the messages that have been sent, and the instances of `StateLock`.
-/

namespace Sortnet

namespace Search

namespace Conc

/-- The instance of `StateLock` for a set, with `N` shards. -/
def mkLock (hash : List UInt8 → ℕ) (N : ℕ) (A : OSet) (token : ℕ) : StateLock :=
  { channels := A.n, packed := A.s.packed, shard := shardOf hash N A.s.packed, token := token }

/-- The locks `L`, the messages, the next token, the instances that nobody uses in a call, those in a call, whether
the call is between sending the message and removing the entry, and the tokens that are waited for. -/
structure Owns (hash : List UInt8 → ℕ) (N : ℕ) (L : OSet → Option ℕ) (sent : ℕ → Bool) (next : ℕ)
    (owned : List StateLock) (cr : ℕ → Option StateLock) (bz : ℕ → Bool) (wt : ℕ → Option ℕ) : Prop where
  ownedGood : ∀ l ∈ owned, ∃ A, mapOk A ∧ l = mkLock hash N A l.token ∧ L A = some l.token
  crGood : ∀ t l, cr t = some l → ∃ A, mapOk A ∧ l = mkLock hash N A l.token ∧ L A = some l.token
  all : ∀ A tok, L A = some tok → (∃ l ∈ owned, l.token = tok) ∨ ∃ t l, cr t = some l ∧ l.token = tok
  inj : ∀ A B tok, L A = some tok → L B = some tok → A = B
  lt : ∀ A tok, L A = some tok → tok < next
  sentLt : ∀ tok, sent tok = true → tok < next
  ownedSent : ∀ l ∈ owned, sent l.token = false
  crSent : ∀ t l, cr t = some l → sent l.token = bz t
  bzCr : ∀ t, bz t = true → ∃ l, cr t = some l
  uniq : ∀ t u l m, cr t = some l → cr u = some m → l.token = m.token → t = u
  disj : ∀ t l m, cr t = some l → m ∈ owned → l.token ≠ m.token
  nodup : (owned.map StateLock.token).Nodup
  wait : ∀ t tok, wt t = some tok → sent tok = true ∨ ∃ A, L A = some tok

section

variable {hash : List UInt8 → ℕ} {N : ℕ} {L : OSet → Option ℕ} {sent : ℕ → Bool} {next : ℕ}
    {owned : List StateLock} {cr : ℕ → Option StateLock} {bz : ℕ → Bool} {wt : ℕ → Option ℕ}

theorem Owns.init : Owns hash N (fun _ => none) (fun _ => false) 0 [] (fun _ => none) (fun _ => false)
    (fun _ => none) := by
  constructor <;> simp

theorem Owns.take (h : Owns hash N L sent next owned cr bz wt) {t : ℕ} {A : OSet} (hA : mapOk A) (hL : L A = none)
    (ht : cr t = none) :
    Owns hash N (Function.update L A (some next)) sent (next + 1) owned
      (Function.update cr t (some (mkLock hash N A next))) bz wt := by
  have hb : bz t = false := by
    by_contra hb
    obtain ⟨l, hl⟩ := h.bzCr t (by simpa using hb)
    rw [ht] at hl
    cases hl
  have hs : sent next = false := by
    by_contra hs
    exact lt_irrefl _ (h.sentLt next (by simpa using hs))
  have ho : ∀ l ∈ owned, l.token ≠ next := by
    intro l hl
    obtain ⟨B, -, -, e⟩ := h.ownedGood l hl
    exact (h.lt B _ e).ne
  have hc : ∀ u l, cr u = some l → l.token ≠ next := by
    intro u l hl
    obtain ⟨B, -, -, e⟩ := h.crGood u l hl
    exact (h.lt B _ e).ne
  obtain ⟨h1, h2, h3, h4, h5, h6, h7, h8, h9, h10, h11, h12, h13⟩ := h
  have hk : (mkLock hash N A next).token = next := rfl
  constructor
  · intro l hl
    obtain ⟨B, e1, e2, e3⟩ := h1 l hl
    exact ⟨B, e1, e2, by grind⟩
  · intro u l hl
    by_cases hu : u = t
    · subst hu
      rw [Function.update_self] at hl
      cases hl
      exact ⟨A, hA, rfl, by rw [Function.update_self]; rfl⟩
    · rw [Function.update_of_ne hu] at hl
      obtain ⟨B, e1, e2, e3⟩ := h2 u l hl
      exact ⟨B, e1, e2, by grind⟩
  · intro B tok hB
    by_cases e : B = A
    · subst e
      rw [Function.update_self] at hB
      cases hB
      exact Or.inr ⟨t, _, by rw [Function.update_self], rfl⟩
    · rw [Function.update_of_ne e] at hB
      rcases h3 B tok hB with h | ⟨u, l, e1, e2⟩
      · exact Or.inl h
      · exact Or.inr ⟨u, l, by grind, e2⟩
  case wait =>
    intro u tok hu
    rcases h13 u tok hu with h | ⟨B, hB⟩
    · exact Or.inl h
    · exact Or.inr ⟨B, by grind⟩
  all_goals grind

theorem Owns.waitFor (h : Owns hash N L sent next owned cr bz wt) {t : ℕ} {A : OSet} {tok : ℕ}
    (hL : L A = some tok) : Owns hash N L sent next owned cr bz (Function.update wt t (some tok)) := by
  obtain ⟨h1, h2, h3, h4, h5, h6, h7, h8, h9, h10, h11, h12, h13⟩ := h
  refine ⟨h1, h2, h3, h4, h5, h6, h7, h8, h9, h10, h11, h12, ?_⟩
  grind

theorem Owns.stopWait (h : Owns hash N L sent next owned cr bz wt) {t : ℕ} :
    Owns hash N L sent next owned cr bz (Function.update wt t none) := by
  obtain ⟨h1, h2, h3, h4, h5, h6, h7, h8, h9, h10, h11, h12, h13⟩ := h
  refine ⟨h1, h2, h3, h4, h5, h6, h7, h8, h9, h10, h11, h12, ?_⟩
  grind

theorem Owns.keep (h : Owns hash N L sent next owned cr bz wt) {t : ℕ} {l : StateLock} (ht : cr t = some l)
    (hb : bz t = false) :
    Owns hash N L sent next (l :: owned) (Function.update cr t none) bz wt := by
  obtain ⟨h1, h2, h3, h4, h5, h6, h7, h8, h9, h10, h11, h12, h13⟩ := h
  constructor
  · intro m hm
    rcases List.mem_cons.1 hm with rfl | hm
    · exact h2 t m ht
    · exact h1 m hm
  · grind
  · intro A tok hA
    rcases h3 A tok hA with ⟨m, hm, e⟩ | ⟨u, m, e1, e2⟩
    · exact Or.inl ⟨m, List.mem_cons_of_mem _ hm, e⟩
    · by_cases hu : u = t
      · subst hu
        rw [ht] at e1
        cases e1
        exact Or.inl ⟨l, List.mem_cons_self, e2⟩
      · exact Or.inr ⟨u, m, by rw [Function.update_of_ne hu]; exact e1, e2⟩
  all_goals grind

theorem Owns.use (h : Owns hash N L sent next owned cr bz wt) {t : ℕ} {l : StateLock} (hl : l ∈ owned)
    (ht : cr t = none) :
    Owns hash N L sent next (owned.erase l) (Function.update cr t (some l)) bz wt := by
  have hb : bz t = false := by
    by_contra hb
    obtain ⟨l, hl⟩ := h.bzCr t (by simpa using hb)
    rw [ht] at hl
    cases hl
  obtain ⟨h1, h2, h3, h4, h5, h6, h7, h8, h9, h10, h11, h12, h13⟩ := h
  have hsub : ∀ m, m ∈ owned.erase l → m ∈ owned := fun m hm => List.mem_of_mem_erase hm
  have hne : ∀ m ∈ owned.erase l, m.token ≠ l.token := by
    intro m hm e
    have : m ≠ l := by
      rintro rfl
      exact (List.Nodup.not_mem_erase (List.Nodup.of_map _ h12)) hm
    exact this (List.inj_on_of_nodup_map h12 (hsub m hm) hl e)
  have hmem : ∀ m ∈ owned, m ≠ l → m ∈ owned.erase l := fun m hm e => (List.mem_erase_of_ne e).2 hm
  constructor
  · exact fun m hm => h1 m (hsub m hm)
  · grind
  · intro A tok hA
    rcases h3 A tok hA with ⟨m, hm, e⟩ | ⟨u, m, e1, e2⟩
    · by_cases hml : m = l
      · subst hml
        exact Or.inr ⟨t, m, by rw [Function.update_self], e⟩
      · exact Or.inl ⟨m, hmem m hm hml, e⟩
    · exact Or.inr ⟨u, m, by grind, e2⟩
  · exact h4
  · exact h5
  · exact h6
  · exact fun m hm => h7 m (hsub m hm)
  · grind
  · grind
  · grind
  · intro u m m' e1 e2
    by_cases hu : u = t
    · subst hu
      rw [Function.update_self] at e1
      cases e1
      exact (hne m' e2).symm
    · rw [Function.update_of_ne hu] at e1
      exact h11 u m m' e1 (hsub m' e2)
  · exact h12.sublist (List.erase_sublist.map _)
  · exact h13

theorem Owns.send (h : Owns hash N L sent next owned cr bz wt) {t : ℕ} {l : StateLock} (ht : cr t = some l) :
    Owns hash N L (Function.update sent l.token true) next owned cr (Function.update bz t true) wt := by
  have hlt : l.token < next := by
    obtain ⟨A, -, -, e⟩ := h.crGood t l ht
    exact h.lt A _ e
  obtain ⟨h1, h2, h3, h4, h5, h6, h7, h8, h9, h10, h11, h12, h13⟩ := h
  refine ⟨h1, h2, h3, h4, h5, ?_, ?_, ?_, ?_, h10, h11, h12, ?_⟩
  all_goals grind

theorem Owns.drop (h : Owns hash N L sent next owned cr bz wt) {t : ℕ} {l : StateLock} (ht : cr t = some l)
    (hb : bz t = true) {A : OSet} (hA : L A = some l.token) :
    Owns hash N (Function.update L A none) sent next owned (Function.update cr t none)
      (Function.update bz t false) wt := by
  have hs := h.crSent t l ht
  obtain ⟨h1, h2, h3, h4, h5, h6, h7, h8, h9, h10, h11, h12, h13⟩ := h
  constructor
  · intro m hm
    obtain ⟨B, e1, e2, e3⟩ := h1 m hm
    refine ⟨B, e1, e2, ?_⟩
    rw [Function.update_of_ne ?_]
    · exact e3
    · rintro rfl
      rw [hA] at e3
      exact h11 t l m ht hm (by injection e3)
  · intro u m hu
    have hut : u ≠ t := by rintro rfl; simp at hu
    rw [Function.update_of_ne hut] at hu
    obtain ⟨B, e1, e2, e3⟩ := h2 u m hu
    refine ⟨B, e1, e2, ?_⟩
    rw [Function.update_of_ne ?_]
    · exact e3
    · rintro rfl
      rw [hA] at e3
      exact hut (h10 u t m l hu ht (by injection e3 with e; exact e.symm))
  · intro B tok hB
    have hBA : B ≠ A := by rintro rfl; simp at hB
    rw [Function.update_of_ne hBA] at hB
    rcases h3 B tok hB with hh | ⟨u, m, e1, e2⟩
    · exact Or.inl hh
    · refine Or.inr ⟨u, m, ?_, e2⟩
      rw [Function.update_of_ne ?_]
      · exact e1
      · rintro rfl
        rw [ht] at e1
        cases e1
        exact hBA (h4 B A tok hB (by rw [hA, e2]))
  · grind
  · grind
  · grind
  · grind
  · grind
  · grind
  · grind
  · grind
  · exact h12
  · intro u tok hu
    rcases h13 u tok hu with hh | ⟨B, hB⟩
    · exact Or.inl hh
    · by_cases e : B = A
      · subst e
        left
        rw [hA] at hB
        injection hB with e
        rw [← e, hs, hb]
      · exact Or.inr ⟨B, by rw [Function.update_of_ne e]; exact hB⟩

end

end Conc

end Search

end Sortnet
