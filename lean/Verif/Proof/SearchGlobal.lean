import Verif.Proof.SearchCode

/-!
# Invariant of the interleaved execution
-/

namespace Sortnet

namespace Search

/-- The locks in a list of resources. -/
def Locks (l : List Res) (A : OSet) : Prop := ∃ tok, Res.lock A tok ∈ l

/-- The locks of suspended callers. -/
def heldOf (stack : List Frame) : OSet → Prop := Locks (stack.flatMap Frame.owned)

/-- `c` describes the current call. -/
structure CtxOK (G : Global) (K : Kind) (c : Ctx) (owned : List Res) (outer : OSet → Prop) : Prop where
  held : ∀ A, c.held A ↔ Locks owned A ∨ outer A
  own : ∀ h, c.own h ↔ Res.handle h ∈ owned
  hs : ∀ h, c.own h → c.hs h → ∀ t, G.tasks h.tid = some t → t.status ≠ .taken
  sched : ∀ h, c.own h → c.sched h → ∀ t, G.tasks h.tid = some t → t.scheduled = true
  lock : ∀ A, Locks owned A → ∃ m, K = .improve A m
  handle : ∀ h, Res.handle h ∈ owned → rank h.target < rank K.cur

/-- The suspended callers can be resumed when the call of kind `K` returns, with a budget of `s` for all of
them. -/
def StackOK (hash : List ℕ → ℕ) (G : Global) (root : Kind) : Kind → ℕ → List Frame → Prop
  | K, _, [] => K = root
  | K, s, f :: fs => ∃ K' c b s', b + s' ≤ s ∧ CtxOK G K' c f.owned (heldOf fs) ∧ rank K.cur ≤ rank K'.cur ∧
      (∀ B, c.held B → B = K.cur ∨ rank K.cur < rank B) ∧
      (∀ σ' v, Rely (fun B => c.held B ∧ B ≠ K.cur) G.store σ' → SInv hash σ' → Post σ' v K →
        (f.k v).pot ≤ b ∧ PCInv hash K' c σ' (f.k v)) ∧
      StackOK hash G root K' s' fs

/-- A result that stays valid. -/
def PostS (hash : List ℕ → ℕ) (H : OSet → Prop) (σ : Store) (v : State) (K : Kind) : Prop :=
  ∀ σ', Rely H σ σ' → SInv hash σ' → Post σ' v K

/-- A call in progress, with a budget of `b` for the call and of `s` for its callers. -/
def Active (hash : List ℕ → ℕ) (G : Global) (root : Kind) (K : Kind) (c : Ctx) (b s : ℕ) (p : Prog Exit)
    (owned : List Res) (stack : List Frame) : Prop :=
  CtxOK G K c owned (heldOf stack) ∧ WP hash K (ExitOK hash K) p c b G.store ∧ StackOK hash G root K s stack

/-- Invariant of a task with budget `β`. -/
def StatusOK (hash : List ℕ → ℕ) (G : Global) (root : Kind) (β : ℕ) : Status → Prop
  | .run p owned stack => ∃ K c b s, Active hash G root K c b s p owned stack ∧
      b + s + 1 + (owned ++ stack.flatMap Frame.owned).length ≤ β
  | .sleep p owned stack => ∃ K c b s, Active hash G root K c b s p owned stack ∧
      b + s + 1 + (owned ++ stack.flatMap Frame.owned).length ≤ β ∧
      ((owned = [] ∧ stack = []) ∨ ∃ h, c.own h ∧ c.hs h ∧ c.sched h)
  | .wait A _ p owned stack => ∃ m c b s, Active hash G root (.improve A m) c b s p owned stack ∧
      b + s + 1 + (owned ++ stack.flatMap Frame.owned).length ≤ β ∧
      (∀ B, c.held B → rank A < rank B)
  | .unwind v owned stack => ∃ K s, PostS hash (heldOf stack) G.store v K ∧
      (∀ A, Locks owned A → ∃ m, K = .improve A m) ∧ StackOK hash G root K s stack ∧
      2 + s + (owned ++ stack.flatMap Frame.owned).length ≤ β
  | .dropping l => l.length ≤ β
  | .done v => PostS hash (fun _ => False) G.store v root ∧ 1 ≤ β
  | .taken => True
  | .panicked => False

/-- The invariant of the ownership of locks and handles. -/
structure Own (G : Global) : Prop where
  nodup : ∀ i t, G.tasks i = some t → t.res.Nodup
  disj : ∀ i j t t' r, G.tasks i = some t → G.tasks j = some t' → r ∈ t.res → r ∈ t'.res → i = j
  lockOwned : ∀ i t A tok, G.tasks i = some t → Res.lock A tok ∈ t.res → G.locks A = some tok
  lockHas : ∀ A tok, G.locks A = some tok → ∃ i t, G.tasks i = some t ∧ Res.lock A tok ∈ t.res
  lockTok : ∀ A tok, G.locks A = some tok → tok < G.nextToken
  child : ∀ i t h, G.tasks i = some t → Res.handle h ∈ t.res → h.tid ≠ i ∧ h.tid ≠ 0 ∧
    ∃ c, G.tasks h.tid = some c ∧ (∃ level, c.root = .improve level h.prev h.target) ∧ c.cancelled = false
  unsched : ∀ i t, G.tasks i = some t → t.scheduled = false →
    (∃ p, t.status = .sleep p [] []) ∨ t.status = .dropping []
  dropped : ∀ i t l, G.tasks i = some t → t.status = .dropping l → t.cancelled = true

/-- Task 0 is the main task. -/
def MainOK (limit : Option ℕ) (A : OSet) (G : Global) : Prop :=
  ∃ t, G.tasks 0 = some t ∧ t.root = .start limit A ∧ t.scheduled = true ∧ t.cancelled = false ∧ t.status ≠ .taken

/-- The invariant.  `β` gives a budget for each task. -/
structure GInv (hash : List ℕ → ℕ) (limit : Option ℕ) (A : OSet) (β : ℕ → ℕ) (G : Global) : Prop where
  sinv : SInv hash G.store
  own : Own G
  task : ∀ i t, G.tasks i = some t → StatusOK hash G t.root.rootKind (β i) t.status
  main : MainOK limit A G

variable {hash : List ℕ → ℕ}

/-! ## Frame lemmas -/

/-- The children named in `l` do not get worse. -/
def Kids (G G' : Global) (l : List Res) : Prop :=
  ∀ h, Res.handle h ∈ l → ∀ t', G'.tasks h.tid = some t' → ∃ t, G.tasks h.tid = some t ∧
    (t.status ≠ .taken → t'.status ≠ .taken) ∧ (t.scheduled = true → t'.scheduled = true)

theorem Kids.anti {G G' : Global} {l l' : List Res} (h : Kids G G' l) (hl : ∀ r, r ∈ l' → r ∈ l) : Kids G G' l' :=
  fun hd hm => h hd (hl _ hm)

theorem CtxOK.frame {G G' : Global} {K : Kind} {c : Ctx} {owned : List Res} {outer : OSet → Prop}
    (h : CtxOK G K c owned outer) (hk : Kids G G' owned) : CtxOK G' K c owned outer := by
  refine ⟨h.held, h.own, ?_, ?_, h.lock, h.handle⟩
  · intro hd ho hs t' ht'
    obtain ⟨t, ht, h1, _⟩ := hk hd ((h.own hd).1 ho) t' ht'
    exact h1 (h.hs hd ho hs t ht)
  · intro hd ho hs t' ht'
    obtain ⟨t, ht, _, h1⟩ := hk hd ((h.own hd).1 ho) t' ht'
    exact h1 (h.sched hd ho hs t ht)

theorem Locks_append {l l' : List Res} {A : OSet} : Locks (l ++ l') A ↔ Locks l A ∨ Locks l' A := by
  unfold Locks
  constructor
  · rintro ⟨tok, h⟩
    rcases List.mem_append.1 h with h | h
    · exact Or.inl ⟨tok, h⟩
    · exact Or.inr ⟨tok, h⟩
  · rintro (⟨tok, h⟩ | ⟨tok, h⟩)
    · exact ⟨tok, List.mem_append.2 (Or.inl h)⟩
    · exact ⟨tok, List.mem_append.2 (Or.inr h)⟩

theorem heldOf_cons {f : Frame} {fs : List Frame} {A : OSet} :
    heldOf (f :: fs) A ↔ Locks f.owned A ∨ heldOf fs A := by
  unfold heldOf
  rw [List.flatMap_cons, Locks_append]

theorem heldOf_nil {A : OSet} : ¬ heldOf [] A := by
  rintro ⟨tok, h⟩
  simp at h

theorem StackOK.frame {G G' : Global} {root K : Kind} {s : ℕ} {stack : List Frame} (h : StackOK hash G root K s stack)
    (he : Evolves G.store G'.store) (hh : ∀ B, heldOf stack B → B ≠ K.cur → G'.store B = G.store B)
    (hk : Kids G G' (stack.flatMap Frame.owned)) : StackOK hash G' root K s stack := by
  induction stack generalizing K s with
  | nil => exact h
  | cons f fs ih =>
    obtain ⟨K', c, b, s', hb, h1, h2, h3, h4, h5⟩ := h
    rw [List.flatMap_cons] at hk
    refine ⟨K', c, b, s', hb, h1.frame (hk.anti fun r hr => List.mem_append.2 (Or.inl hr)), h2, h3, ?_, ?_⟩
    · intro σ' v hr hi hp
      refine h4 σ' v ⟨he.trans hr.1, ?_⟩ hi hp
      rintro B ⟨hB, hne⟩
      rw [hr.2 B ⟨hB, hne⟩]
      exact hh B (heldOf_cons.2 ((h1.held B).1 hB)) hne
    · refine ih h5 ?_ (hk.anti fun r hr => List.mem_append.2 (Or.inr hr))
      intro B hB hne
      by_cases hB2 : B = K.cur
      · exfalso
        cases fs with
        | nil => exact heldOf_nil hB
        | cons f2 fs2 =>
          obtain ⟨K2, c2, _, _, _, g1, g2, g3, _⟩ := h5
          rcases g3 B ((g1.held B).2 (heldOf_cons.1 hB)) with h | h
          · exact hne h
          · rw [hB2] at h
            exact absurd (lt_of_lt_of_le h h2) (lt_irrefl _)
      · exact hh B (heldOf_cons.2 (Or.inr hB)) hB2

theorem Active.frame {G G' : Global} {root K : Kind} {c : Ctx} {b s : ℕ} {p : Prog Exit} {owned : List Res}
    {stack : List Frame} (h : Active hash G root K c b s p owned stack)
    (hr : Rely (Locks (owned ++ stack.flatMap Frame.owned)) G.store G'.store)
    (hk : Kids G G' (owned ++ stack.flatMap Frame.owned)) : Active hash G' root K c b s p owned stack := by
  obtain ⟨h1, h2, h3⟩ := h
  refine ⟨h1.frame (hk.anti fun r hr => List.mem_append.2 (Or.inl hr)), h2.stable (hr.anti ?_),
    h3.frame hr.1 (fun B hB _ => hr.2 B (Locks_append.2 (Or.inr hB)))
      (hk.anti fun r hr => List.mem_append.2 (Or.inr hr))⟩
  intro A hA
  exact Locks_append.2 ((h1.held A).1 hA)

theorem StatusOK.frame {G G' : Global} {root : Kind} {β : ℕ} {s : Status} (h : StatusOK hash G root β s)
    (hr : Rely (Locks s.res) G.store G'.store) (hk : Kids G G' s.res) : StatusOK hash G' root β s := by
  cases s with
  | run p owned stack =>
    obtain ⟨K, c, b, s, ha, hb⟩ := h
    exact ⟨K, c, b, s, ha.frame hr hk, hb⟩
  | sleep p owned stack =>
    obtain ⟨K, c, b, s, ha, hb, h'⟩ := h
    exact ⟨K, c, b, s, ha.frame hr hk, hb, h'⟩
  | wait A tok p owned stack =>
    obtain ⟨m, c, b, s, ha, hb, h'⟩ := h
    exact ⟨m, c, b, s, ha.frame hr hk, hb, h'⟩
  | unwind v owned stack =>
    obtain ⟨K, s, h1, h2, h3, hb⟩ := h
    refine ⟨K, s, ?_, h2, h3.frame hr.1 (fun B hB _ => hr.2 B (Locks_append.2 (Or.inr hB)))
      (hk.anti fun r hr => List.mem_append.2 (Or.inr hr)), hb⟩
    intro σ' hr' hi
    exact h1 σ' (Rely.trans (hr.anti fun A hA => Locks_append.2 (Or.inr hA)) hr') hi
  | dropping l => exact h
  | done v =>
    refine ⟨?_, h.2⟩
    intro σ' hr' hi
    exact h.1 σ' (Rely.trans (hr.anti fun A hA => absurd hA id) hr') hi
  | taken => trivial
  | panicked => exact h

/-! ## Steps that keep all resources -/

/-- Tasks are only changed in ways that do not affect the ownership invariants. -/
structure Same (t t' : Task) : Prop where
  res : t'.res = t.res
  root : t'.root = t.root
  cancelled : t'.cancelled = t.cancelled
  scheduled : t.scheduled = true → t'.scheduled = true
  unsched : t'.scheduled = false → (∃ p, t'.status = .sleep p [] []) ∨ t'.status = .dropping []
  dropped : ∀ l, t'.status = .dropping l → t.cancelled = true

theorem Own.same {G G' : Global} (h : Own G) (hl : G'.locks = G.locks) (hn : G'.nextToken = G.nextToken)
    (h1 : ∀ i t', G'.tasks i = some t' → ∃ t, G.tasks i = some t ∧ Same t t')
    (h2 : ∀ i t, G.tasks i = some t → ∃ t', G'.tasks i = some t' ∧ Same t t') : Own G' := by
  constructor
  · intro i t' ht'
    obtain ⟨t, ht, hs⟩ := h1 i t' ht'
    rw [hs.res]; exact h.nodup i t ht
  · intro i j t' u' r ht' hu' hr hr'
    obtain ⟨t, ht, hs⟩ := h1 i t' ht'
    obtain ⟨u, hu, hs'⟩ := h1 j u' hu'
    rw [hs.res] at hr
    rw [hs'.res] at hr'
    exact h.disj i j t u r ht hu hr hr'
  · intro i t' A tok ht' hm
    obtain ⟨t, ht, hs⟩ := h1 i t' ht'
    rw [hs.res] at hm
    rw [hl]
    exact h.lockOwned i t A tok ht hm
  · intro A tok hA
    rw [hl] at hA
    obtain ⟨i, t, ht, hm⟩ := h.lockHas A tok hA
    obtain ⟨t', ht', hs⟩ := h2 i t ht
    exact ⟨i, t', ht', by rw [hs.res]; exact hm⟩
  · intro A tok hA
    rw [hl] at hA
    rw [hn]
    exact h.lockTok A tok hA
  · intro i t' hd ht' hm
    obtain ⟨t, ht, hs⟩ := h1 i t' ht'
    rw [hs.res] at hm
    obtain ⟨a, b, c, hc, hc1, hc2⟩ := h.child i t hd ht hm
    obtain ⟨c', hc', hs'⟩ := h2 _ c hc
    exact ⟨a, b, c', hc', by rw [hs'.root]; exact hc1, by rw [hs'.cancelled]; exact hc2⟩
  · intro i t' ht' hu
    obtain ⟨t, ht, hs⟩ := h1 i t' ht'
    exact hs.unsched hu
  · intro i t' l ht' hu
    obtain ⟨t, ht, hs⟩ := h1 i t' ht'
    rw [hs.cancelled]
    exact hs.dropped l hu

theorem Same.refl_of {G : Global} (h : Own G) {i : ℕ} {t : Task} (ht : G.tasks i = some t) : Same t t :=
  ⟨rfl, rfl, rfl, fun h => h, fun e => h.unsched i t ht e, fun l e => h.dropped i t l ht e⟩

/-- A task `i` changes, all other tasks keep their invariants. -/
theorem others {G G' : Global} {limit : Option ℕ} {A : OSet} {β : ℕ → ℕ} (hG : GInv hash limit A β G)
    {i : ℕ} (he : Evolves G.store G'.store)
    (hst : ∀ j t B, j ≠ i → G.tasks j = some t → Locks t.res B → G'.store B = G.store B)
    {j : ℕ} {t : Task} (hj : j ≠ i) (ht : G.tasks j = some t) (hk : Kids G G' t.res) :
    StatusOK hash G' t.root.rootKind (β j) t.status :=
  (hG.task j t ht).frame ⟨he, fun B hB => hst j t B hj ht hB⟩ hk

/-- Step of one task that only changes its status and the store. -/
theorem GInv.one {G : Global} {limit : Option ℕ} {A : OSet} {β : ℕ → ℕ} (hG : GInv hash limit A β G) {i : ℕ} {t t' : Task}
    (ht : G.tasks i = some t) (hs : Same t t') (hnt : t.status ≠ .taken → t'.status ≠ .taken) {σ : Store}
    (hi : SInv hash σ) (he : Evolves G.store σ) (hw : ∀ B, σ B ≠ G.store B → Locks t.res B)
    {b : ℕ} (hok : StatusOK hash { G with store := σ } t'.root.rootKind b t'.status) :
    GInv hash limit A (Function.update β i b) { G with store := σ, tasks := Function.update G.tasks i (some t') } := by
  have kids : ∀ l, Kids G { G with store := σ, tasks := Function.update G.tasks i (some t') } l := by
    intro l h hm u hu
    dsimp only at hu
    by_cases e : h.tid = i
    · rw [e, Function.update_self] at hu
      cases hu
      exact ⟨t, e ▸ ht, hnt, hs.scheduled⟩
    · rw [Function.update_of_ne e] at hu
      exact ⟨u, hu, fun h => h, fun h => h⟩
  refine ⟨hi, ?_, ?_, ?_⟩
  · refine hG.own.same rfl rfl ?_ ?_
    · intro j u hu
      dsimp only at hu
      by_cases e : j = i
      · subst e
        rw [Function.update_self] at hu
        cases hu
        exact ⟨t, ht, hs⟩
      · rw [Function.update_of_ne e] at hu
        exact ⟨u, hu, Same.refl_of hG.own hu⟩
    · intro j u hu
      dsimp only
      by_cases e : j = i
      · subst e
        rw [Function.update_self]
        rw [ht] at hu
        cases hu
        exact ⟨t', rfl, hs⟩
      · rw [Function.update_of_ne e]
        exact ⟨u, hu, Same.refl_of hG.own hu⟩
  · intro j u hu
    by_cases e : j = i
    · subst e
      dsimp only at hu
      rw [Function.update_self] at hu
      cases hu
      rw [Function.update_self]
      refine hok.frame (Rely.refl _ _) ?_
      intro h hm u hu
      exact kids t'.res h hm u hu
    · have hu' : G.tasks j = some u := by
        dsimp only at hu
        rwa [Function.update_of_ne e] at hu
      rw [Function.update_of_ne e]
      refine others hG he ?_ e hu' (kids _)
      intro k v B hk hv hB
      by_contra hne
      obtain ⟨tok, htok⟩ := hw B hne
      obtain ⟨tok', htok'⟩ := hB
      have h1 := hG.own.lockOwned i t B tok ht htok
      have h2 := hG.own.lockOwned k v B tok' hv htok'
      rw [h1] at h2
      cases h2
      exact hk (hG.own.disj k i v t _ hv ht htok' htok)
  · obtain ⟨t0, h0, h1, h2, h3, h4⟩ := hG.main
    by_cases e : (0 : ℕ) = i
    · subst e
      rw [h0] at ht
      cases ht
      exact ⟨t', by dsimp only; rw [Function.update_self], hs.root.trans h1, hs.scheduled h2, hs.cancelled.trans h3, hnt h4⟩
    · exact ⟨t0, (Function.update_of_ne e ..).trans h0, h1, h2, h3, h4⟩

/-- The statuses of a started task. -/
theorem GInv.status {G : Global} {limit : Option ℕ} {A : OSet} {β : ℕ → ℕ} (hG : GInv hash limit A β G) {i : ℕ} {t : Task}
    (ht : G.tasks i = some t) {s : Status} (hres : s.res = t.res)
    (hsch : t.scheduled = true) (hd : ∀ l, s ≠ .dropping l) (hnt : s ≠ .taken) {σ : Store}
    (hi : SInv hash σ) (he : Evolves G.store σ) (hw : ∀ B, σ B ≠ G.store B → Locks t.res B)
    {b : ℕ} (hok : StatusOK hash { G with store := σ } t.root.rootKind b s) :
    GInv hash limit A (Function.update β i b) { G.setStatus i t s with store := σ } := by
  refine hG.one (t' := { t with status := s }) ht ⟨hres, rfl, rfl, fun h => h, ?_, ?_⟩ (fun _ => hnt) hi he hw hok
  · intro h; dsimp only at h; rw [hsch] at h; simp at h
  · intro l h; exact absurd h (hd l)

theorem GInv.status' {G : Global} {limit : Option ℕ} {A : OSet} {β : ℕ → ℕ} (hG : GInv hash limit A β G) {i : ℕ} {t : Task}
    (ht : G.tasks i = some t) {s : Status} (hres : s.res = t.res)
    (hsch : t.scheduled = true) (hd : ∀ l, s ≠ .dropping l) (hnt : s ≠ .taken)
    {b : ℕ} (hok : StatusOK hash G t.root.rootKind b s) :
    GInv hash limit A (Function.update β i b) (G.setStatus i t s) :=
  hG.status ht hres hsch hd hnt hG.sinv (Evolves.refl _) (fun B h => absurd rfl h) hok

theorem Own.started {G : Global} (h : Own G) {i : ℕ} {t : Task} (ht : G.tasks i = some t)
    (h1 : ∀ p, t.status ≠ .sleep p [] []) (h2 : t.status ≠ .dropping []) : t.scheduled = true := by
  cases e : t.scheduled with
  | true => rfl
  | false =>
    rcases h.unsched i t ht e with ⟨p, h⟩ | h
    · exact absurd h (h1 p)
    · exact absurd h h2

/-! ## Steps that release something -/

theorem GInv.release {G : Global} {limit : Option ℕ} {A : OSet} {β : ℕ → ℕ} (hG : GInv hash limit A β G) {i : ℕ} {t : Task}
    (ht : G.tasks i = some t) {s : Status} {r : Res} (hr : r ∈ t.res) (hres : s.res = t.res.erase r)
    (hsch : t.scheduled = true) (hd : ∀ l, s = .dropping l → t.cancelled = true) (hnt : s ≠ .taken)
    {b : ℕ} (hok : StatusOK hash G t.root.rootKind b s) :
    GInv hash limit A (Function.update β i b) ((G.setStatus i t s).release r) := by
  have hnd := hG.own.nodup i t ht
  have hmem : ∀ x, x ∈ s.res ↔ x ≠ r ∧ x ∈ t.res := by
    intro x; rw [hres]; exact hnd.mem_erase_iff
  -- every new task comes from an old one
  have back : ∀ j u, ((G.setStatus i t s).release r).tasks j = some u → ∃ u0, G.tasks j = some u0 ∧
      u.root = u0.root ∧ u.scheduled = u0.scheduled ∧ ((j = i ∧ u.status = s) ∨ (j ≠ i ∧ u.status = u0.status)) ∧
      (u.cancelled = u0.cancelled ∨ (u.cancelled = true ∧ ∃ h, r = .handle h ∧ j = h.tid)) := by
    intro j u hu
    cases r with
    | lock B tok =>
      simp only [Global.release, Global.setStatus] at hu
      by_cases e : j = i
      · subst e
        rw [Function.update_self] at hu
        cases hu
        exact ⟨t, ht, rfl, rfl, Or.inl ⟨rfl, rfl⟩, Or.inl rfl⟩
      · rw [Function.update_of_ne e] at hu
        exact ⟨u, hu, rfl, rfl, Or.inr ⟨e, rfl⟩, Or.inl rfl⟩
    | handle h =>
      simp only [Global.release, Global.setStatus, Global.cancel] at hu
      obtain ⟨hne, _, _⟩ := hG.own.child i t h ht hr
      by_cases e2 : j = h.tid
      · subst e2
        rw [Function.update_self, Function.update_of_ne hne, Option.map_eq_some_iff] at hu
        obtain ⟨u0, hu0, rfl⟩ := hu
        exact ⟨u0, hu0, rfl, rfl, Or.inr ⟨hne, rfl⟩, Or.inr ⟨rfl, h, rfl, rfl⟩⟩
      · rw [Function.update_of_ne e2] at hu
        by_cases e : j = i
        · subst e
          rw [Function.update_self] at hu
          cases hu
          exact ⟨t, ht, rfl, rfl, Or.inl ⟨rfl, rfl⟩, Or.inl rfl⟩
        · rw [Function.update_of_ne e] at hu
          exact ⟨u, hu, rfl, rfl, Or.inr ⟨e, rfl⟩, Or.inl rfl⟩
  have forth : ∀ j u0, G.tasks j = some u0 → ∃ u, ((G.setStatus i t s).release r).tasks j = some u := by
    intro j u0 hu0
    cases r with
    | lock B tok =>
      simp only [Global.release, Global.setStatus]
      by_cases e : j = i
      · subst e; rw [Function.update_self]; exact ⟨_, rfl⟩
      · rw [Function.update_of_ne e]; exact ⟨u0, hu0⟩
    | handle h =>
      simp only [Global.release, Global.setStatus, Global.cancel]
      obtain ⟨hne, _, _⟩ := hG.own.child i t h ht hr
      by_cases e2 : j = h.tid
      · subst e2
        rw [Function.update_self, Function.update_of_ne hne, hu0]
        exact ⟨_, rfl⟩
      · rw [Function.update_of_ne e2]
        by_cases e : j = i
        · subst e; rw [Function.update_self]; exact ⟨_, rfl⟩
        · rw [Function.update_of_ne e]; exact ⟨u0, hu0⟩
  have hstore : ((G.setStatus i t s).release r).store = G.store := by cases r <;> rfl
  have htok : ((G.setStatus i t s).release r).nextToken = G.nextToken := by cases r <;> rfl
  -- resources
  have sub : ∀ j u, ((G.setStatus i t s).release r).tasks j = some u → ∃ u0, G.tasks j = some u0 ∧
      ∀ x ∈ u.res, x ∈ u0.res ∧ x ≠ r := by
    intro j u hu
    obtain ⟨u0, hu0, _, _, h1, _⟩ := back j u hu
    refine ⟨u0, hu0, ?_⟩
    intro x hx
    rcases h1 with ⟨rfl, e⟩ | ⟨hne, e⟩
    · rw [ht] at hu0
      cases hu0
      unfold Task.res at hx
      rw [e] at hx
      exact ⟨((hmem x).1 hx).2, ((hmem x).1 hx).1⟩
    · unfold Task.res at hx
      rw [e] at hx
      refine ⟨hx, ?_⟩
      rintro rfl
      exact hne (hG.own.disj j i u0 t x hu0 ht hx hr)
  have kids : ∀ l, Kids G ((G.setStatus i t s).release r) l := by
    intro l h hm u hu
    obtain ⟨u0, hu0, _, h1, h2, _⟩ := back h.tid u hu
    refine ⟨u0, hu0, ?_, fun h => h1 ▸ h⟩
    intro hn
    rcases h2 with ⟨_, e⟩ | ⟨_, e⟩
    · rw [e]; exact hnt
    · rw [e]; exact hn
  refine ⟨hstore ▸ hG.sinv, ?_, ?_, ?_⟩
  · constructor
    · intro j u hu
      obtain ⟨u0, hu0, _, _, h1, _⟩ := back j u hu
      rcases h1 with ⟨rfl, e⟩ | ⟨hne, e⟩
      · unfold Task.res
        rw [e, hres]
        exact hnd.erase _
      · unfold Task.res
        rw [e]
        exact hG.own.nodup j u0 hu0
    · intro j k u v x hu hv hx hx'
      obtain ⟨u0, hu0, h1⟩ := sub j u hu
      obtain ⟨v0, hv0, h2⟩ := sub k v hv
      exact hG.own.disj j k u0 v0 x hu0 hv0 (h1 x hx).1 (h2 x hx').1
    · intro j u B tok hu hx
      obtain ⟨u0, hu0, h1⟩ := sub j u hu
      obtain ⟨hx0, hne⟩ := h1 _ hx
      have hB := hG.own.lockOwned j u0 B tok hu0 hx0
      cases r with
      | handle h => exact hB
      | lock C tok' =>
        have hC := hG.own.lockOwned i t C tok' ht hr
        have : B ≠ C := by
          rintro rfl
          rw [hB] at hC
          cases hC
          exact hne rfl
        simp only [Global.release, Global.setStatus, if_neg this]
        exact hB
    · intro B tok hB
      have hB0 : G.locks B = some tok ∧ r ≠ .lock B tok := by
        cases r with
        | handle h => exact ⟨hB, by simp⟩
        | lock C tok' =>
          simp only [Global.release, Global.setStatus] at hB
          split at hB
          · simp at hB
          · next hne =>
            refine ⟨hB, ?_⟩
            intro e
            cases e
            exact hne rfl
      obtain ⟨j, u0, hu0, hx⟩ := hG.own.lockHas B tok hB0.1
      obtain ⟨u, hu⟩ := forth j u0 hu0
      refine ⟨j, u, hu, ?_⟩
      obtain ⟨u0', hu0', _, _, h1, _⟩ := back j u hu
      rw [hu0] at hu0'
      cases hu0'
      unfold Task.res
      rcases h1 with ⟨rfl, e⟩ | ⟨hne, e⟩
      · rw [e, hmem]
        rw [ht] at hu0
        cases hu0
        exact ⟨hB0.2.symm, hx⟩
      · rw [e]; exact hx
    · intro B tok hB
      rw [htok]
      refine hG.own.lockTok B tok ?_
      cases r with
      | handle h => exact hB
      | lock C tok' =>
        simp only [Global.release, Global.setStatus] at hB
        split at hB
        · simp at hB
        · exact hB
    · intro j u h hu hx
      obtain ⟨u0, hu0, h1⟩ := sub j u hu
      obtain ⟨hx0, hne⟩ := h1 _ hx
      obtain ⟨h2, h3, c, hc, hc1, hc2⟩ := hG.own.child j u0 h hu0 hx0
      obtain ⟨c', hc'⟩ := forth _ c hc
      obtain ⟨c0, hc0, hroot, _, _, hcan⟩ := back _ c' hc'
      rw [hc] at hc0
      cases hc0
      refine ⟨h2, h3, c', hc', hroot ▸ hc1, ?_⟩
      rcases hcan with e | ⟨_, h', rfl, e⟩
      · exact e.trans hc2
      · exfalso
        obtain ⟨_, _, d, hd, hd1, _⟩ := hG.own.child i t h' ht hr
        rw [← e, hc] at hd
        cases hd
        obtain ⟨l1, hc1⟩ := hc1
        obtain ⟨l2, hd1⟩ := hd1
        rw [hc1] at hd1
        injection hd1 with _ hd1 hd2
        apply hne
        obtain ⟨a, b⟩ := h
        obtain ⟨a', b'⟩ := h'
        dsimp only at e hd1 hd2
        rw [e, hd1, hd2]
    · intro j u hu hsc
      obtain ⟨u0, hu0, _, h1, h2, _⟩ := back j u hu
      rcases h2 with ⟨rfl, e⟩ | ⟨_, e⟩
      · rw [ht] at hu0
        cases hu0
        rw [h1, hsch] at hsc
        simp at hsc
      · rw [e]
        exact hG.own.unsched j u0 hu0 (h1 ▸ hsc)
    · intro j u l hu hl
      obtain ⟨u0, hu0, _, h1, h2, h3⟩ := back j u hu
      rcases h3 with h3 | ⟨h3, _⟩
      · rw [h3]
        rcases h2 with ⟨rfl, e⟩ | ⟨_, e⟩
        · rw [ht] at hu0
          cases hu0
          exact hd l (e ▸ hl)
        · exact hG.own.dropped j u0 l hu0 (e ▸ hl)
      · exact h3
  · intro j u hu
    obtain ⟨u0, hu0, hroot, h1, h2, _⟩ := back j u hu
    rcases h2 with ⟨rfl, e⟩ | ⟨hne, e⟩
    · rw [ht] at hu0
      cases hu0
      rw [e, hroot, Function.update_self]
      refine hok.frame ?_ (kids _)
      rw [hstore]
      exact Rely.refl _ _
    · rw [e, hroot, Function.update_of_ne hne]
      refine (hG.task j u0 hu0).frame ?_ (kids _)
      rw [hstore]
      exact Rely.refl _ _
  · obtain ⟨t0, h0, h1, h2, h3, h4⟩ := hG.main
    obtain ⟨u, hu⟩ := forth 0 t0 h0
    obtain ⟨u0, hu0, hroot, g1, g2, g3⟩ := back 0 u hu
    rw [h0] at hu0
    cases hu0
    refine ⟨u, hu, hroot.trans h1, g1.trans h2, ?_, ?_⟩
    · rcases g3 with g3 | ⟨_, h, rfl, e⟩
      · exact g3.trans h3
      · exact absurd e.symm (hG.own.child i t h ht hr).2.1
    · rcases g2 with ⟨_, e⟩ | ⟨_, e⟩
      · rw [e]; exact hnt
      · rw [e]; exact h4

end Search

end Sortnet
