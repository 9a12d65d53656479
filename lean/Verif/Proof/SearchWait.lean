import Verif.Proof.SearchStep
import Verif.Spec.Schedule
import Mathlib.Logic.Relation

/-!
# Waiting
-/

namespace Sortnet

namespace Search

variable {hash : List ℕ → ℕ}

/-! ## No lost wakeup -/

/-- A waiting task waits for a lock that is held, or for a channel that has a message. -/
def WaitOK (G : Global) : Prop :=
  ∀ i t A tok p owned stack, G.tasks i = some t → t.status = .wait A tok p owned stack →
    G.locks A = some tok ∨ G.sent tok = true

theorem WaitOK.mono {G G' : Global} (h : WaitOK G)
    (h1 : ∀ j t', G'.tasks j = some t' → ∀ A tok p owned stack, t'.status = .wait A tok p owned stack →
      (∃ t, G.tasks j = some t ∧ t.status = .wait A tok p owned stack) ∨ G'.locks A = some tok)
    (h2 : ∀ A tok, G.locks A = some tok → G'.locks A = some tok ∨ G'.sent tok = true)
    (h3 : ∀ tok, G.sent tok = true → G'.sent tok = true) : WaitOK G' := by
  intro i t' A tok p owned stack ht' hs
  rcases h1 i t' ht' A tok p owned stack hs with ⟨t, ht, hs'⟩ | h1
  · rcases h i t A tok p owned stack ht hs' with h | h
    · exact h2 A tok h
    · exact Or.inr (h3 tok h)
  · exact Or.inl h1

/-- Updating the status of one task to one that does not wait. -/
theorem upd_wait {tasks : ℕ → Option Task} {i : ℕ} {t' : Task}
    (hs : ∀ A tok p owned stack, t'.status ≠ .wait A tok p owned stack) (j : ℕ) (u : Task)
    (hu : Function.update tasks i (some t') j = some u) (A : OSet) (tok : ℕ) (p : Prog Exit) (owned : List Res)
    (stack : List Frame) (hw : u.status = .wait A tok p owned stack) : tasks j = some u := by
  by_cases e : j = i
  · subst e
    rw [Function.update_self] at hu
    cases hu
    exact absurd hw (hs A tok p owned stack)
  · rwa [Function.update_of_ne e] at hu

theorem WaitOK.setStatus {G G' : Global} (h : WaitOK G) {i : ℕ} {t : Task} {s : Status}
    (ht : G'.tasks = (G.setStatus i t s).tasks)
    (hs : ∀ A tok p owned stack, s ≠ .wait A tok p owned stack)
    (h2 : ∀ A tok, G.locks A = some tok → G'.locks A = some tok ∨ G'.sent tok = true)
    (h3 : ∀ tok, G.sent tok = true → G'.sent tok = true) : WaitOK G' := by
  refine h.mono ?_ h2 h3
  intro j u hu A tok p owned stack hw
  rw [ht] at hu
  exact Or.inl ⟨u, upd_wait (t' := { t with status := s }) hs j u hu A tok p owned stack hw, hw⟩

theorem WaitOK.release {G : Global} (h : WaitOK G) {i : ℕ} {t : Task} {s : Status} {r : Res}
    (hs : ∀ A tok p owned stack, s ≠ .wait A tok p owned stack) (hr : G.receiver r) :
    WaitOK ((G.setStatus i t s).release r) := by
  cases r with
  | lock B tok' =>
    refine h.setStatus rfl hs ?_ ?_
    · intro A tok hA
      by_cases e : A = B
      · subst e
        have hr' : G.locks A = some tok' := hr
        rw [hr'] at hA
        cases hA
        right
        simp [Global.release]
      · left
        simpa [Global.release, e, Global.setStatus] using hA
    · intro tok h
      by_cases e : tok = tok'
      · simp [Global.release, e]
      · simpa [Global.release, Function.update_of_ne e, Global.setStatus] using h
  | handle hd =>
    refine h.mono ?_ (fun A tok h => Or.inl h) (fun _ h => h)
    intro j u hu A tok p owned stack hw
    left
    simp only [Global.release, Global.cancel, Global.setStatus] at hu
    by_cases e : j = hd.tid
    · subst e
      rw [Function.update_self, Option.map_eq_some_iff] at hu
      obtain ⟨u0, hu0, rfl⟩ := hu
      refine ⟨u0, ?_, hw⟩
      exact upd_wait (t' := { t with status := s }) hs _ u0 hu0 A tok p owned stack hw
    · rw [Function.update_of_ne e] at hu
      exact ⟨u, upd_wait (t' := { t with status := s }) hs _ u hu A tok p owned stack hw, hw⟩

theorem WaitOK.step {G G' : Global} (h : WaitOK G) (hs : Step hash G G') : WaitOK G' := by
  have keep : ∀ (A : OSet) (tok : ℕ), G.locks A = some tok → G.locks A = some tok ∨ G.sent tok = true :=
    fun _ _ h => Or.inl h
  obtain ⟨i, hs⟩ := hs
  cases hs with
  | get ht hs => exact h.setStatus rfl (by simp) keep (fun _ h => h)
  | set ht hs hm => exact h.setStatus rfl (by simp) keep (fun _ h => h)
  | setPanic ht hs hm => exact h.setStatus rfl (by simp) keep (fun _ h => h)
  | @lockFree t A k owned stack ht hs hm hf =>
    refine h.setStatus rfl (by simp) ?_ (fun _ h => h)
    intro B tok hB
    left
    have : B ≠ A := by rintro rfl; rw [hf] at hB; simp at hB
    simpa [this] using hB
  | @lockBusy t A k owned stack tok ht hs hm hf =>
    refine h.mono ?_ keep (fun _ h => h)
    intro j u hu B tok' p owned' stack' hw
    unfold Global.setStatus at hu
    dsimp only at hu
    by_cases e : j = i
    · subst e
      rw [Function.update_self] at hu
      cases hu
      injection hw with h1 h2
      subst h1 h2
      exact Or.inr hf
    · rw [Function.update_of_ne e] at hu
      exact Or.inl ⟨u, hu, hw⟩
  | lockPanic ht hs hm => exact h.setStatus rfl (by simp) keep (fun _ h => h)
  | lockWake ht hs hm => exact h.setStatus rfl (by simp) keep (fun _ h => h)
  | spawn ht hs hj =>
    refine h.mono ?_ keep (fun _ h => h)
    intro j u hu A tok p owned stack hw
    exact Or.inl ⟨u, upd_wait (by simp) j u (upd_wait (by simp) j u hu A tok p owned stack hw) A tok p owned stack hw, hw⟩
  | @addPending t prio hd k owned stack ch ht hs hc hne =>
    refine h.mono ?_ keep (fun _ h => h)
    intro j u hu A tok p owned' stack' hw
    dsimp only at hu
    by_cases e : j = hd.tid
    · subst e
      rw [Function.update_self] at hu
      cases hu
      exact Or.inl ⟨ch, hc, hw⟩
    · rw [Function.update_of_ne e] at hu
      exact Or.inl ⟨u, upd_wait (by simp) j u hu A tok p owned' stack' hw, hw⟩
  | @schedule t hd k owned stack ch ht hs hc hne =>
    refine h.mono ?_ keep (fun _ h => h)
    intro j u hu A tok p owned' stack' hw
    dsimp only at hu
    by_cases e : j = hd.tid
    · subst e
      rw [Function.update_self] at hu
      cases hu
      exact Or.inl ⟨ch, hc, hw⟩
    · rw [Function.update_of_ne e] at hu
      exact Or.inl ⟨u, upd_wait (by simp) j u hu A tok p owned' stack' hw, hw⟩
  | isScheduled ht hs hc => exact h.setStatus rfl (by simp) keep (fun _ h => h)
  | pollReady ht hs hc hd hne =>
    refine h.mono ?_ keep (fun _ h => h)
    intro j u hu A tok p owned stack hw
    exact Or.inl ⟨u, upd_wait (by simp) j u (upd_wait (by simp) j u hu A tok p owned stack hw) A tok p owned stack hw, hw⟩
  | pollPending ht hs hc h1 h2 h3 => exact h.setStatus rfl (by simp) keep (fun _ h => h)
  | pollPanic ht hs hc h1 h2 => exact h.setStatus rfl (by simp) keep (fun _ h => h)
  | dropHandle ht hs => exact h.release (by simp) trivial
  | pending ht hs => exact h.setStatus rfl (by simp) keep (fun _ h => h)
  | wake ht hs hsc => exact h.setStatus rfl (by simp) keep (fun _ h => h)
  | @worker t ht hq =>
    refine h.mono ?_ keep (fun _ h => h)
    intro j u hu A tok p owned' stack' hw
    dsimp only at hu
    by_cases e : j = i
    · subst e
      rw [Function.update_self] at hu
      cases hu
      exact Or.inl ⟨t, ht, hw⟩
    · rw [Function.update_of_ne e] at hu
      exact Or.inl ⟨u, hu, hw⟩
  | panic ht hs => exact h.setStatus rfl (by simp) keep (fun _ h => h)
  | goto ht hs => exact h.setStatus rfl (by simp) keep (fun _ h => h)
  | call ht hs => exact h.setStatus rfl (by simp) keep (fun _ h => h)
  | ret ht hs => exact h.setStatus rfl (by simp) keep (fun _ h => h)
  | unwind ht hs hr hrec => exact h.release (by simp) hrec
  | unwindPanic ht hs hr hrec => exact h.setStatus rfl (by simp) keep (fun _ h => h)
  | «return» ht hs => exact h.setStatus rfl (by simp) keep (fun _ h => h)
  | finish ht hs => exact h.setStatus rfl (by simp) keep (fun _ h => h)
  | dropSleep ht hs hc => exact h.setStatus rfl (by simp) keep (fun _ h => h)
  | dropWait ht hs hc => exact h.setStatus rfl (by simp) keep (fun _ h => h)
  | drop ht hs hr hrec => exact h.release (by simp) hrec
  | dropPanic ht hs hr hrec => exact h.setStatus rfl (by simp) keep (fun _ h => h)

theorem WaitOK.reach {limit : Option ℕ} {A : OSet} {G : Global} (h : Reach hash limit A G) : WaitOK G := by
  induction h with
  | init =>
    intro i t B tok p owned stack ht hs
    unfold Search.init at ht
    dsimp only at ht
    split at ht
    · cases ht; simp at hs
    · simp at ht
  | step _ hs ih => exact ih.step hs

/-! ## The contents of the map evolve -/

theorem GInv.evolves {limit : Option ℕ} {A : OSet} {β : ℕ → ℕ} {G G' : Global} (hG : GInv hash limit A β G)
    (hs : Step hash G G') : Evolves G.store G'.store := by
  obtain ⟨i, hs⟩ := hs
  cases hs with
  | set ht hs hm =>
    have hok := hG.task _ _ ht
    rw [hs] at hok
    obtain ⟨K, c, b, s, ⟨hctx, hwp, hst⟩, _⟩ := hok
    exact (hwp G.store (Rely.refl _ _) hG.sinv).2.2.2.2.1
  | @unwind t v r owned stack ht hs hr hrec => cases r <;> exact Evolves.refl _
  | @drop t r owned ht hs hr hrec => cases r <;> exact Evolves.refl _
  | _ => exact Evolves.refl _

/-! ## There are always finitely many tasks -/

/-- Only finitely many tasks exist. -/
def Fin' (G : Global) : Prop := ∃ N, ∀ j, N ≤ j → G.tasks j = none

theorem upd_none {tasks : ℕ → Option Task} {i : ℕ} {t u : Task} (ht : tasks i = some t) {j : ℕ}
    (h : tasks j = none) : Function.update tasks i (some u) j = none := by
  have : j ≠ i := by rintro rfl; rw [h] at ht; simp at ht
  rwa [Function.update_of_ne this]

theorem Fin'.mono {G G' : Global} (h : Fin' G) (h' : ∀ j, G.tasks j = none → G'.tasks j = none) : Fin' G' := by
  obtain ⟨N, hN⟩ := h
  exact ⟨N, fun j hj => h' j (hN j hj)⟩

theorem release_none {G : Global} {i : ℕ} {t : Task} (ht : G.tasks i = some t) (s : Status) (r : Res) (j : ℕ)
    (h : G.tasks j = none) : ((G.setStatus i t s).release r).tasks j = none := by
  have := upd_none (u := { t with status := s }) ht h
  cases r with
  | lock A tok => exact this
  | handle hd =>
    unfold Global.release Global.cancel Global.setStatus
    dsimp only
    by_cases e : j = hd.tid
    · subst e
      rw [Function.update_self, this]; rfl
    · rw [Function.update_of_ne e]; exact this

theorem Fin'.step {G G' : Global} (h : Fin' G) (hs : Step hash G G') : Fin' G' := by
  obtain ⟨i, hs⟩ := hs
  cases hs with
  | @spawn t level prev A k owned stack j ht hs hj =>
    obtain ⟨N, hN⟩ := h
    refine ⟨max N (j + 1), fun m hm => ?_⟩
    have h1 : m ≠ j := by have := le_max_right N (j + 1); omega
    dsimp only
    rw [Function.update_of_ne h1]
    exact upd_none ht (hN m (le_trans (le_max_left _ _) hm))
  | addPending ht hs hc hne =>
    refine h.mono fun j hj => upd_none ((Function.update_of_ne hne _ _).trans hc) (upd_none ht hj)
  | schedule ht hs hc hne =>
    refine h.mono fun j hj => upd_none ((Function.update_of_ne hne _ _).trans hc) (upd_none ht hj)
  | pollReady ht hs hc hd hne =>
    refine h.mono fun j hj => upd_none ((Function.update_of_ne hne _ _).trans hc) (upd_none ht hj)
  | dropHandle ht hs => exact h.mono (release_none ht _ _)
  | unwind ht hs hr hrec => exact h.mono (release_none ht _ _)
  | drop ht hs hr hrec => exact h.mono (release_none ht _ _)
  | worker ht hq => exact h.mono fun j hj => upd_none ht hj
  | get ht => exact h.mono fun j hj => upd_none ht hj
  | set ht => exact h.mono fun j hj => upd_none ht hj
  | setPanic ht => exact h.mono fun j hj => upd_none ht hj
  | lockFree ht => exact h.mono fun j hj => upd_none ht hj
  | lockBusy ht => exact h.mono fun j hj => upd_none ht hj
  | lockPanic ht => exact h.mono fun j hj => upd_none ht hj
  | lockWake ht => exact h.mono fun j hj => upd_none ht hj
  | isScheduled ht => exact h.mono fun j hj => upd_none ht hj
  | pollPending ht => exact h.mono fun j hj => upd_none ht hj
  | pollPanic ht => exact h.mono fun j hj => upd_none ht hj
  | pending ht => exact h.mono fun j hj => upd_none ht hj
  | wake ht => exact h.mono fun j hj => upd_none ht hj
  | panic ht => exact h.mono fun j hj => upd_none ht hj
  | goto ht => exact h.mono fun j hj => upd_none ht hj
  | call ht => exact h.mono fun j hj => upd_none ht hj
  | ret ht => exact h.mono fun j hj => upd_none ht hj
  | unwindPanic ht => exact h.mono fun j hj => upd_none ht hj
  | «return» ht => exact h.mono fun j hj => upd_none ht hj
  | finish ht => exact h.mono fun j hj => upd_none ht hj
  | dropSleep ht => exact h.mono fun j hj => upd_none ht hj
  | dropWait ht => exact h.mono fun j hj => upd_none ht hj
  | dropPanic ht => exact h.mono fun j hj => upd_none ht hj

theorem Fin'.reach {limit : Option ℕ} {A : OSet} {G : Global} (h : Reach hash limit A G) : Fin' G := by
  induction h with
  | init => exact ⟨1, fun j hj => by unfold Search.init; dsimp only; rw [if_neg (by omega)]⟩
  | step _ hs ih => exact ih.step hs

/-! ## Who waits for whom -/

/-- The measure of a suspended task. -/
def Meas (hash : List ℕ → ℕ) (G : Global) (i : ℕ) (m : (ℕ ×ₗ ℕ ×ₗ ℕ) ×ₗ ℕ) : Prop :=
  ∃ t, G.tasks i = some t ∧
    ((∃ p owned stack K c b s, t.status = .sleep p owned stack ∧ Active hash G t.root.rootKind K c b s p owned stack ∧
        m = toLex (rank K.cur, 0)) ∨
     (∃ A tok p owned stack c b s k, t.status = .wait A tok p owned stack ∧
        Active hash G t.root.rootKind (.improve A k) c b s p owned stack ∧ (∀ B, c.held B → rank A < rank B) ∧
        m = toLex (rank A, 1)))

theorem StackOK.rank_root {G : Global} {root K : Kind} {s : ℕ} {stack : List Frame} (h : StackOK hash G root K s stack) :
    rank K.cur ≤ rank root.cur := by
  induction stack generalizing K s with
  | nil => have : K = root := h; rw [this]
  | cons f fs ih =>
    obtain ⟨K', c, b, s', _, _, h2, _, _, h5⟩ := h
    exact le_trans h2 (ih h5)

theorem StackOK.rank_lock {G : Global} {root K : Kind} {s : ℕ} {stack : List Frame} (h : StackOK hash G root K s stack)
    {A : OSet} (hA : heldOf stack A) : rank K.cur ≤ rank A := by
  induction stack generalizing K s with
  | nil => exact absurd hA heldOf_nil
  | cons f fs ih =>
    obtain ⟨K', c, b, s', _, h1, h2, _, _, h5⟩ := h
    rcases heldOf_cons.1 hA with h | h
    · obtain ⟨m, this⟩ := h1.lock A h
      rw [this] at h2
      exact h2
    · exact le_trans h2 (ih h5 h)

theorem Active.rank_lock {G : Global} {root K : Kind} {c : Ctx} {b s : ℕ} {p : Prog Exit} {owned : List Res}
    {stack : List Frame} (h : Active hash G root K c b s p owned stack) {A : OSet}
    (hA : Locks (owned ++ stack.flatMap Frame.owned) A) : rank K.cur ≤ rank A := by
  rcases Locks_append.1 hA with hA | hA
  · obtain ⟨m, e⟩ := h.1.lock A hA
    rw [e]; exact le_refl (rank A)
  · exact h.2.2.rank_lock hA

theorem WaitsFor.meas {G : Global} {limit : Option ℕ} {A : OSet} {β : ℕ → ℕ} (hG : GInv hash limit A β G) {i j : ℕ}
    (h : WaitsFor G i j) : ∃ m, Meas hash G i m := by
  cases h with
  | lock t u B tok p owned stack ht hs _ _ =>
    have := hG.task i t ht
    rw [hs] at this
    obtain ⟨m, c, b, s, ha, _, hb⟩ := this
    exact ⟨_, t, ht, Or.inr ⟨B, tok, p, owned, stack, c, b, s, m, hs, ha, hb, rfl⟩⟩
  | child t hd p owned stack ht hs _ _ =>
    have := hG.task i t ht
    rw [hs] at this
    obtain ⟨K, c, b, s, ha, _, _⟩ := this
    exact ⟨_, t, ht, Or.inl ⟨p, owned, stack, K, c, b, s, hs, ha, rfl⟩⟩

theorem WaitsFor.lt {G : Global} {limit : Option ℕ} {A : OSet} {β : ℕ → ℕ} (hG : GInv hash limit A β G) {i j : ℕ}
    (h : WaitsFor G i j) {m m' : (ℕ ×ₗ ℕ ×ₗ ℕ) ×ₗ ℕ} (hm : Meas hash G i m) (hm' : Meas hash G j m') : m' < m := by
  obtain ⟨t, ht, hm⟩ := hm
  obtain ⟨u, hu, hm'⟩ := hm'
  cases h with
  | lock t' u' B tok p owned stack ht' hs hu' hlock =>
    rw [ht] at ht'; cases ht'
    rw [hu] at hu'; cases hu'
    have hm2 : m = toLex (rank B, 1) := by
      rcases hm with ⟨_, _, _, _, _, _, _, hs', _⟩ | ⟨B', _, _, _, _, _, _, _, _, hs', _, _, e⟩
      · rw [hs] at hs'; simp at hs'
      · rw [hs] at hs'
        injection hs' with h1
        subst h1
        exact e
    rw [hm2]
    rcases hm' with ⟨p', o', s', K, c, _, _, hs', ha, rfl⟩ | ⟨B', tok', p', o', s', c, _, _, _, hs', ha, hb, rfl⟩
    · have : rank K.cur ≤ rank B := ha.rank_lock ⟨tok, by unfold Task.res at hlock; rw [hs'] at hlock; exact hlock⟩
      rw [Prod.Lex.lt_iff]
      rcases lt_or_eq_of_le this with h | h
      · exact Or.inl h
      · exact Or.inr ⟨h, Nat.zero_lt_one⟩
    · have : rank B' < rank B := by
        apply hb
        rw [ha.1.locks]
        exact ⟨tok, by unfold Task.res at hlock; rw [hs'] at hlock; exact hlock⟩
      rw [Prod.Lex.lt_iff]
      exact Or.inl this
  | child t' hd p owned stack ht' hs hmem htid =>
    rw [ht] at ht'; cases ht'
    rcases hm with ⟨p0, o0, s0, K, c, _, _, hs', ha, rfl⟩ | ⟨_, _, _, _, _, _, _, _, _, hs', _⟩
    · rw [hs] at hs'
      injection hs' with h1 h2 h3
      subst h1 h2 h3
      have hlt := ha.1.handle hd hmem
      have hmemt : Res.handle hd ∈ t.res := by
        unfold Task.res; rw [hs]
        exact List.mem_append.2 (Or.inl hmem)
      obtain ⟨_, _, ch, hch, ⟨lev, hroot⟩, _⟩ := hG.own.child i t hd ht hmemt
      rw [htid, hu] at hch
      cases hch
      rw [Prod.Lex.lt_iff]
      left
      rcases hm' with ⟨p', o', s', K', c', _, _, hs', ha', rfl⟩ | ⟨B', tok', p', o', s', c', _, _, _, hs', ha', hb, rfl⟩
      · have := ha'.2.2.rank_root
        rw [hroot] at this
        exact lt_of_le_of_lt this hlt
      · have := ha'.2.2.rank_root
        rw [hroot] at this
        exact lt_of_le_of_lt this hlt
    · rw [hs] at hs'; simp at hs'

/-- Tasks do not wait for each other in a cycle. -/
theorem WaitsFor.acyclic {G : Global} {limit : Option ℕ} {A : OSet} {β : ℕ → ℕ} (hG : GInv hash limit A β G) (i : ℕ) :
    ¬ Relation.TransGen (WaitsFor G) i i := by
  have key : ∀ j, Relation.TransGen (WaitsFor G) i j → ∀ m m', Meas hash G i m → Meas hash G j m' → m' < m := by
    intro j h
    induction h with
    | single h => exact fun m m' hm hm' => h.lt hG hm hm'
    | tail _ h ih =>
      intro m m' hm hm'
      obtain ⟨m1, hm1⟩ := h.meas hG
      exact lt_trans (h.lt hG hm1 hm') (ih m m1 hm hm1)
  intro h
  have : ∃ m, Meas hash G i m := by
    obtain ⟨j, hij, _⟩ := Relation.TransGen.head'_iff.1 h
    exact hij.meas hG
  obtain ⟨m, hm⟩ := this
  exact lt_irrefl _ (key i h m m hm hm)

theorem blocked_waits {G : Global} {limit : Option ℕ} {A : OSet} {β : ℕ → ℕ} (hG : GInv hash limit A β G) (hW : WaitOK G)
    {i : ℕ} (h : Blocked G i) : ∃ j, WaitsFor G i j ∧ Unfinished G j := by
  obtain ⟨t, ht, ⟨B, tok, p, owned, stack, hs, hsent⟩ | ⟨p, owned, stack, hs, ⟨h0, hh0⟩, hnd⟩⟩ := h
  · rcases hW i t B tok p owned stack ht hs with hl | hl
    · obtain ⟨j, u, hu, hm⟩ := hG.own.lockHas B tok hl
      refine ⟨j, .lock t u B tok p owned stack ht hs hu hm, u, hu, ?_, ?_, ?_, ?_, ?_⟩
      · refine hG.own.started hu ?_ ?_
        · intro p' e; unfold Task.res at hm; rw [e] at hm; simp [Status.res] at hm
        · intro e; unfold Task.res at hm; rw [e] at hm; simp [Status.res] at hm
      all_goals
        intros
        intro e
        unfold Task.res at hm
        rw [e] at hm
        simp [Status.res] at hm
    · rw [hsent] at hl; simp at hl
  · have hok := hG.task i t ht
    rw [hs] at hok
    obtain ⟨K, c, b, s, ha, _, h1⟩ := hok
    rcases h1 with ⟨rfl, _⟩ | ⟨h, ho, hh, hsd⟩
    · simp at hh0
    · have hm : Res.handle h ∈ owned := (ha.1.own h).1 ho
      have hmt : Res.handle h ∈ t.res := by
        unfold Task.res; rw [hs]; exact List.mem_append.2 (Or.inl hm)
      obtain ⟨_, _, ch, hch, hroot, hcan⟩ := hG.own.child i t h ht hmt
      refine ⟨h.tid, .child t h p owned stack ht hs hm rfl, ch, hch, ha.1.sched h ho hsd ch hch,
        hnd h hm ch hch, ha.1.hs h ho hh ch hch, ?_, ?_⟩
      · intro e
        have := hG.task _ ch hch
        rw [e] at this
        exact this
      · intro e
        have := hG.own.dropped _ ch _ hch e
        rw [hcan] at this
        simp at this

/-- Following the tasks a blocked task waits for leads to an unfinished task that is not blocked. -/
theorem blocked_progress {G : Global} {limit : Option ℕ} {A : OSet} {β : ℕ → ℕ} (hG : GInv hash limit A β G) (hW : WaitOK G)
    {i : ℕ} (h : Blocked G i) :
    ∃ j, Relation.TransGen (WaitsFor G) i j ∧ Unfinished G j ∧ ¬ Blocked G j := by
  have key : ∀ m : (ℕ ×ₗ ℕ ×ₗ ℕ) ×ₗ ℕ, ∀ i, Meas hash G i m → Blocked G i →
      ∃ j, Relation.TransGen (WaitsFor G) i j ∧ Unfinished G j ∧ ¬ Blocked G j := by
    intro m
    induction m using WellFoundedLT.induction with
    | _ m ih =>
      intro i hm hb
      obtain ⟨j, hw, hu⟩ := blocked_waits hG hW hb
      by_cases hbj : Blocked G j
      · obtain ⟨j', hw', _⟩ := blocked_waits hG hW hbj
        obtain ⟨m', hm'⟩ := hw'.meas hG
        obtain ⟨k, hk, hk'⟩ := ih m' (hw.lt hG hm hm') j hm' hbj
        exact ⟨k, Relation.TransGen.head hw hk, hk'⟩
      · exact ⟨j, Relation.TransGen.single hw, hu, hbj⟩
  obtain ⟨j, hw, _⟩ := blocked_waits hG hW h
  obtain ⟨m, hm⟩ := hw.meas hG
  exact key m i hm h

/-- An unfinished task that is not blocked can make a step. -/
theorem unblocked_acts {G : Global} {limit : Option ℕ} {A : OSet} {β : ℕ → ℕ} (hG : GInv hash limit A β G) (hF : Fin' G)
    {i : ℕ} (hu : Unfinished G i) (hb : ¬ Blocked G i) : ∃ G', Act hash i G G' := by
  obtain ⟨t, ht, hsch, h1, h2, h3, h4⟩ := hu
  have hok := hG.task i t ht
  cases hs : t.status with
  | run p owned stack =>
    rw [hs] at hok
    obtain ⟨K, c, b, s, ⟨hctx, hwp, hst⟩, _⟩ := hok
    have kid : ∀ h, c.own h → h.tid ≠ i ∧ ∃ u, G.tasks h.tid = some u := by
      intro h ho
      have hm : Res.handle h ∈ t.res := by
        unfold Task.res; rw [hs]; exact List.mem_append.2 (Or.inl ((hctx.own h).1 ho))
      obtain ⟨h1, _, u, hu, _⟩ := hG.own.child i t h ht hm
      exact ⟨h1, u, hu⟩
    cases p with
    | ret e =>
      cases e with
      | done v => exact ⟨_, .ret ht hs⟩
      | goto pc => exact ⟨_, .goto ht hs⟩
      | call pc k => exact ⟨_, .call ht hs⟩
    | panic => exact ⟨_, .panic ht hs⟩
    | get B k => exact ⟨_, .get ht hs⟩
    | set B v k =>
      by_cases hm : mapOk B
      · exact ⟨_, .set ht hs hm⟩
      · exact ⟨_, .setPanic ht hs hm⟩
    | lock B k =>
      by_cases hm : mapOk B
      · cases hl : G.locks B with
        | none => exact ⟨_, .lockFree ht hs hm hl⟩
        | some tok => exact ⟨_, .lockBusy ht hs hm hl⟩
      · exact ⟨_, .lockPanic ht hs hm⟩
    | spawn level prev B k =>
      obtain ⟨N, hN⟩ := hF
      exact ⟨_, .spawn ht hs (hN N (Nat.le_refl _))⟩
    | addPending prio h k =>
      obtain ⟨hne, u, hu⟩ := kid h hwp.1.1
      exact ⟨_, .addPending ht hs hu hne⟩
    | schedule h k =>
      obtain ⟨hne, u, hu⟩ := kid h hwp.1.1
      exact ⟨_, .schedule ht hs hu hne⟩
    | isScheduled h k =>
      obtain ⟨hne, u, hu⟩ := kid h hwp.1.1
      exact ⟨_, .isScheduled ht hs hu⟩
    | poll h k =>
      obtain ⟨hne, u, hu⟩ := kid h hwp.1.1
      by_cases hd : ∃ v, u.status = .done v
      · obtain ⟨v, hv⟩ := hd
        exact ⟨_, .pollReady ht hs hu hv hne⟩
      · by_cases hp : u.status = .taken ∨ u.cancelled = true
        · exact ⟨_, .pollPanic ht hs hu hp (fun v hv => hd ⟨v, hv⟩)⟩
        · push Not at hp
          exact ⟨_, .pollPending ht hs hu (fun v hv => hd ⟨v, hv⟩) hp.1 (by simpa using hp.2)⟩
    | dropHandle h k => exact ⟨_, .dropHandle ht hs⟩
    | pending k => exact ⟨_, .pending ht hs⟩
  | sleep p owned stack => exact ⟨_, .wake ht hs hsch⟩
  | wait B tok p owned stack =>
    cases hsent : G.sent tok with
    | true => exact ⟨_, .lockWake ht hs hsent⟩
    | false => exact absurd ⟨t, ht, Or.inl ⟨B, tok, p, owned, stack, hs, hsent⟩⟩ hb
  | unwind v owned stack =>
    cases owned with
    | nil =>
      cases stack with
      | nil => exact ⟨_, .finish ht hs⟩
      | cons f fs => exact ⟨_, .return ht hs⟩
    | cons r rs =>
      by_cases hr : G.receiver r
      · exact ⟨_, .unwind ht hs List.mem_cons_self hr⟩
      · exact ⟨_, .unwindPanic ht hs List.mem_cons_self hr⟩
  | dropping owned =>
    cases owned with
    | nil => exact absurd hs h4
    | cons r rs =>
      by_cases hr : G.receiver r
      · exact ⟨_, .drop ht hs List.mem_cons_self hr⟩
      · exact ⟨_, .dropPanic ht hs List.mem_cons_self hr⟩
  | done v => exact absurd hs (h1 v)
  | taken => exact absurd hs h2
  | panicked => exact absurd hs h3

/-- The main task is unfinished until it returns. -/
theorem main_unfinished {G : Global} {limit : Option ℕ} {A : OSet} {β : ℕ → ℕ} (hG : GInv hash limit A β G)
    (h : ¬ ∃ r, Returned G r) : Unfinished G 0 := by
  obtain ⟨t, ht, hr, hs, hc, htk⟩ := hG.main
  refine ⟨t, ht, hs, ?_, htk, ?_, ?_⟩
  · intro v hv
    exact h ⟨_, t, v, ht, hv, rfl⟩
  · intro e
    have := hG.task 0 t ht
    rw [e] at this
    exact this
  · intro e
    have := hG.own.dropped _ _ _ ht e
    rw [hc] at this
    simp at this

end Search

end Sortnet
