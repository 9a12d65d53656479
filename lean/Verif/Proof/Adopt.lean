import Verif.Proof.Wake

/-!
# Every task is owned or cancelled
-/

namespace Sortnet

namespace Search

variable {hash : List ℕ → ℕ}

/-- How tasks change in a step: none disappears, it stays cancelled, and a handle stays owned unless its task is cancelled. -/
structure Keeps (G G' : Global) : Prop where
  task : ∀ j t, G.tasks j = some t → ∃ t', G'.tasks j = some t' ∧ t'.root = t.root ∧
    (t.cancelled = true → t'.cancelled = true)
  owned : ∀ j t h, G.tasks j = some t → Res.handle h ∈ t.res → ∃ t', G'.tasks j = some t' ∧
    (Res.handle h ∈ t'.res ∨ t'.status = .panicked ∨ ∀ c, G'.tasks h.tid = some c → c.cancelled = true)
  fresh : ∀ j t', G'.tasks j = some t' → (∃ t, G.tasks j = some t) ∨
    ∃ i u h, G'.tasks i = some u ∧ Res.handle h ∈ u.res ∧ h.tid = j

/-- One task changes. -/
theorem Keeps.one {G G' : Global} {i : ℕ} {t t' : Task} (ht : G.tasks i = some t)
    (he : G'.tasks = Function.update G.tasks i (some t')) (hr : t'.root = t.root)
    (hc : t.cancelled = true → t'.cancelled = true)
    (hres : t'.status = .panicked ∨ ∀ h, Res.handle h ∈ t.res → Res.handle h ∈ t'.res) : Keeps G G' := by
  constructor
  · intro j u hu
    rw [he]
    by_cases e : j = i
    · subst e
      rw [ht] at hu
      cases hu
      exact ⟨t', by rw [Function.update_self], hr, hc⟩
    · exact ⟨u, by rw [Function.update_of_ne e]; exact hu, rfl, fun h => h⟩
  · intro j u h hu hm
    rw [he]
    by_cases e : j = i
    · subst e
      rw [ht] at hu
      cases hu
      refine ⟨t', by rw [Function.update_self], ?_⟩
      rcases hres with h1 | h1
      · exact Or.inr (Or.inl h1)
      · exact Or.inl (h1 h hm)
    · exact ⟨u, by rw [Function.update_of_ne e]; exact hu, Or.inl hm⟩
  · intro j u hu
    rw [he] at hu
    left
    by_cases e : j = i
    · subst e; exact ⟨t, ht⟩
    · rw [Function.update_of_ne e] at hu; exact ⟨u, hu⟩

/-- Two tasks change. -/
theorem Keeps.two {G G' : Global} {i i' : ℕ} {t t' c c' : Task} (ht : G.tasks i = some t) (hct : G.tasks i' = some c)
    (hne : i' ≠ i) (he : G'.tasks = Function.update (Function.update G.tasks i (some t')) i' (some c'))
    (hr : t'.root = t.root) (hc : t.cancelled = true → t'.cancelled = true)
    (hres : ∀ h, Res.handle h ∈ t.res → Res.handle h ∈ t'.res)
    (hr' : c'.root = c.root) (hc' : c.cancelled = true → c'.cancelled = true)
    (hres' : ∀ h, Res.handle h ∈ c.res → Res.handle h ∈ c'.res) : Keeps G G' := by
  have h1 : Keeps G { G with tasks := Function.update G.tasks i (some t') } := .one ht rfl hr hc (Or.inr hres)
  have h2 : Keeps { G with tasks := Function.update G.tasks i (some t') } G' :=
    .one ((Function.update_of_ne hne _ _).trans hct) he hr' hc' (Or.inr hres')
  constructor
  · intro j u hu
    obtain ⟨u', hu', e1, e2⟩ := h1.task j u hu
    obtain ⟨u'', hu'', e3, e4⟩ := h2.task j u' hu'
    exact ⟨u'', hu'', e3.trans e1, fun h => e4 (e2 h)⟩
  · intro j u h hu hm
    rw [he]
    by_cases e : j = i'
    · subst e
      rw [hct] at hu
      cases hu
      exact ⟨c', by rw [Function.update_self], Or.inl (hres' h hm)⟩
    · rw [Function.update_of_ne e]
      by_cases e' : j = i
      · subst e'
        rw [ht] at hu
        cases hu
        exact ⟨t', by rw [Function.update_self], Or.inl (hres h hm)⟩
      · exact ⟨u, by rw [Function.update_of_ne e']; exact hu, Or.inl hm⟩
  · intro j u hu
    rcases h2.fresh j u hu with ⟨u', hu'⟩ | h
    · rcases h1.fresh j u' hu' with h | ⟨i0, v, h, hv, hm, e⟩
      · exact Or.inl h
      · obtain ⟨v', hv', _⟩ := h2.task i0 v hv
        left
        by_cases e1 : j = i
        · exact ⟨t, e1 ▸ ht⟩
        · dsimp only at hu'
          rw [Function.update_of_ne e1] at hu'
          exact ⟨u', hu'⟩
    · exact Or.inr h

/-- A task drops one of its variables. -/
theorem Keeps.release {G : Global} {i : ℕ} {t : Task} {s : Status} {r : Res} (ht : G.tasks i = some t)
    (hres : ∀ r' ∈ t.res, r' ≠ r → r' ∈ s.res) : Keeps G ((G.setStatus i t s).release r) := by
  cases r with
  | lock A tok =>
    refine .one ht rfl rfl (fun h => h) (Or.inr fun h hm => hres _ hm (by simp))
  | handle hd =>
    have key : ∀ j, ((G.setStatus i t s).release (.handle hd)).tasks j =
        (if j = i then some { t with status := s } else G.tasks j).map
          fun t => if j = hd.tid then { t with cancelled := true } else t := by
      intro j
      unfold Global.release Global.cancel Global.setStatus
      dsimp only
      by_cases e : j = hd.tid
      · subst e
        rw [Function.update_self]
        simp only [if_true, Function.update_apply]
      · rw [Function.update_of_ne e]
        simp only [e, if_false, Function.update_apply]
        simp
    constructor
    · intro j u hu
      rw [key, hu]
      by_cases e : j = i
      · subst e
        rw [ht] at hu
        cases hu
        rw [if_pos rfl, Option.map_some]
        refine ⟨_, rfl, ?_, ?_⟩ <;> split <;> simp
      · rw [if_neg e, Option.map_some]
        refine ⟨_, rfl, ?_, ?_⟩ <;> split <;> simp
    · intro j u h hu hm
      by_cases e : h = hd
      · subst e
        obtain ⟨u', hu'⟩ : ∃ u', ((G.setStatus i t s).release (.handle h)).tasks j = some u' := by
          rw [key, hu]
          by_cases e : j = i
          · rw [if_pos e]; exact ⟨_, rfl⟩
          · rw [if_neg e]; exact ⟨_, rfl⟩
        refine ⟨u', hu', Or.inr (Or.inr ?_)⟩
        intro c hc
        rw [key, Option.map_eq_some_iff] at hc
        obtain ⟨a, _, rfl⟩ := hc
        simp
      · rw [key]
        by_cases e' : j = i
        · subst e'
          rw [ht] at hu
          cases hu
          have := hres _ hm (by simpa using e)
          rw [if_pos rfl, Option.map_some]
          refine ⟨_, rfl, Or.inl ?_⟩
          split <;> exact this
        · rw [if_neg e', hu, Option.map_some]
          refine ⟨_, rfl, Or.inl ?_⟩
          split <;> exact hm
    · intro j u hu
      left
      rw [key] at hu
      by_cases e : j = i
      · exact ⟨t, e ▸ ht⟩
      · rw [if_neg e, Option.map_eq_some_iff] at hu
        obtain ⟨a, ha, _⟩ := hu
        exact ⟨a, ha⟩

theorem Act.keeps {G G' : Global} {i : ℕ} (h : Act hash i G G') : Keeps G G' := by
  cases h with
  | @spawn t level prev A k owned stack j ht hs hj =>
    have hne : j ≠ i := by rintro rfl; rw [ht] at hj; cases hj
    constructor
    · intro j' u hu
      dsimp only
      have e : j' ≠ j := by rintro rfl; rw [hu] at hj; cases hj
      rw [Function.update_of_ne e]
      by_cases e' : j' = i
      · subst e'
        rw [ht] at hu
        cases hu
        rw [Function.update_self]
        exact ⟨_, rfl, rfl, fun h => h⟩
      · rw [Function.update_of_ne e']
        exact ⟨u, hu, rfl, fun h => h⟩
    · intro j' u h hu hm
      dsimp only
      have e : j' ≠ j := by rintro rfl; rw [hu] at hj; cases hj
      rw [Function.update_of_ne e]
      by_cases e' : j' = i
      · subst e'
        rw [ht] at hu
        cases hu
        rw [Function.update_self]
        refine ⟨_, rfl, Or.inl ?_⟩
        unfold Task.res at hm ⊢
        rw [hs] at hm
        exact List.mem_cons_of_mem _ hm
      · rw [Function.update_of_ne e']
        exact ⟨u, hu, Or.inl hm⟩
    · intro j' u hu
      dsimp only at hu
      by_cases e : j' = j
      · subst e
        right
        exact ⟨i, _, ⟨j', A, prev⟩, (Function.update_of_ne hne.symm _ _).trans (Function.update_self _ _ _),
          List.mem_cons_self, rfl⟩
      · rw [Function.update_of_ne e] at hu
        left
        by_cases e' : j' = i
        · exact ⟨t, e' ▸ ht⟩
        · rw [Function.update_of_ne e'] at hu
          exact ⟨u, hu⟩
  | addPending ht hs hc hne =>
    exact .two ht hc hne rfl rfl (fun h => h) (fun h hm => by unfold Task.res at hm; rw [hs] at hm; exact hm) rfl
      (fun h => h) fun h hm => hm
  | schedule ht hs hc hne =>
    exact .two ht hc hne rfl rfl (fun h => h) (fun h hm => by unfold Task.res at hm; rw [hs] at hm; exact hm) rfl
      (fun h => h) fun h hm => hm
  | pollReady ht hs hc hd hne =>
    exact .two ht hc hne rfl rfl (fun h => h) (fun h hm => by unfold Task.res at hm; rw [hs] at hm; exact hm) rfl
      (fun h => h) fun h hm => by unfold Task.res at hm; rw [hd] at hm; simp [Status.res] at hm
  | dropHandle ht hs =>
    refine .release ht fun r hr hne => ?_
    unfold Task.res at hr
    rw [hs] at hr
    rcases List.mem_append.1 hr with hr | hr
    · exact List.mem_append_left _ ((List.mem_erase_of_ne hne).2 hr)
    · exact List.mem_append_right _ hr
  | unwind ht hs hr hrec =>
    refine .release ht fun r hr hne => ?_
    unfold Task.res at hr
    rw [hs] at hr
    rcases List.mem_append.1 hr with hr | hr
    · exact List.mem_append_left _ ((List.mem_erase_of_ne hne).2 hr)
    · exact List.mem_append_right _ hr
  | drop ht hs hr hrec =>
    refine .release ht fun r hr hne => ?_
    unfold Task.res at hr
    rw [hs] at hr
    exact (List.mem_erase_of_ne hne).2 hr
  | worker ht hq => exact .one ht rfl rfl (fun h => h) (Or.inr fun h hm => hm)
  | set ht hs => exact .one ht rfl rfl (fun h => h) (Or.inr fun h hm => by unfold Task.res at hm; rw [hs] at hm; exact hm)
  | lockFree ht hs =>
    exact .one ht rfl rfl (fun h => h) (Or.inr fun h hm => by
      unfold Task.res at hm; rw [hs] at hm; exact List.mem_cons_of_mem _ hm)
  | call ht hs =>
    exact .one ht rfl rfl (fun h => h) (Or.inr fun h hm => by
      unfold Task.res at hm; rw [hs] at hm; simpa [Task.res, Status.res] using hm)
  | «return» ht hs =>
    exact .one ht rfl rfl (fun h => h) (Or.inr fun h hm => by
      unfold Task.res at hm; rw [hs] at hm; simpa [Task.res, Status.res] using hm)
  | finish ht hs =>
    exact .one ht rfl rfl (fun h => h) (Or.inr fun h hm => by
      unfold Task.res at hm; rw [hs] at hm; simp [Status.res] at hm)
  | setPanic ht hs => exact .one ht rfl rfl (fun h => h) (Or.inl rfl)
  | lockPanic ht hs => exact .one ht rfl rfl (fun h => h) (Or.inl rfl)
  | pollPanic ht hs => exact .one ht rfl rfl (fun h => h) (Or.inl rfl)
  | panic ht hs => exact .one ht rfl rfl (fun h => h) (Or.inl rfl)
  | unwindPanic ht hs => exact .one ht rfl rfl (fun h => h) (Or.inl rfl)
  | dropPanic ht hs => exact .one ht rfl rfl (fun h => h) (Or.inl rfl)
  | get ht hs => exact .one ht rfl rfl (fun h => h) (Or.inr fun h hm => by unfold Task.res at hm; rw [hs] at hm; exact hm)
  | lockBusy ht hs => exact .one ht rfl rfl (fun h => h) (Or.inr fun h hm => by unfold Task.res at hm; rw [hs] at hm; exact hm)
  | lockWake ht hs => exact .one ht rfl rfl (fun h => h) (Or.inr fun h hm => by unfold Task.res at hm; rw [hs] at hm; exact hm)
  | isScheduled ht hs => exact .one ht rfl rfl (fun h => h) (Or.inr fun h hm => by unfold Task.res at hm; rw [hs] at hm; exact hm)
  | pollPending ht hs => exact .one ht rfl rfl (fun h => h) (Or.inr fun h hm => by unfold Task.res at hm; rw [hs] at hm; exact hm)
  | pending ht hs => exact .one ht rfl rfl (fun h => h) (Or.inr fun h hm => by unfold Task.res at hm; rw [hs] at hm; exact hm)
  | wake ht hs => exact .one ht rfl rfl (fun h => h) (Or.inr fun h hm => by unfold Task.res at hm; rw [hs] at hm; exact hm)
  | goto ht hs => exact .one ht rfl rfl (fun h => h) (Or.inr fun h hm => by unfold Task.res at hm; rw [hs] at hm; exact hm)
  | ret ht hs => exact .one ht rfl rfl (fun h => h) (Or.inr fun h hm => by unfold Task.res at hm; rw [hs] at hm; exact hm)
  | dropSleep ht hs => exact .one ht rfl rfl (fun h => h) (Or.inr fun h hm => by unfold Task.res at hm; rw [hs] at hm; exact hm)
  | dropWait ht hs => exact .one ht rfl rfl (fun h => h) (Or.inr fun h hm => by unfold Task.res at hm; rw [hs] at hm; exact hm)

/-- Every task except for the main task has been cancelled or its handle is owned by a task. -/
def Adopted (G : Global) : Prop :=
  ∀ j t, G.tasks j = some t → j ≠ 0 → t.cancelled = false →
    ∃ i u h, G.tasks i = some u ∧ Res.handle h ∈ u.res ∧ h.tid = j

theorem Adopted.reach {limit : Option ℕ} {A : OSet} (hA : OK A) {G : Global} (h : Reach hash limit A G) : Adopted G := by
  induction h with
  | init =>
    intro j t ht hj
    unfold Search.init at ht
    dsimp only at ht
    rw [if_neg hj] at ht
    cases ht
  | @step G G' hr hs ih =>
    obtain ⟨β', hG', _⟩ := GInv.reach hA (.step hr hs)
    obtain ⟨i, hs⟩ := hs
    have hk := hs.keeps
    intro j t' ht' hj hc'
    rcases hk.fresh j t' ht' with ⟨t, ht⟩ | h
    · obtain ⟨t'', ht'', _, hc⟩ := hk.task j t ht
      rw [ht'] at ht''
      cases ht''
      have hc0 : t.cancelled = false := by
        cases e : t.cancelled with
        | false => rfl
        | true => rw [hc e] at hc'; cases hc'
      obtain ⟨k, u, hd, hu, hm, rfl⟩ := ih j t ht hj hc0
      obtain ⟨u', hu', h1 | h1 | h1⟩ := hk.owned k u hd hu hm
      · exact ⟨k, u', hd, hu', h1, rfl⟩
      · have := hG'.task k u' hu'
        rw [h1] at this
        exact this.elim
      · rw [h1 _ ht'] at hc'
        cases hc'
    · exact h

end Search

end Sortnet
