import Verif.Proof.SearchGlobal
import Mathlib.Data.Finsupp.Weight

/-!
# The invariant is preserved by every step
-/

namespace Sortnet

namespace Search

variable {hash : List ℕ → ℕ}

theorem Kids.refl (G : Global) (l : List Res) : Kids G G l :=
  fun _ _ t ht => ⟨t, ht, fun h => h, fun h => h⟩

theorem Kids.store (G : Global) (σ : Store) (l : List Res) : Kids G { G with store := σ } l :=
  fun _ _ t ht => ⟨t, ht, fun h => h, fun h => h⟩

theorem CtxOK.locks {G : Global} {K : Kind} {c : Ctx} {owned : List Res} {stack : List Frame}
    (h : CtxOK G K c owned (heldOf stack)) {A : OSet} :
    c.held A ↔ Locks (owned ++ stack.flatMap Frame.owned) A := by
  rw [h.held, Locks_append]; rfl

/-- Taking a free lock. -/
theorem GInv.acquire {G : Global} {limit : Option ℕ} {A0 : OSet} {β : ℕ → ℕ} (hG : GInv hash limit A0 β G) {i : ℕ} {t : Task}
    (ht : G.tasks i = some t) {A : OSet} {k : Bool → Prog Exit} {owned : List Res} {stack : List Frame}
    (hs : t.status = .run (.lock A k) owned stack) (hfree : G.locks A = none) :
    GInv hash limit A0 (Function.update β i (β i - 1))
      { G.setStatus i t (.run (k true) (.lock A G.nextToken :: owned) stack) with
        locks := fun B => if B = A then some G.nextToken else G.locks B
        nextToken := G.nextToken + 1 } ∧ 1 ≤ β i := by
  have hok := hG.task i t ht
  rw [hs] at hok
  obtain ⟨K, c, b, s, ⟨hctx, hwp, hst⟩, hb⟩ := hok
  obtain ⟨⟨m, hK⟩, hmap, hbelow, hb2, hwp', _⟩ := hwp G.store (Rely.refl _ _) hG.sinv
  have hres : t.res = owned ++ stack.flatMap Frame.owned := by unfold Task.res; rw [hs]; rfl
  have hnew : ∀ (j : ℕ) (u : Task) tok, G.tasks j = some u → Res.lock A tok ∉ u.res := by
    intro j u tok hu hm
    have := hG.own.lockOwned j u A tok hu hm
    rw [hfree] at this
    simp at this
  have hsch : t.scheduled = true := hG.own.started ht (by simp [hs]) (by simp [hs])
  set G' : Global := { G.setStatus i t (.run (k true) (.lock A G.nextToken :: owned) stack) with
        locks := fun B => if B = A then some G.nextToken else G.locks B
        nextToken := G.nextToken + 1 } with hG'
  have tasks' : G'.tasks = Function.update G.tasks i
      (some { t with status := .run (k true) (.lock A G.nextToken :: owned) stack }) := rfl
  have self' : G'.tasks i = some { t with status := .run (k true) (.lock A G.nextToken :: owned) stack } := by
    rw [tasks', Function.update_self]
  have other' : ∀ j, j ≠ i → G'.tasks j = G.tasks j := fun j h => by rw [tasks', Function.update_of_ne h]
  have res' : ∀ j u, G'.tasks j = some u → ∃ u0, G.tasks j = some u0 ∧ u.root = u0.root ∧
      u.scheduled = u0.scheduled ∧ u.cancelled = u0.cancelled ∧
      ((j = i ∧ u.res = .lock A G.nextToken :: u0.res) ∨ (j ≠ i ∧ u = u0)) := by
    intro j u hu
    by_cases e : j = i
    · subst e
      rw [self'] at hu
      cases hu
      refine ⟨t, ht, rfl, rfl, rfl, Or.inl ⟨rfl, ?_⟩⟩
      rw [hres]; rfl
    · rw [other' j e] at hu
      exact ⟨u, hu, rfl, rfl, rfl, Or.inr ⟨e, rfl⟩⟩
  have mem' : ∀ j u x, G'.tasks j = some u → x ∈ u.res → ∃ u0, G.tasks j = some u0 ∧
      ((j = i ∧ x = .lock A G.nextToken) ∨ x ∈ u0.res) := by
    intro j u x hu hx
    obtain ⟨u0, hu0, _, _, _, h⟩ := res' j u hu
    refine ⟨u0, hu0, ?_⟩
    rcases h with ⟨e, h⟩ | ⟨_, rfl⟩
    · rw [h] at hx
      rcases List.mem_cons.1 hx with hx | hx
      · exact Or.inl ⟨e, hx⟩
      · exact Or.inr hx
    · exact Or.inr hx
  have kids : ∀ l, Kids G G' l := by
    intro l h _ u hu
    by_cases e : h.tid = i
    · rw [e, self'] at hu
      cases hu
      exact ⟨t, e ▸ ht, by simp, fun h => h⟩
    · rw [other' _ e] at hu
      exact ⟨u, hu, fun h => h, fun h => h⟩
  refine ⟨⟨hG.sinv, ?_, ?_, ?_⟩, by omega⟩
  · constructor
    · intro j u hu
      obtain ⟨u0, hu0, _, _, _, h⟩ := res' j u hu
      rcases h with ⟨e, h⟩ | ⟨_, rfl⟩
      · rw [h]
        exact List.nodup_cons.2 ⟨hnew j u0 _ hu0, hG.own.nodup j u0 hu0⟩
      · exact hG.own.nodup j u hu0
    · intro j l u v x hu hv hx hx'
      obtain ⟨u0, hu0, h1⟩ := mem' j u x hu hx
      obtain ⟨v0, hv0, h2⟩ := mem' l v x hv hx'
      rcases h1 with ⟨e, rfl⟩ | h1
      · rcases h2 with ⟨e', _⟩ | h2
        · rw [e, e']
        · exact absurd h2 (hnew l v0 _ hv0)
      · rcases h2 with ⟨e', rfl⟩ | h2
        · exact absurd h1 (hnew j u0 _ hu0)
        · exact hG.own.disj j l u0 v0 x hu0 hv0 h1 h2
    · intro j u B tok hu hx
      obtain ⟨u0, hu0, h1⟩ := mem' j u _ hu hx
      rcases h1 with ⟨e, h1⟩ | h1
      · cases h1
        simp [hG']
      · have hB : B ≠ A := by
          rintro rfl
          exact hnew j u0 tok hu0 h1
        simp only [hG', if_neg hB]
        exact hG.own.lockOwned j u0 B tok hu0 h1
    · intro B tok hB
      by_cases e : B = A
      · subst e
        simp only [hG', if_true, Option.some.injEq] at hB
        subst hB
        refine ⟨i, _, self', ?_⟩
        exact List.mem_append.2 (Or.inl (List.mem_cons_self ..))
      · simp only [hG', if_neg e] at hB
        obtain ⟨j, u0, hu0, hx⟩ := hG.own.lockHas B tok hB
        by_cases ej : j = i
        · subst ej
          rw [ht] at hu0
          cases hu0
          refine ⟨j, _, self', ?_⟩
          rw [hres] at hx
          exact List.mem_cons_of_mem _ hx
        · exact ⟨j, u0, (other' j ej).trans hu0, hx⟩
    · intro B tok hB
      change tok < G.nextToken + 1
      by_cases e : B = A
      · subst e
        simp only [hG', if_true, Option.some.injEq] at hB
        omega
      · simp only [hG', if_neg e] at hB
        have := hG.own.lockTok B tok hB
        omega
    · intro j u h hu hx
      obtain ⟨u0, hu0, h1⟩ := mem' j u _ hu hx
      rcases h1 with ⟨_, h1⟩ | h1
      · simp at h1
      · obtain ⟨a, b, ch, hc, hc1, hc2⟩ := hG.own.child j u0 h hu0 h1
        refine ⟨a, b, ?_⟩
        by_cases e : h.tid = i
        · rw [e] at hc
          rw [ht] at hc
          cases hc
          rw [e]
          exact ⟨_, self', hc1, hc2⟩
        · exact ⟨ch, (other' _ e).trans hc, hc1, hc2⟩
    · intro j u hu hsc
      by_cases e : j = i
      · subst e
        rw [self'] at hu
        cases hu
        rw [hsch] at hsc
        simp at hsc
      · rw [other' j e] at hu
        exact hG.own.unsched j u hu hsc
    · intro j u l hu hl
      by_cases e : j = i
      · subst e
        rw [self'] at hu
        cases hu
        simp at hl
      · rw [other' j e] at hu
        exact hG.own.dropped j u l hu hl
  · intro j u hu
    by_cases e : j = i
    · subst e
      rw [self'] at hu
      cases hu
      rw [Function.update_self]
      refine ⟨K, c.addLock A, b - 2, s, ⟨?_, hwp', ?_⟩, ?_⟩
      · refine ⟨?_, ?_, ?_, ?_, ?_, ?_⟩
        · intro B
          show B = A ∨ c.held B ↔ _
          rw [hctx.held B]
          constructor
          · rintro (rfl | h | h)
            · exact Or.inl ⟨_, List.mem_cons_self ..⟩
            · obtain ⟨tok, h⟩ := h
              exact Or.inl ⟨tok, List.mem_cons_of_mem _ h⟩
            · exact Or.inr h
          · rintro (⟨tok, h⟩ | h)
            · rcases List.mem_cons.1 h with h | h
              · cases h; exact Or.inl rfl
              · exact Or.inr (Or.inl ⟨tok, h⟩)
            · exact Or.inr (Or.inr h)
        · intro h
          show c.own h ↔ _
          rw [hctx.own h]
          simp
        · exact (hctx.frame (kids _)).hs
        · exact (hctx.frame (kids _)).sched
        · rintro B ⟨tok, h⟩
          rcases List.mem_cons.1 h with h | h
          · cases h; exact ⟨m, hK⟩
          · exact hctx.lock B ⟨tok, h⟩
        · intro h hm
          rcases List.mem_cons.1 hm with hm | hm
          · simp at hm
          · exact hctx.handle h hm
      · exact hst.frame (Evolves.refl _) (fun _ _ _ => rfl) (kids _)
      · rw [List.cons_append, List.length_cons]
        omega
    · have hu' : G.tasks j = some u := (other' j e) ▸ hu
      rw [Function.update_of_ne e]
      exact (hG.task j u hu').frame (Rely.refl _ _) (kids _)
  · obtain ⟨t0, h0, h1, h2, h3, h4⟩ := hG.main
    by_cases e : (0 : ℕ) = i
    · subst e
      rw [ht] at h0
      cases h0
      exact ⟨_, self', h1, h2, h3, by simp⟩
    · exact ⟨t0, (other' 0 e).trans h0, h1, h2, h3, h4⟩

/-- Spawning a task. -/
theorem GInv.spawn {G : Global} {limit : Option ℕ} {A0 : OSet} {β : ℕ → ℕ} (hG : GInv hash limit A0 β G) {i : ℕ} {t : Task}
    (ht : G.tasks i = some t) {level : ℕ} {prev : State} {A : OSet} {k : Handle → Prog Exit} {owned : List Res}
    {stack : List Frame} (hs : t.status = .run (.spawn level prev A k) owned stack) {j : ℕ}
    (hj : G.tasks j = none) :
    GInv hash limit A0 (Function.update (Function.update β i (β i - (callPot A + 2))) j (callPot A + 1)) { G with
        tasks := Function.update
          (Function.update G.tasks i
            (some { t with status := .run (k ⟨j, A, prev⟩) (.handle ⟨j, A, prev⟩ :: owned) stack })) j
          (some { status := .sleep (code hash (.improve level prev A)) [] []
                  root := .improve level prev A
                  scheduled := false, queued := false, cancelled := false }) } ∧ callPot A + 3 ≤ β i := by
  have hok := hG.task i t ht
  rw [hs] at hok
  obtain ⟨K, c, b, s, ⟨hctx, hwp, hst⟩, hb⟩ := hok
  obtain ⟨hA, hrank, hkn, hopen, hb2, hwp'⟩ := hwp G.store (Rely.refl _ _) hG.sinv
  have hres : t.res = owned ++ stack.flatMap Frame.owned := by unfold Task.res; rw [hs]; rfl
  have hij : j ≠ i := by rintro rfl; rw [ht] at hj; simp at hj
  have hnew : ∀ (l : ℕ) (u : Task) h, G.tasks l = some u → h.tid = j → Res.handle h ∉ u.res := by
    rintro l u h hu e hm
    obtain ⟨_, _, ch, hc, _⟩ := hG.own.child l u h hu hm
    rw [e, hj] at hc
    simp at hc
  have hsch : t.scheduled = true := hG.own.started ht (by simp [hs]) (by simp [hs])
  set G' : Global := { G with
        tasks := Function.update
          (Function.update G.tasks i
            (some { t with status := .run (k ⟨j, A, prev⟩) (.handle ⟨j, A, prev⟩ :: owned) stack })) j
          (some { status := .sleep (code hash (.improve level prev A)) [] []
                  root := .improve level prev A
                  scheduled := false, queued := false, cancelled := false }) } with hG'
  have child' : G'.tasks j = some { status := .sleep (code hash (.improve level prev A)) [] []
                                    root := .improve level prev A
                                    scheduled := false, queued := false, cancelled := false } := by
    rw [hG']; dsimp only; rw [Function.update_self]
  have self' : G'.tasks i = some { t with status := .run (k ⟨j, A, prev⟩) (.handle ⟨j, A, prev⟩ :: owned) stack } := by
    rw [hG']; dsimp only; rw [Function.update_of_ne hij.symm, Function.update_self]
  have other' : ∀ l, l ≠ i → l ≠ j → G'.tasks l = G.tasks l := fun l h h' => by
    rw [hG']; dsimp only; rw [Function.update_of_ne h', Function.update_of_ne h]
  have res' : ∀ l u, G'.tasks l = some u → (l = j ∧ u.res = []) ∨ ∃ u0, G.tasks l = some u0 ∧ l ≠ j ∧
      ((l = i ∧ u.res = .handle ⟨j, A, prev⟩ :: u0.res) ∨ (l ≠ i ∧ u = u0)) := by
    intro l u hu
    by_cases e2 : l = j
    · subst e2
      rw [child'] at hu
      cases hu
      exact Or.inl ⟨rfl, rfl⟩
    · right
      by_cases e : l = i
      · subst e
        rw [self'] at hu
        cases hu
        refine ⟨t, ht, e2, Or.inl ⟨rfl, ?_⟩⟩
        rw [hres]; rfl
      · rw [other' l e e2] at hu
        exact ⟨u, hu, e2, Or.inr ⟨e, rfl⟩⟩
  have mem' : ∀ l u x, G'.tasks l = some u → x ∈ u.res → ∃ u0, G.tasks l = some u0 ∧
      ((l = i ∧ x = .handle ⟨j, A, prev⟩) ∨ x ∈ u0.res) := by
    intro l u x hu hx
    rcases res' l u hu with ⟨_, h⟩ | ⟨u0, hu0, _, h⟩
    · rw [h] at hx; simp at hx
    · refine ⟨u0, hu0, ?_⟩
      rcases h with ⟨e, h⟩ | ⟨_, rfl⟩
      · rw [h] at hx
        rcases List.mem_cons.1 hx with hx | hx
        · exact Or.inl ⟨e, hx⟩
        · exact Or.inr hx
      · exact Or.inr hx
  have kids : ∀ l u, G.tasks l = some u → Kids G G' u.res := by
    intro l u hu h hm v hv
    have e2 : h.tid ≠ j := fun e => hnew l u h hu e hm
    by_cases e : h.tid = i
    · rw [e, self'] at hv
      cases hv
      exact ⟨t, e ▸ ht, by simp, fun h => h⟩
    · rw [other' _ e e2] at hv
      exact ⟨v, hv, fun h => h, fun h => h⟩
  refine ⟨⟨hG.sinv, ?_, ?_, ?_⟩, by omega⟩
  · constructor
    · intro l u hu
      rcases res' l u hu with ⟨_, h⟩ | ⟨u0, hu0, _, h⟩
      · rw [h]; exact List.nodup_nil
      · rcases h with ⟨e, h⟩ | ⟨_, rfl⟩
        · rw [h]
          exact List.nodup_cons.2 ⟨hnew l u0 _ hu0 rfl, hG.own.nodup l u0 hu0⟩
        · exact hG.own.nodup l u hu0
    · intro l m u v x hu hv hx hx'
      obtain ⟨u0, hu0, h1⟩ := mem' l u x hu hx
      obtain ⟨v0, hv0, h2⟩ := mem' m v x hv hx'
      rcases h1 with ⟨e, rfl⟩ | h1
      · rcases h2 with ⟨e', _⟩ | h2
        · rw [e, e']
        · exact absurd h2 (hnew m v0 _ hv0 rfl)
      · rcases h2 with ⟨e', rfl⟩ | h2
        · exact absurd h1 (hnew l u0 _ hu0 rfl)
        · exact hG.own.disj l m u0 v0 x hu0 hv0 h1 h2
    · intro l u B tok hu hx
      obtain ⟨u0, hu0, h1⟩ := mem' l u _ hu hx
      rcases h1 with ⟨e, h1⟩ | h1
      · simp at h1
      · exact hG.own.lockOwned l u0 B tok hu0 h1
    · intro B tok hB
      obtain ⟨l, u0, hu0, hx⟩ := hG.own.lockHas B tok hB
      have e2 : l ≠ j := by rintro rfl; rw [hj] at hu0; simp at hu0
      by_cases ej : l = i
      · subst ej
        rw [ht] at hu0
        cases hu0
        refine ⟨l, _, self', ?_⟩
        rw [hres] at hx
        exact List.mem_cons_of_mem _ hx
      · exact ⟨l, u0, (other' l ej e2).trans hu0, hx⟩
    · exact fun B tok hB => hG.own.lockTok B tok hB
    · intro l u h hu hx
      obtain ⟨u0, hu0, h1⟩ := mem' l u _ hu hx
      rcases h1 with ⟨e, h1⟩ | h1
      · cases h1
        subst e
        refine ⟨hij, ?_, _, child', ⟨level, rfl⟩, rfl⟩
        obtain ⟨t0, h0, _⟩ := hG.main
        intro e
        dsimp only at e
        rw [e, h0] at hj
        simp at hj
      · obtain ⟨a, b, ch, hc, hc1, hc2⟩ := hG.own.child l u0 h hu0 h1
        refine ⟨a, b, ?_⟩
        have e2 : h.tid ≠ j := fun e => hnew l u0 h hu0 e h1
        by_cases e : h.tid = i
        · rw [e] at hc
          rw [ht] at hc
          cases hc
          rw [e]
          exact ⟨_, self', hc1, hc2⟩
        · exact ⟨ch, (other' _ e e2).trans hc, hc1, hc2⟩
    · intro l u hu hsc
      by_cases e2 : l = j
      · subst e2
        rw [child'] at hu
        cases hu
        exact Or.inl ⟨_, rfl⟩
      · by_cases e : l = i
        · subst e
          rw [self'] at hu
          cases hu
          rw [hsch] at hsc
          simp at hsc
        · rw [other' l e e2] at hu
          exact hG.own.unsched l u hu hsc
    · intro l u m hu hl
      by_cases e2 : l = j
      · subst e2
        rw [child'] at hu
        cases hu
        simp at hl
      · by_cases e : l = i
        · subst e
          rw [self'] at hu
          cases hu
          simp at hl
        · rw [other' l e e2] at hu
          exact hG.own.dropped l u m hu hl
  · intro l u hu
    by_cases e2 : l = j
    · subst e2
      rw [child'] at hu
      cases hu
      rw [Function.update_self]
      refine ⟨.improve A prev.todo, ⟨fun _ => False, fun _ => False, fun _ => False, fun _ => False⟩, callPot A, 0,
        ⟨?_, ?_, rfl⟩, by simp, Or.inl ⟨rfl, rfl⟩⟩
      · refine ⟨?_, by simp, by simp, by simp, ?_, by simp⟩
        · intro B
          simp [Locks, heldOf]
        · rintro B ⟨tok, h⟩
          simp at h
      · exact code_spec (.improve level prev A) hG.sinv ⟨rfl, hA, fun B hB => absurd hB id, hkn, hopen,
          fun _ h => h⟩ (Nat.le_refl _)
    · by_cases e : l = i
      · subst e
        rw [self'] at hu
        cases hu
        have hfresh : ¬ c.own ⟨j, A, prev⟩ := by
          rw [hctx.own]
          intro hm
          refine hnew l t ⟨j, A, prev⟩ ht rfl ?_
          rw [hres]
          exact List.mem_append.2 (Or.inl hm)
        have kt := kids l t ht
        rw [hres] at kt
        have hctx' := hctx.frame (kt.anti fun r hr => List.mem_append.2 (Or.inl hr))
        rw [Function.update_of_ne e2, Function.update_self]
        refine ⟨K, c.addHandle ⟨j, A, prev⟩, b - (callPot A + 3), s, ⟨?_, hwp' ⟨j, A, prev⟩ rfl rfl hfresh, ?_⟩, ?_⟩
        · refine ⟨?_, ?_, ?_, ?_, ?_, ?_⟩
          · intro B
            show c.held B ↔ _
            rw [hctx.held B]
            simp [Locks]
          · intro h
            show h = _ ∨ c.own h ↔ _
            rw [hctx.own h]
            simp
          · rintro h (rfl | ho) hh v hv
            · rw [child'] at hv
              cases hv
              simp
            · rcases hh with rfl | hh
              · exact absurd ho hfresh
              · exact hctx'.hs h ho hh v hv
          · rintro h ho ⟨hne, hsd⟩ v hv
            rcases ho with rfl | ho
            · exact absurd rfl hne
            · exact hctx'.sched h ho hsd v hv
          · rintro B ⟨tok, h⟩
            rcases List.mem_cons.1 h with h | h
            · simp at h
            · exact hctx.lock B ⟨tok, h⟩
          · intro h hm
            rcases List.mem_cons.1 hm with hm | hm
            · cases hm; exact hrank
            · exact hctx.handle h hm
        · exact hst.frame (Evolves.refl _) (fun _ _ _ => rfl) (kt.anti fun r hr => List.mem_append.2 (Or.inr hr))
        · rw [List.cons_append, List.length_cons]
          omega
      · have hu' : G.tasks l = some u := (other' l e e2) ▸ hu
        rw [Function.update_of_ne e2, Function.update_of_ne e]
        exact (hG.task l u hu').frame (Rely.refl _ _) (kids l u hu')
  · obtain ⟨t0, h0, h1, h2, h3, h4⟩ := hG.main
    have e2 : (0 : ℕ) ≠ j := by rintro rfl; rw [hj] at h0; simp at h0
    by_cases e : (0 : ℕ) = i
    · subst e
      rw [ht] at h0
      cases h0
      exact ⟨_, self', h1, h2, h3, by simp⟩
    · exact ⟨t0, (other' 0 e e2).trans h0, h1, h2, h3, h4⟩

/-- Taking the result of a child. -/
theorem GInv.pollReady {G : Global} {limit : Option ℕ} {A0 : OSet} {β : ℕ → ℕ} (hG : GInv hash limit A0 β G) {i : ℕ} {t : Task}
    (ht : G.tasks i = some t) {h : Handle} {k : Option State → Prog Exit} {owned : List Res}
    {stack : List Frame} (hs : t.status = .run (.poll h k) owned stack) {ch : Task} {v : State}
    (hch : G.tasks h.tid = some ch) (hdone : ch.status = .done v) (hne : h.tid ≠ i) :
    GInv hash limit A0 (Function.update β h.tid 0) { G with
        tasks := Function.update
          (Function.update G.tasks i (some { t with status := .run (k (some v)) owned stack })) h.tid
          (some { ch with status := .taken }) } ∧ 1 ≤ β h.tid := by
  have hok := hG.task i t ht
  rw [hs] at hok
  obtain ⟨K, c, b, s, ⟨hctx, hwp, hst⟩, hb⟩ := hok
  obtain ⟨⟨hown, hhs⟩, _, hwp'⟩ := hwp
  have hres : t.res = owned ++ stack.flatMap Frame.owned := by unfold Task.res; rw [hs]; rfl
  have hmem : Res.handle h ∈ owned := (hctx.own h).1 hown
  have hmemt : Res.handle h ∈ t.res := by rw [hres]; exact List.mem_append.2 (Or.inl hmem)
  obtain ⟨_, hn0, ch', hch', hroot, hcan⟩ := hG.own.child i t h ht hmemt
  rw [hch] at hch'
  cases hch'
  obtain ⟨lev, hroot⟩ := hroot
  have hok2 := hG.task h.tid ch hch
  rw [hdone, hroot] at hok2
  have hkn : Known G.store h.target v ∧ v.todo < h.prev.todo := hok2.1 G.store (Rely.refl _ _) hG.sinv
  have hsch : t.scheduled = true := hG.own.started ht (by simp [hs]) (by simp [hs])
  have hschc : ch.scheduled = true := hG.own.started hch (by simp [hdone]) (by simp [hdone])
  set G' : Global := { G with
        tasks := Function.update
          (Function.update G.tasks i (some { t with status := .run (k (some v)) owned stack })) h.tid
          (some { ch with status := .taken }) } with hG'
  have child' : G'.tasks h.tid = some { ch with status := .taken } := by
    rw [hG']; dsimp only; rw [Function.update_self]
  have self' : G'.tasks i = some { t with status := .run (k (some v)) owned stack } := by
    rw [hG']; dsimp only; rw [Function.update_of_ne hne.symm, Function.update_self]
  have other' : ∀ l, l ≠ i → l ≠ h.tid → G'.tasks l = G.tasks l := fun l h h' => by
    rw [hG']; dsimp only; rw [Function.update_of_ne h', Function.update_of_ne h]
  have sameS : Same t { t with status := .run (k (some v)) owned stack } := by
    refine ⟨?_, rfl, rfl, fun h => h, ?_, ?_⟩
    · rw [hres]; rfl
    · intro e; dsimp only at e; rw [hsch] at e; simp at e
    · intro l e; simp at e
  have sameC : Same ch { ch with status := .taken } := by
    refine ⟨?_, rfl, rfl, fun h => h, ?_, ?_⟩
    · unfold Task.res; rw [hdone]; rfl
    · intro e; dsimp only at e; rw [hschc] at e; simp at e
    · intro l e; simp at e
  -- other handles are not for this child
  have uniq : ∀ (l : ℕ) (u : Task) h', G.tasks l = some u → Res.handle h' ∈ u.res → h'.tid = h.tid → h' = h := by
    intro l u h' hu hm e
    obtain ⟨_, _, d, hd, hd1, _⟩ := hG.own.child l u h' hu hm
    rw [e, hch] at hd
    cases hd
    obtain ⟨_, hd1⟩ := hd1
    rw [hroot] at hd1
    injection hd1 with _ hd1 hd2
    obtain ⟨a, b⟩ := h
    obtain ⟨a', b'⟩ := h'
    dsimp only at e hd1 hd2
    rw [e, hd1, hd2]
  have kids : ∀ l, (∀ h', Res.handle h' ∈ l → h'.tid ≠ h.tid) → Kids G G' l := by
    intro l hl h' hm u hu
    have e2 := hl h' hm
    by_cases e : h'.tid = i
    · rw [e, self'] at hu
      cases hu
      exact ⟨t, e ▸ ht, by simp, fun h => h⟩
    · rw [other' _ e e2] at hu
      exact ⟨u, hu, fun h => h, fun h => h⟩
  refine ⟨⟨hG.sinv, ?_, ?_, ?_⟩, hok2.2⟩
  · refine hG.own.same rfl rfl ?_ ?_
    · intro l u hu
      by_cases e2 : l = h.tid
      · subst e2
        rw [child'] at hu
        cases hu
        exact ⟨ch, hch, sameC⟩
      · by_cases e : l = i
        · subst e
          rw [self'] at hu
          cases hu
          exact ⟨t, ht, sameS⟩
        · rw [other' l e e2] at hu
          exact ⟨u, hu, Same.refl_of hG.own hu⟩
    · intro l u hu
      by_cases e2 : l = h.tid
      · subst e2
        rw [hch] at hu
        cases hu
        exact ⟨_, child', sameC⟩
      · by_cases e : l = i
        · subst e
          rw [ht] at hu
          cases hu
          exact ⟨_, self', sameS⟩
        · exact ⟨u, (other' l e e2).trans hu, Same.refl_of hG.own hu⟩
  · intro l u hu
    by_cases e2 : l = h.tid
    · subst e2
      rw [child'] at hu
      cases hu
      trivial
    · by_cases e : l = i
      · subst e
        rw [self'] at hu
        cases hu
        rw [Function.update_of_ne e2]
        refine ⟨K, c.consume h, b, s, ⟨?_, hwp' G.store v (Rely.refl _ _) hG.sinv hkn.1 hkn.2, ?_⟩, hb⟩
        · refine ⟨hctx.held, hctx.own, ?_, ?_, hctx.lock, hctx.handle⟩
          · rintro h' ho ⟨hne', hh⟩ u hu
            have hm' : Res.handle h' ∈ t.res := by
              rw [hres]; exact List.mem_append.2 (Or.inl ((hctx.own h').1 ho))
            have e3 : h'.tid ≠ h.tid := fun e => hne' (uniq l t h' ht hm' e)
            by_cases e4 : h'.tid = l
            · rw [e4, self'] at hu
              cases hu
              simp
            · rw [other' _ e4 e3] at hu
              exact hctx.hs h' ho hh u hu
          · intro h' ho hh u hu
            by_cases e3 : h'.tid = h.tid
            · rw [e3, child'] at hu
              cases hu
              exact hschc
            · by_cases e4 : h'.tid = l
              · rw [e4, self'] at hu
                cases hu
                exact hsch
              · rw [other' _ e4 e3] at hu
                exact hctx.sched h' ho hh u hu
        · refine hst.frame (Evolves.refl _) (fun _ _ _ => rfl) (kids _ ?_)
          intro h' hm' e3
          have hm2 : Res.handle h' ∈ t.res := by rw [hres]; exact List.mem_append.2 (Or.inr hm')
          have := uniq l t h' ht hm2 e3
          subst this
          have hnd := hG.own.nodup l t ht
          rw [hres] at hnd
          exact (List.nodup_append.1 hnd).2.2 _ hmem _ hm' rfl
      · have hu' : G.tasks l = some u := (other' l e e2) ▸ hu
        rw [Function.update_of_ne e2]
        refine (hG.task l u hu').frame (Rely.refl _ _) (kids _ ?_)
        intro h' hm' e3
        have := uniq l u h' hu' hm' e3
        subst this
        exact e (hG.own.disj l i u t _ hu' ht hm' hmemt)
  · obtain ⟨t0, h0, h1, h2, h3, h4⟩ := hG.main
    have e2 : (0 : ℕ) ≠ h.tid := hn0.symm
    by_cases e : (0 : ℕ) = i
    · subst e
      rw [ht] at h0
      cases h0
      exact ⟨_, self', h1, h2, h3, by simp⟩
    · exact ⟨t0, (other' 0 e e2).trans h0, h1, h2, h3, h4⟩

/-- Marking a task as scheduled or queued. -/
theorem GInv.mark {G : Global} {limit : Option ℕ} {A0 : OSet} {β : ℕ → ℕ} (hG : GInv hash limit A0 β G) {i : ℕ} {t t' : Task}
    (ht : G.tasks i = some t) (h1 : t'.status = t.status) (h2 : t'.root = t.root) (h3 : t'.cancelled = t.cancelled)
    (h4 : t'.scheduled = t.scheduled ∨ t'.scheduled = true) :
    GInv hash limit A0 β { G with tasks := Function.update G.tasks i (some t') } := by
  rw [← Function.update_eq_self i β]
  refine hG.one (σ := G.store) ht ⟨?_, h2, h3, ?_, ?_, ?_⟩ (fun h => h1 ▸ h) hG.sinv (Evolves.refl _)
    (fun B h => absurd rfl h) ?_
  · unfold Task.res; rw [h1]
  · intro e
    rcases h4 with h4 | h4
    · rw [h4, e]
    · exact h4
  · intro e
    rw [h1]
    rcases h4 with h4 | h4
    · exact hG.own.unsched i t ht (h4 ▸ e)
    · rw [h4] at e; simp at e
  · intro l e
    rw [h1] at e
    exact hG.own.dropped i t l ht e
  · rw [h1, h2]
    exact hG.task i t ht

theorem Own.receiver {G : Global} (h : Own G) {i : ℕ} {t : Task} (ht : G.tasks i = some t) {r : Res}
    (hr : r ∈ t.res) : G.receiver r := by
  cases r with
  | lock A tok => exact h.lockOwned i t A tok ht hr
  | handle hd => trivial

/-- Changes of the status of a task that may be repeated: reading and writing the states, waiting for a lock,
marking tasks, looking whether a task has finished, going to sleep, waking up, and starting another round of
waiting. -/
inductive FreeMove (hash : List ℕ → ℕ) (G : Global) : Status → Status → Prop
  | get {A k owned stack} : FreeMove hash G (.run (.get A k) owned stack) (.run (k (G.store.get A)) owned stack)
  | set {A v k owned stack} : FreeMove hash G (.run (.set A v k) owned stack) (.run k owned stack)
  | lockBusy {A k owned stack tok} : G.locks A = some tok →
      FreeMove hash G (.run (.lock A k) owned stack) (.wait A tok (k false) owned stack)
  | lockWake {A tok p owned stack} : G.sent tok = true →
      FreeMove hash G (.wait A tok p owned stack) (.run p owned stack)
  | addPending {prio h k owned stack} :
      FreeMove hash G (.run (.addPending prio h k) owned stack) (.run k owned stack)
  | schedule {h k owned stack} : FreeMove hash G (.run (.schedule h k) owned stack) (.run k owned stack)
  | isScheduled {h k owned stack c} : G.tasks h.tid = some c →
      FreeMove hash G (.run (.isScheduled h k) owned stack) (.run (k c.scheduled) owned stack)
  | pollPending {h k owned stack c} : G.tasks h.tid = some c → (∀ v, c.status ≠ .done v) →
      FreeMove hash G (.run (.poll h k) owned stack) (.run (k none) owned stack)
  | pending {k owned stack} : FreeMove hash G (.run (.pending k) owned stack) (.sleep k owned stack)
  | wake {p owned stack} : FreeMove hash G (.sleep p owned stack) (.run p owned stack)
  | goto {pc owned stack} : pc.free = true →
      FreeMove hash G (.run (.ret (.goto pc)) owned stack) (.run (code hash pc) owned stack)

/-- Steps of task `i` that may be repeated: `i` makes a `FreeMove` or is scheduled by a worker. -/
structure FreeStep (hash : List ℕ → ℕ) (i : ℕ) (G G' : Global) : Prop where
  locks : G'.locks = G.locks
  sent : G'.sent = G.sent
  nextToken : G'.nextToken = G.nextToken
  actor : ∃ t, G.tasks i = some t
  none : ∀ j, G.tasks j = none → G'.tasks j = none
  task : ∀ j t, G.tasks j = some t → ∃ t', G'.tasks j = some t' ∧ t'.root = t.root ∧ t'.cancelled = t.cancelled ∧
    (t.scheduled = true → t'.scheduled = true) ∧ (j ≠ i → t'.status = t.status) ∧
    (j = i → FreeMove hash G t.status t'.status ∨
      t'.status = t.status ∧ t.scheduled = false ∧ t'.scheduled = true)

theorem FreeStep.one {G G' : Global} {i : ℕ} {t t' : Task} (ht : G.tasks i = some t) (hl : G'.locks = G.locks)
    (hs : G'.sent = G.sent) (hn : G'.nextToken = G.nextToken)
    (htasks : G'.tasks = Function.update G.tasks i (some t')) (h1 : t'.root = t.root)
    (h2 : t'.cancelled = t.cancelled) (h3 : t.scheduled = true → t'.scheduled = true)
    (h4 : FreeMove hash G t.status t'.status ∨ t'.status = t.status ∧ t.scheduled = false ∧ t'.scheduled = true) :
    FreeStep hash i G G' := by
  refine ⟨hl, hs, hn, ⟨t, ht⟩, ?_, ?_⟩
  · intro j hj
    rw [htasks, Function.update_of_ne]
    · exact hj
    · rintro rfl
      rw [ht] at hj
      simp at hj
  · intro j u hu
    by_cases e : j = i
    · subst e
      rw [ht] at hu
      cases hu
      exact ⟨t', by rw [htasks, Function.update_self], h1, h2, h3, fun h => absurd rfl h, fun _ => h4⟩
    · exact ⟨u, by rw [htasks, Function.update_of_ne e]; exact hu, rfl, rfl, fun h => h, fun _ => rfl,
        fun h => absurd h e⟩

theorem FreeStep.status {G : Global} {i : ℕ} {t : Task} {s : Status} (ht : G.tasks i = some t)
    (h : FreeMove hash G t.status s) : FreeStep hash i G (G.setStatus i t s) :=
  FreeStep.one ht rfl rfl rfl rfl rfl rfl (fun h => h) (Or.inl h)

theorem FreeStep.two {G : Global} {i j : ℕ} {t c c' : Task} {s : Status} (ht : G.tasks i = some t)
    (hc : G.tasks j = some c) (hne : j ≠ i) (h : FreeMove hash G t.status s) (h1 : c'.root = c.root)
    (h2 : c'.cancelled = c.cancelled) (h3 : c.scheduled = true → c'.scheduled = true) (h4 : c'.status = c.status) :
    FreeStep hash i G { G with
      tasks := Function.update (Function.update G.tasks i (some { t with status := s })) j (some c') } := by
  refine ⟨rfl, rfl, rfl, ⟨t, ht⟩, ?_, ?_⟩
  · intro l hl
    dsimp only
    rw [Function.update_of_ne, Function.update_of_ne]
    · exact hl
    · rintro rfl
      rw [ht] at hl
      simp at hl
    · rintro rfl
      rw [hc] at hl
      simp at hl
  · intro l u hu
    dsimp only
    by_cases e : l = j
    · subst e
      rw [hc] at hu
      cases hu
      exact ⟨c', by rw [Function.update_self], h1, h2, h3, fun _ => h4, fun h => absurd h hne⟩
    · rw [Function.update_of_ne e]
      by_cases e2 : l = i
      · subst e2
        rw [ht] at hu
        cases hu
        exact ⟨{ t with status := s }, by rw [Function.update_self], rfl, rfl, fun h => h, fun h => absurd rfl h,
          fun _ => Or.inl h⟩
      · exact ⟨u, by rw [Function.update_of_ne e2]; exact hu, rfl, rfl, fun h => h, fun _ => rfl,
          fun h => absurd h e2⟩

theorem degree_update (β : ℕ →₀ ℕ) (i b : ℕ) : (β.update i b).degree + β i = β.degree + b := by
  have h1 := congrArg Finsupp.degree (Finsupp.update_eq_erase_add_single β i b)
  have h2 := congrArg Finsupp.degree (Finsupp.single_add_erase i β)
  rw [map_add, Finsupp.degree_single] at h1 h2
  omega

/-- What a step does to the budgets: they get smaller or the step is one of the steps that may be repeated. -/
def StepOK (hash : List ℕ → ℕ) (limit : Option ℕ) (A : OSet) (β : ℕ →₀ ℕ) (i : ℕ) (G G' : Global) : Prop :=
  ∃ β' : ℕ →₀ ℕ, GInv hash limit A β' G' ∧
    (β'.degree < β.degree ∨ (β'.degree = β.degree ∧ FreeStep hash i G G'))

theorem StepOK.pay {limit : Option ℕ} {A : OSet} {β : ℕ →₀ ℕ} {G G' : Global} {i j b : ℕ}
    (h : GInv hash limit A (Function.update β j b) G') (hb : b < β j) : StepOK hash limit A β i G G' := by
  rw [← Finsupp.coe_update] at h
  refine ⟨_, h, Or.inl ?_⟩
  have := degree_update β j b
  omega

theorem StepOK.free {limit : Option ℕ} {A : OSet} {β : ℕ →₀ ℕ} {G G' : Global} {i : ℕ}
    (h : GInv hash limit A β G') (hf : FreeStep hash i G G') : StepOK hash limit A β i G G' :=
  ⟨β, h, Or.inr ⟨rfl, hf⟩⟩

theorem StepOK.free' {limit : Option ℕ} {A : OSet} {β : ℕ →₀ ℕ} {G G' : Global} {i : ℕ}
    (h : GInv hash limit A (Function.update β i (β i)) G') (hf : FreeStep hash i G G') : StepOK hash limit A β i G G' := by
  rw [Function.update_eq_self] at h
  exact .free h hf

/-- Every step preserves the invariant. -/
theorem GInv.act {G G' : Global} {limit : Option ℕ} {A0 : OSet} {β : ℕ →₀ ℕ} (hG : GInv hash limit A0 β G)
    {i : ℕ} (h : Act hash i G G') : StepOK hash limit A0 β i G G' := by
  cases h with
  | @get t A k owned stack ht hs =>
    have hok := hG.task i t ht
    rw [hs] at hok
    obtain ⟨K, c, b, s, ⟨hctx, hwp, hst⟩, hb⟩ := hok
    exact .free' (hG.status' ht (by unfold Task.res; rw [hs]; rfl) (hG.own.started ht (by simp [hs]) (by simp [hs]))
      (by simp) (by simp) ⟨K, c, b, s, ⟨hctx, hwp G.store (Rely.refl _ _) hG.sinv, hst⟩, hb⟩)
      (.status ht (hs ▸ .get))
  | @set t A v k owned stack ht hs hmap =>
    have hok := hG.task i t ht
    rw [hs] at hok
    obtain ⟨K, c, b, s, ⟨hctx, hwp, hst⟩, hb⟩ := hok
    obtain ⟨hheld, hcur, _, hi, he, hwp'⟩ := hwp G.store (Rely.refl _ _) hG.sinv
    have hres : t.res = owned ++ stack.flatMap Frame.owned := by unfold Task.res; rw [hs]; rfl
    have hother : ∀ B, B ≠ A → G.store.set A v B = G.store B := fun B hB => by simp [Store.set, hB]
    refine .free' (hG.status ht (by rw [hres]; rfl) (hG.own.started ht (by simp [hs]) (by simp [hs]))
      (by simp) (by simp) hi he ?_ ⟨K, c, b, s, ⟨hctx.frame (Kids.store _ _ _), hwp',
        hst.frame he (fun B _ hB => hother B (hcur ▸ hB)) (Kids.store _ _ _)⟩, hb⟩)
      (.one ht rfl rfl rfl rfl rfl rfl (fun h => h) (Or.inl (hs ▸ .set)))
    intro B hB
    have hBA : B = A := by
      by_contra hne
      exact hB (hother B hne)
    subst hBA
    rw [hres]
    exact hctx.locks.1 hheld
  | @setPanic t A v k owned stack ht hs hmap =>
    have hok := hG.task i t ht
    rw [hs] at hok
    obtain ⟨K, c, b, s, ⟨hctx, hwp, hst⟩, hb⟩ := hok
    exact absurd (hwp G.store (Rely.refl _ _) hG.sinv).2.2.1 hmap
  | @lockFree t A k owned stack ht hs hmap hfree =>
    obtain ⟨h1, h2⟩ := hG.acquire ht hs hfree
    exact .pay h1 (by omega)
  | @lockBusy t A k owned stack tok ht hs hmap htok =>
    have hok := hG.task i t ht
    rw [hs] at hok
    obtain ⟨K, c, b, s, ⟨hctx, hwp, hst⟩, hb⟩ := hok
    obtain ⟨⟨m, rfl⟩, _, hbelow, _, _, hwp'⟩ := hwp G.store (Rely.refl _ _) hG.sinv
    exact .free' (hG.status' ht (by unfold Task.res; rw [hs]; rfl) (hG.own.started ht (by simp [hs]) (by simp [hs]))
      (by simp) (by simp) ⟨m, c, b, s, ⟨hctx, hwp', hst⟩, hb, hbelow⟩) (.status ht (hs ▸ .lockBusy htok))
  | @lockPanic t A k owned stack ht hs hmap =>
    have hok := hG.task i t ht
    rw [hs] at hok
    obtain ⟨K, c, b, s, ⟨hctx, hwp, hst⟩, hb⟩ := hok
    exact absurd (hwp G.store (Rely.refl _ _) hG.sinv).2.1 hmap
  | @lockWake t A tok p owned stack ht hs htok =>
    have hok := hG.task i t ht
    rw [hs] at hok
    obtain ⟨m, c, b, s, ha, hb, _⟩ := hok
    exact .free' (hG.status' ht (by unfold Task.res; rw [hs]; rfl) (hG.own.started ht (by simp [hs]) (by simp [hs]))
      (by simp) (by simp) ⟨_, c, b, s, ha, hb⟩) (.status ht (hs ▸ .lockWake htok))
  | @spawn t level prev A k owned stack j ht hs hj =>
    obtain ⟨h1, h2⟩ := hG.spawn ht hs hj
    have hij : i ≠ j := by rintro rfl; rw [ht] at hj; simp at hj
    rw [← Finsupp.coe_update, ← Finsupp.coe_update] at h1
    refine ⟨_, h1, Or.inl ?_⟩
    have h3 := degree_update β i (β i - (callPot A + 2))
    have h4 := degree_update (β.update i (β i - (callPot A + 2))) j (callPot A + 1)
    omega
  | @addPending t prio h k owned stack ch ht hs hch hne =>
    have hG1 : GInv hash limit A0 β { G with tasks := Function.update G.tasks h.tid (some { ch with queued := true }) } :=
      hG.mark hch rfl rfl rfl (Or.inl rfl)
    have hfs := FreeStep.two (hash := hash) (s := .run k owned stack) (c' := { ch with queued := true }) ht hch hne
      (hs ▸ .addPending) rfl rfl (fun h => h) rfl
    rw [Function.update_comm hne.symm] at hfs ⊢
    have ht1 : Function.update G.tasks h.tid (some { ch with queued := true }) i = some t := by
      rw [Function.update_of_ne hne.symm]; exact ht
    have hok := hG1.task i t ht1
    rw [hs] at hok
    obtain ⟨K, c, b, s, ⟨hctx, hwp, hst⟩, hb⟩ := hok
    exact .free' (hG1.status' ht1 (by unfold Task.res; rw [hs]; rfl)
      (hG.own.started ht (by simp [hs]) (by simp [hs]))
      (by simp) (by simp) ⟨K, c, b, s, ⟨hctx, hwp.2, hst⟩, hb⟩) hfs
  | @schedule t h k owned stack ch ht hs hch hne =>
    have hG1 : GInv hash limit A0 β
        { G with tasks := Function.update G.tasks h.tid (some { ch with scheduled := true }) } :=
      hG.mark hch rfl rfl rfl (Or.inr rfl)
    have hfs := FreeStep.two (hash := hash) (s := .run k owned stack) (c' := { ch with scheduled := true }) ht hch hne
      (hs ▸ .schedule) rfl rfl (fun _ => rfl) rfl
    rw [Function.update_comm hne.symm] at hfs ⊢
    have ht1 : Function.update G.tasks h.tid (some { ch with scheduled := true }) i = some t := by
      rw [Function.update_of_ne hne.symm]; exact ht
    have hok := hG1.task i t ht1
    rw [hs] at hok
    obtain ⟨K, c, b, s, ⟨hctx, hwp, hst⟩, hb⟩ := hok
    refine .free' (hG1.status' ht1 (by unfold Task.res; rw [hs]; rfl)
      (hG.own.started ht (by simp [hs]) (by simp [hs])) (by simp) (by simp)
      ⟨K, c.addSched h, b, s, ⟨⟨hctx.held, hctx.own, hctx.hs, ?_, hctx.lock, hctx.handle⟩, hwp.2, hst⟩, hb⟩) hfs
    rintro h' ho hsd u hu
    rcases hsd with rfl | hsd
    · dsimp only at hu
      rw [Function.update_self] at hu
      cases hu
      rfl
    · exact hctx.sched h' ho hsd u hu
  | @isScheduled t h k owned stack ch ht hs hch =>
    have hok := hG.task i t ht
    rw [hs] at hok
    obtain ⟨K, c, b, s, ⟨hctx, hwp, hst⟩, hb⟩ := hok
    refine .free' (hG.status' ht (by unfold Task.res; rw [hs]; rfl) (hG.own.started ht (by simp [hs]) (by simp [hs]))
      (by simp) (by simp) ?_) (.status ht (hs ▸ .isScheduled hch))
    cases e : ch.scheduled with
    | false => exact ⟨K, c, b, s, ⟨hctx, hwp.2.2, hst⟩, hb⟩
    | true =>
      refine ⟨K, c.addSched h, b, s,
        ⟨⟨hctx.held, hctx.own, hctx.hs, ?_, hctx.lock, hctx.handle⟩, hwp.2.1, hst⟩, hb⟩
      rintro h' ho hsd u hu
      rcases hsd with rfl | hsd
      · rw [hch] at hu
        cases hu
        exact e
      · exact hctx.sched h' ho hsd u hu
  | @pollReady t h k owned stack ch v ht hs hch hdone hne =>
    obtain ⟨h1, h2⟩ := hG.pollReady ht hs hch hdone hne
    exact .pay h1 h2
  | @pollPending t h k owned stack ch ht hs hch h1 h2 h3 =>
    have hok := hG.task i t ht
    rw [hs] at hok
    obtain ⟨K, c, b, s, ⟨hctx, hwp, hst⟩, hb⟩ := hok
    exact .free' (hG.status' ht (by unfold Task.res; rw [hs]; rfl) (hG.own.started ht (by simp [hs]) (by simp [hs]))
      (by simp) (by simp) ⟨K, c, b, s, ⟨hctx, hwp.2.1, hst⟩, hb⟩) (.status ht (hs ▸ .pollPending hch h1))
  | @pollPanic t h k owned stack ch ht hs hch h1 h2 =>
    exfalso
    have hok := hG.task i t ht
    rw [hs] at hok
    obtain ⟨K, c, b, s, ⟨hctx, hwp, hst⟩, hb⟩ := hok
    obtain ⟨⟨ho, hh⟩, _⟩ := hwp
    rcases h1 with h1 | h1
    · exact hctx.hs h ho hh ch hch h1
    · have hm : Res.handle h ∈ t.res := by
        unfold Task.res; rw [hs]
        exact List.mem_append.2 (Or.inl ((hctx.own h).1 ho))
      obtain ⟨_, _, d, hd, _, hd2⟩ := hG.own.child i t h ht hm
      rw [hch] at hd
      cases hd
      rw [h1] at hd2
      simp at hd2
  | @dropHandle t h k owned stack ht hs =>
    have hok := hG.task i t ht
    rw [hs] at hok
    obtain ⟨K, c, b, s, ⟨hctx, hwp, hst⟩, hb⟩ := hok
    have hm : Res.handle h ∈ owned := (hctx.own h).1 hwp.1
    have hres : t.res = owned ++ stack.flatMap Frame.owned := by unfold Task.res; rw [hs]; rfl
    have hnd := hG.own.nodup i t ht
    rw [hres] at hnd
    have hnd' : owned.Nodup := (List.nodup_append.1 hnd).1
    have hlen : (owned.erase (.handle h) ++ stack.flatMap Frame.owned).length + 1 =
        (owned ++ stack.flatMap Frame.owned).length := by
      rw [List.length_append, List.length_append, List.length_erase_of_mem hm]
      have := List.length_pos_of_mem hm
      omega
    refine .pay (b := β i - 1) (hG.release ht (by rw [hres]; exact List.mem_append.2 (Or.inl hm)) ?_
      (hG.own.started ht (by simp [hs]) (by simp [hs])) (by simp) (by simp)
      ⟨K, c.dropH h, b, s, ⟨?_, hwp.2, hst⟩, by omega⟩) (by omega)
    · rw [hres, List.erase_append_left _ hm]; rfl
    · refine ⟨?_, ?_, ?_, ?_, ?_, ?_⟩
      · intro B
        show c.held B ↔ _
        rw [hctx.held B]
        unfold Locks
        simp only [hnd'.mem_erase_iff, ne_eq, reduceCtorEq, not_false_eq_true, true_and]
      · intro h'
        show h' ≠ h ∧ c.own h' ↔ _
        rw [hctx.own h', hnd'.mem_erase_iff]
        simp
      · rintro h' ⟨_, ho⟩ ⟨_, hh⟩ u hu
        exact hctx.hs h' ho hh u hu
      · rintro h' ⟨_, ho⟩ hsd u hu
        exact hctx.sched h' ho hsd u hu
      · rintro B ⟨tok, hB⟩
        exact hctx.lock B ⟨tok, (hnd'.mem_erase_iff.1 hB).2⟩
      · intro h' hm'
        exact hctx.handle h' (hnd'.mem_erase_iff.1 hm').2
  | @pending t k owned stack ht hs =>
    have hok := hG.task i t ht
    rw [hs] at hok
    obtain ⟨K, c, b, s, ⟨hctx, hwp, hst⟩, hb⟩ := hok
    exact .free' (hG.status' ht (by unfold Task.res; rw [hs]; rfl) (hG.own.started ht (by simp [hs]) (by simp [hs]))
      (by simp) (by simp) ⟨K, c, b, s, ⟨hctx, hwp.2, hst⟩, hb, Or.inr hwp.1⟩) (.status ht (hs ▸ .pending))
  | @wake t p owned stack ht hs hsc =>
    have hok := hG.task i t ht
    rw [hs] at hok
    obtain ⟨K, c, b, s, ha, hb, _⟩ := hok
    exact .free' (hG.status' ht (by unfold Task.res; rw [hs]; rfl) hsc (by simp) (by simp) ⟨K, c, b, s, ha, hb⟩)
      (.status ht (hs ▸ .wake))
  | @worker t ht hq hsc =>
    exact .free (hG.mark ht rfl rfl rfl (Or.inr rfl))
      (.one ht rfl rfl rfl rfl rfl rfl (fun _ => rfl) (Or.inr ⟨rfl, hsc, rfl⟩))
  | @panic t owned stack ht hs =>
    have hok := hG.task i t ht
    rw [hs] at hok
    obtain ⟨K, c, b, s, ⟨hctx, hwp, hst⟩, hb⟩ := hok
    exact absurd hwp id
  | @goto t pc owned stack ht hs =>
    have hok := hG.task i t ht
    rw [hs] at hok
    obtain ⟨K, c, b, s, ⟨hctx, hwp, hst⟩, hb⟩ := hok
    obtain ⟨hpot, hinv⟩ := hwp G.store (Rely.refl _ _) hG.sinv
    have hstep : ∀ b', pc.pot ≤ b' → b' ≤ b →
        GInv hash limit A0 (Function.update β i (β i - (b - b'))) (G.setStatus i t (.run (code hash pc) owned stack)) :=
      fun b' h1 h2 => hG.status' ht (by unfold Task.res; rw [hs]; rfl)
        (hG.own.started ht (by simp [hs]) (by simp [hs])) (by simp) (by simp)
        ⟨_, c, b', s, ⟨hctx, code_spec pc hG.sinv hinv h1, hst⟩, by omega⟩
    rcases hpot with hpot | ⟨hf, hpot⟩
    · exact .pay (hstep (b - 1) (by omega) (by omega)) (by omega)
    · have := hstep b hpot (Nat.le_refl _)
      rw [Nat.sub_self] at this
      exact .free' this (.status ht (hs ▸ .goto hf))
  | @call t pc k owned stack ht hs =>
    have hok := hG.task i t ht
    rw [hs] at hok
    obtain ⟨K, c, b, s, ⟨hctx, hwp, hst⟩, hb⟩ := hok
    obtain ⟨K', b', hpot, hinv, hrank, hbelow, hk⟩ := hwp G.store (Rely.refl _ _) hG.sinv
    refine .pay (b := β i - 1)
      (hG.status' ht (by unfold Task.res; rw [hs]; rfl) (hG.own.started ht (by simp [hs]) (by simp [hs]))
      (by simp) (by simp) ⟨K', c.callee, pc.pot, b' + s, ⟨?_, code_spec pc hG.sinv hinv (Nat.le_refl _), K, c, b', s,
        Nat.le_refl _, hctx, hrank, hbelow, hk, hst⟩, ?_⟩) (by omega)
    swap
    · have e : ([] ++ List.flatMap Frame.owned (⟨owned, k⟩ :: stack)).length =
          (owned ++ stack.flatMap Frame.owned).length := rfl
      omega
    refine ⟨?_, ?_, ?_, ?_, ?_, ?_⟩
    · intro B
      show c.held B ↔ _
      rw [hctx.held B, heldOf_cons]
      simp [Locks]
    · intro h; simp [Ctx.callee]
    · intro h ho; exact absurd ho id
    · intro h ho; exact absurd ho id
    · rintro B ⟨tok, h⟩; simp at h
    · intro h hm; simp at hm
  | @ret t v owned stack ht hs =>
    have hok := hG.task i t ht
    rw [hs] at hok
    obtain ⟨K, c, b, s, ⟨hctx, hwp, hst⟩, hb⟩ := hok
    obtain ⟨hp, hb2⟩ := hwp G.store (Rely.refl _ _) hG.sinv
    refine .pay (b := β i - 1) (hG.status' ht (by unfold Task.res; rw [hs]; rfl)
      (hG.own.started ht (by simp [hs]) (by simp [hs]))
      (by simp) (by simp) ⟨K, s, ?_, hctx.lock, hst, by omega⟩) (by omega)
    intro σ' hr hi
    cases K with
    | main l A => exact ⟨hp.1.mono hr.1, hp.2⟩
    | improve A m => exact ⟨hp.1.mono hr.1, hp.2⟩
    | huffman A hb =>
      refine (hwp σ' (hr.anti ?_) hi).1
      intro B hB
      rcases (hctx.held B).1 hB with h | h
      · obtain ⟨m, h⟩ := hctx.lock B h
        simp at h
      · exact h
  | @unwind t v r owned stack ht hs hr _ =>
    have hok := hG.task i t ht
    rw [hs] at hok
    obtain ⟨K, s, hp, hl, hst, hb⟩ := hok
    have hres : t.res = owned ++ stack.flatMap Frame.owned := by unfold Task.res; rw [hs]; rfl
    have hnd := hG.own.nodup i t ht
    rw [hres] at hnd
    have hnd' : owned.Nodup := (List.nodup_append.1 hnd).1
    have hlen : (owned.erase r ++ stack.flatMap Frame.owned).length + 1 =
        (owned ++ stack.flatMap Frame.owned).length := by
      rw [List.length_append, List.length_append, List.length_erase_of_mem hr]
      have := List.length_pos_of_mem hr
      omega
    refine .pay (b := β i - 1) (hG.release ht (by rw [hres]; exact List.mem_append.2 (Or.inl hr)) ?_
      (hG.own.started ht (by simp [hs]) (by simp [hs])) (by simp) (by simp) ⟨K, s, hp, ?_, hst, by omega⟩) (by omega)
    · rw [hres, List.erase_append_left _ hr]; rfl
    · rintro A ⟨tok, hA⟩
      exact hl A ⟨tok, (hnd'.mem_erase_iff.1 hA).2⟩
  | @«return» t v f stack ht hs =>
    have hok := hG.task i t ht
    rw [hs] at hok
    obtain ⟨K, s, hp, hl, ⟨K', c, b, s', hbs, hctx, _, _, hk, hst⟩, hb⟩ := hok
    obtain ⟨hpot, hinv⟩ := hk G.store v (Rely.refl _ _) hG.sinv (hp G.store (Rely.refl _ _) hG.sinv)
    have e : ([] ++ List.flatMap Frame.owned (f :: stack)).length =
        (f.owned ++ stack.flatMap Frame.owned).length := rfl
    exact .pay (b := β i - 1)
      (hG.status' ht (by unfold Task.res; rw [hs]; rfl) (hG.own.started ht (by simp [hs]) (by simp [hs]))
      (by simp) (by simp) ⟨_, c, b, s', ⟨hctx, code_spec _ hG.sinv hinv hpot, hst⟩, by omega⟩) (by omega)
  | @finish t v ht hs =>
    have hok := hG.task i t ht
    rw [hs] at hok
    obtain ⟨K, s, hp, hl, hst, hb⟩ := hok
    refine .pay (b := β i - 1)
      (hG.status' ht (by unfold Task.res; rw [hs]; rfl) (hG.own.started ht (by simp [hs]) (by simp [hs]))
      (by simp) (by simp) ⟨?_, by omega⟩) (by omega)
    intro σ' hr hi
    have : K = t.root.rootKind := hst
    rw [← this]
    exact hp σ' (hr.anti fun A hA => absurd hA heldOf_nil) hi
  | @dropSleep t p owned stack ht hs hcan =>
    have hok := hG.task i t ht
    rw [hs] at hok
    obtain ⟨_, _, b, s, _, hb, _⟩ := hok
    refine .pay (b := β i - 1)
      (hG.one (t' := { t with status := .dropping (owned ++ stack.flatMap Frame.owned) }) (σ := G.store) ht
      ⟨?_, rfl, rfl, fun h => h, ?_, fun _ _ => hcan⟩ (by simp) hG.sinv (Evolves.refl _)
      (fun B h => absurd rfl h) (show List.length _ ≤ _ by omega)) (by omega)
    · unfold Task.res; rw [hs]; rfl
    · intro e
      rcases hG.own.unsched i t ht e with ⟨p', h⟩ | h
      · rw [hs] at h
        injection h with _ h1 h2
        subst h1 h2
        exact Or.inr rfl
      · rw [hs] at h; simp at h
  | @dropWait t A tok p owned stack ht hs hcan =>
    have hok := hG.task i t ht
    rw [hs] at hok
    obtain ⟨_, _, b, s, _, hb, _⟩ := hok
    refine .pay (b := β i - 1)
      (hG.one (t' := { t with status := .dropping (owned ++ stack.flatMap Frame.owned) }) (σ := G.store) ht
      ⟨?_, rfl, rfl, fun h => h, ?_, fun _ _ => hcan⟩ (by simp) hG.sinv (Evolves.refl _)
      (fun B h => absurd rfl h) (show List.length _ ≤ _ by omega)) (by omega)
    · unfold Task.res; rw [hs]; rfl
    · intro e
      rw [hG.own.started ht (by simp [hs]) (by simp [hs])] at e
      simp at e
  | @unwindPanic t v r owned stack ht hs hr hrec =>
    refine absurd (hG.own.receiver ht ?_) hrec
    unfold Task.res; rw [hs]
    exact List.mem_append.2 (Or.inl hr)
  | @dropPanic t r owned ht hs hr hrec =>
    refine absurd (hG.own.receiver ht ?_) hrec
    unfold Task.res; rw [hs]
    exact hr
  | @drop t r owned ht hs hr _ =>
    have hok := hG.task i t ht
    rw [hs] at hok
    have hb : owned.length ≤ β i := hok
    have hlen := List.length_erase_of_mem hr
    have hpos := List.length_pos_of_mem hr
    refine .pay (b := β i - 1)
      (hG.release ht (by unfold Task.res; rw [hs]; exact hr) (by unfold Task.res; rw [hs]; rfl)
      (hG.own.started ht (by simp [hs]) ?_) (fun l _ => hG.own.dropped i t _ ht hs) (by simp)
      (show List.length _ ≤ _ by omega)) (by omega)
    rw [hs]
    intro e
    injection e with e
    subst e
    simp at hr

/-- The budget of a whole search. -/
noncomputable def budget (limit : Option ℕ) (A : OSet) : ℕ →₀ ℕ :=
  Finsupp.single 0 (PC.pot (.start limit A) + 1)

theorem GInv.start (limit : Option ℕ) {A : OSet} (hA : OK A) :
    GInv hash limit A (budget limit A) (init hash limit A) := by
  have self : ∀ i t, (init hash limit A).tasks i = some t → i = 0 ∧
      t = { status := .sleep (code hash (.start limit A)) [] []
            root := .start limit A
            scheduled := true, queued := false, cancelled := false } := by
    intro i t ht
    unfold Search.init at ht
    dsimp only at ht
    split at ht
    · next h => cases ht; exact ⟨h, rfl⟩
    · simp at ht
  refine ⟨SInv_empty hash, ?_, ?_, ?_⟩
  · constructor
    · intro i t ht
      obtain ⟨_, rfl⟩ := self i t ht
      exact List.nodup_nil
    · intro i j t t' r ht ht'
      rw [(self i t ht).1, (self j t' ht').1]
      intros; rfl
    · intro i t B tok ht hm
      obtain ⟨_, rfl⟩ := self i t ht
      simp [Task.res, Status.res] at hm
    · intro B tok h
      simp [Search.init] at h
    · intro B tok h
      simp [Search.init] at h
    · intro i t h ht hm
      obtain ⟨_, rfl⟩ := self i t ht
      simp [Task.res, Status.res] at hm
    · intro i t ht e
      obtain ⟨_, rfl⟩ := self i t ht
      simp at e
    · intro i t l ht e
      obtain ⟨_, rfl⟩ := self i t ht
      simp at e
  · intro i t ht
    obtain ⟨rfl, rfl⟩ := self i t ht
    refine ⟨.main limit A, ⟨fun _ => False, fun _ => False, fun _ => False, fun _ => False⟩,
      PC.pot (.start limit A), 0, ⟨?_, ?_, rfl⟩, by simp [budget], Or.inl ⟨rfl, rfl⟩⟩
    · refine ⟨?_, by simp, by simp, by simp, ?_, by simp⟩
      · intro B
        simp [Locks, heldOf]
      · rintro B ⟨tok, h⟩
        simp at h
    · exact code_spec (.start limit A) (SInv_empty hash) ⟨rfl, hA, fun B hB => absurd hB id⟩ (Nat.le_refl _)
  · exact ⟨{ status := .sleep (code hash (.start limit A)) [] []
             root := .start limit A
             scheduled := true, queued := false, cancelled := false }, by simp [Search.init], rfl, rfl, rfl, by simp⟩

theorem GInv.reach {limit : Option ℕ} {A : OSet} (hA : OK A) {G : Global} (h : Reach hash limit A G) :
    ∃ β : ℕ →₀ ℕ, GInv hash limit A β G ∧ β.degree ≤ (budget limit A).degree := by
  induction h with
  | init => exact ⟨_, GInv.start limit hA, Nat.le_refl _⟩
  | step _ hs ih =>
    obtain ⟨β, hG, hle⟩ := ih
    obtain ⟨_, hs⟩ := hs
    obtain ⟨β', hG', h⟩ := hG.act hs
    refine ⟨β', hG', ?_⟩
    rcases h with h | ⟨h, _⟩ <;> omega

end Search

end Sortnet
