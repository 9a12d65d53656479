import Verif.Proof.TreeMut

/-!
# Traversal with modification: the main loop
-/

namespace Sortnet.Index

variable {β σ : Type}

/-- Writing an entry of the marked leaf. -/
theorem Repr.setEntry {t : Tree β} {ctx : List (Frame β)} {i : ℕ} {a : Aug} {rng : Ranges} {start : ℕ}
    {pre rest : List (Entry β)} {e : Entry β} (h : Repr t ctx (.leaf i a rng start (pre ++ e :: rest)))
    (e' : Entry β) :
    Repr { t with entries := t.entries.set (start + pre.length) e' } ctx (.leaf i a rng start (pre ++ e' :: rest)) := by
  have hl : ∀ x : Entry β, ((T.leaf i a rng start (pre ++ x :: rest)).cells ++ ctxCells ctx).Perm
      ((start + pre.length, x) :: (cellsFrom start pre ++ (cellsFrom (start + pre.length + 1) rest ++ ctxCells ctx))) := by
    intro x
    show (cellsFrom start (pre ++ x :: rest) ++ ctxCells ctx).Perm _
    rw [cellsFrom_append, cellsFrom, List.append_assoc, List.cons_append]
    exact List.perm_middle
  refine ⟨?_, ?_, h.root⟩
  · have := h.facts
    simp only [T.facts, T.node, T.links, T.sub, List.length_append, List.length_cons] at this ⊢
    exact this.congr rfl rfl
  · exact (HoldsE.set (t' := { t with entries := t.entries.set (start + pre.length) e' })
      (h.cells.perm (hl e)) e' rfl).perm (hl e').symm

theorem Repr.getEntry {t : Tree β} {ctx : List (Frame β)} {i : ℕ} {a : Aug} {rng : Ranges} {start : ℕ}
    {pre rest : List (Entry β)} {e : Entry β} (h : Repr t ctx (.leaf i a rng start (pre ++ e :: rest))) :
    t.entries[start + pre.length]? = some e := by
  have := h.cells.get (start + pre.length, e) (by
    apply List.mem_append_left
    show _ ∈ cellsFrom start _
    rw [cellsFrom_append]
    simp [cellsFrom])
  exact this

/-- Shortening the range of the marked leaf. -/
theorem leaf_setLinks {t : Tree β} {ctx : List (Frame β)} {i : ℕ} {a : Aug} {rng : Ranges} {start : ℕ}
    {es : List (Entry β)} (h : Repr t ctx (.leaf i a rng start es)) (es' : List (Entry β)) (stop : ℕ)
    (hs : stop = start + es'.length) :
    ∃ t', setLinks t i (.leaf start stop) = some t' ∧ t'.entries = t.entries ∧ t'.dim = t.dim ∧
      Holds t' ((T.leaf i a rng start es').facts (ctxParent ctx) (ctxRight ctx) ++ ctxFacts ctx i) := by
  subst hs
  obtain ⟨t', h1, h2, h3, h4⟩ := setLinks_holds (f := ⟨i, (T.leaf i a rng start es).node _ _, rng⟩) h.facts
    (.leaf start (start + es'.length))
  exact ⟨t', h1, h3, h4, h2⟩

/-- Removing the last entry of the marked leaf. -/
theorem removeLast {t : Tree β} {ctx : List (Frame β)} {i : ℕ} {a : Aug} {rng : Ranges} {start : ℕ}
    {pre : List (Entry β)} {e : Entry β} (h : Repr t ctx (.leaf i a rng start (pre ++ [e]))) :
    ∃ t', setLinks t i (.leaf start (start + pre.length)) = some t' ∧ t'.dim = t.dim ∧
      swapValues t' (start + pre.length) (start + pre.length) = some t' ∧ Repr t' ctx (.leaf i a rng start pre) := by
  obtain ⟨t', h1, h2, h3, h4⟩ := leaf_setLinks h pre _ rfl
  refine ⟨t', h1, h3, by rw [swapValues, if_pos rfl], h4, ?_, h.root⟩
  refine (h.cells.sublist ?_).congr h2
  apply List.Sublist.append_right
  show (cellsFrom start pre).Sublist (cellsFrom start (pre ++ [e]))
  rw [cellsFrom_append]
  exact List.sublist_append_left _ _

/-- Removing another entry of the marked leaf: the last one takes its place. -/
theorem removeMid {t : Tree β} {ctx : List (Frame β)} {i : ℕ} {a : Aug} {rng : Ranges} {start : ℕ}
    {pre init : List (Entry β)} {e z : Entry β} (h : Repr t ctx (.leaf i a rng start (pre ++ e :: (init ++ [z])))) :
    ∃ t' t'', setLinks t i (.leaf start (start + pre.length + init.length + 1)) = some t' ∧ t''.dim = t.dim ∧
      swapValues t' (start + pre.length) (start + pre.length + init.length + 1) = some t'' ∧
      Repr t'' ctx (.leaf i a rng start (pre ++ z :: init)) := by
  obtain ⟨t', h1, h2, h3, h4⟩ := leaf_setLinks h (pre ++ z :: init) (start + pre.length + init.length + 1)
    (by simp; omega)
  have hcells : ∀ x y : Entry β, ((T.leaf i a rng start (pre ++ x :: (init ++ [y]))).cells ++ ctxCells ctx).Perm
      ((start + pre.length, x) :: (start + pre.length + init.length + 1, y) ::
        (cellsFrom start pre ++ (cellsFrom (start + pre.length + 1) init ++ ctxCells ctx))) := by
    intro x y
    show (cellsFrom start (pre ++ x :: (init ++ [y])) ++ ctxCells ctx).Perm _
    rw [cellsFrom_append, cellsFrom, cellsFrom_append, List.append_assoc, List.cons_append]
    refine List.perm_middle.trans (List.Perm.cons _ ?_)
    simp only [cellsFrom, List.append_assoc, List.cons_append, List.nil_append]
    rw [show start + pre.length + 1 + init.length = start + pre.length + init.length + 1 by omega]
    refine ((List.perm_middle).append_left _).trans ?_
    exact List.perm_middle
  have hE := h.cells.perm (hcells e z)
  have g1 := hE.get (start + pre.length, e) (by simp)
  have g2 := hE.get (start + pre.length + init.length + 1, z) (by simp)
  dsimp only at g1 g2
  refine ⟨t', { t' with entries := ((t'.entries.set (start + pre.length) z).set (start + pre.length + init.length + 1) e) },
    h1, h3, ?_, ?_, ?_, h.root⟩
  · rw [swapValues, if_neg (by omega), h2, g1, g2]
    rfl
  · exact h4.congr rfl rfl
  · have s1 := (hE.congr (t' := t') h2).set z (t' := { t' with entries := t'.entries.set (start + pre.length) z }) rfl
    have s2 := (s1.perm (List.Perm.swap _ _ _)).set e (t' :=
      { t' with entries := ((t'.entries.set (start + pre.length) z).set (start + pre.length + init.length + 1) e) }) rfl
    have s3 := (s2.perm (List.Perm.swap _ _ _)).perm (hcells z e).symm
    refine s3.sublist ?_
    apply List.Sublist.append_right
    show (cellsFrom start (pre ++ z :: init)).Sublist (cellsFrom start (pre ++ z :: (init ++ [e])))
    rw [← List.cons_append, ← List.append_assoc, cellsFrom_append start (pre ++ z :: init)]
    exact List.sublist_append_left _ _

theorem ofValues_isSome {l : List ℕ} (h : l ≠ []) : ∃ a, Aug.ofValues l = some a := by
  cases l with
  | nil => exact absurd rfl h
  | cons v vs => exact ⟨_, rfl⟩

/-- Updating the augmentation of the marked leaf after a modification of its entries. -/
theorem leaf_updateAug {t : Tree β} {ctx : List (Frame β)} {i : ℕ} {a : Aug} {rng : Ranges} {start : ℕ}
    {es es0 : List (Entry β)} (hr : Repr t ctx (.leaf i a rng start es)) (hg : ZGood ctx (.leaf i a rng start es0))
    (hne : es ≠ []) (hsub : ∀ e ∈ es, e.point ∈ es0.map Entry.point) :
    ∃ t' ctx' a', updateAug t i = some t' ∧ Repr t' ctx' (.leaf i a' rng start es) ∧ Same ctx ctx' ∧
      ZGood ctx' (.leaf i a' rng start es) ∧ t'.dim = t.dim := by
  obtain ⟨a', ha'⟩ := ofValues_isSome (l := es.map Entry.value) (by simpa using hne)
  obtain ⟨t', ctx', h1, h2, h3, h4, _, h6⟩ := updateAug_spec (a := a') hr ha' hg.aug
  refine ⟨t', ctx', a', h1, h2, h3, ⟨⟨ha', ?_⟩, h4, ?_⟩, h6⟩
  · intro e he
    obtain ⟨e0, he0, hp⟩ := List.mem_map.1 (hsub e he)
    rw [← hp]
    exact hg.good.2 e0 he0
  · refine (hg.ctx.same h3).mono ?_
    intro p hp
    obtain ⟨e, he, rfl⟩ := List.mem_map.1 hp
    exact hsub e he

section

variable {ltr : Bool} {filter : σ → Aug → Ranges → Option Bool}
  {action : σ → Entry β → Option (σ × ℕ × Verdict)} {act : σ → Entry β → Option (σ × Option (Entry β))}
  {P : Entry β → Prop}

/-- What is proved about the state `Node`. -/
def NodeSpec (ltr : Bool) (filter : σ → Aug → Ranges → Option Bool)
    (action : σ → Entry β → Option (σ × ℕ × Verdict)) (act : σ → Entry β → Option (σ × Option (Entry β)))
    (P : Entry β → Prop) (m : ℕ) : Prop :=
  ∀ (t : Tree β) (ctx : List (Frame β)) (foc : T β), Repr t ctx foc → ZGood ctx foc →
    (∀ e ∈ foc.entries ++ pendingE ltr ctx, P e) → msize foc + pendingSize ltr ctx ≤ m → ∀ s,
    ∃ L : List (Entry β), L.Perm (foc.entries ++ pendingE ltr ctx) ∧
      Result act t.dim (traverseMutLoop ltr filter action t s (.node foc.id)) s L (doneE ltr ctx)

/-- What is proved about the state `Point`. -/
def PointSpec (ltr : Bool) (filter : σ → Aug → Ranges → Option Bool)
    (action : σ → Entry β → Option (σ × ℕ × Verdict)) (act : σ → Entry β → Option (σ × Option (Entry β)))
    (P : Entry β → Prop) (m : ℕ) : Prop :=
  ∀ (t : Tree β) (ctx : List (Frame β)) (i : ℕ) (a : Aug) (rng : Ranges) (start : ℕ) (pre rest : List (Entry β)),
    Repr t ctx (.leaf i a rng start (pre ++ rest)) → ZGood ctx (.leaf i a rng start (pre ++ rest)) → rest ≠ [] →
    (∀ e ∈ rest ++ pendingE ltr ctx, P e) → rest.length + pendingSize ltr ctx ≤ m → ∀ s,
    ∃ L : List (Entry β), L.Perm (rest ++ pendingE ltr ctx) ∧
      Result act t.dim (traverseMutLoop ltr filter action t s (.point i (start + pre.length))) s L
        (pre ++ doneE ltr ctx)

/-- Continuing after the marked subtree. -/
theorem after_skip {m : ℕ} (ih : NodeSpec ltr filter action act P m) {t : Tree β} {ctx : List (Frame β)} {foc : T β}
    (hr : Repr t ctx foc) (hg : ZGood ctx foc) (hP : ∀ e ∈ pendingE ltr ctx, P e) (hm : pendingSize ltr ctx ≤ m)
    (s : σ) : ∃ st, skip t ltr foc.id = some st ∧ ∃ L : List (Entry β), L.Perm (pendingE ltr ctx) ∧
      Result act t.dim (traverseMutLoop ltr filter action t s st) s L (foc.entries ++ doneE ltr ctx) := by
  obtain ⟨h1, h2⟩ := skip_spec ltr hr
  cases hn : nextUp ltr ctx foc with
  | none =>
    obtain ⟨hp, hc⟩ := nextUp_none hr hg hn
    refine ⟨_, h1 hn, [], by simp [pendingE, hp], ?_⟩
    unfold Result
    rw [procM, traverseMutLoop]
    exact ⟨t, rfl, rfl, hc⟩
  | some p =>
    obtain ⟨ctx', foc'⟩ := p
    obtain ⟨hr', hs⟩ := h2 ctx' foc' hn
    obtain ⟨hg', hp, hd⟩ := nextUp_some hg hn
    have he : pendingE ltr ctx = foc'.entries ++ pendingE ltr ctx' := by simp [pendingE, hp]
    have hz : pendingSize ltr ctx = msize foc' + pendingSize ltr ctx' := by simp [pendingSize, hp]
    obtain ⟨L, hL, hres⟩ := ih t ctx' foc' hr' hg' (by rw [← he]; exact hP) (by omega) s
    exact ⟨_, hs, L, by rw [he]; exact hL, hres.perm hd⟩

theorem Same.pendingE {ctx ctx' : List (Frame β)} (h : Same ctx ctx') (ltr : Bool) :
    Index.pendingE ltr ctx' = Index.pendingE ltr ctx := by
  unfold Index.pendingE; rw [h.pending]

theorem Same.pendingSize {ctx ctx' : List (Frame β)} (h : Same ctx ctx') (ltr : Bool) :
    Index.pendingSize ltr ctx' = Index.pendingSize ltr ctx := by
  unfold Index.pendingSize; rw [h.pending]

theorem bind_ite {α γ : Type} (c : Prop) [Decidable c] (x : Option α) (y : α) (k : α → Option γ) :
    (if c then x.bind k else k y) = (if c then x else some y).bind k := by
  split <;> rfl

/-- Removing a leaf with a single entry. -/
theorem unlink_case {m : ℕ} (ih : NodeSpec ltr filter action act P m) {t : Tree β} {ctx : List (Frame β)}
    {i : ℕ} {a : Aug} {rng : Ranges} {start : ℕ} {e : Entry β} (hr : Repr t ctx (.leaf i a rng start [e]))
    {e0 : Entry β} {t0 : Tree β}
    (hg : ZGood ctx (.leaf i a rng start [e0])) (hP : ∀ e ∈ pendingE ltr ctx, P e) (hm : pendingSize ltr ctx ≤ m)
    {lk0 : Links} (ht0 : setLinks t i lk0 = some t0) (s : σ) :
    ∃ t' st, unlink t0 ltr i = some (t', st) ∧ ∃ L : List (Entry β), L.Perm (pendingE ltr ctx) ∧
      Result act t.dim (traverseMutLoop ltr filter action t' s st) s L (doneE ltr ctx) := by
  cases ctx with
  | nil =>
    have h0 : i = 0 := hr.root
    obtain ⟨t', h1, h2, h3, h4⟩ := setLinks_holds (f := ⟨i, (T.leaf i a rng start [e]).node _ _, rng⟩) hr.facts lk0
    dsimp only at h1
    rw [ht0] at h1
    obtain rfl := Option.some.inj h1
    refine ⟨{ t0 with nodes := [] }, .done, by rw [unlink, if_pos h0], [], List.Perm.refl _, ?_⟩
    unfold Result
    rw [procM, traverseMutLoop]
    exact ⟨_, rfl, h4, Or.inl ⟨rfl, rfl⟩⟩
  | cons f rest =>
    have h0 : i ≠ 0 := fun h0 => by simpa using hr.id_eq_zero.1 h0
    obtain ⟨t1, t2, t3, t4, h1, h2, h3, h4, hr4, hd4⟩ := unlink_restructure hr lk0 t0 ht0
    obtain ⟨hgood, hctx⟩ := hg.unlink f.id
    obtain ⟨t5, rest', h5, hr5, hs5, hg5, hd5⟩ := updateAbove hr4 hgood hctx hg.aug.2
    rw [withId_id] at h5
    -- the nodes read by `unlink`
    obtain ⟨tt, hs1, hs2, _, _⟩ := setLinks_holds (f := ⟨i, (T.leaf i a rng start [e]).node _ _, rng⟩) hr.facts lk0
    dsimp only at hs1
    rw [ht0] at hs1
    obtain rfl := Option.some.inj hs1
    have n0 : t0.nodes[i]? = some ⟨a, f.id, f.right, lk0⟩ :=
      (hs2.get ⟨i, ⟨a, f.id, f.right, lk0⟩, rng⟩ List.mem_cons_self).1
    have n1 : t0.nodes[f.id]? = some ⟨f.aug, ctxParent rest, ctxRight rest, f.links i⟩ :=
      (hs2.get ⟨f.id, ⟨f.aug, ctxParent rest, ctxRight rest, f.links i⟩, f.rng⟩ (by
        simp [T.sub, ctxFacts, T.facts, T.id_leaf])).1
    have n2 : t0.nodes[f.sib.id]? = some (f.sib.node f.id (!f.right)) :=
      (hs2.get ⟨f.sib.id, f.sib.node f.id (!f.right), f.sib.rng⟩ (by simp [T.sub, ctxFacts, T.facts])).1
    have hne : f.sib.id ≠ i := by
      have hnd := (List.nodup_cons.1 (by simpa only [List.map_cons] using hs2.nodup)).1
      intro h
      apply hnd
      exact List.mem_map.2 ⟨⟨f.sib.id, f.sib.node f.id (!f.right), f.sib.rng⟩, by
        simp [T.sub, ctxFacts, T.facts], h⟩
    have hlinks : f.links i = if f.right then .inner f.sib.id i else .inner i f.sib.id := rfl
    have hcode : unlink t0 ltr i = (if f.right ≠ ltr then some (t5, .node f.id)
        else (skip t5 ltr f.id).bind fun st => some (t5, st)) := by
      rw [unlink, if_neg h0]
      simp only [n0, n1, Option.bind_eq_bind, Option.bind_some, hlinks]
      cases hfr : f.right with
      | true =>
        simp only [Bool.not_true, Bool.false_eq_true, if_false, if_true, hne, n2, Option.bind_some, T.node, h1, h2, h3,
          h4]
        refine (bind_ite _ _ _ (fun t => if _ ≠ ltr then some (t, TState.node f.id)
          else (skip t ltr f.id).bind fun st => some (t, st))).trans ?_
        rw [h5]
        rfl
      | false =>
        simp only [Bool.not_false, Bool.false_eq_true, if_false, if_true, hne, n2, Option.bind_some, T.node, h1, h2, h3,
          h4]
        refine (bind_ite _ _ _ (fun t => if _ ≠ ltr then some (t, TState.node f.id)
          else (skip t ltr f.id).bind fun st => some (t, st))).trans ?_
        rw [h5]
        rfl
    rw [hcode]
    have hdim : t5.dim = t.dim := by rw [hd5, hd4]
    by_cases hfr : f.right = ltr
    · rw [if_neg (fun h => h hfr)]
      have hp : pendingE ltr (f :: rest) = pendingE ltr rest := by
        unfold pendingE; rw [pending, if_pos hfr]
      have hz : pendingSize ltr (f :: rest) = pendingSize ltr rest := by
        unfold pendingSize; rw [pending, if_pos hfr]
      obtain ⟨st, hst, L, hL, hres⟩ := after_skip ih hr5 hg5 (by rw [hs5.pendingE, ← hp]; exact hP)
        (by rw [hs5.pendingSize, ← hz]; exact hm) s
      rw [withId_id] at hst
      refine ⟨t5, st, by rw [hst]; rfl, L, by rw [hp, ← hs5.pendingE ltr]; exact hL, ?_⟩
      rw [hdim, withId_entries, hs5.doneE] at hres
      rw [doneE, if_pos hfr]
      exact hres
    · rw [if_pos hfr]
      have hp : pendingE ltr (f :: rest) = f.sib.entries ++ pendingE ltr rest := by
        unfold pendingE; rw [pending, if_neg hfr, List.flatMap_cons]
      have hz : pendingSize ltr (f :: rest) = msize f.sib + pendingSize ltr rest := by
        unfold pendingSize; rw [pending, if_neg hfr, List.map_cons, List.sum_cons]
      obtain ⟨L, hL, hres⟩ := ih t5 rest' _ hr5 hg5 (by rw [withId_entries, hs5.pendingE, ← hp]; exact hP)
        (by rw [withId_msize, hs5.pendingSize, ← hz]; exact hm) s
      rw [withId_id, hdim, hs5.doneE] at hres
      rw [withId_entries, hs5.pendingE, ← hp] at hL
      refine ⟨t5, .node f.id, rfl, L, hL, ?_⟩
      rw [doneE, if_neg hfr]
      exact hres

theorem list_cases_last {α : Type} (l : List α) : l = [] ∨ ∃ init z, l = init ++ [z] := by
  rcases List.eq_nil_or_concat l with h | ⟨init, z, h⟩
  · exact Or.inl h
  · exact Or.inr ⟨init, z, by rw [h, List.concat_eq_append]⟩

theorem point_step {m : ℕ} (hact : ActionOK action act) (ihN : NodeSpec ltr filter action act P m)
    (ihP : PointSpec ltr filter action act P m) : PointSpec ltr filter action act P (m + 1) := by
  intro t ctx i a rng start pre rest hr hg hne hP hm s
  cases rest with
  | nil => exact absurd rfl hne
  | cons e rest =>
  have hentry := hr.getEntry
  have hPp : ∀ e ∈ pendingE ltr ctx, P e := fun e he => hP e (List.mem_append_right _ he)
  have hm' : rest.length + pendingSize ltr ctx ≤ m := by simp only [List.length_cons] at hm; omega
  have ha := hact s e
  rw [traverseMutLoop, hentry]
  simp only [Option.bind_eq_bind, Option.bind_some]
  cases hs : act s e with
  | none =>
    rw [hs] at ha
    refine ⟨_, List.Perm.refl _, ?_⟩
    unfold Result
    rw [List.cons_append, procM, hs, ha]
    rfl
  | some p =>
    obtain ⟨s', r⟩ := p
    rw [hs] at ha
    cases r with
    | some e' =>
      obtain ⟨he', ha⟩ := ha
      rw [ha]
      simp only [Option.bind_some]
      rw [show ({ e with value := e'.value } : Entry β) = e' from he'.symm]
      -- the state after writing the value and updating the augmentations
      obtain ⟨t2, ctx2, a2, h2, hr2, hs2, hg2, hd2⟩ : ∃ t2 ctx2 a2,
          (if e'.value ≠ e.value then updateAug { t with entries := t.entries.set (start + pre.length) e' } i
            else some { t with entries := t.entries.set (start + pre.length) e' }) = some t2 ∧
          Repr t2 ctx2 (.leaf i a2 rng start (pre ++ e' :: rest)) ∧ Same ctx ctx2 ∧
          ZGood ctx2 (.leaf i a2 rng start (pre ++ e' :: rest)) ∧ t2.dim = t.dim := by
        have hr1 := hr.setEntry e'
        by_cases hv : e'.value = e.value
        · rw [if_neg (fun h => h hv)]
          have hee : e' = e := by rw [he', hv]
          refine ⟨_, ctx, a, rfl, hr1, Same.refl _, ?_, rfl⟩
          rw [hee]; exact hg
        · rw [if_pos hv]
          obtain ⟨t2, ctx2, a2, h1, h2, h3, h4, h5⟩ := leaf_updateAug hr1 hg (by simp) (by
            intro x hx
            simp only [List.mem_append, List.mem_cons] at hx
            rcases hx with hx | rfl | hx
            · exact List.mem_map_of_mem (List.mem_append_left _ hx)
            · exact List.mem_map.2 ⟨e, by simp, by rw [he']⟩
            · exact List.mem_map_of_mem (by simp [hx]))
          exact ⟨t2, ctx2, a2, h1, h2, h3, h4, h5⟩
      rw [bind_ite, h2]
      simp only [Option.bind_some]
      have hnode := hr2.node
      rw [T.id_leaf] at hnode
      rw [next, hnode]
      simp only [Option.bind_eq_bind, Option.bind_some, T.node, T.links]
      by_cases hrest : rest = []
      · subst hrest
        rw [if_pos (by simp [Nat.add_assoc])]
        obtain ⟨st, hst, L, hL, hres⟩ := after_skip ihN hr2 hg2 (by rw [hs2.pendingE]; exact hPp)
          (by rw [hs2.pendingSize]; omega) s'
        rw [T.id_leaf] at hst
        rw [hst]
        refine ⟨e :: L, ?_, ?_⟩
        · rw [hs2.pendingE] at hL
          exact hL.cons e
        · apply Result.cons hs
          rw [hs2.doneE, hd2] at hres
          refine hres.perm ?_
          show (pre ++ [e'] ++ doneE ltr ctx).Perm _
          simp only [Option.toList_some, List.append_assoc, List.singleton_append]
          exact List.perm_middle
      · have hlen : 0 < rest.length := List.length_pos_iff.2 hrest
        rw [if_neg (by simp only [List.length_append, List.length_cons]; omega)]
        simp only [Option.bind_some]
        have hsplit : pre ++ e' :: rest = (pre ++ [e']) ++ rest := by simp
        rw [hsplit] at hr2 hg2
        obtain ⟨L, hL, hres⟩ := ihP t2 ctx2 i a2 rng start (pre ++ [e']) rest hr2 hg2 hrest (by
          rw [hs2.pendingE]
          intro x hx
          exact hP x (by simp only [List.cons_append, List.mem_cons]; exact Or.inr hx)) (by
          rw [hs2.pendingSize]; exact hm') s'
        rw [List.length_append, List.length_singleton, ← Nat.add_assoc] at hres
        rw [hs2.pendingE] at hL
        refine ⟨e :: L, hL.cons e, ?_⟩
        apply Result.cons hs
        rw [hs2.doneE, hd2] at hres
        refine hres.perm ?_
        simp only [Option.toList_some, List.append_assoc, List.singleton_append]
        exact List.perm_middle
    | none =>
      obtain ⟨v, ha⟩ := ha
      rw [ha]
      simp only [Option.bind_some]
      have hr1 := hr.setEntry { e with value := v }
      set e1 : Entry β := { e with value := v } with he1
      set t1 : Tree β := { t with entries := t.entries.set (start + pre.length) e1 } with ht1
      have hnode := hr1.node
      rw [T.id_leaf] at hnode
      rw [remove, hnode]
      simp only [Option.bind_eq_bind, Option.bind_some, T.node, T.links]
      rw [if_neg (by simp)]
      have hlast : start + (pre ++ e1 :: rest).length - 1 = start + pre.length + rest.length := by
        simp only [List.length_append, List.length_cons]; omega
      rw [hlast]
      rcases list_cases_last rest with rfl | ⟨init, z, rfl⟩
      · by_cases hpre : pre = []
        · -- the leaf becomes empty
          subst hpre
          obtain ⟨t', h1, _, _, _⟩ := leaf_setLinks hr1 [] (start + ([] : List (Entry β)).length +
            ([] : List (Entry β)).length) rfl
          rw [h1]
          simp only [Option.bind_some]
          rw [if_pos (by simp)]
          obtain ⟨t2, st, h2, L, hL, hres⟩ := unlink_case ihN hr1 hg hPp (by omega) h1 s'
          rw [h2]
          exact ⟨e :: L, hL.cons e, Result.cons hs (by simpa using hres)⟩
        · obtain ⟨t2, h1, hd2, hsw, hr2⟩ := removeLast hr1
          have hplen : 0 < pre.length := List.length_pos_iff.2 hpre
          simp only [List.length_nil, Nat.add_zero, h1, Option.bind_some, hsw]
          rw [if_neg (by omega)]
          obtain ⟨t3, ctx3, a3, h3, hr3, hs3, hg3, hd3⟩ := leaf_updateAug hr2 hg hpre (by
            intro x hx
            exact List.mem_map_of_mem (List.mem_append_left _ hx))
          simp only [h3, Option.bind_some, if_true]
          obtain ⟨st, hst, L, hL, hres⟩ := after_skip ihN hr3 hg3 (by rw [hs3.pendingE]; exact hPp)
            (by rw [hs3.pendingSize]; omega) s'
          rw [T.id_leaf] at hst
          simp only [hst, Option.bind_some]
          rw [hs3.pendingE] at hL
          refine ⟨e :: L, hL.cons e, Result.cons hs ?_⟩
          rw [hs3.doneE, hd3, hd2] at hres
          exact hres
      · obtain ⟨t2, t3, h1, hd2, hsw, hr2⟩ := removeMid hr1
        rw [List.length_append, List.length_singleton, ← Nat.add_assoc]
        simp only [h1, Option.bind_some, hsw]
        rw [if_neg (by omega)]
        obtain ⟨t4, ctx4, a4, h4, hr4, hs4, hg4, hd4⟩ := leaf_updateAug hr2 hg (by simp) (by
          intro x hx
          apply List.mem_map_of_mem
          simp only [List.mem_append, List.mem_cons] at hx ⊢
          rcases hx with hx | rfl | hx
          · exact Or.inl hx
          · simp
          · simp [hx])
        simp only [h4, Option.bind_some]
        rw [if_neg (by omega)]
        simp only [Option.bind_some]
        have hperm : (z :: init).Perm (init ++ [z]) := (List.perm_append_singleton z init).symm
        obtain ⟨L, hL, hres⟩ := ihP t4 ctx4 i a4 rng start pre (z :: init) hr4 hg4 (by simp) (by
          rw [hs4.pendingE]
          intro x hx
          apply hP x
          simp only [List.cons_append, List.mem_cons, List.mem_append] at hx ⊢
          tauto) (by
          rw [hs4.pendingSize]
          simp only [List.length_cons, List.length_append, List.length_nil] at hm' ⊢
          omega) s'
        rw [hs4.pendingE] at hL
        refine ⟨e :: L, (hL.trans (hperm.append_right _)).cons e, Result.cons hs ?_⟩
        rw [hs4.doneE, hd4, hd2] at hres
        exact hres

theorem node_step {m : ℕ} (hfil : FilterOKM filter act P) (ihN : NodeSpec ltr filter action act P m)
    (ihP : PointSpec ltr filter action act P m) : NodeSpec ltr filter action act P (m + 1) := by
  intro t ctx foc hr hg hP hm s
  obtain ⟨e0, he0⟩ := List.exists_mem_of_ne_nil _ hg.good.ne_nil
  obtain ⟨b, hb, hskip⟩ := hfil s foc.aug foc.rng e0 (hP e0 (List.mem_append_left _ he0)) (hg.good.inBounds e0 he0)
  have hPp : ∀ e ∈ pendingE ltr ctx, P e := fun e he => hP e (List.mem_append_right _ he)
  have hms : 0 < msize foc := by cases foc <;> simp only [msize] <;> omega
  rw [traverseMutLoop, hr.node, hr.rng]
  simp only [Option.bind_eq_bind, Option.bind_some, T.node, hb]
  cases b with
  | false =>
    obtain ⟨st, hst, L, hL, hres⟩ := after_skip ihN hr hg hPp (by omega) s
    simp only [Bool.false_eq_true, if_false, hst, Option.bind_some]
    refine ⟨foc.entries ++ L, hL.append_left _, ?_⟩
    exact Result.skipAll (fun e he => hskip rfl e (hP e (List.mem_append_left _ he)) (hg.good.inBounds e he)) hres
  | true =>
    simp only [if_true, enter, hr.node, Option.bind_eq_bind, Option.bind_some, T.node]
    cases foc with
    | leaf i a rng start es =>
      simp only [T.links, Option.bind_some, T.id_leaf]
      obtain ⟨L, hL, hres⟩ := ihP t ctx i a rng start [] es hr hg hg.good.ne_nil hP
        (by simp only [msize] at hm; omega) s
      exact ⟨L, hL, hres⟩
    | inner i a rng l r =>
      simp only [T.links, Option.bind_some]
      cases hltr : ltr with
      | true =>
        have hr' : Repr t (⟨i, a, rng, false, r⟩ :: ctx) l := Repr.down hr
        have hg' : ZGood (⟨i, a, rng, false, r⟩ :: ctx) l := ZGood.down hg
        have hp : pending ltr (⟨i, a, rng, false, r⟩ :: ctx) = r :: pending ltr ctx := by
          rw [hltr]; rfl
        have hpe : pendingE ltr (⟨i, a, rng, false, r⟩ :: ctx) = r.entries ++ pendingE ltr ctx := by
          simp [pendingE, hp]
        have hpz : pendingSize ltr (⟨i, a, rng, false, r⟩ :: ctx) = msize r + pendingSize ltr ctx := by
          simp [pendingSize, hp]
        obtain ⟨L, hL, hres⟩ := ihN t _ l hr' hg' (by
          rw [hpe, ← List.append_assoc]; exact hP) (by rw [hpz]; simp only [msize] at hm; omega) s
        rw [hltr] at hL hres hpe
        rw [hpe, ← List.append_assoc] at hL
        exact ⟨L, hL, hres⟩
      | false =>
        have hr' : Repr t (⟨i, a, rng, true, l⟩ :: ctx) r := Repr.down hr
        have hg' : ZGood (⟨i, a, rng, true, l⟩ :: ctx) r := ZGood.down hg
        have hp : pending ltr (⟨i, a, rng, true, l⟩ :: ctx) = l :: pending ltr ctx := by
          rw [hltr]; rfl
        have hpe : pendingE ltr (⟨i, a, rng, true, l⟩ :: ctx) = l.entries ++ pendingE ltr ctx := by
          simp [pendingE, hp]
        have hpz : pendingSize ltr (⟨i, a, rng, true, l⟩ :: ctx) = msize l + pendingSize ltr ctx := by
          simp [pendingSize, hp]
        have hperm : (r.entries ++ (l.entries ++ pendingE ltr ctx)).Perm ((l.entries ++ r.entries) ++ pendingE ltr ctx) := by
          rw [← List.append_assoc]
          exact List.perm_append_comm.append_right _
        obtain ⟨L, hL, hres⟩ := ihN t _ r hr' hg' (by
          rw [hpe]
          intro e he
          exact hP e (hperm.mem_iff.1 he)) (by rw [hpz]; simp only [msize] at hm; omega) s
        rw [hpe] at hL
        have := hL.trans hperm
        rw [hltr] at this hres
        exact ⟨L, this, hres⟩

theorem traverseMut_loop (hact : ActionOK action act) (hfil : FilterOKM filter act P) (m : ℕ) :
    NodeSpec ltr filter action act P m ∧ PointSpec ltr filter action act P m := by
  induction m with
  | zero =>
    constructor
    · intro t ctx foc _ _ _ hm
      have hms : 0 < msize foc := by cases foc <;> simp only [msize] <;> omega
      omega
    · intro t ctx i a rng start pre rest _ _ hne _ hm
      have := List.length_pos_iff.2 hne
      omega
  | succ m ih => exact ⟨node_step hfil ih.1 ih.2, point_step hact ih.1 ih.2⟩

end

/-- A modifying traversal applies the action to every entry once, in some order. -/
theorem traverseMut_spec {t : Tree β} {K : List (Entry β)} (h : Contains t K) (ltr : Bool)
    {filter : σ → Aug → Ranges → Option Bool}
    {action : σ → Entry β → Option (σ × ℕ × Verdict)} {act : σ → Entry β → Option (σ × Option (Entry β))}
    {P : Entry β → Prop} (hact : ActionOK action act) (hfil : FilterOKM filter act P) (hP : ∀ e ∈ K, P e) (s : σ) :
    ∃ L : List (Entry β), L.Perm K ∧ match procM act s L with
      | none => traverseMut t s ltr filter action = none
      | some (s', L') => ∃ t', traverseMut t s ltr filter action = some (t', s') ∧ t'.dim = t.dim ∧ Contains t' L' := by
  rcases h with ⟨h1, rfl⟩ | ⟨T, h1, h2, h3⟩
  · refine ⟨[], List.Perm.refl _, t, ?_, rfl, Or.inl ⟨h1, rfl⟩⟩
    rw [traverseMut, root, h1]
    simp only [List.isEmpty_nil, if_true]
    rw [traverseMutLoop]
  · have h0 : T.id = 0 := h1.root
    have hne : t.nodes.isEmpty = false := by
      have := getElem?_lt h1.node
      rw [List.isEmpty_eq_false_iff]
      intro hc
      rw [hc] at this
      simp at this
    obtain ⟨L, hL, hres⟩ := (traverseMut_loop (ltr := ltr) hact hfil _).1 t [] T h1 ⟨h2, trivial, trivial⟩
      (by simp only [pendingE, pending, List.flatMap_nil, List.append_nil]
          exact fun e he => hP e (h3.mem_iff.1 he)) (Nat.le_refl _) s
    simp only [pendingE, pending, List.flatMap_nil, List.append_nil] at hL
    rw [h0] at hres
    refine ⟨L, hL.trans h3, ?_⟩
    rw [traverseMut, root, hne]
    simp only [Bool.false_eq_true, if_false]
    unfold Result at hres
    cases hp : procM act s L with
    | none => rw [hp] at hres; exact hres
    | some p =>
      rw [hp] at hres
      obtain ⟨t', h4, h5, h6⟩ := hres
      exact ⟨t', h4, h5, h6.perm (by simp [doneE])⟩

end Sortnet.Index
