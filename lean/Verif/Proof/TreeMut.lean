import Verif.Proof.TreeTraverse

/-!
# Traversal with modification
-/

namespace Sortnet.Index

variable {β σ : Type}

/-! ## Pending and finished parts -/

/-- The subtrees that a traversal visits after the marked one. -/
def pending (ltr : Bool) : List (Frame β) → List (T β)
  | [] => []
  | f :: rest => if f.right = ltr then pending ltr rest else f.sib :: pending ltr rest

/-- The entries of the subtrees visited before the marked one. -/
def doneE (ltr : Bool) : List (Frame β) → List (Entry β)
  | [] => []
  | f :: rest => if f.right = ltr then f.sib.entries ++ doneE ltr rest else doneE ltr rest

def pendingE (ltr : Bool) (ctx : List (Frame β)) : List (Entry β) := (pending ltr ctx).flatMap T.entries

theorem Same.pending {ctx ctx' : List (Frame β)} (h : Same ctx ctx') (ltr : Bool) :
    Index.pending ltr ctx' = Index.pending ltr ctx := by
  induction h with
  | nil => rfl
  | cons hf _ ih =>
    obtain ⟨_, _, h3, h4⟩ := hf
    simp only [Index.pending, h3, h4, ih]

theorem Same.doneE {ctx ctx' : List (Frame β)} (h : Same ctx ctx') (ltr : Bool) :
    Index.doneE ltr ctx' = Index.doneE ltr ctx := by
  induction h with
  | nil => rfl
  | cons hf _ ih =>
    obtain ⟨_, _, h3, h4⟩ := hf
    simp only [Index.doneE, h3, h4, ih]

def msize : T β → ℕ
  | .leaf _ _ _ _ es => 1 + es.length
  | .inner _ _ _ l r => 1 + msize l + msize r

def pendingSize (ltr : Bool) (ctx : List (Frame β)) : ℕ := ((pending ltr ctx).map msize).sum

theorem nextUp_none {t : Tree β} {ltr : Bool} {ctx : List (Frame β)} : ∀ {foc : T β}, Repr t ctx foc →
    ZGood ctx foc → nextUp ltr ctx foc = none → pending ltr ctx = [] ∧ Contains t (foc.entries ++ doneE ltr ctx) := by
  induction ctx with
  | nil =>
    intro foc hr hg _
    exact ⟨rfl, Or.inr ⟨foc, hr, hg.good, by simp [doneE]⟩⟩
  | cons f rest ih =>
    intro foc hr hg hn
    rw [nextUp] at hn
    split at hn <;> rename_i hf
    · obtain ⟨h1, h2⟩ := ih hr.up hg.up hn
      refine ⟨by rw [pending, if_pos hf, h1], h2.perm ?_⟩
      rw [doneE, if_pos hf, ← List.append_assoc]
      exact (plug_entries f foc).append_right _
    · simp at hn

theorem nextUp_some {ltr : Bool} {ctx : List (Frame β)} : ∀ {foc : T β} {ctx' : List (Frame β)} {foc' : T β},
    ZGood ctx foc → nextUp ltr ctx foc = some (ctx', foc') →
    ZGood ctx' foc' ∧ pending ltr ctx = foc' :: pending ltr ctx' ∧
      (doneE ltr ctx').Perm (foc.entries ++ doneE ltr ctx) := by
  induction ctx with
  | nil => intro foc ctx' foc' _ hn; simp [nextUp] at hn
  | cons f rest ih =>
    intro foc ctx' foc' hg hn
    rw [nextUp] at hn
    split at hn <;> rename_i hf
    · obtain ⟨h1, h2, h3⟩ := ih hg.up hn
      refine ⟨h1, by rw [pending, if_pos hf, h2], h3.trans ?_⟩
      rw [doneE, if_pos hf, ← List.append_assoc]
      exact (plug_entries f foc).append_right _
    · simp only [Option.some.injEq, Prod.mk.injEq] at hn
      obtain ⟨rfl, rfl⟩ := hn
      have hflip : (f.flip foc).right = ltr := by
        unfold Frame.flip
        dsimp only
        cases hfr : f.right <;> cases ltr <;> simp_all
      refine ⟨hg.across, ?_, ?_⟩
      · rw [pending, if_neg hf, pending, if_pos hflip]
      · rw [doneE, if_pos hflip, doneE, if_neg hf]
        exact List.Perm.refl _

/-! ## The effect of an action on a list of entries -/

/-- Applies an action to all entries of a list; the action returns the new entry or `none` to remove
the entry. -/
def procM (act : σ → Entry β → Option (σ × Option (Entry β))) : σ → List (Entry β) → Option (σ × List (Entry β))
  | s, [] => some (s, [])
  | s, e :: es => do
    let (s', r) ← act s e
    let (s'', L) ← procM act s' es
    some (s'', r.toList ++ L)

/-- `act` describes `action`. -/
def ActionOK (action : σ → Entry β → Option (σ × ℕ × Verdict)) (act : σ → Entry β → Option (σ × Option (Entry β))) :
    Prop :=
  ∀ s e, match act s e with
    | none => action s e = none
    | some (s', none) => ∃ v, action s e = some (s', v, .remove)
    | some (s', some e') => e' = { e with value := e'.value } ∧ action s e = some (s', e'.value, .retain)

/-- Skipping a node does not change the result. -/
def FilterOKM (filter : σ → Aug → Ranges → Option Bool) (act : σ → Entry β → Option (σ × Option (Entry β)))
    (P : Entry β → Prop) : Prop :=
  ∀ s aug rng e0, P e0 → InBounds aug rng e0 → ∃ b, filter s aug rng = some b ∧
    (b = false → ∀ e, P e → InBounds aug rng e → act s e = some (s, some e))

/-- The result of the rest of a traversal: `L` are the entries still to be visited, `D` the ones
already visited. -/
def Result (act : σ → Entry β → Option (σ × Option (Entry β))) (dim : ℕ) (res : Option (Tree β × σ)) (s : σ)
    (L D : List (Entry β)) : Prop :=
  match procM act s L with
  | none => res = none
  | some (s', L') => ∃ t', res = some (t', s') ∧ t'.dim = dim ∧ Contains t' (L' ++ D)

section

variable {act : σ → Entry β → Option (σ × Option (Entry β))} {dim : ℕ}

theorem Result.perm {res : Option (Tree β × σ)} {s : σ} {L D D' : List (Entry β)} (h : Result act dim res s L D)
    (hp : D.Perm D') : Result act dim res s L D' := by
  unfold Result at h ⊢
  cases hp' : procM act s L with
  | none => rw [hp'] at h; exact h
  | some p =>
    rw [hp'] at h
    obtain ⟨t', h1, h2, h3⟩ := h
    exact ⟨t', h1, h2, h3.perm (hp.append_left _)⟩

theorem Result.cons {res : Option (Tree β × σ)} {s s' : σ} {e : Entry β} {r : Option (Entry β)}
    {L D : List (Entry β)} (ha : act s e = some (s', r)) (h : Result act dim res s' L (r.toList ++ D)) :
    Result act dim res s (e :: L) D := by
  unfold Result at h ⊢
  rw [procM, ha]
  simp only [Option.bind_eq_bind, Option.bind_some]
  cases hp' : procM act s' L with
  | none => rw [hp'] at h; exact h
  | some p =>
    rw [hp'] at h
    obtain ⟨t', h1, h2, h3⟩ := h
    simp only [Option.bind_some]
    refine ⟨t', h1, h2, h3.perm ?_⟩
    rw [List.append_assoc]
    exact List.perm_append_comm_assoc _ _ _

theorem Result.skipAll {res : Option (Tree β × σ)} {s : σ} {K L D : List (Entry β)}
    (hK : ∀ e ∈ K, act s e = some (s, some e)) (h : Result act dim res s L (K ++ D)) :
    Result act dim res s (K ++ L) D := by
  induction K generalizing D with
  | nil => exact h
  | cons e K ih =>
    rw [List.cons_append]
    refine Result.cons (hK e (by simp)) ?_
    apply ih (fun e he => hK e (List.mem_cons_of_mem _ he))
    refine h.perm ?_
    simp only [Option.toList_some, List.singleton_append, List.cons_append]
    exact List.perm_middle.symm

end

/-! ## Writing nodes -/

theorem setLinks_holds {t : Tree β} {f : Fact} {F : List Fact} (h : Holds t (f :: F)) (lk : Links) :
    ∃ t', setLinks t f.id lk = some t' ∧ Holds t' ({ f with node := { f.node with links := lk } } :: F) ∧
      t'.entries = t.entries ∧ t'.dim = t.dim := by
  refine ⟨{ t with nodes := t.nodes.set f.id { f.node with links := lk } }, ?_, h.setNode _ rfl rfl, rfl, rfl⟩
  rw [setLinks, (h.get f (by simp)).1]
  rfl

theorem setAug_holds {t : Tree β} {f : Fact} {F : List Fact} (h : Holds t (f :: F)) (a : Aug) :
    ∃ t', setAug t f.id a = some t' ∧ Holds t' ({ f with node := { f.node with aug := a } } :: F) ∧
      t'.entries = t.entries ∧ t'.dim = t.dim := by
  refine ⟨{ t with nodes := t.nodes.set f.id { f.node with aug := a } }, ?_, h.setNode _ rfl rfl, rfl, rfl⟩
  rw [setAug, (h.get f (by simp)).1]
  rfl

theorem setParent_holds {t : Tree β} {f : Fact} {F : List Fact} (h : Holds t (f :: F)) (p : ℕ) :
    ∃ t', setParent t f.id p = some t' ∧ Holds t' ({ f with node := { f.node with parent := p } } :: F) ∧
      t'.entries = t.entries ∧ t'.dim = t.dim := by
  refine ⟨{ t with nodes := t.nodes.set f.id { f.node with parent := p } }, ?_, h.setNode _ rfl rfl, rfl, rfl⟩
  rw [setParent, (h.get f (by simp)).1]
  rfl

theorem moveRanges_holds {t : Tree β} {f g : Fact} {F : List Fact} (h : Holds t (f :: g :: F)) :
    ∃ t', moveRanges t f.id g.id = some t' ∧ Holds t' ({ f with rng := g.rng } :: g :: F) ∧
      t'.entries = t.entries ∧ t'.dim = t.dim := by
  refine ⟨{ t with ranges := t.ranges.set f.id g.rng }, ?_, h.setRange _ rfl rfl, rfl, rfl⟩
  have hne : f.id ≠ g.id := by
    have := h.nodup
    simp only [List.map_cons, List.nodup_cons, List.mem_cons, not_or] at this
    exact this.1.1
  rw [moveRanges, if_neg hne, (h.get f (by simp)).2, (h.get g (by simp)).2]
  rfl

/-- The subtree with another identifier at its root. -/
def T.withId : T β → ℕ → T β
  | .leaf _ a r s es, i => .leaf i a r s es
  | .inner _ a r x y, i => .inner i a r x y

theorem withId_id (t : T β) (i : ℕ) : (t.withId i).id = i := by cases t <;> rfl
theorem withId_aug (t : T β) (i : ℕ) : (t.withId i).aug = t.aug := by cases t <;> rfl
theorem withId_rng (t : T β) (i : ℕ) : (t.withId i).rng = t.rng := by cases t <;> rfl
theorem withId_links (t : T β) (i : ℕ) : (t.withId i).links = t.links := by cases t <;> rfl
theorem withId_cells (t : T β) (i : ℕ) : (t.withId i).cells = t.cells := by cases t <;> rfl
theorem withId_entries (t : T β) (i : ℕ) : (t.withId i).entries = t.entries := by cases t <;> rfl
theorem withId_good (t : T β) (i : ℕ) : Good (t.withId i) ↔ Good t := by cases t <;> rfl
theorem withId_msize (t : T β) (i : ℕ) : msize (t.withId i) = msize t := by cases t <;> rfl

theorem reparent_holds {t : Tree β} {s : T β} {F : List Fact} {g : Fact} (h : Holds t (g :: s.sub ++ F)) (p : ℕ) :
    ∃ t', reparent t p s.links = some t' ∧ Holds t' (g :: (s.withId p).sub ++ F) ∧
      t'.entries = t.entries ∧ t'.dim = t.dim := by
  cases s with
  | leaf i a r st es => exact ⟨t, rfl, h, rfl, rfl⟩
  | inner i a r x y =>
    simp only [T.sub, List.cons_append, List.append_assoc] at h
    obtain ⟨t1, h1, hh1, he1, hd1⟩ := setParent_holds (h.perm (List.Perm.swap _ _ _)) p
    have hp : ∀ (A : Fact), ((A :: g :: (x.sub ++ ⟨y.id, y.node i true, y.rng⟩ :: (y.sub ++ F))).Perm
        (⟨y.id, y.node i true, y.rng⟩ :: (g :: A :: (x.sub ++ (y.sub ++ F))))) := by
      intro A
      refine (List.Perm.swap _ _ _).trans ?_
      refine List.Perm.trans ?_ (List.perm_middle (l₁ := g :: A :: x.sub))
      exact List.Perm.refl _
    have hp2 : ∀ (A B : Fact), ((B :: (g :: A :: (x.sub ++ (y.sub ++ F)))).Perm
        (g :: A :: (x.sub ++ B :: (y.sub ++ F)))) := by
      intro A B
      exact (List.perm_middle (l₁ := g :: A :: x.sub)).symm
    obtain ⟨t2, h2, hh2, he2, hd2⟩ := setParent_holds (hh1.perm (hp _)) p
    refine ⟨t2, ?_, ?_, by rw [he2, he1], by rw [hd2, hd1]⟩
    · dsimp only at h1 h2
      simp only [T.links, reparent, h1, h2, Option.bind_eq_bind, Option.bind_some]
    · simp only [T.withId, T.sub, List.cons_append, List.append_assoc]
      exact hh2.perm (hp2 _ _)

/-! ## Removing a leaf -/

/-- The part of `traversal_unlink` that restructures the tree. -/
theorem unlink_restructure {t : Tree β} {f : Frame β} {rest : List (Frame β)} {foc : T β}
    (h : Repr t (f :: rest) foc) (lk0 : Links) (t0 : Tree β) (ht0 : setLinks t foc.id lk0 = some t0) :
    ∃ t1 t2 t3 t4, reparent t0 f.id f.sib.links = some t1 ∧ setLinks t1 f.id f.sib.links = some t2 ∧
      setAug t2 f.id f.sib.aug = some t3 ∧ moveRanges t3 f.id f.sib.id = some t4 ∧
      Repr t4 rest (f.sib.withId f.id) ∧ t4.dim = t.dim := by
  have hf := h.facts
  -- forget the removed leaf, after its links have been written
  have h0 : Holds t0 (ctxFacts (f :: rest) foc.id) ∧ t0.entries = t.entries ∧ t0.dim = t.dim := by
    obtain ⟨t', h1, h2, h3, h4⟩ := setLinks_holds (f := ⟨foc.id, foc.node _ _, foc.rng⟩) hf lk0
    dsimp only at h1
    rw [ht0] at h1
    obtain rfl := Option.some.inj h1
    refine ⟨h2.sublist ?_, h3, h4⟩
    exact (List.sublist_append_right _ _).trans (List.sublist_cons_self _ _)
  obtain ⟨h0, he0, hd0⟩ := h0
  simp only [ctxFacts, T.facts, List.cons_append, List.append_assoc] at h0
  -- reparent the children of the sibling
  have hp1 := h0.perm (F' := ⟨f.sib.id, f.sib.node f.id (!f.right), f.sib.rng⟩ :: f.sib.sub ++
      (⟨f.id, ⟨f.aug, ctxParent rest, ctxRight rest, f.links foc.id⟩, f.rng⟩ :: ctxFacts rest f.id)) (by
    rw [List.cons_append]
    refine (List.Perm.swap _ _ _).trans (List.Perm.cons _ ?_)
    exact List.perm_middle.symm)
  obtain ⟨t1, h1, hh1, he1, hd1⟩ := reparent_holds hp1 f.id
  have hp2 := hh1.perm (F' := ⟨f.id, ⟨f.aug, ctxParent rest, ctxRight rest, f.links foc.id⟩, f.rng⟩ ::
      (⟨f.sib.id, f.sib.node f.id (!f.right), f.sib.rng⟩ :: ((f.sib.withId f.id).sub ++ ctxFacts rest f.id))) (by
    rw [List.cons_append]
    refine List.Perm.trans (List.Perm.cons _ List.perm_middle) ?_
    exact List.Perm.swap _ _ _)
  obtain ⟨t2, h2, hh2, he2, hd2⟩ := setLinks_holds hp2 f.sib.links
  obtain ⟨t3, h3, hh3, he3, hd3⟩ := setAug_holds hh2 f.sib.aug
  obtain ⟨t4, h4, hh4, he4, hd4⟩ := moveRanges_holds hh3
  refine ⟨t1, t2, t3, t4, h1, h2, h3, h4, ⟨?_, ?_, ?_⟩, by rw [hd4, hd3, hd2, hd1, hd0]⟩
  · have := hh4.sublist (F' := ⟨f.id, ⟨f.sib.aug, ctxParent rest, ctxRight rest, f.sib.links⟩, f.sib.rng⟩ ::
      ((f.sib.withId f.id).sub ++ ctxFacts rest f.id)) (List.Sublist.cons_cons _ (List.sublist_cons_self _ _))
    rw [T.facts, T.node, withId_id, withId_aug, withId_links, withId_rng, List.cons_append]
    exact this
  · rw [withId_cells]
    have := h.cells.sublist (C' := ctxCells (f :: rest)) (List.sublist_append_right _ _)
    exact this.congr (by rw [he4, he3, he2, he1, he0])
  · rw [withId_id]; exact h.root

theorem ZGood.unlink {f : Frame β} {rest : List (Frame β)} {foc : T β} (h : ZGood (f :: rest) foc) (i : ℕ) :
    Good (f.sib.withId i) ∧ GoodCtx rest ((f.sib.withId i).entries.map Entry.point) := by
  obtain ⟨h1, _, _, h4⟩ := h.ctx
  refine ⟨(withId_good _ _).2 h1, h4.mono ?_⟩
  rw [withId_entries]
  intro p hp
  exact List.mem_append_right _ hp

/-- Updating the augmentations above a replaced subtree. -/
theorem updateAbove {t : Tree β} {ctx : List (Frame β)} {foc : T β} (hr : Repr t ctx foc) (hg : Good foc)
    (hc : GoodCtx ctx (foc.entries.map Entry.point)) {a : Aug} (ha : AugCtx ctx a) :
    ∃ t' ctx', (if foc.id ≠ 0 then updateAug t (ctxParent ctx) else some t) = some t' ∧ Repr t' ctx' foc ∧
      Same ctx ctx' ∧ ZGood ctx' foc ∧ t'.dim = t.dim := by
  cases ctx with
  | nil =>
    refine ⟨t, [], ?_, hr, Same.refl _, ⟨hg, trivial, trivial⟩, rfl⟩
    rw [if_neg (fun h => h hr.root)]
  | cons f rest =>
    have h0 : foc.id ≠ 0 := fun h0 => by simpa using hr.id_eq_zero.1 h0
    rw [if_pos h0]
    obtain ⟨t2, rest', h2, hr2, hs2, ha2, he2, hd2⟩ := updateAug_spec hr.up (combine_eq_fresh f _)
      (by rw [plug_aug]; exact ha.2)
    rw [plug_id] at h2
    rw [plug_withAug] at hr2
    have hs : Same (f :: rest) (f.withAug (f.combine foc.aug) :: rest') :=
      List.Forall₂.cons ⟨rfl, rfl, rfl, rfl⟩ hs2
    exact ⟨t2, f.withAug (f.combine foc.aug) :: rest', h2, hr2.down, hs, ⟨hg, ⟨rfl, ha2⟩, hc.same hs⟩, hd2⟩

end Sortnet.Index
