import Verif.Proof.TreeRep
import Mathlib.Data.List.Flatten

/-!
# Traversal of trees
-/

namespace Sortnet.Index

variable {β σ : Type}

/-! ## Well-formed trees -/

/-- A point inside a bounding box. -/
def InBox (rng : Ranges) (p : List ℕ) : Prop := List.Forall₂ (fun (r : ℕ × ℕ) c => r.1 ≤ c ∧ c ≤ r.2) rng p

/-- An entry within the bounds of a node. -/
structure InBounds (aug : Aug) (rng : Ranges) (e : Entry β) : Prop where
  lo : aug.lo ≤ e.value
  hi : e.value ≤ aug.hi
  box : InBox rng e.point

/-- Augmentations are exact and bounding boxes contain all points. -/
def Good : T β → Prop
  | .leaf _ a rng _ es => Aug.ofValues (es.map Entry.value) = some a ∧ ∀ e ∈ es, InBox rng e.point
  | .inner _ a rng l r => Good l ∧ Good r ∧ a = l.aug.combine r.aug ∧ ∀ e ∈ l.entries ++ r.entries, InBox rng e.point

def GoodCtx : List (Frame β) → List (List ℕ) → Prop
  | [], _ => True
  | f :: rest, P => Good f.sib ∧ (∀ p ∈ P, InBox f.rng p) ∧ (∀ e ∈ f.sib.entries, InBox f.rng e.point) ∧
      GoodCtx rest (P ++ f.sib.entries.map Entry.point)

/-- The whole tree around the marked subtree is well-formed. -/
structure ZGood (ctx : List (Frame β)) (foc : T β) : Prop where
  good : Good foc
  aug : AugCtx ctx foc.aug
  ctx : GoodCtx ctx (foc.entries.map Entry.point)

theorem GoodCtx.mono {ctx : List (Frame β)} : ∀ {P P' : List (List ℕ)}, GoodCtx ctx P → (∀ p ∈ P', p ∈ P) →
    GoodCtx ctx P' := by
  induction ctx with
  | nil => intro _ _ _ _; trivial
  | cons f rest ih =>
    intro P P' h hs
    refine ⟨h.1, fun p hp => h.2.1 p (hs p hp), h.2.2.1, ih h.2.2.2 ?_⟩
    intro p hp
    rcases List.mem_append.1 hp with hp | hp
    · exact List.mem_append_left _ (hs p hp)
    · exact List.mem_append_right _ hp

theorem GoodCtx.same {ctx ctx' : List (Frame β)} (hs : Same ctx ctx') : ∀ {P : List (List ℕ)}, GoodCtx ctx P →
    GoodCtx ctx' P := by
  induction hs with
  | nil => intro _ _; trivial
  | @cons f f' rest rest' hf _ ih =>
    intro P h
    obtain ⟨_, h2, _, h4⟩ := hf
    refine ⟨by rw [h4]; exact h.1, by rw [h2]; exact h.2.1, by rw [h4, h2]; exact h.2.2.1, ?_⟩
    rw [h4]; exact ih h.2.2.2

theorem foldl_min_le (l : List ℕ) (v : ℕ) : l.foldl min v ≤ v ∧ ∀ x ∈ l, l.foldl min v ≤ x := by
  induction l generalizing v with
  | nil => simp
  | cons a l ih =>
    obtain ⟨h1, h2⟩ := ih (min v a)
    rw [List.foldl_cons]
    refine ⟨by omega, fun x hx => ?_⟩
    rcases List.mem_cons.1 hx with rfl | hx
    · omega
    · exact h2 x hx

theorem le_foldl_max (l : List ℕ) (v : ℕ) : v ≤ l.foldl max v ∧ ∀ x ∈ l, x ≤ l.foldl max v := by
  induction l generalizing v with
  | nil => simp
  | cons a l ih =>
    obtain ⟨h1, h2⟩ := ih (max v a)
    rw [List.foldl_cons]
    refine ⟨by omega, fun x hx => ?_⟩
    rcases List.mem_cons.1 hx with rfl | hx
    · omega
    · exact h2 x hx

theorem ofValues_spec {l : List ℕ} {a : Aug} (h : Aug.ofValues l = some a) :
    l ≠ [] ∧ a.size = l.length ∧ ∀ v ∈ l, a.lo ≤ v ∧ v ≤ a.hi := by
  cases l with
  | nil => simp [Aug.ofValues] at h
  | cons x l =>
    simp only [Aug.ofValues, Option.some.injEq] at h
    subst h
    refine ⟨by simp, by simp, fun v hv => ?_⟩
    have h1 := foldl_min_le l x
    have h2 := le_foldl_max l x
    rcases List.mem_cons.1 hv with rfl | hv
    · exact ⟨h1.1, h2.1⟩
    · exact ⟨h1.2 v hv, h2.2 v hv⟩

theorem Good.size {t : T β} (h : Good t) : t.aug.size = t.entries.length := by
  induction t with
  | leaf i a rng s es =>
    have := ofValues_spec h.1
    simpa [T.aug, T.entries] using this.2.1
  | inner i a rng l r ihl ihr =>
    obtain ⟨h1, h2, rfl, _⟩ := h
    simp [T.aug, T.entries, Aug.combine, ← ihl h1, ← ihr h2]

theorem Good.ne_nil {t : T β} (h : Good t) : t.entries ≠ [] := by
  induction t with
  | leaf i a rng s es =>
    have := (ofValues_spec h.1).1
    simpa [T.entries] using this
  | inner i a rng l r ihl ihr =>
    simp [T.entries, ihl h.1]

theorem Good.inBounds {t : T β} (h : Good t) : ∀ e ∈ t.entries, InBounds t.aug t.rng e := by
  have hv : ∀ e ∈ t.entries, t.aug.lo ≤ e.value ∧ e.value ≤ t.aug.hi := by
    induction t with
    | leaf i a rng s es =>
      intro e he
      exact (ofValues_spec h.1).2.2 _ (List.mem_map_of_mem he)
    | inner i a rng l r ihl ihr =>
      obtain ⟨h1, h2, rfl, _⟩ := h
      intro e he
      simp only [T.aug, Aug.combine]
      rcases List.mem_append.1 he with he | he
      · have := ihl h1 e he; simp only [T.aug] at this; omega
      · have := ihr h2 e he; simp only [T.aug] at this; omega
  intro e he
  refine ⟨(hv e he).1, (hv e he).2, ?_⟩
  cases t with
  | leaf i a rng s es => exact h.2 e he
  | inner i a rng l r => exact h.2.2.2 e he

/-! ## Moving the mark -/

theorem plug_mem (f : Frame β) (t : T β) (e : Entry β) : e ∈ (f.plug t).entries ↔ e ∈ t.entries ∨ e ∈ f.sib.entries := by
  rw [(plug_entries f t).mem_iff, List.mem_append]

theorem ZGood.up {f : Frame β} {rest : List (Frame β)} {foc : T β} (h : ZGood (f :: rest) foc) :
    ZGood rest (f.plug foc) := by
  refine ⟨?_, ?_, ?_⟩
  · have h1 := h.aug.1
    unfold Frame.combine at h1
    obtain ⟨h2, h3, h4, _⟩ := h.ctx
    unfold Frame.plug
    split <;> rename_i hr
    · rw [if_pos hr] at h1
      refine ⟨h2, h.good, h1, ?_⟩
      intro e he
      rcases List.mem_append.1 he with he | he
      · exact h4 e he
      · exact h3 _ (List.mem_map_of_mem he)
    · rw [if_neg hr] at h1
      refine ⟨h.good, h2, h1, ?_⟩
      intro e he
      rcases List.mem_append.1 he with he | he
      · exact h3 _ (List.mem_map_of_mem he)
      · exact h4 e he
  · rw [plug_aug]; exact h.aug.2
  · refine h.ctx.2.2.2.mono ?_
    intro p hp
    rw [((plug_entries f foc).map _).mem_iff, List.map_append] at hp
    exact hp

theorem ZGood.down {f : Frame β} {rest : List (Frame β)} {foc : T β} (h : ZGood rest (f.plug foc)) :
    ZGood (f :: rest) foc := by
  have hctx := h.ctx.mono (P' := foc.entries.map Entry.point ++ f.sib.entries.map Entry.point) (by
    intro p hp
    rw [((plug_entries f foc).map _).mem_iff, List.map_append]
    exact hp)
  have haug := h.aug
  rw [plug_aug] at haug
  have hf := h.good
  unfold Frame.plug at hf
  split at hf <;> rename_i hr
  · obtain ⟨h1, h2, h3, h4⟩ := hf
    refine ⟨h2, ⟨by unfold Frame.combine; rw [if_pos hr]; exact h3, haug⟩, h1, ?_, ?_, hctx⟩
    · intro p hp
      obtain ⟨e, he, rfl⟩ := List.mem_map.1 hp
      exact h4 e (List.mem_append_right _ he)
    · intro e he
      exact h4 e (List.mem_append_left _ he)
  · obtain ⟨h1, h2, h3, h4⟩ := hf
    refine ⟨h1, ⟨by unfold Frame.combine; rw [if_neg hr]; exact h3, haug⟩, h2, ?_, ?_, hctx⟩
    · intro p hp
      obtain ⟨e, he, rfl⟩ := List.mem_map.1 hp
      exact h4 e (List.mem_append_left _ he)
    · intro e he
      exact h4 e (List.mem_append_right _ he)

theorem ZGood.across {f : Frame β} {rest : List (Frame β)} {foc : T β} (h : ZGood (f :: rest) foc) :
    ZGood (f.flip foc :: rest) f.sib := by
  apply ZGood.down
  rw [flip_plug]
  exact h.up

/-- The children of a node in the order of the traversal, as marked subtrees. -/
theorem T.inner_eq_plug (i : ℕ) (a : Aug) (rng : Ranges) (l r : T β) (ltr : Bool) :
    T.inner i a rng l r = (if ltr then (⟨i, a, rng, false, r⟩ : Frame β) else ⟨i, a, rng, true, l⟩).plug
      (if ltr then l else r) := by
  cases ltr <;> rfl

/-! ## Read-only traversal -/

/-- The entries in the order of the traversal. -/
def T.order (ltr : Bool) : T β → List (Entry β)
  | .leaf _ _ _ _ es => es
  | .inner _ _ _ l r => if ltr then l.order ltr ++ r.order ltr else r.order ltr ++ l.order ltr

theorem T.order_perm (ltr : Bool) (t : T β) : (t.order ltr).Perm t.entries := by
  induction t with
  | leaf => exact List.Perm.refl _
  | inner i a rng l r ihl ihr =>
    unfold T.order T.entries
    split
    · exact ihl.append ihr
    · exact (ihr.append ihl).trans List.perm_append_comm

/-- The condition under which skipping a node does not change the result. -/
def FilterOK (filter : σ → Aug → Ranges → Option Bool) (act : σ → Entry β → Option σ) (P : Entry β → Prop) : Prop :=
  ∀ s aug rng e0, P e0 → InBounds aug rng e0 → ∃ b, filter s aug rng = some b ∧
    (b = false → ∀ e, P e → InBounds aug rng e → act s e = some s)

theorem foldlM_const {act : σ → Entry β → Option σ} {s : σ} {L : List (Entry β)} (h : ∀ e ∈ L, act s e = some s) :
    L.foldlM act s = some s := by
  induction L with
  | nil => rfl
  | cons e L ih =>
    rw [List.foldlM_cons, h e (by simp), Option.bind_eq_bind, Option.bind_some]
    exact ih fun e he => h e (List.mem_cons_of_mem _ he)

section

variable {t : Tree β} {ltr : Bool} {filter : σ → Aug → Ranges → Option Bool}
  {action : σ → Entry β → Option (σ × Bool)} {act : σ → Entry β → Option σ} {P : Entry β → Prop}

theorem traverse_points (hact : ∀ s e, action s e = (act s e).map fun s => (s, true))
    {ctx : List (Frame β)} {i : ℕ} {a : Aug} {rng : Ranges} {start : ℕ} {es : List (Entry β)}
    (hr : Repr t ctx (.leaf i a rng start es)) (rest : List (Entry β)) :
    ∀ (pre : List (Entry β)) (s : σ), es = pre ++ rest → rest ≠ [] →
    traverseLoop t ltr filter action s (.point i (start + pre.length)) =
      (rest.foldlM act s).bind fun s' => (skip t ltr i).bind fun st => traverseLoop t ltr filter action s' st := by
  induction rest with
  | nil => intro _ _ _ h; exact absurd rfl h
  | cons e rest ih =>
    intro pre s hes _
    have hcell : t.entries[start + pre.length]? = some e := by
      have := hr.cells.get (start + pre.length, e) (by
        apply List.mem_append_left
        show _ ∈ cellsFrom start es
        rw [hes, cellsFrom_append]
        simp [cellsFrom])
      exact this
    have hnode := hr.node
    rw [T.id_leaf] at hnode
    rw [traverseLoop, hcell]
    simp only [Option.bind_eq_bind, Option.bind_some, hact]
    rw [List.foldlM_cons]
    cases hs : act s e with
    | none => rfl
    | some s' =>
      simp only [Option.map_some, Option.bind_some, if_true, next, hnode, Option.bind_eq_bind, T.node, T.links]
      by_cases hrest : rest = []
      · subst hrest
        rw [if_pos (by rw [hes]; simp [Nat.add_assoc])]
        rfl
      · have hlen : 0 < rest.length := List.length_pos_iff.2 hrest
        rw [if_neg (by rw [hes]; simp only [List.length_append, List.length_cons]; omega)]
        have := ih (pre ++ [e]) s' (by rw [hes]; simp) hrest
        rw [List.length_append, List.length_singleton, ← Nat.add_assoc] at this
        rw [Option.bind_some]
        exact this

theorem traverse_node (hact : ∀ s e, action s e = (act s e).map fun s => (s, true))
    (hfil : FilterOK filter act P) {foc : T β} : ∀ {ctx : List (Frame β)}, Repr t ctx foc → Good foc →
    (∀ e ∈ foc.entries, P e) → ∀ s,
    traverseLoop t ltr filter action s (.node foc.id) =
      ((foc.order ltr).foldlM act s).bind fun s' => (skip t ltr foc.id).bind fun st =>
        traverseLoop t ltr filter action s' st := by
  induction foc with
  | leaf i a rng start es =>
    intro ctx hr hg hP s
    obtain ⟨e0, he0⟩ := List.exists_mem_of_ne_nil _ hg.ne_nil
    obtain ⟨b, hb, hskip⟩ := hfil s a rng e0 (hP e0 he0) (hg.inBounds e0 he0)
    have hnode := hr.node
    have hrng := hr.rng
    rw [traverseLoop, hnode, hrng]
    simp only [Option.bind_eq_bind, Option.bind_some, T.node, T.aug, T.rng, hb]
    cases b with
    | true =>
      simp only [if_true, enter, hnode, Option.bind_eq_bind, Option.bind_some, T.node, T.links]
      have hne := hg.ne_nil
      have := traverse_points (ltr := ltr) (filter := filter) hact hr es [] s rfl hne
      rw [List.length_nil, Nat.add_zero] at this
      rw [T.id_leaf, this]
      rfl
    | false =>
      have := foldlM_const (act := act) (s := s) (L := T.order ltr (.leaf i a rng start es)) (fun e he =>
        hskip rfl e (hP e ((T.order_perm ltr _).mem_iff.1 he)) (hg.inBounds e ((T.order_perm ltr _).mem_iff.1 he)))
      rw [this]
      simp
  | inner i a rng l r ihl ihr =>
    intro ctx hr hg hP s
    obtain ⟨e0, he0⟩ := List.exists_mem_of_ne_nil _ hg.ne_nil
    obtain ⟨b, hb, hskip⟩ := hfil s a rng e0 (hP e0 he0) (hg.inBounds e0 he0)
    have hnode := hr.node
    have hrng := hr.rng
    rw [traverseLoop, hnode, hrng]
    simp only [Option.bind_eq_bind, Option.bind_some, T.node, T.aug, T.rng, hb]
    cases b with
    | false =>
      have := foldlM_const (act := act) (s := s) (L := T.order ltr (.inner i a rng l r)) (fun e he =>
        hskip rfl e (hP e ((T.order_perm ltr _).mem_iff.1 he)) (hg.inBounds e ((T.order_perm ltr _).mem_iff.1 he)))
      rw [this]
      simp
    | true =>
      simp only [if_true, enter, hnode, Option.bind_eq_bind, Option.bind_some, T.node, T.links]
      have hPl : ∀ e ∈ l.entries, P e := fun e he => hP e (List.mem_append_left _ he)
      have hPr : ∀ e ∈ r.entries, P e := fun e he => hP e (List.mem_append_right _ he)
      have hl : Repr t (⟨i, a, rng, false, r⟩ :: ctx) l := Repr.down hr
      have hrr : Repr t (⟨i, a, rng, true, l⟩ :: ctx) r := Repr.down hr
      have hl0 : l.id ≠ 0 := fun h0 => by simpa using hl.id_eq_zero.1 h0
      have hr0 : r.id ≠ 0 := fun h0 => by simpa using hrr.id_eq_zero.1 h0
      have hnl := hl.node
      have hnr := hrr.node
      cases ltr with
      | true =>
        simp only [Bool.not_true, Bool.false_eq_true, if_false]
        have h1 : skip t true l.id = some (.node r.id) := by
          rw [skip, if_neg hl0]
          simp only [hnl, Option.bind_eq_bind, Option.bind_some, T.node, ctxRight, ctxParent, Bool.false_eq_true,
            if_false]
          rw [show t.nodes[i]? = _ from hnode]
          simp [T.links, T.node]
        have h2 : skip t true r.id = skip t true i := by
          rw [skip, if_neg hr0]
          simp only [hnr, Option.bind_eq_bind, Option.bind_some, T.node, ctxRight, ctxParent, if_true]
        rw [ihl hl hg.1 hPl, h1]
        rw [show T.order true (.inner i a rng l r) = l.order true ++ r.order true from rfl]
        simp only [List.foldlM_append, Option.bind_eq_bind, Option.bind_some, Option.bind_assoc]
        congr 1
        funext s'
        rw [ihr hrr hg.2.1 hPr, h2]
        rfl
      | false =>
        simp only [Bool.not_false, if_true]
        have h1 : skip t false r.id = some (.node l.id) := by
          rw [skip, if_neg hr0]
          simp only [hnr, Option.bind_eq_bind, Option.bind_some, T.node, ctxRight, ctxParent, Bool.true_eq_false,
            if_false]
          rw [show t.nodes[i]? = _ from hnode]
          simp [T.links, T.node]
        have h2 : skip t false l.id = skip t false i := by
          rw [skip, if_neg hl0]
          simp only [hnl, Option.bind_eq_bind, Option.bind_some, T.node, ctxRight, ctxParent, if_true]
        rw [ihr hrr hg.2.1 hPr, h1]
        rw [show T.order false (.inner i a rng l r) = r.order false ++ l.order false from rfl]
        simp only [List.foldlM_append, Option.bind_eq_bind, Option.bind_some,
          Option.bind_assoc]
        congr 1
        funext s'
        rw [ihl hl hg.1 hPl, h2]
        rfl

end

/-- The arena contains a well-formed tree with the given entries (in the order of `for_each`). -/
def Contains (t : Tree β) (L : List (Entry β)) : Prop :=
  (t.nodes = [] ∧ L = []) ∨ ∃ T, Repr t [] T ∧ Good T ∧ T.entries.Perm L

theorem Contains.perm {t : Tree β} {L L' : List (Entry β)} (h : Contains t L) (hp : L.Perm L') : Contains t L' := by
  rcases h with ⟨h1, rfl⟩ | ⟨T, h1, h2, h3⟩
  · exact Or.inl ⟨h1, List.nil_perm.1 hp⟩
  · exact Or.inr ⟨T, h1, h2, h3.trans hp⟩

/-- A read-only traversal applies the action to all entries in some order. -/
theorem traverse_spec {t : Tree β} {L : List (Entry β)} (h : Contains t L) (ltr : Bool) : ∃ L' : List (Entry β), L'.Perm L ∧
    ∀ {σ : Type} (filter : σ → Aug → Ranges → Option Bool) (action : σ → Entry β → Option (σ × Bool))
    (act : σ → Entry β → Option σ) (P : Entry β → Prop), (∀ s e, action s e = (act s e).map fun s => (s, true)) →
    FilterOK filter act P → (∀ e ∈ L, P e) → ∀ s, traverse t s ltr filter action = L'.foldlM act s := by
  rcases h with ⟨h1, rfl⟩ | ⟨T, h1, h2, h3⟩
  · refine ⟨[], List.Perm.refl _, ?_⟩
    intro σ filter action act P _ _ _ s
    rw [traverse, root, h1]
    simp only [List.isEmpty_nil, if_true]
    rw [traverseLoop]
    rfl
  · refine ⟨T.order ltr, (T.order_perm ltr).trans h3, ?_⟩
    intro σ filter action act P hact hfil hP s
    have h0 : T.id = 0 := h1.root
    have hne : t.nodes.isEmpty = false := by
      have := getElem?_lt h1.node
      rw [List.isEmpty_eq_false_iff]
      intro hc
      rw [hc] at this
      simp at this
    rw [traverse, root, hne]
    simp only [Bool.false_eq_true, if_false]
    have := traverse_node (ltr := ltr) hact hfil h1 h2 (fun e he => hP e (h3.mem_iff.1 he)) s
    rw [h0] at this
    rw [this, skip, if_pos rfl]
    simp only [Option.bind_some]
    cases (T.order ltr).foldlM act s with
    | none => rfl
    | some s' => simp only [Option.bind_some]; rw [traverseLoop]

theorem Contains.len {t : Tree β} {L : List (Entry β)} (h : Contains t L) : len t = L.length := by
  rcases h with ⟨h1, rfl⟩ | ⟨T, h1, h2, h3⟩
  · simp [Index.len, h1]
  · have h0 : T.id = 0 := h1.root
    have hn := h1.node
    rw [h0] at hn
    unfold Index.len
    cases hnodes : t.nodes with
    | nil => rw [hnodes] at hn; simp at hn
    | cons nd rest =>
      rw [hnodes] at hn
      simp only [List.getElem?_cons_zero, Option.some.injEq] at hn
      rw [hn]
      show T.aug.size = _
      rw [h2.size, h3.length_eq]

theorem Contains.isEmpty {t : Tree β} {L : List (Entry β)} (h : Contains t L) : isEmpty t = L.isEmpty := by
  rcases h with ⟨h1, rfl⟩ | ⟨T, h1, h2, h3⟩
  · simp [Index.isEmpty, h1]
  · have hn := getElem?_lt h1.node
    have hne : L ≠ [] := by
      rintro rfl
      exact h2.ne_nil h3.eq_nil
    rw [Index.isEmpty]
    have h1 : t.nodes.isEmpty = false := by
      rw [List.isEmpty_eq_false_iff]
      intro hc
      rw [hc] at hn
      simp at hn
    rw [h1, List.isEmpty_eq_false_iff.2 hne]

end Sortnet.Index
