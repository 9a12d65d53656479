import Verif.Model.Tree
import Mathlib.Data.List.Perm.Basic
import Mathlib.Data.List.Nodup
import Mathlib.Tactic.Common
import Mathlib.Order.Basic

/-!
# Representation of trees by the arena of nodes

A tree with a marked subtree is described by the subtree and the list of ancestors of the subtree
(each with the other child).  `Repr t ctx foc` says that the arena `t` contains this tree.
-/

namespace Sortnet.Index

variable {β σ : Type}

/-! ## Abstract trees -/

/-- A tree with the identifiers, augmentations and ranges of its nodes; leaves contain their entries. -/
inductive T (β : Type) where
  | leaf (id : ℕ) (aug : Aug) (rng : Ranges) (start : ℕ) (es : List (Entry β))
  | inner (id : ℕ) (aug : Aug) (rng : Ranges) (l r : T β)

namespace T

def id : T β → ℕ
  | leaf i _ _ _ _ => i
  | inner i _ _ _ _ => i

def aug : T β → Aug
  | leaf _ a _ _ _ => a
  | inner _ a _ _ _ => a

def rng : T β → Ranges
  | leaf _ _ r _ _ => r
  | inner _ _ r _ _ => r

def links : T β → Links
  | leaf _ _ _ s es => .leaf s (s + es.length)
  | inner _ _ _ l r => .inner l.id r.id

def entries : T β → List (Entry β)
  | leaf _ _ _ _ es => es
  | inner _ _ _ l r => l.entries ++ r.entries

theorem id_leaf (i : ℕ) (a : Aug) (r : Ranges) (s : ℕ) (es : List (Entry β)) : (leaf i a r s es).id = i := rfl
theorem id_inner (i : ℕ) (a : Aug) (r : Ranges) (x y : T β) : (inner i a r x y).id = i := rfl

def node (t : T β) (p : ℕ) (r : Bool) : Node := ⟨t.aug, p, r, t.links⟩

end T

/-- Something to be found in the arena of nodes. -/
structure Fact where
  id : ℕ
  node : Node
  rng : Ranges

/-- Consecutive cells of the array of entries. -/
def cellsFrom : ℕ → List (Entry β) → List (ℕ × Entry β)
  | _, [] => []
  | s, e :: es => (s, e) :: cellsFrom (s + 1) es

namespace T

def sub : T β → List Fact
  | leaf _ _ _ _ _ => []
  | inner i _ _ l r => (⟨l.id, l.node i false, l.rng⟩ :: l.sub) ++ (⟨r.id, r.node i true, r.rng⟩ :: r.sub)

def facts (t : T β) (p : ℕ) (r : Bool) : List Fact := ⟨t.id, t.node p r, t.rng⟩ :: t.sub

def cells : T β → List (ℕ × Entry β)
  | leaf _ _ _ s es => cellsFrom s es
  | inner _ _ _ l r => l.cells ++ r.cells

/-- The augmentation recomputed from the children or entries. -/
def fresh : T β → Option Aug
  | leaf _ _ _ _ es => Aug.ofValues (es.map Entry.value)
  | inner _ _ _ l r => some (l.aug.combine r.aug)

def withAug : T β → Aug → T β
  | leaf i _ r s es, a => leaf i a r s es
  | inner i _ r l r', a => inner i a r l r'

end T

/-- An ancestor of the marked subtree: its fields, whether the subtree is in its right child, and its
other child. -/
structure Frame (β : Type) where
  id : ℕ
  aug : Aug
  rng : Ranges
  right : Bool
  sib : T β

namespace Frame

def links (f : Frame β) (hole : ℕ) : Links := if f.right then .inner f.sib.id hole else .inner hole f.sib.id

def plug (f : Frame β) (t : T β) : T β :=
  if f.right then .inner f.id f.aug f.rng f.sib t else .inner f.id f.aug f.rng t f.sib

def combine (f : Frame β) (hole : Aug) : Aug :=
  if f.right then f.sib.aug.combine hole else hole.combine f.sib.aug

end Frame

def ctxParent : List (Frame β) → ℕ
  | [] => 0
  | f :: _ => f.id

def ctxRight : List (Frame β) → Bool
  | [] => true
  | f :: _ => f.right

def ctxFacts : List (Frame β) → ℕ → List Fact
  | [], _ => []
  | f :: rest, hole => (⟨f.id, ⟨f.aug, ctxParent rest, ctxRight rest, f.links hole⟩, f.rng⟩ ::
      f.sib.facts f.id (!f.right)) ++ ctxFacts rest f.id

def ctxCells : List (Frame β) → List (ℕ × Entry β)
  | [] => []
  | f :: rest => f.sib.cells ++ ctxCells rest

def rootId : List (Frame β) → ℕ → ℕ
  | [], hole => hole
  | f :: rest, _ => rootId rest f.id

/-! ## What the arena contains -/

structure Holds (t : Tree β) (F : List Fact) : Prop where
  get : ∀ f ∈ F, t.nodes[f.id]? = some f.node ∧ t.ranges[f.id]? = some f.rng
  nodup : (F.map Fact.id).Nodup

structure HoldsE (t : Tree β) (C : List (ℕ × Entry β)) : Prop where
  get : ∀ c ∈ C, t.entries[c.1]? = some c.2
  nodup : (C.map Prod.fst).Nodup

structure Repr (t : Tree β) (ctx : List (Frame β)) (foc : T β) : Prop where
  facts : Holds t (foc.facts (ctxParent ctx) (ctxRight ctx) ++ ctxFacts ctx foc.id)
  cells : HoldsE t (foc.cells ++ ctxCells ctx)
  root : rootId ctx foc.id = 0

theorem Holds.perm {t : Tree β} {F F' : List Fact} (h : Holds t F) (hp : F.Perm F') : Holds t F' :=
  ⟨fun f hf => h.get f (hp.mem_iff.2 hf), (hp.map _).nodup_iff.1 h.nodup⟩

theorem HoldsE.perm {t : Tree β} {C C' : List (ℕ × Entry β)} (h : HoldsE t C) (hp : C.Perm C') : HoldsE t C' :=
  ⟨fun f hf => h.get f (hp.mem_iff.2 hf), (hp.map _).nodup_iff.1 h.nodup⟩

theorem Holds.sublist {t : Tree β} {F F' : List Fact} (h : Holds t F) (hp : F'.Sublist F) : Holds t F' :=
  ⟨fun f hf => h.get f (hp.subset hf), (hp.map _).nodup h.nodup⟩

theorem HoldsE.sublist {t : Tree β} {C C' : List (ℕ × Entry β)} (h : HoldsE t C) (hp : C'.Sublist C) : HoldsE t C' :=
  ⟨fun f hf => h.get f (hp.subset hf), (hp.map _).nodup h.nodup⟩

theorem Holds.congr {t t' : Tree β} {F : List Fact} (h : Holds t F) (hn : t'.nodes = t.nodes)
    (hr : t'.ranges = t.ranges) : Holds t' F := by
  refine ⟨?_, h.nodup⟩
  rw [hn, hr]; exact h.get

theorem HoldsE.congr {t t' : Tree β} {C : List (ℕ × Entry β)} (h : HoldsE t C) (he : t'.entries = t.entries) :
    HoldsE t' C := by
  refine ⟨?_, h.nodup⟩
  rw [he]; exact h.get

theorem getElem?_lt {α : Type} {l : List α} {i : ℕ} {a : α} (h : l[i]? = some a) : i < l.length := by
  rw [List.getElem?_eq_some_iff] at h
  exact h.1

/-- Writing a node. -/
theorem Holds.setNode {t t' : Tree β} {f : Fact} {F : List Fact} (h : Holds t (f :: F)) (nd : Node)
    (hn : t'.nodes = t.nodes.set f.id nd) (hr : t'.ranges = t.ranges) :
    Holds t' ({ f with node := nd } :: F) := by
  have hnd := h.nodup
  rw [List.map_cons, List.nodup_cons] at hnd
  refine ⟨?_, by simpa using h.nodup⟩
  intro g hg
  rw [hn, hr]
  rcases List.mem_cons.1 hg with rfl | hg
  · have := h.get f (by simp)
    exact ⟨by simp [getElem?_lt this.1], this.2⟩
  · have h1 := h.get g (List.mem_cons_of_mem _ hg)
    have hne : f.id ≠ g.id := fun he => hnd.1 (he ▸ List.mem_map_of_mem hg)
    rw [List.getElem?_set_ne hne]
    exact h1

/-- Writing the ranges of a node. -/
theorem Holds.setRange {t t' : Tree β} {f : Fact} {F : List Fact} (h : Holds t (f :: F)) (rng : Ranges)
    (hn : t'.ranges = t.ranges.set f.id rng) (hr : t'.nodes = t.nodes) :
    Holds t' ({ f with rng := rng } :: F) := by
  have hnd := h.nodup
  rw [List.map_cons, List.nodup_cons] at hnd
  refine ⟨?_, by simpa using h.nodup⟩
  intro g hg
  rw [hn, hr]
  rcases List.mem_cons.1 hg with rfl | hg
  · have := h.get f (by simp)
    exact ⟨this.1, by simp [getElem?_lt this.2]⟩
  · have h1 := h.get g (List.mem_cons_of_mem _ hg)
    have hne : f.id ≠ g.id := fun he => hnd.1 (he ▸ List.mem_map_of_mem hg)
    rw [List.getElem?_set_ne hne]
    exact h1

/-- Writing an entry. -/
theorem HoldsE.set {t t' : Tree β} {i : ℕ} {e : Entry β} {C : List (ℕ × Entry β)} (h : HoldsE t ((i, e) :: C))
    (e' : Entry β) (hn : t'.entries = t.entries.set i e') : HoldsE t' ((i, e') :: C) := by
  have hnd := h.nodup
  rw [List.map_cons, List.nodup_cons] at hnd
  refine ⟨?_, by simpa using h.nodup⟩
  intro g hg
  rw [hn]
  rcases List.mem_cons.1 hg with rfl | hg
  · have := h.get (i, e) (by simp)
    simp [getElem?_lt this]
  · have h1 := h.get g (List.mem_cons_of_mem _ hg)
    have hne : i ≠ g.1 := fun he => hnd.1 (List.mem_map.2 ⟨g, hg, he.symm⟩)
    rw [List.getElem?_set_ne hne]
    exact h1

theorem cellsFrom_append (s : ℕ) (a b : List (Entry β)) :
    cellsFrom s (a ++ b) = cellsFrom s a ++ cellsFrom (s + a.length) b := by
  induction a generalizing s with
  | nil => simp [cellsFrom]
  | cons e a ih =>
    rw [List.cons_append, cellsFrom, cellsFrom, ih, List.cons_append, List.length_cons]
    congr 3
    omega

theorem slice_of_cells {es' : List (Entry β)} : ∀ {es : List (Entry β)} {s : ℕ}, es ≠ [] →
    (∀ c ∈ cellsFrom s es, es'[c.1]? = some c.2) → slice es' s (s + es.length) = some es := by
  have aux : ∀ (es : List (Entry β)) (s : ℕ), s ≤ es'.length →
      (∀ c ∈ cellsFrom s es, es'[c.1]? = some c.2) → s + es.length ≤ es'.length ∧
      (es'.take (s + es.length)).drop s = es := by
    intro es
    induction es with
    | nil => intro s hs _; simp [hs]
    | cons e es ih =>
      intro s _ h
      have h0 := h (s, e) (by simp [cellsFrom])
      have hlt := getElem?_lt h0
      obtain ⟨h1, h2⟩ := ih (s + 1) (by exact hlt) (fun c hc => h c (by simp [cellsFrom, hc]))
      refine ⟨by simp only [List.length_cons]; omega, ?_⟩
      have hlt2 : s < (es'.take (s + (es.length + 1))).length := by
        rw [List.length_take]; omega
      rw [List.length_cons, List.drop_eq_getElem_cons hlt2]
      rw [show s + 1 + es.length = s + (es.length + 1) by omega] at h2
      rw [h2, List.getElem_take]
      congr 1
      dsimp only at h0
      rw [List.getElem?_eq_getElem hlt] at h0
      exact Option.some.inj h0
  intro es s hne h
  cases es with
  | nil => exact absurd rfl hne
  | cons e es =>
    have h0 := h (s, e) (by simp [cellsFrom])
    obtain ⟨h1, h2⟩ := aux (e :: es) s (Nat.le_of_lt (getElem?_lt h0)) h
    rw [slice, if_pos ⟨by omega, h1⟩, h2]

/-! ## Moving the mark -/

theorem plug_id (f : Frame β) (t : T β) : (f.plug t).id = f.id := by
  unfold Frame.plug; split <;> rfl

theorem plug_node (f : Frame β) (t : T β) (p : ℕ) (r : Bool) :
    (f.plug t).node p r = ⟨f.aug, p, r, f.links t.id⟩ := by
  unfold Frame.plug Frame.links; split <;> rfl

theorem plug_rng (f : Frame β) (t : T β) : (f.plug t).rng = f.rng := by
  unfold Frame.plug; split <;> rfl

theorem plug_aug (f : Frame β) (t : T β) : (f.plug t).aug = f.aug := by
  unfold Frame.plug; split <;> rfl

theorem plug_sub (f : Frame β) (t : T β) :
    (f.plug t).sub.Perm (t.facts f.id f.right ++ f.sib.facts f.id (!f.right)) := by
  unfold Frame.plug
  split
  · rename_i h
    rw [h]
    exact List.perm_append_comm
  · rename_i h
    rw [Bool.not_eq_true] at h
    rw [h]
    exact List.Perm.refl _

theorem plug_facts (f : Frame β) (t : T β) (rest : List (Frame β)) :
    ((f.plug t).facts (ctxParent rest) (ctxRight rest) ++ ctxFacts rest (f.plug t).id).Perm
      (t.facts (ctxParent (f :: rest)) (ctxRight (f :: rest)) ++ ctxFacts (f :: rest) t.id) := by
  rw [plug_id]
  unfold T.facts
  rw [plug_id, plug_node, plug_rng]
  show (_ :: (f.plug t).sub ++ ctxFacts rest f.id).Perm (t.facts f.id f.right ++ ctxFacts (f :: rest) t.id)
  rw [ctxFacts]
  refine List.Perm.trans ?_ (List.perm_append_comm_assoc _ _ _)
  rw [List.cons_append, List.cons_append]
  refine List.Perm.cons _ ?_
  refine ((plug_sub f t).append_right _).trans ?_
  rw [List.append_assoc]
  exact List.perm_append_comm_assoc _ _ _

theorem plug_cells (f : Frame β) (t : T β) : (f.plug t).cells.Perm (t.cells ++ f.sib.cells) := by
  unfold Frame.plug
  split
  · exact List.perm_append_comm
  · exact List.Perm.refl _

theorem plug_entries (f : Frame β) (t : T β) : (f.plug t).entries.Perm (t.entries ++ f.sib.entries) := by
  unfold Frame.plug
  split
  · exact List.perm_append_comm
  · exact List.Perm.refl _

/-- The mark moves to the parent. -/
theorem Repr.up {t : Tree β} {f : Frame β} {rest : List (Frame β)} {foc : T β}
    (h : Repr t (f :: rest) foc) : Repr t rest (f.plug foc) := by
  refine ⟨h.facts.perm (plug_facts f foc rest).symm, h.cells.perm ?_, ?_⟩
  · rw [ctxCells, ← List.append_assoc]
    exact (plug_cells f foc).symm.append_right _
  · rw [plug_id]; exact h.root

/-- The mark moves to a child. -/
theorem Repr.down {t : Tree β} {f : Frame β} {rest : List (Frame β)} {foc : T β}
    (h : Repr t rest (f.plug foc)) : Repr t (f :: rest) foc := by
  refine ⟨h.facts.perm (plug_facts f foc rest), h.cells.perm ?_, ?_⟩
  · rw [ctxCells, ← List.append_assoc]
    exact (plug_cells f foc).append_right _
  · have := h.root
    rw [plug_id] at this
    exact this

/-- The frame in which the other child is marked. -/
def Frame.flip (f : Frame β) (t : T β) : Frame β := { f with right := !f.right, sib := t }

theorem flip_plug (f : Frame β) (t : T β) : (f.flip t).plug f.sib = f.plug t := by
  unfold Frame.flip Frame.plug
  dsimp only
  cases f.right <;> rfl

/-- The mark moves to the sibling. -/
theorem Repr.across {t : Tree β} {f : Frame β} {rest : List (Frame β)} {foc : T β}
    (h : Repr t (f :: rest) foc) : Repr t (f.flip foc :: rest) f.sib := by
  apply Repr.down
  rw [flip_plug]
  exact h.up

theorem Repr.node {t : Tree β} {ctx : List (Frame β)} {foc : T β} (h : Repr t ctx foc) :
    t.nodes[foc.id]? = some (foc.node (ctxParent ctx) (ctxRight ctx)) :=
  (h.facts.get ⟨foc.id, foc.node _ _, foc.rng⟩ (by simp [T.facts])).1

theorem Repr.rng {t : Tree β} {ctx : List (Frame β)} {foc : T β} (h : Repr t ctx foc) :
    t.ranges[foc.id]? = some foc.rng :=
  (h.facts.get ⟨foc.id, foc.node (ctxParent ctx) (ctxRight ctx), foc.rng⟩ (by simp [T.facts])).2

/-- Only the root has the identifier 0. -/
theorem Repr.id_eq_zero {t : Tree β} {ctx : List (Frame β)} {foc : T β} (h : Repr t ctx foc) :
    foc.id = 0 ↔ ctx = [] := by
  constructor
  · intro h0
    cases ctx with
    | nil => rfl
    | cons f rest =>
      exfalso
      have hr := h.root
      have hmem : ∀ (ctx : List (Frame β)) (hole : ℕ), ctx ≠ [] → rootId ctx hole ∈ (ctxFacts ctx hole).map Fact.id := by
        intro ctx
        induction ctx with
        | nil => intro _ h; exact absurd rfl h
        | cons f rest ih =>
          intro hole _
          rw [rootId, ctxFacts, List.map_append, List.mem_append]
          by_cases hrest : rest = []
          · subst hrest; left; simp [rootId]
          · right; exact ih f.id hrest
      have h1 := hmem (f :: rest) foc.id (by simp)
      rw [hr] at h1
      have hnd := h.facts.nodup
      rw [List.map_append, List.nodup_append] at hnd
      exact hnd.2.2 foc.id (by simp [T.facts]) 0 h1 h0
  · rintro rfl; exact h.root

/-! ## Skipping -/

/-- Where the traversal continues after the marked subtree. -/
def nextUp (ltr : Bool) : List (Frame β) → T β → Option (List (Frame β) × T β)
  | [], _ => none
  | f :: rest, foc => if f.right = ltr then nextUp ltr rest (f.plug foc) else some (f.flip foc :: rest, f.sib)

theorem skip_spec {t : Tree β} (ltr : Bool) {ctx : List (Frame β)} {foc : T β} (h : Repr t ctx foc) :
    (nextUp ltr ctx foc = none → skip t ltr foc.id = some .done) ∧
    ∀ ctx' foc', nextUp ltr ctx foc = some (ctx', foc') →
      Repr t ctx' foc' ∧ skip t ltr foc.id = some (.node foc'.id) := by
  induction ctx generalizing foc with
  | nil =>
    have h0 : foc.id = 0 := h.root
    refine ⟨fun _ => by rw [skip, if_pos h0], fun ctx' foc' hn => ?_⟩
    simp [nextUp] at hn
  | cons f rest ih =>
    have h0 : foc.id ≠ 0 := fun h0 => by simpa using h.id_eq_zero.1 h0
    have hup := h.up
    have hnode := h.node
    have hpar := hup.node
    rw [plug_id, plug_node] at hpar
    rw [skip, if_neg h0]
    simp only [hnode, Option.bind_eq_bind, Option.bind_some, T.node, ctxRight, ctxParent, nextUp]
    by_cases hr : f.right = ltr
    · rw [if_pos hr, if_pos hr]
      have := ih hup
      rw [plug_id] at this
      exact this
    · rw [if_neg hr, if_neg hr]
      refine ⟨fun hn => by simp at hn, fun ctx' foc' hn => ?_⟩
      simp only [Option.some.injEq, Prod.mk.injEq] at hn
      obtain ⟨rfl, rfl⟩ := hn
      refine ⟨h.across, ?_⟩
      simp only [hpar, Option.bind_some, Frame.links]
      cases hfr : f.right <;> cases ltr <;> simp_all

/-! ## Updating augmentations -/

theorem withAug_id (t : T β) (a : Aug) : (t.withAug a).id = t.id := by cases t <;> rfl
theorem withAug_aug (t : T β) (a : Aug) : (t.withAug a).aug = a := by cases t <;> rfl
theorem withAug_rng (t : T β) (a : Aug) : (t.withAug a).rng = t.rng := by cases t <;> rfl
theorem withAug_links (t : T β) (a : Aug) : (t.withAug a).links = t.links := by cases t <;> rfl
theorem withAug_sub (t : T β) (a : Aug) : (t.withAug a).sub = t.sub := by cases t <;> rfl
theorem withAug_cells (t : T β) (a : Aug) : (t.withAug a).cells = t.cells := by cases t <;> rfl
theorem withAug_entries (t : T β) (a : Aug) : (t.withAug a).entries = t.entries := by cases t <;> rfl
theorem withAug_self (t : T β) : t.withAug t.aug = t := by cases t <;> rfl

/-- A frame with another augmentation. -/
def Frame.withAug (f : Frame β) (a : Aug) : Frame β := { f with aug := a }

theorem plug_withAug (f : Frame β) (t : T β) (a : Aug) : (f.plug t).withAug a = (f.withAug a).plug t := by
  unfold Frame.plug Frame.withAug
  dsimp only
  split <;> rfl

/-- The augmentations of the ancestors are up to date (for the stored augmentation of the hole). -/
def AugCtx : List (Frame β) → Aug → Prop
  | [], _ => True
  | f :: rest, a => f.aug = f.combine a ∧ AugCtx rest f.aug

/-- Two contexts that only differ in the augmentations. -/
def SameFrame (f f' : Frame β) : Prop := f'.id = f.id ∧ f'.rng = f.rng ∧ f'.right = f.right ∧ f'.sib = f.sib

def Same (ctx ctx' : List (Frame β)) : Prop := List.Forall₂ SameFrame ctx ctx'

theorem Same.refl (ctx : List (Frame β)) : Same ctx ctx := List.forall₂_same.2 fun _ _ => ⟨rfl, rfl, rfl, rfl⟩

theorem freshAug_eq {t : Tree β} {ctx : List (Frame β)} {foc : T β} (h : Repr t ctx foc) {a : Aug}
    (ha : foc.fresh = some a) : freshAug t foc.id foc.links = some a := by
  cases foc with
  | leaf i au rg s es =>
    have hne : es ≠ [] := by
      rintro rfl; simp [T.fresh, Aug.ofValues] at ha
    have hs := slice_of_cells (es' := t.entries) (s := s) hne fun c hc => h.cells.get c (List.mem_append_left _ hc)
    simp only [T.links, freshAug, hs, Option.bind_eq_bind, Option.bind_some]
    exact ha
  | inner i au rg l r =>
    have hnd := h.facts.nodup
    have hl := (h.facts.get ⟨l.id, l.node i false, l.rng⟩ (by simp [T.facts, T.sub])).1
    have hr := (h.facts.get ⟨r.id, r.node i true, r.rng⟩ (by simp [T.facts, T.sub])).1
    simp only [T.facts, T.sub, List.cons_append, List.append_assoc, List.map_cons, List.map_append, T.id_inner,
      List.nodup_cons, List.mem_cons, List.mem_append, not_or] at hnd
    dsimp only at hl hr
    have hcond : l.id ≠ r.id ∧ i ≠ l.id ∧ i ≠ r.id := ⟨hnd.2.1.2.1, hnd.1.1, hnd.1.2.2.1⟩
    show (if l.id ≠ r.id ∧ i ≠ l.id ∧ i ≠ r.id then _ else _) = _
    rw [if_pos hcond, hl]
    simp only [hr, Option.bind_eq_bind, Option.bind_some, T.node]
    exact ha

theorem Repr.setAug {t : Tree β} {ctx : List (Frame β)} {foc : T β} (h : Repr t ctx foc) (a : Aug) :
    ∃ t', setAug t foc.id a = some t' ∧ Repr t' ctx (foc.withAug a) ∧ t'.entries = t.entries ∧ t'.dim = t.dim ∧
      t'.ranges = t.ranges ∧ t'.nodes.length = t.nodes.length := by
  refine ⟨{ t with nodes := t.nodes.set foc.id ⟨a, ctxParent ctx, ctxRight ctx, foc.links⟩ },
    by rw [Index.setAug, h.node]; rfl, ⟨?_, ?_, ?_⟩, rfl, rfl, rfl, by simp⟩
  · rw [T.facts, withAug_id, withAug_rng, withAug_sub, T.node, withAug_aug, withAug_links]
    exact Holds.setNode (t := t) h.facts _ rfl rfl
  · rw [withAug_cells]
    exact h.cells.congr rfl
  · rw [withAug_id]; exact h.root

theorem combine_eq_fresh (f : Frame β) (t : T β) : (f.plug t).fresh = some (f.combine t.aug) := by
  unfold Frame.plug Frame.combine
  split <;> rfl

/-- `update_augmentation` makes all augmentations on the path to the root exact. -/
theorem updateAug_spec {ctx : List (Frame β)} : ∀ {t : Tree β} {foc : T β} {a : Aug}, Repr t ctx foc →
    foc.fresh = some a → AugCtx ctx foc.aug →
    ∃ t' ctx', updateAug t foc.id = some t' ∧ Repr t' ctx' (foc.withAug a) ∧ Same ctx ctx' ∧ AugCtx ctx' a ∧
      t'.entries = t.entries ∧ t'.dim = t.dim := by
  induction ctx with
  | nil =>
    intro t foc a h ha _
    obtain ⟨t1, h1, hr1, he1, hd1, _, _⟩ := h.setAug a
    refine ⟨t1, [], ?_, hr1, Same.refl _, trivial, he1, hd1⟩
    rw [updateAug]
    simp only [h.node, Option.bind_eq_bind, Option.bind_some, T.node, freshAug_eq h ha, h1]
    rw [if_neg]
    intro hc; exact hc.2 h.root
  | cons f rest ih =>
    intro t foc a h ha hctx
    obtain ⟨t1, h1, hr1, he1, hd1, _, _⟩ := h.setAug a
    have h0 : foc.id ≠ 0 := fun h0 => by simpa using h.id_eq_zero.1 h0
    rw [updateAug]
    simp only [h.node, Option.bind_eq_bind, Option.bind_some, T.node, freshAug_eq h ha, h1]
    by_cases hne : a = foc.aug
    · rw [if_neg (fun hc => hc.1 hne)]
      refine ⟨t1, f :: rest, rfl, hr1, Same.refl _, ?_, he1, hd1⟩
      rw [hne]; exact hctx
    · rw [if_pos ⟨hne, h0⟩]
      have hup := hr1.up
      obtain ⟨t2, rest', h2, hr2, hs2, ha2, he2, hd2⟩ := ih hup (combine_eq_fresh f _)
        (by rw [plug_aug]; exact hctx.2)
      rw [plug_id] at h2
      rw [withAug_aug, plug_withAug] at hr2
      rw [withAug_aug] at ha2
      refine ⟨t2, f.withAug (f.combine a) :: rest', h2, hr2.down, ?_, ⟨rfl, ha2⟩, by rw [he2, he1], by rw [hd2, hd1]⟩
      exact List.Forall₂.cons ⟨rfl, rfl, rfl, rfl⟩ hs2

end Sortnet.Index
