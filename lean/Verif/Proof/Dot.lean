import Verif.Model.Dot
import Verif.Spec.Dot
import Verif.Proof.Gnp
import Verif.Proof.Files

/-!
# Drawings of an index
-/

namespace Sortnet

open Files Dot

theorem dec_inj {a b : ℕ} (h : dec a = dec b) : a = b := by
  have := congrArg (parseDigits 0) h
  rw [parseDigits_dec, parseDigits_dec] at this
  exact Option.some.inj this

theorem dec_no_underscore (a : ℕ) : (95 : UInt8) ∉ dec a := by
  intro h
  unfold dec at h
  split at h
  · simp at h
  · obtain ⟨d, hd, e⟩ := List.mem_map.1 h
    have := Nat.digits_lt_base (by norm_num) (List.mem_reverse.1 hd)
    interval_cases d <;> revert e <;> decide

theorem append_sep_inj {α : Type} {c : α} : ∀ {a a' b b' : List α}, c ∉ a → c ∉ a' → a ++ c :: b = a' ++ c :: b' →
    a = a' ∧ b = b'
  | [], [], _, _, _, _, h => ⟨rfl, by simpa using h⟩
  | [], x :: a', _, _, _, h', h => by
    simp only [List.nil_append, List.cons_append, List.cons.injEq] at h
    exact absurd (by simp [h.1]) h'
  | x :: a, [], _, _, h', _, h => by
    simp only [List.nil_append, List.cons_append, List.cons.injEq] at h
    exact absurd (by simp [h.1]) h'
  | x :: a, y :: a', _, _, h1, h2, h => by
    simp only [List.cons_append, List.cons.injEq] at h
    obtain ⟨rfl, h⟩ := h
    simp only [List.mem_cons, not_or] at h1 h2
    obtain ⟨rfl, rfl⟩ := append_sep_inj h1.2 h2.2 h
    exact ⟨rfl, rfl⟩

namespace Index

variable {β : Type}

theorem dotName_inj {t i t' i' : ℕ} (h : dotName t i = dotName t' i') : t = t' ∧ i = i' := by
  unfold dotName at h
  simp only [str, List.map_cons, List.map_nil, List.cons_append, List.nil_append, List.append_assoc, List.cons.injEq,
    true_and] at h
  obtain ⟨h1, h2⟩ := append_sep_inj (dec_no_underscore _) (dec_no_underscore _) h
  exact ⟨dec_inj h1, dec_inj h2⟩

/-- The tree that is drawn for an abstract tree. -/
def T.bin (k : ℕ) : T β → Bin
  | .leaf i _ _ _ _ => .leaf (dotName k i)
  | .inner i _ _ l r => .node (dotName k i) (l.bin k) (r.bin k)

def T.ids : T β → List ℕ
  | .leaf i _ _ _ _ => [i]
  | .inner i _ _ l r => i :: (l.ids ++ r.ids)

theorem T.bin_name (k : ℕ) (t : T β) : (t.bin k).name = dotName k t.id := by cases t <;> rfl

theorem T.bin_names (k : ℕ) (t : T β) : (t.bin k).names = t.ids.map (dotName k) := by
  induction t with
  | leaf => rfl
  | inner i a rng l r ihl ihr => simp [T.bin, Bin.names, T.ids, ihl, ihr]

theorem T.facts_ids (t : T β) (p : ℕ) (r : Bool) : (t.facts p r).map Fact.id = t.ids := by
  induction t generalizing p r with
  | leaf => rfl
  | inner i a rng l r' ihl ihr =>
    unfold T.facts T.sub T.ids
    have h1 := ihl i false
    have h2 := ihr i true
    unfold T.facts at h1 h2
    rw [List.map_cons, List.map_append, h1, h2]
    rfl

theorem T.bin_leaves (k : ℕ) {t : T β} (h : Good t) : (t.bin k).leaves ≤ t.entries.length := by
  induction t with
  | leaf i a rng s es =>
    have := h.ne_nil
    show 1 ≤ es.length
    exact List.length_pos_iff.2 this
  | inner i a rng l r ihl ihr =>
    have h1 := ihl h.1
    have h2 := ihr h.2.1
    show (l.bin k).leaves + (r.bin k).leaves ≤ (l.entries ++ r.entries).length
    rw [List.length_append]
    omega

theorem dotEdge_eq (k a b : ℕ) : dotEdge k a b = edgeText (dotName k a, dotName k b) := rfl

theorem dot_node {t : Tree β} (k : ℕ) {foc : T β} : ∀ {ctx : List (Frame β)}, Repr t ctx foc → ∀ out,
    dotLoop t k out (.node foc.id) =
      (skip t true foc.id).bind fun st => dotLoop t k (out ++ (foc.bin k).edges.flatMap edgeText) st := by
  induction foc with
  | leaf i a rng start es =>
    intro ctx hr out
    have hnode := hr.node
    rw [dotLoop, hnode]
    simp only [Option.bind_eq_bind, Option.bind_some, T.node, T.links, T.bin, Bin.edges, List.flatMap_nil, List.append_nil]
  | inner i a rng l r ihl ihr =>
    intro ctx hr out
    have hnode := hr.node
    rw [dotLoop, hnode]
    simp only [Option.bind_eq_bind, Option.bind_some, T.node, T.links, enter, hnode, Bool.not_true, Bool.false_eq_true,
      if_false]
    have hl : Repr t (⟨i, a, rng, false, r⟩ :: ctx) l := Repr.down hr
    have hrr : Repr t (⟨i, a, rng, true, l⟩ :: ctx) r := Repr.down hr
    have hl0 : l.id ≠ 0 := fun h0 => by simpa using hl.id_eq_zero.1 h0
    have hr0 : r.id ≠ 0 := fun h0 => by simpa using hrr.id_eq_zero.1 h0
    have hnl := hl.node
    have hnr := hrr.node
    have h1 : skip t true l.id = some (.node r.id) := by
      rw [skip, if_neg hl0]
      simp only [hnl, Option.bind_eq_bind, Option.bind_some, T.node, ctxRight, ctxParent, Bool.false_eq_true,
        if_false]
      rw [show t.nodes[i]? = _ from hnode]
      simp [T.links, T.node]
    have h2 : skip t true r.id = skip t true i := by
      rw [skip, if_neg hr0]
      simp only [hnr, Option.bind_eq_bind, Option.bind_some, T.node, ctxRight, ctxParent, if_true]
    rw [ihl hl, h1, Option.bind_some, ihr hrr, h2]
    simp only [T.bin, Bin.edges, List.flatMap_cons, List.flatMap_append, T.bin_name, dotEdge_eq, List.append_assoc,
      T.id_inner]

theorem dumpDot_spec {t : Tree β} {L : List (Entry β)} (h : Contains t L) (hne : isEmpty t = false) (k : ℕ) :
    ∃ b : Bin, (∀ out, dumpDot t k out = some (out ++ b.edges.flatMap edgeText)) ∧ b.name = dotName k 0 ∧
      b.names.Nodup ∧ (∀ s ∈ b.names, ∃ i, s = dotName k i) ∧ b.leaves ≤ L.length := by
  rcases h with ⟨h1, rfl⟩ | ⟨T, h1, h2, h3⟩
  · rw [isEmpty, h1] at hne
    simp at hne
  · have h0 : T.id = 0 := h1.root
    refine ⟨T.bin k, ?_, ?_, ?_, ?_, ?_⟩
    · intro out
      rw [isEmpty] at hne
      rw [dumpDot, root, hne]
      simp only [Bool.false_eq_true, if_false]
      have := dot_node k h1 out
      rw [h0] at this
      rw [this, skip, if_pos rfl, Option.bind_some, dotLoop]
    · rw [T.bin_name, h0]
    · rw [T.bin_names]
      refine List.Nodup.map (fun a b e => (dotName_inj e).2) ?_
      have := h1.facts.nodup
      rw [List.map_append, T.facts_ids] at this
      exact this.of_append_left
    · intro s hs
      rw [T.bin_names] at hs
      obtain ⟨i, _, rfl⟩ := List.mem_map.1 hs
      exact ⟨i, rfl⟩
    · rw [← h3.length_eq]
      exact T.bin_leaves k h2

end Index

open Index

namespace OutputSetIndex

variable {n : ℕ}

theorem dotTrees_spec {trees : List (Index.Tree (List UInt8))} {Ls : List (List (Entry (List UInt8)))}
    (h : List.Forall₂ Contains trees Ls) : (∀ t ∈ trees, Index.isEmpty t = false) → ∀ k,
    ∃ bs : List Bin, (∀ out, dotTrees k trees out = some (out ++ (bs.flatMap Bin.edges).flatMap edgeText)) ∧
      (bs.flatMap Bin.names).Nodup ∧ (∀ s ∈ bs.flatMap Bin.names, ∃ j i, k ≤ j ∧ s = dotName j i) ∧
      bs.map Bin.name = (List.range' k trees.length).map (dotName · 0) ∧
      (bs.map Bin.leaves).sum ≤ Ls.flatten.length := by
  induction h with
  | nil =>
    intro _ k
    exact ⟨[], by simp [dotTrees], by simp, by simp, by simp, by simp⟩
  | @cons t L trees Ls h _ ih =>
    intro hne k
    obtain ⟨b, h1, h2, h3, h4, h5⟩ := dumpDot_spec h (hne t (by simp)) k
    obtain ⟨bs, g1, g2, g3, g4, g5⟩ := ih (fun t ht => hne t (by simp [ht])) (k + 1)
    refine ⟨b :: bs, ?_, ?_, ?_, ?_, ?_⟩
    · intro out
      rw [dotTrees, h1, Option.bind_eq_bind, Option.bind_some, g1]
      simp
    · rw [List.flatMap_cons, List.nodup_append]
      refine ⟨h3, g2, ?_⟩
      rintro x hx y hy rfl
      obtain ⟨i, e⟩ := h4 x hx
      obtain ⟨j, i', hj, e'⟩ := g3 x hy
      have := (dotName_inj (e.symm.trans e')).1
      omega
    · intro s hs
      rw [List.flatMap_cons, List.mem_append] at hs
      rcases hs with hs | hs
      · obtain ⟨i, e⟩ := h4 s hs
        exact ⟨k, i, le_rfl, e⟩
      · obtain ⟨j, i, hj, e⟩ := g3 s hs
        exact ⟨j, i, by omega, e⟩
    · rw [List.map_cons, h2, g4, List.length_cons, List.range'_succ, List.map_cons]
    · rw [List.map_cons, List.sum_cons, List.flatten_cons, List.length_append]
      omega

theorem dumpDot_rep {idx : OutputSetIndex n} {C : List (Bitmap n × ℕ)} (h : Rep idx C) :
    ∃ (out : Str) (trees : List Bin), idx.dumpDot = some out ∧ Draws out trees ∧
      trees.map Bin.name = (List.range trees.length).map (dotName · 0) ∧ (trees.map Bin.leaves).sum ≤ idx.len := by
  have hlen := len_spec h
  obtain ⟨⟨Ls, h1, h2⟩, h3, _⟩ := h
  obtain ⟨bs, g1, g2, _, g4, g5⟩ := dotTrees_spec h1 h3 0
  refine ⟨_, bs, ?_, ⟨rfl, g2⟩, ?_, ?_⟩
  · rw [dumpDot, g1]
    rfl
  · have : bs.length = idx.trees.length := by simpa using congrArg List.length g4
    rw [g4, this, List.range_eq_range']
  · have := h2.length_eq
    rw [List.length_append, List.length_map] at this
    omega

end OutputSetIndex

namespace Gnp

variable {n : ℕ} {hash : List ℕ → ℕ}

theorem layerFile_inj {a b : ℕ} (h : layerFile a = layerFile b) : a = b := by
  unfold layerFile at h
  simp only [List.append_cancel_right_eq, List.append_cancel_left_eq] at h
  exact dec_inj h

/-- What the command writes for a layer with the given number of sets. -/
def LayerDrawing (size : ℕ) (out : Str) : Prop :=
  ∃ trees, Draws out trees ∧ (trees.map Bin.leaves).sum ≤ size

theorem loopDump_spec (h2 : 2 ≤ n) (hn : n ≤ 11) {order : ℕ → ℕ → List (Bitmap n) → List (Bitmap n)}
    (ho : ∀ k i l, (order k i l).Perm l) : ∀ (sizes : List ℕ) (k : ℕ) (idx : OutputSetIndex n) (C : List (Bitmap n × ℕ))
    (fs : FS), Rep idx C → loop hash order k idx = some sizes →
    ∃ fs', loopDump hash order k idx fs = some (sizes, fs') ∧
      (∀ i (hi : i < sizes.length), ∃ out, fs' (layerFile (k + i + 1)) = some out ∧ LayerDrawing sizes[i] out) ∧
      ∀ name, (∀ i < sizes.length, name ≠ layerFile (k + i + 1)) → fs' name = fs name := by
  intro sizes
  induction sizes with
  | nil =>
    intro k idx C fs hr hl
    rw [loop] at hl
    split at hl
    · rename_i he
      refine ⟨fs, ?_, by simp, by simp⟩
      rw [loopDump, if_pos he]
    · obtain ⟨next, C', H', e, h3, h4⟩ := nextLayer_spec (hash := hash) h2 hn (ho k) hr
      rw [e, Option.bind_eq_bind, Option.bind_some, Option.bind_eq_bind, Option.bind_eq_some_iff] at hl
      obtain ⟨s, _, e'⟩ := hl
      simp at e'
  | cons x sizes ih =>
    intro k idx C fs hr hl
    rw [loop] at hl
    split at hl
    · simp at hl
    · rename_i he
      obtain ⟨next, C', H', e, h3, h4⟩ := nextLayer_spec (hash := hash) h2 hn (ho k) hr
      rw [e, Option.bind_eq_bind, Option.bind_some, Option.bind_eq_bind, Option.bind_eq_some_iff] at hl
      obtain ⟨s, hs, e'⟩ := hl
      simp only [Option.some.injEq, List.cons.injEq] at e'
      obtain ⟨rfl, rfl⟩ := e'
      obtain ⟨out, trees, d1, d2, _, d4⟩ := OutputSetIndex.dumpDot_rep h3.rep
      obtain ⟨fs', g1, g2, g3⟩ := ih (k + 1) next C'
        ((fs.create (layerFile (k + 1))).append (layerFile (k + 1)) out) h3.rep hs
      refine ⟨fs', ?_, ?_, ?_⟩
      · rw [loopDump, if_neg he]
        simp only [e, d1, g1, Option.bind_eq_bind, Option.bind_some]
      · intro i hi
        cases i with
        | zero =>
          refine ⟨out, ?_, trees, d2, d4⟩
          rw [g3]
          · simp [FS.create, FS.append]
          · intro i _ e
            have := layerFile_inj e
            omega
        | succ i =>
          obtain ⟨o, ho, hd⟩ := g2 i (by simpa using hi)
          refine ⟨o, ?_, by simpa using hd⟩
          rw [← ho]
          congr 2
          omega
      · intro name hne
        rw [g3]
        · have : name ≠ layerFile (k + 1) := hne 0 (by simp)
          simp [FS.create, FS.append, this]
        · intro i hi
          have := hne (i + 1) (by simpa using hi)
          rwa [show k + (i + 1) + 1 = k + 1 + i + 1 by omega] at this

end Gnp

end Sortnet
