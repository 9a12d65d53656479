import Verif.Proof.Dot
import Verif.Props.C48
import Mathlib.Logic.Relation

/-!
# C71: the drawings of `gnp --dump-index`

`Draws out trees` (Spec/Dot.lean) says that the text is a drawing of a forest of binary trees with distinct names for all
nodes.
-/

namespace Sortnet

open Files Index Dot Gnp

/-- C71.  After every history of calls that returned, `dump_dot` returns without a panic (no node is missing, the traversal
never is at an entry) and its text draws a forest.  The root of the tree number `k` is named `nk_0`.  The forest has at most
as many leaves as the index has sets. -/
theorem C71_drawing {n : ℕ} (h2 : 2 ≤ n) (hn : n ≤ 11) {d : Dir} {ops : List (Op n)} {idx : OutputSetIndex n}
    (h : history d n ops = some idx) : ∃ (out : Str) (trees : List Bin), idx.dumpDot = some out ∧ Draws out trees ∧
      (∀ k (hk : k < trees.length), trees[k].name = str ['n'] ++ dec k ++ str ['_', '0']) ∧
      (trees.map Bin.leaves).sum ≤ idx.len := by
  obtain ⟨C, hr, _⟩ := history_spec h2 hn h
  obtain ⟨out, trees, h1, h3, h4, h5⟩ := OutputSetIndex.dumpDot_rep hr
  refine ⟨out, trees, h1, h3, ?_, h5⟩
  intro k hk
  have := congrArg (fun l => l[k]?) h4
  simp only [List.getElem?_map, List.getElem?_eq_getElem hk, List.getElem?_range hk, Option.map_some,
    Option.some.injEq] at this
  rw [this]
  simp [dotName, dec, str]

/-- The option does not change what `gnp` computes and logs.  It writes one drawing for each layer in the log, which has at
most as many leaves as the layer has sets, and changes no other file. -/
theorem C71_gnp {n : ℕ} (h2 : 2 ≤ n) (hn : n ≤ 11) (hash : List ℕ → ℕ)
    (order : ℕ → ℕ → List (Bitmap n) → List (Bitmap n)) (ho : ∀ layer i l, (order layer i l).Perm l) (fs : FS) :
    ∃ (sizes : List ℕ) (fs' : FS), gnp hash n order = some sizes ∧ gnpDump hash n order fs = some (sizes, fs') ∧
      (∀ i (hi : i < sizes.length), ∃ out trees,
        fs' (str ['_', 'l', 'a', 'y', 'e', 'r', '_'] ++ dec (i + 1) ++ str ['.', 'd', 'o', 't']) = some out ∧
        Draws out trees ∧ (trees.map Bin.leaves).sum ≤ sizes[i]) ∧
      ∀ name, (∀ i < sizes.length,
        name ≠ str ['_', 'l', 'a', 'y', 'e', 'r', '_'] ++ dec (i + 1) ++ str ['.', 'd', 'o', 't']) →
        fs' name = fs name := by
  obtain ⟨k, sizes, _, e, _⟩ := C48_gnp h2 hn hash order ho
  obtain ⟨idx0, e0, r0⟩ := new_rep h2 hn
  obtain ⟨idx1, C1, e1, h1⟩ := insertAll_spec h2 hn [allValues n] (H := [])
    ⟨r0, List.Pairwise.nil, Covers.refl _ _⟩
  have hn' : ¬ n > maxChannels := by unfold maxChannels; omega
  unfold insertAll at e1
  simp only [List.foldlM_cons, List.foldlM_nil, Option.bind_eq_bind] at e1
  cases ha : (allValues n).abstraction with
  | none => rw [ha] at e1; simp at e1
  | some abs =>
    cases hi : idx0.insert .lower (allValues n) abs 0 with
    | none => rw [ha] at e1; simp [hi] at e1
    | some r =>
      rw [ha] at e1
      simp only [hi, Option.bind_some, Option.pure_def, Option.some.injEq] at e1
      subst e1
      have e' := e
      rw [gnp, if_neg hn'] at e'
      simp only [ha, e0, hi, Option.bind_eq_bind, Option.bind_some] at e'
      obtain ⟨fs', g1, g2, g3⟩ := loopDump_spec h2 hn ho _ 0 r.1 C1 fs h1.rep e'
      refine ⟨_, fs', e, ?_, ?_, ?_⟩
      · rw [gnpDump, if_neg hn']
        simp only [ha, e0, hi, Option.bind_eq_bind, Option.bind_some]
        exact g1
      · intro i hi
        obtain ⟨out, h3, trees, h4, h5⟩ := g2 i hi
        refine ⟨out, trees, ?_, h4, h5⟩
        rw [Nat.zero_add] at h3
        exact h3
      · intro name hne
        refine g3 name fun i hi => ?_
        rw [Nat.zero_add]
        exact hne i hi

/-! ## What a drawing of a forest is -/

theorem Bin.name_mem (b : Bin) : b.name ∈ b.names := by cases b <;> simp [Bin.name, Bin.names]

theorem Bin.edges_mem (b : Bin) : ∀ e ∈ b.edges, e.1 ∈ b.names ∧ e.2 ∈ b.names := by
  induction b with
  | leaf s => simp [Bin.edges]
  | node s l r ihl ihr =>
    intro e he
    simp only [Bin.edges, List.mem_cons, List.mem_append] at he
    simp only [Bin.names, List.mem_cons, List.mem_append]
    rcases he with rfl | rfl | he | he
    · exact ⟨Or.inl rfl, Or.inr (Or.inl (Bin.name_mem l))⟩
    · exact ⟨Or.inl rfl, Or.inr (Or.inr (Bin.name_mem r))⟩
    · exact ⟨Or.inr (Or.inl (ihl e he).1), Or.inr (Or.inl (ihl e he).2)⟩
    · exact ⟨Or.inr (Or.inr (ihr e he).1), Or.inr (Or.inr (ihr e he).2)⟩

/-- The targets of the edges are the nodes other than the root. -/
theorem Bin.targets (b : Bin) : (b.name :: b.edges.map Prod.snd).Perm b.names := by
  induction b with
  | leaf s => exact List.Perm.refl _
  | node s l r ihl ihr =>
    simp only [Bin.name, Bin.edges, Bin.names, List.map_cons, List.map_append]
    refine List.Perm.cons _ ?_
    refine List.Perm.trans ?_ (ihl.append ihr)
    refine List.Perm.cons _ ?_
    exact List.perm_middle.symm

theorem Bin.edges_length (b : Bin) : b.edges.length + 2 = 2 * b.leaves := by
  induction b with
  | leaf s => rfl
  | node s l r ihl ihr =>
    simp only [Bin.edges, Bin.leaves, List.length_cons, List.length_append]
    omega

theorem Bin.edges_lt (b : Bin) (hb : b.names.Nodup) : ∀ e ∈ b.edges, b.names.idxOf e.1 < b.names.idxOf e.2 := by
  induction b with
  | leaf s => simp [Bin.edges]
  | node s l r ihl ihr =>
    intro e he
    simp only [Bin.edges, List.mem_cons, List.mem_append] at he
    simp only [Bin.names, List.nodup_cons, List.mem_append, not_or] at hb
    obtain ⟨⟨hs1, hs2⟩, hb⟩ := hb
    have hdis := (List.nodup_append.1 hb).2.2
    have shift : ∀ x, x ≠ s → (Bin.node s l r).names.idxOf x = (l.names ++ r.names).idxOf x + 1 := by
      intro x hx
      rw [Bin.names, List.idxOf_cons_ne _ (Ne.symm hx)]
    have first : (Bin.node s l r).names.idxOf s = 0 := by rw [Bin.names, List.idxOf_cons_self]
    rcases he with rfl | rfl | he | he
    · rw [first, shift _ (fun e => hs1 (e ▸ Bin.name_mem l))]
      exact Nat.succ_pos _
    · rw [first, shift _ (fun e => hs2 (e ▸ Bin.name_mem r))]
      exact Nat.succ_pos _
    · obtain ⟨m1, m2⟩ := Bin.edges_mem l e he
      rw [shift _ (fun h => hs1 (h ▸ m1)), shift _ (fun h => hs1 (h ▸ m2)), List.idxOf_append_of_mem m1,
        List.idxOf_append_of_mem m2]
      have := ihl (List.nodup_append.1 hb).1 e he
      omega
    · obtain ⟨m1, m2⟩ := Bin.edges_mem r e he
      rw [shift _ (fun h => hs2 (h ▸ m1)), shift _ (fun h => hs2 (h ▸ m2)),
        List.idxOf_append_of_notMem (fun h => hdis _ h _ m1 rfl), List.idxOf_append_of_notMem (fun h => hdis _ h _ m2 rfl)]
      have := ihr (List.nodup_append.1 hb).2.1 e he
      omega

theorem forest_lt (trees : List Bin) (hb : (trees.flatMap Bin.names).Nodup) :
    ∀ e ∈ trees.flatMap Bin.edges, (trees.flatMap Bin.names).idxOf e.1 < (trees.flatMap Bin.names).idxOf e.2 := by
  induction trees with
  | nil => simp
  | cons b trees ih =>
    rw [List.flatMap_cons] at hb ⊢
    rw [List.flatMap_cons]
    have hdis := (List.nodup_append.1 hb).2.2
    intro e he
    rcases List.mem_append.1 he with he | he
    · obtain ⟨m1, m2⟩ := Bin.edges_mem b e he
      rw [List.idxOf_append_of_mem m1, List.idxOf_append_of_mem m2]
      exact Bin.edges_lt b (List.nodup_append.1 hb).1 e he
    · obtain ⟨b', hb', he'⟩ := List.mem_flatMap.1 he
      obtain ⟨m1, m2⟩ := Bin.edges_mem b' e he'
      have m1' := List.mem_flatMap.2 ⟨b', hb', m1⟩
      have m2' := List.mem_flatMap.2 ⟨b', hb', m2⟩
      rw [List.idxOf_append_of_notMem (fun h => hdis _ h _ m1' rfl),
        List.idxOf_append_of_notMem (fun h => hdis _ h _ m2' rfl)]
      have := ih (List.nodup_append.1 hb).2.1 e he
      omega

/-- In a drawing of a forest no edge is drawn twice, each node has at most one incoming edge and roots have none, there is no
cycle, and the number of edges is twice the number of leaves that are not the only leaf of a tree. -/
theorem C71_forest {out : Str} {trees : List Bin} (h : Draws out trees) :
    let E := trees.flatMap Bin.edges
    E.Nodup ∧ (E.map Prod.snd).Nodup ∧ (∀ b ∈ trees, b.name ∉ E.map Prod.snd) ∧
      (∀ x, ¬ Relation.TransGen (fun a b => (a, b) ∈ E) x x) ∧
      E.length + 2 * trees.length = 2 * (trees.map Bin.leaves).sum := by
  have hnd := h.2
  have htargets : ∀ trees : List Bin,
      (trees.map Bin.name ++ (trees.flatMap Bin.edges).map Prod.snd).Perm (trees.flatMap Bin.names) := by
    intro trees
    induction trees with
    | nil => exact List.Perm.refl _
    | cons b trees ih =>
      rw [List.map_cons, List.flatMap_cons, List.flatMap_cons, List.map_append]
      refine List.Perm.trans ?_ ((Bin.targets b).append ih)
      rw [List.cons_append, List.cons_append]
      refine List.Perm.cons _ ?_
      exact List.perm_append_comm_assoc _ _ _
  have hall := (htargets trees).nodup_iff.2 hnd
  rw [List.nodup_append] at hall
  refine ⟨hall.2.1.of_map, hall.2.1, ?_, ?_, ?_⟩
  · intro b hb hm
    exact hall.2.2 _ (List.mem_map_of_mem hb) _ hm rfl
  · intro x hx
    have : ∀ y, Relation.TransGen (fun a b => (a, b) ∈ trees.flatMap Bin.edges) x y →
        (trees.flatMap Bin.names).idxOf x < (trees.flatMap Bin.names).idxOf y := by
      intro y hy
      induction hy with
      | single h => exact forest_lt trees hnd _ h
      | tail _ h ih => exact ih.trans (forest_lt trees hnd _ h)
    exact lt_irrefl _ (this x hx)
  · clear h hnd hall htargets
    induction trees with
    | nil => rfl
    | cons b trees ih =>
      have := Bin.edges_length b
      simp only [List.flatMap_cons, List.length_append, List.length_cons, List.map_cons, List.sum_cons] at ih ⊢
      omega

/-! ## An example -/

/-- A tree with an inner node. -/
def dotTree : Index.Tree (List UInt8) where
  entries := [⟨[1], [], 3⟩, ⟨[5], [], 4⟩]
  dim := 1
  nodes := [⟨⟨2, 3, 4⟩, 0, true, .inner 1 2⟩, ⟨⟨1, 3, 3⟩, 0, false, .leaf 0 1⟩, ⟨⟨1, 4, 4⟩, 0, true, .leaf 1 2⟩]
  ranges := [[(1, 5)], [(1, 1)], [(5, 5)]]

theorem dotTree_dump (out : Str) : Index.dumpDot dotTree 0 out = some (out ++ dotEdge 0 0 1 ++ dotEdge 0 0 2) := by
  have s1 : skip dotTree true 1 = some (.node 2) := by rw [skip]; rfl
  have s0 : skip dotTree true 0 = some .done := by rw [skip]; rfl
  have s2 : skip dotTree true 2 = some .done := by
    rw [skip]
    exact s0
  have l2 : ∀ out, dotLoop dotTree 0 out (.node 2) = some out := by
    intro out
    rw [dotLoop]
    show ((skip dotTree true 2).bind fun st => dotLoop dotTree 0 out st) = _
    rw [s2, Option.bind_some, dotLoop]
  have l1 : ∀ out, dotLoop dotTree 0 out (.node 1) = some out := by
    intro out
    rw [dotLoop]
    show ((skip dotTree true 1).bind fun st => dotLoop dotTree 0 out st) = _
    rw [s1, Option.bind_some, l2]
  show dotLoop dotTree 0 out (.node 0) = _
  rw [dotLoop]
  exact l1 _

/-- The drawing of an index with this tree, with two edges. -/
theorem C71_example : ({ trees := [dotTree], loose := [], pointDim := 8 } : OutputSetIndex 2).dumpDot =
    some (str "digraph {\n  n0_0 -> n0_1;\n  n0_0 -> n0_2;\n}\n".toList) := by
  rw [OutputSetIndex.dumpDot, OutputSetIndex.dotTrees, dotTree_dump]
  decide +kernel

/-- The theorem applies to generate-and-prune on three channels, which logs four layers and so writes four drawings. -/
theorem C71_example_gnp (hash : List ℕ → ℕ) (order : ℕ → ℕ → List (Bitmap 3) → List (Bitmap 3))
    (ho : ∀ layer i l, (order layer i l).Perm l) : ∃ (a b : ℕ) (fs' : FS),
      gnpDump hash 3 order (fun _ => none) = some ([a, b, 1, 0], fs') ∧
      fs' (str "_layer_4.dot".toList) = some (str "digraph {\n}\n".toList) ∧ fs' (str "_layer_5.dot".toList) = none := by
  obtain ⟨a, b, e, _, _⟩ := C48_example hash order ho
  obtain ⟨sizes, fs', e1, e2, h1, h2⟩ := C71_gnp (by norm_num) (by norm_num) hash order ho (fun _ => none)
  obtain rfl : [a, b, 1, 0] = sizes := Option.some.inj (e.symm.trans e1)
  refine ⟨a, b, fs', e2, ?_, ?_⟩
  · obtain ⟨out, trees, h3, h4, h5⟩ := h1 3 (by simp)
    have h3' : fs' (str "_layer_4.dot".toList) = some out := by
      rw [← h3]; congr 1
    rw [h3', h4.1]
    have : trees = [] := by
      cases trees with
      | nil => rfl
      | cons b _ =>
        exfalso
        have := Bin.edges_length b
        simp only [List.map_cons, List.sum_cons, List.getElem_cons_succ, List.getElem_cons_zero] at h5
        omega
    subst this
    rfl
  · refine h2 _ ?_
    intro i hi
    simp only [List.length_cons, List.length_nil] at hi
    interval_cases i <;> decide +kernel

end Sortnet
