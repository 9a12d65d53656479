import Verif.Proof.FlatRows

/-!
# The flat tree simulates the tree of entries
-/

namespace Sortnet.Index.Flat

open FTree

variable {σ τ : Type} {pd D : ℕ}

/-- The flat vectors of a tree. -/
def flat (pd : ℕ) (t : Tree (List UInt8)) : FTree where
  pointDim := t.dim
  points := (t.entries.map Entry.point).flatten
  packedDim := pd
  packed := (t.entries.map Entry.packed).flatten
  values := t.entries.map Entry.value
  ranges := t.ranges.flatten
  nodes := t.nodes

/-- All rows have the right length, and the numbers are small. -/
structure Ok (pd D : ℕ) (t : Tree (List UInt8)) : Prop where
  dim : 0 < t.dim
  deq : t.dim = D
  pk : 0 < pd
  point : ∀ e ∈ t.entries, Pt t.dim e.point
  packed : ∀ e ∈ t.entries, e.packed.length = pd
  rng : ∀ r ∈ t.ranges, Box t.dim r

theorem Ok.upoints {t : Tree (List UInt8)} (h : Ok pd D t) : Uniform t.dim (t.entries.map Entry.point) := by
  intro x hx
  obtain ⟨e, he, rfl⟩ := List.mem_map.1 hx
  exact (h.point e he).1

theorem Ok.upacked {t : Tree (List UInt8)} (h : Ok pd D t) : Uniform pd (t.entries.map Entry.packed) := by
  intro x hx
  obtain ⟨e, he, rfl⟩ := List.mem_map.1 hx
  exact h.packed e he

theorem Ok.uranges {t : Tree (List UInt8)} (h : Ok pd D t) : Uniform t.dim t.ranges := fun x hx => (h.rng x hx).1

theorem Ok.of_entries {t : Tree (List UInt8)} (h : Ok pd D t) {es : List (Entry (List UInt8))}
    (hes : ∀ e ∈ es, ∃ e' ∈ t.entries, e.point = e'.point ∧ e.packed = e'.packed) : Ok pd D { t with entries := es } where
  dim := h.dim
  deq := h.deq
  pk := h.pk
  point := fun e he => by obtain ⟨e', h1, h2, _⟩ := hes e he; rw [h2]; exact h.point e' h1
  packed := fun e he => by obtain ⟨e', h1, _, h3⟩ := hes e he; rw [h3]; exact h.packed e' h1
  rng := h.rng

theorem Ok.nodes {t : Tree (List UInt8)} (h : Ok pd D t) (ns : List Node) : Ok pd D { t with nodes := ns } :=
  ⟨h.dim, h.deq, h.pk, h.point, h.packed, h.rng⟩

theorem entry_flat {t : Tree (List UInt8)} (h : Ok pd D t) (i : ℕ) : FTree.entry (flat pd t) i = t.entries[i]? := by
  unfold FTree.entry flat
  dsimp only
  rw [row_flatten h.dim h.upoints, row_flatten h.pk h.upacked]
  simp only [List.getElem?_map]
  cases t.entries[i]? <;> rfl

theorem ranges_flat {t : Tree (List UInt8)} (h : Ok pd D t) (i : ℕ) :
    row (flat pd t).ranges (flat pd t).pointDim i = t.ranges[i]? := row_flatten h.dim h.uranges i

theorem swapValues_flat {t t' : Tree (List UInt8)} (h : Ok pd D t) {l r : ℕ} (hs : Index.swapValues t l r = some t') :
    Ok pd D t' ∧ FTree.swapValues (flat pd t) l r = some (flat pd t') := by
  unfold Index.swapValues at hs
  unfold FTree.swapValues
  split_ifs at hs with hlr
  · cases hs
    exact ⟨h, by rw [if_pos hlr]⟩
  · simp only [Option.bind_eq_bind, Option.bind_eq_some_iff, Option.some.injEq] at hs
    obtain ⟨a, ha, b, hb, rfl⟩ := hs
    refine ⟨h.of_entries ?_, ?_⟩
    · intro e he
      rcases List.mem_or_eq_of_mem_set he with he | rfl
      · rcases List.mem_or_eq_of_mem_set he with he | rfl
        · exact ⟨e, he, rfl, rfl⟩
        · exact ⟨_, List.mem_of_getElem? hb, rfl, rfl⟩
      · exact ⟨_, List.mem_of_getElem? ha, rfl, rfl⟩
    · rw [if_neg hlr]
      unfold flat
      dsimp only
      rw [row_flatten h.dim h.upoints, row_flatten h.dim h.upoints, row_flatten h.pk h.upacked, row_flatten h.pk h.upacked]
      simp only [List.getElem?_map, ha, hb, Option.map_some, Option.bind_eq_bind, Option.bind_some]
      rw [swap_flatten h.upoints hlr (a := a.point) (b := b.point) (by simp [ha]) (by simp [hb]),
        swap_flatten h.upacked hlr (a := a.packed) (b := b.packed) (by simp [ha]) (by simp [hb])]
      simp [Flat.swapElems, ha, hb, List.map_set]

theorem component_flat {t : Tree (List UInt8)} (h : Ok pd D t) {i d c : ℕ} (hc : component t i d = some c) :
    (flat pd t).points[i * (flat pd t).pointDim + d]? = some c := by
  unfold component at hc
  simp only [Option.bind_eq_bind, Option.bind_eq_some_iff] at hc
  obtain ⟨e, he, hd⟩ := hc
  have hl := (h.point e (List.mem_of_getElem? he)).1
  have : d < t.dim := by rw [← hl]; exact (List.getElem?_eq_some_iff.1 hd).1
  unfold flat
  dsimp only
  rw [getElem?_flatten h.upoints i this, List.getElem?_map, he]
  exact hd

theorem scanLeft_flat {t : Tree (List UInt8)} (h : Ok pd D t) {stop dim at_ left l : ℕ}
    (hs : Index.scanLeft t stop dim at_ left = some l) : FTree.scanLeft (flat pd t) stop dim at_ left = some l := by
  refine scanLeft.partial_correctness t stop dim at_ (fun left l => FTree.scanLeft (flat pd t) stop dim at_ left = some l)
    ?_ left l hs
  intro f ih left l hb
  rw [FTree.scanLeft]
  split_ifs at hb with h1
  · rw [if_pos h1]
    simp only [Option.bind_eq_bind, Option.bind_eq_some_iff] at hb
    obtain ⟨c, hc, hb⟩ := hb
    rw [component_flat h hc]
    simp only [Option.bind_eq_bind, Option.bind_some]
    split_ifs at hb ⊢ with h2
    · exact ih _ _ hb
    · exact hb
  · rw [if_neg h1]
    exact hb

theorem scanRight_flat {t : Tree (List UInt8)} (h : Ok pd D t) {start dim at_ right r : ℕ}
    (hs : Index.scanRight t start dim at_ right = some r) : FTree.scanRight (flat pd t) start dim at_ right = some r := by
  refine scanRight.partial_correctness t start dim at_ (fun right r => FTree.scanRight (flat pd t) start dim at_ right = some r)
    ?_ right r hs
  intro f ih right r hb
  rw [FTree.scanRight]
  split_ifs at hb with h1
  · rw [if_pos h1]
    simp only [Option.bind_eq_bind, Option.bind_eq_some_iff] at hb
    obtain ⟨c, hc, hb⟩ := hb
    rw [component_flat h hc]
    simp only [Option.bind_eq_bind, Option.bind_some]
    split_ifs at hb ⊢ with h2
    · exact ih _ _ hb
    · exact hb
  · rw [if_neg h1]
    exact hb

theorem partitionLoop_flat {t t' : Tree (List UInt8)} (h : Ok pd D t) {start stop dim at_ left right m : ℕ}
    (hs : Index.partitionLoop t start stop dim at_ left right = some (t', m)) :
    Ok pd D t' ∧ FTree.partitionLoop (flat pd t) start stop dim at_ left right = some (flat pd t', m) := by
  refine partitionLoop.partial_correctness start stop dim at_
    (fun t left right r => Ok pd D t → Ok pd D r.1 ∧
      FTree.partitionLoop (flat pd t) start stop dim at_ left right = some (flat pd r.1, r.2)) ?_ t left right (t', m) hs h
  intro f ih t left right r hb h
  rw [FTree.partitionLoop]
  simp only [Option.bind_eq_bind, Option.bind_eq_some_iff] at hb
  obtain ⟨l, hl, rr, hr, hb⟩ := hb
  rw [scanLeft_flat h hl]
  simp only [Option.bind_eq_bind, Option.bind_some]
  rw [scanRight_flat h hr]
  simp only [Option.bind_some]
  split_ifs at hb ⊢ with h1
  · cases hb
    exact ⟨h, rfl⟩
  · simp only [Option.bind_eq_some_iff] at hb
    obtain ⟨t1, ht1, hb⟩ := hb
    obtain ⟨o1, e1⟩ := swapValues_flat h ht1
    rw [e1]
    exact ih t1 l rr r hb o1

theorem partition_flat {t t' : Tree (List UInt8)} (h : Ok pd D t) {start stop dim at_ m : ℕ}
    (hs : Index.partition t start stop dim at_ = some (t', m)) :
    Ok pd D t' ∧ FTree.partition (flat pd t) start stop dim at_ = some (flat pd t', m) := by
  unfold Index.partition at hs
  unfold FTree.partition
  split_ifs at hs ⊢ with h1
  · cases hs
    exact ⟨h, rfl⟩
  · exact partitionLoop_flat h hs

theorem slice_eq_span {β : Type} (es : List (Entry β)) (a b : ℕ) : slice es a b = span es a b := rfl

theorem span_map {α β : Type} (f : α → β) (l : List α) (a b : ℕ) : span (l.map f) a b = (span l a b).map (List.map f) := by
  unfold span
  rw [List.length_map]
  split_ifs <;> simp [List.map_take, List.map_drop]

theorem span_points {t : Tree (List UInt8)} (h : Ok pd D t) {a b : ℕ} {es : List (Entry (List UInt8))}
    (hs : slice t.entries a b = some es) :
    span (flat pd t).points (a * (flat pd t).pointDim) (b * (flat pd t).pointDim) = some (es.map Entry.point).flatten := by
  unfold flat
  dsimp only
  rw [span_flatten h.dim h.upoints, span_map, ← slice_eq_span, hs]
  rfl

theorem span_values {t : Tree (List UInt8)} {a b : ℕ} {es : List (Entry (List UInt8))}
    (hs : slice t.entries a b = some es) : span (flat pd t).values a b = some (es.map Entry.value) := by
  unfold flat
  dsimp only
  rw [span_map, ← slice_eq_span, hs]
  rfl

theorem mem_of_slice {β : Type} {es l : List (Entry β)} {a b : ℕ} (hs : slice es a b = some l) {e : Entry β}
    (he : e ∈ l) : e ∈ es := by
  unfold slice at hs
  split_ifs at hs
  cases hs
  exact List.mem_of_mem_take (List.mem_of_mem_drop he)

theorem newChild_flat {t t' : Tree (List UInt8)} (h : Ok pd D t) {parent start stop c : ℕ} {isRight : Bool}
    (hs : Index.newChild t parent isRight start stop = some (t', c)) :
    Ok pd D t' ∧ FTree.newChild (flat pd t) parent isRight start stop = some (flat pd t', c) := by
  unfold Index.newChild at hs
  simp only [Option.bind_eq_bind, Option.bind_eq_some_iff, Option.some.injEq, Prod.mk.injEq] at hs
  obtain ⟨es, hes, rng, hrng, aug, haug, rfl, rfl⟩ := hs
  have hne : es ≠ [] := by rintro rfl; simp [Aug.ofValues] at haug
  obtain ⟨hb, hc⟩ := computeRanges_flatten (ps := es.map Entry.point) (by
    intro p hp
    obtain ⟨e, he, rfl⟩ := List.mem_map.1 hp
    exact h.point e (mem_of_slice hes he)) (by simpa using hne) hrng
  refine ⟨⟨h.dim, h.deq, h.pk, h.point, h.packed, ?_⟩, ?_⟩
  · intro r hr
    rcases List.mem_append.1 hr with hr | hr
    · exact h.rng r hr
    · rw [List.mem_singleton.1 hr]; exact hb
  · unfold FTree.newChild
    rw [span_points h hes, span_values hes]
    have e : (flat pd t).pointDim = t.dim := rfl
    simp only [Option.bind_eq_bind, Option.bind_some, e, hc, haug]
    simp [flat]

theorem view_nodes (t : Tree (List UInt8)) : (flat pd t).view.nodes = t.nodes := rfl

theorem setLinks_flat {t t' : Tree (List UInt8)} (h : Ok pd D t) {id : ℕ} {links : Links}
    (hs : Index.setLinks t id links = some t') :
    Ok pd D t' ∧ FTree.setLinks (flat pd t) id links = some (flat pd t') := by
  unfold Index.setLinks at hs
  simp only [Option.bind_eq_bind, Option.bind_eq_some_iff, Option.some.injEq] at hs
  obtain ⟨node, hn, rfl⟩ := hs
  refine ⟨h.nodes _, ?_⟩
  unfold FTree.setLinks Index.setLinks
  rw [view_nodes, hn]
  rfl

theorem setAug_flat {t t' : Tree (List UInt8)} (h : Ok pd D t) {id : ℕ} {aug : Aug}
    (hs : Index.setAug t id aug = some t') :
    Ok pd D t' ∧ FTree.setAug (flat pd t) id aug = some (flat pd t') := by
  unfold Index.setAug at hs
  simp only [Option.bind_eq_bind, Option.bind_eq_some_iff, Option.some.injEq] at hs
  obtain ⟨node, hn, rfl⟩ := hs
  refine ⟨h.nodes _, ?_⟩
  unfold FTree.setAug Index.setAug
  rw [view_nodes, hn]
  rfl

theorem reparent_flat {t t' : Tree (List UInt8)} (h : Ok pd D t) {parent : ℕ} {links : Links}
    (hs : Index.reparent t parent links = some t') :
    Ok pd D t' ∧ FTree.reparent (flat pd t) parent links = some (flat pd t') := by
  unfold FTree.reparent
  cases links with
  | leaf a b =>
    cases hs
    exact ⟨h, rfl⟩
  | inner c0 c1 =>
    simp only [Index.reparent, Index.setParent, Option.bind_eq_bind, Option.bind_eq_some_iff, Option.some.injEq] at hs ⊢
    obtain ⟨t1, ⟨n1, h1, rfl⟩, n2, h2, rfl⟩ := hs
    refine ⟨h.nodes _, ?_⟩
    rw [view_nodes, h1]
    dsimp only at h2
    simp only [Option.bind_some, view_nodes]
    rw [h2]
    rfl

theorem climbRight_view {t : Tree (List UInt8)} {id : ℕ} {r : Option ℕ} (hs : climbRight t id = some r) :
    climbRight (flat pd t).view id = some r := by
  refine climbRight.partial_correctness t (fun id r => climbRight (flat pd t).view id = some r) ?_ id r hs
  intro f ih id r hb
  rw [climbRight, view_nodes]
  simp only [Option.bind_eq_bind, Option.bind_eq_some_iff] at hb
  obtain ⟨node, hn, hb⟩ := hb
  simp only [hn, Option.bind_eq_bind, Option.bind_some]
  split_ifs at hb ⊢ with h1 h2
  · exact hb
  · exact ih _ _ hb
  · exact hb

theorem skip_view {t : Tree (List UInt8)} {ltr : Bool} {id : ℕ} {r : TState} (hs : skip t ltr id = some r) :
    skip (flat pd t).view ltr id = some r := by
  refine skip.partial_correctness t ltr (fun id r => skip (flat pd t).view ltr id = some r) ?_ id r hs
  intro f ih id r hb
  rw [skip, view_nodes]
  by_cases h0 : id = 0
  · rw [if_pos h0] at hb ⊢
    exact hb
  · rw [if_neg h0] at hb ⊢
    simp only [Option.bind_eq_bind, Option.bind_eq_some_iff] at hb
    obtain ⟨node, hn, hb⟩ := hb
    simp only [hn, Option.bind_eq_bind, Option.bind_some]
    by_cases h1 : node.isRight = ltr
    · rw [if_pos h1] at hb ⊢
      exact ih _ _ hb
    · rw [if_neg h1] at hb ⊢
      exact hb

theorem next_view {t : Tree (List UInt8)} {ltr : Bool} {id i : ℕ} {r : TState} (hs : next t ltr id i = some r) :
    next (flat pd t).view ltr id i = some r := by
  unfold next at hs ⊢
  rw [view_nodes]
  simp only [Option.bind_eq_bind, Option.bind_eq_some_iff] at hs
  obtain ⟨node, hn, hb⟩ := hs
  simp only [hn, Option.bind_eq_bind, Option.bind_some]
  cases hl : node.links with
  | inner a b => rw [hl] at hb; exact hb
  | leaf a b =>
    rw [hl] at hb
    dsimp only at hb ⊢
    split_ifs at hb ⊢
    · exact skip_view hb
    · exact hb

theorem enter_view {t : Tree (List UInt8)} {ltr : Bool} {id : ℕ} {r : TState} (hs : enter t ltr id = some r) :
    enter (flat pd t).view ltr id = some r := hs

theorem widest_mem {l : List ((ℕ × ℕ) × ℕ)} {d range low : ℕ} (h : widest l = some (d, range, low)) :
    ∃ r ∈ l, range = r.1.2 - r.1.1 ∧ low = r.1.1 := by
  cases l with
  | nil => simp [widest] at h
  | cons r rs =>
    simp only [widest, Option.some.injEq] at h
    have key : ∀ (rs : List ((ℕ × ℕ) × ℕ)) (b : ℕ × ℕ × ℕ), (∃ r' ∈ r :: rs, b.2.1 = r'.1.2 - r'.1.1 ∧ b.2.2 = r'.1.1) ∨
        (∃ r' ∈ rs, b.2.1 = r'.1.2 - r'.1.1 ∧ b.2.2 = r'.1.1) →
        ∃ r' ∈ r :: rs, (rs.foldl (fun best r => if best.2.1 ≤ r.1.2 - r.1.1 then (r.2, r.1.2 - r.1.1, r.1.1) else best) b).2.1 =
          r'.1.2 - r'.1.1 ∧
          (rs.foldl (fun best r => if best.2.1 ≤ r.1.2 - r.1.1 then (r.2, r.1.2 - r.1.1, r.1.1) else best) b).2.2 = r'.1.1 := by
      intro rs b hb
      have hb' : ∃ r' : (ℕ × ℕ) × ℕ, r' ∈ r :: rs ∧ b.2.1 = r'.1.2 - r'.1.1 ∧ b.2.2 = r'.1.1 := by
        rcases hb with ⟨r', h1, h2⟩ | ⟨r', h1, h2⟩
        · exact ⟨r', h1, h2⟩
        · exact ⟨r', List.mem_cons_of_mem _ h1, h2⟩
      clear hb
      have : ∀ (S : List ((ℕ × ℕ) × ℕ)) (rs : List ((ℕ × ℕ) × ℕ)) (b : ℕ × ℕ × ℕ), (∀ x ∈ rs, x ∈ S) →
          (∃ r' : (ℕ × ℕ) × ℕ, r' ∈ S ∧ b.2.1 = r'.1.2 - r'.1.1 ∧ b.2.2 = r'.1.1) →
          ∃ r' ∈ S, (rs.foldl (fun best r => if best.2.1 ≤ r.1.2 - r.1.1 then (r.2, r.1.2 - r.1.1, r.1.1) else best) b).2.1 =
            r'.1.2 - r'.1.1 ∧
          (rs.foldl (fun best r => if best.2.1 ≤ r.1.2 - r.1.1 then (r.2, r.1.2 - r.1.1, r.1.1) else best) b).2.2 = r'.1.1 := by
        intro S rs
        induction rs with
        | nil => intro b _ hb; exact hb
        | cons x rs ih =>
          intro b hS hb
          rw [List.foldl_cons]
          refine ih _ (fun y hy => hS y (List.mem_cons_of_mem _ hy)) ?_
          split_ifs
          · exact ⟨x, hS x (List.mem_cons_self ..), rfl, rfl⟩
          · exact hb
      exact this (r :: rs) rs b (fun x hx => List.mem_cons_of_mem _ hx) hb'
    obtain ⟨r', h1, h2, h3⟩ := key rs (r.2, r.1.2 - r.1.1, r.1.1) (Or.inl ⟨r, List.mem_cons_self .., rfl, rfl⟩)
    rw [h] at h2 h3
    exact ⟨r', h1, h2, h3⟩

theorem splitLeaf_flat {t t' : Tree (List UInt8)} (h : Ok pd D t) {id start stop : ℕ} {c : Option ℕ}
    (hs : Index.splitLeaf t id start stop = some (t', c)) :
    Ok pd D t' ∧ FTree.splitLeaf (flat pd t) id start stop = some (flat pd t', c) := by
  unfold Index.splitLeaf at hs
  unfold FTree.splitLeaf
  split_ifs at hs with h1
  · rw [if_pos h1, ranges_flat h]
    simp only [Option.bind_eq_bind, Option.bind_eq_some_iff] at hs
    obtain ⟨rng, hr, ⟨d, range, low⟩, hw, ⟨t1, m⟩, hp, hs⟩ := hs
    dsimp only at hp hs
    have hbox := h.rng rng (List.mem_of_getElem? hr)
    have hany : rng.any (fun r => decide (r.2 < r.1)) = false := by
      rw [List.any_eq_false]
      intro x hx
      have := hbox.2 x hx
      simp only [decide_eq_true_eq]
      omega
    have hat : FTree.splitAt low range = some (low + (range + 1) / 2) := by
      obtain ⟨r, hr1, hr2, hr3⟩ := widest_mem hw
      have := hbox.2 r.1 (by
        have : (r.1, r.2) ∈ rng.zipIdx := hr1
        exact List.fst_mem_of_mem_zipIdx this)
      unfold FTree.splitAt
      rw [if_pos]
      omega
    obtain ⟨o1, e1⟩ := partition_flat h hp
    simp only [hr, Option.bind_eq_bind, Option.bind_some, hany, Bool.false_eq_true, if_false, hw, hat, e1]
    split_ifs at hs ⊢ with h2
    · simp only [Option.bind_eq_some_iff] at hs
      obtain ⟨⟨t2, c0⟩, hc0, ⟨t3, c1⟩, hc1, t4, hl, hs⟩ := hs
      dsimp only at hc1 hl hs
      obtain ⟨o2, e2⟩ := newChild_flat o1 hc0
      obtain ⟨o3, e3⟩ := newChild_flat o2 hc1
      obtain ⟨o4, e4⟩ := setLinks_flat o3 hl
      cases hs
      refine ⟨o4, ?_⟩
      simp only [e2, Option.bind_some, e3, e4]
    · cases hs
      exact ⟨o1, rfl⟩
  · rw [if_neg h1]
    cases hs
    exact ⟨h, rfl⟩

theorem buildTree_flat {t t' : Tree (List UInt8)} (h : Ok pd D t) {id : ℕ} (hs : Index.buildTree t id = some t') :
    Ok pd D t' ∧ FTree.buildTree (flat pd t) id = some (flat pd t') := by
  refine buildTree.partial_correctness (fun t id t' => Ok pd D t → Ok pd D t' ∧
    FTree.buildTree (flat pd t) id = some (flat pd t')) ?_ t id t' hs h
  intro f ih t id t' hb h
  rw [FTree.buildTree]
  simp only [Option.bind_eq_bind, Option.bind_eq_some_iff] at hb
  obtain ⟨node, hn, hb⟩ := hb
  have hn' : (flat pd t).nodes[id]? = some node := hn
  simp only [hn', Option.bind_eq_bind, Option.bind_some]
  cases hl : node.links with
  | inner a b =>
    rw [hl] at hb
    exact ih t id t' hb h
  | leaf a b =>
    rw [hl] at hb
    simp only [Option.bind_eq_some_iff] at hb
    obtain ⟨⟨t1, nx⟩, h1, hb⟩ := hb
    obtain ⟨o1, e1⟩ := splitLeaf_flat h h1
    simp only [e1, Option.bind_some]
    cases nx with
    | some c => exact ih t1 c t' hb o1
    | none =>
      simp only [Option.bind_eq_some_iff] at hb
      obtain ⟨up, hu, hb⟩ := hb
      simp only [climbRight_view hu, Option.bind_some]
      cases up with
      | none =>
        cases hb
        exact ⟨o1, rfl⟩
      | some id' =>
        simp only [Option.bind_eq_some_iff] at hb
        obtain ⟨c, hc, hb⟩ := hb
        have hc' : rightSibling (flat pd t1).view id' = some c := hc
        simp only [hc', Option.bind_some]
        exact ih t1 c t' hb o1

/-- `Tree::new`. -/
theorem new_flat {dim : ℕ} (hdim : 0 < dim) (hpd : 0 < pd) {es : List (Entry (List UInt8))}
    (hp : ∀ e ∈ es, Pt dim e.point) (hk : ∀ e ∈ es, e.packed.length = pd) {t : Tree (List UInt8)}
    (hs : Index.new dim es = some t) :
    Ok pd dim t ∧ FTree.new dim (es.map Entry.point).flatten pd (es.map Entry.packed).flatten (es.map Entry.value) =
      some (flat pd t) := by
  have o0 : Ok pd dim { dim := dim, entries := es, ranges := [], nodes := [] } := ⟨hdim, rfl, hpd, hp, hk, by simp⟩
  unfold FTree.new
  rw [if_neg (by rw [length_flatten o0.upoints]; simp), if_neg (by rw [length_flatten o0.upacked]; simp)]
  unfold Index.new at hs
  by_cases hne : es.isEmpty
  · rw [if_pos hne] at hs
    rw [if_pos (by simpa using hne)]
    cases hs
    exact ⟨o0, rfl⟩
  · rw [if_neg hne] at hs
    rw [if_neg (by simpa using hne)]
    simp only [Option.bind_eq_bind, Option.bind_eq_some_iff] at hs
    obtain ⟨aug, ha, rng, hr, hs⟩ := hs
    obtain ⟨hb, hc⟩ := computeRanges_flatten (ps := es.map Entry.point) (by
      intro p hp'
      obtain ⟨e, he, rfl⟩ := List.mem_map.1 hp'
      exact hp e he) (by simpa using hne) hr
    have o1 : Ok pd dim (Tree.mk dim es [rng] [{ aug := aug, parent := 0, isRight := true, links := .leaf 0 es.length }]) :=
      ⟨hdim, rfl, hpd, hp, hk, by intro r hr; rw [List.mem_singleton.1 hr]; exact hb⟩
    obtain ⟨o2, e2⟩ := buildTree_flat o1 hs
    refine ⟨o2, ?_⟩
    simp only [ha, hc, Option.bind_eq_bind, Option.bind_some, List.length_map]
    simpa [flat] using e2

theorem freshAug_flat {t : Tree (List UInt8)} (h : Ok pd D t) {id : ℕ} {links : Links} {a : Aug}
    (hs : Index.freshAug t id links = some a) : FTree.freshAug (flat pd t) id links = some a := by
  cases links with
  | inner c0 c1 => exact hs
  | leaf start stop =>
    simp only [Index.freshAug, Option.bind_eq_bind, Option.bind_eq_some_iff] at hs
    obtain ⟨es, hes, ha⟩ := hs
    unfold FTree.freshAug
    simp only [span_points h hes, span_values hes, Option.bind_eq_bind, Option.bind_some]
    exact ha

theorem updateAug_flat {t t' : Tree (List UInt8)} (h : Ok pd D t) {id : ℕ} (hs : Index.updateAug t id = some t') :
    Ok pd D t' ∧ FTree.updateAug (flat pd t) id = some (flat pd t') := by
  refine updateAug.partial_correctness (fun t id t' => Ok pd D t → Ok pd D t' ∧
    FTree.updateAug (flat pd t) id = some (flat pd t')) ?_ t id t' hs h
  intro f ih t id t' hb h
  rw [FTree.updateAug]
  simp only [Option.bind_eq_bind, Option.bind_eq_some_iff] at hb
  obtain ⟨node, hn, aug, ha, t1, h1, hb⟩ := hb
  have hn' : (flat pd t).nodes[id]? = some node := hn
  obtain ⟨o1, e1⟩ := setAug_flat h h1
  simp only [hn', Option.bind_eq_bind, Option.bind_some, freshAug_flat h ha, e1]
  split_ifs at hb ⊢ with h2
  · exact ih t1 _ t' hb o1
  · cases hb
    exact ⟨o1, rfl⟩

theorem moveRanges_flat {t t' : Tree (List UInt8)} (h : Ok pd D t) {dst src : ℕ}
    (hs : Index.moveRanges t dst src = some t') :
    Ok pd D t' ∧ FTree.moveRanges (flat pd t) dst src = some (flat pd t') := by
  unfold Index.moveRanges at hs
  unfold FTree.moveRanges
  split_ifs at hs ⊢ with h1
  · cases hs
    exact ⟨h, rfl⟩
  · simp only [Option.bind_eq_bind, Option.bind_eq_some_iff, Option.some.injEq] at hs
    obtain ⟨x, hx, r, hr, rfl⟩ := hs
    have hd : dst < t.ranges.length := (List.getElem?_eq_some_iff.1 hx).1
    refine ⟨⟨h.dim, h.deq, h.pk, h.point, h.packed, ?_⟩, ?_⟩
    · intro y hy
      rcases List.mem_or_eq_of_mem_set hy with hy | rfl
      · exact h.rng y hy
      · exact h.rng y (List.mem_of_getElem? hr)
    · rw [ranges_flat h, ranges_flat h, hx, hr]
      simp only [Option.bind_eq_bind, Option.bind_some]
      have e := copy_flatten h.uranges h1 hd hr
      have e' : copyNonoverlapping (flat pd t).ranges (src * (flat pd t).pointDim) (dst * (flat pd t).pointDim)
        (flat pd t).pointDim = some (t.ranges.set dst r).flatten := e
      simp only [e', Option.bind_some]
      rfl

theorem unlink_flat {t t' : Tree (List UInt8)} (h : Ok pd D t) {ltr : Bool} {id : ℕ} {st : TState}
    (hs : Index.unlink t ltr id = some (t', st)) :
    Ok pd D t' ∧ FTree.unlink (flat pd t) ltr id = some (flat pd t', st) := by
  unfold Index.unlink at hs
  unfold FTree.unlink
  split_ifs at hs ⊢ with h0
  · cases hs
    exact ⟨h.nodes _, rfl⟩
  · simp only [Option.bind_eq_bind, Option.bind_eq_some_iff] at hs
    obtain ⟨node, hn, pn, hp, hs⟩ := hs
    have hn' : (flat pd t).nodes[id]? = some node := hn
    have hp' : (flat pd t).nodes[node.parent]? = some pn := hp
    simp only [hn', hp', Option.bind_eq_bind, Option.bind_some]
    cases hl : pn.links with
    | leaf a b => rw [hl] at hs; simp at hs
    | inner c0 c1 =>
      rw [hl] at hs
      dsimp only at hs ⊢
      generalize (if (!node.isRight) = true then c1 else c0) = sib at hs ⊢
      by_cases h1 : sib = id
      · rw [if_pos h1] at hs; simp at hs
      rw [if_neg h1] at hs ⊢
      simp only [Option.bind_eq_some_iff] at hs
      obtain ⟨moved, hm, t1, g1, t2, g2, t3, g3, t4, g4, hs⟩ := hs
      have hm' : (flat pd t).nodes[sib]? = some moved := hm
      obtain ⟨o1, e1⟩ := reparent_flat h g1
      obtain ⟨o2, e2⟩ := setLinks_flat o1 g2
      obtain ⟨o3, e3⟩ := setAug_flat o2 g3
      obtain ⟨o4, e4⟩ := moveRanges_flat o3 g4
      simp only [hm', e1, e2, e3, e4, Option.bind_some]
      have fin : ∀ t5, Ok pd D t5 → (if node.isRight ≠ ltr then some (t5, TState.node node.parent) else
            (skip t5 ltr node.parent).bind fun s => some (t5, s)) = some (t', st) →
          Ok pd D t' ∧ (if node.isRight ≠ ltr then some (flat pd t5, TState.node node.parent) else
            (skip (flat pd t5).view ltr node.parent).bind fun s => some (flat pd t5, s)) = some (flat pd t', st) := by
        intro t5 o5 hs
        by_cases h5 : node.isRight ≠ ltr
        · rw [if_pos h5] at hs ⊢
          cases hs
          exact ⟨o5, rfl⟩
        · rw [if_neg h5] at hs ⊢
          rw [Option.bind_eq_some_iff] at hs
          obtain ⟨s, g6, hs⟩ := hs
          cases hs
          rw [skip_view g6]
          exact ⟨o5, rfl⟩
      by_cases h2 : node.parent ≠ 0
      · rw [if_pos h2] at hs ⊢
        rw [Option.bind_eq_some_iff] at hs
        obtain ⟨t5, g5, hs⟩ := hs
        obtain ⟨o5, e5⟩ := updateAug_flat o4 g5
        rw [e5]
        exact fin t5 o5 hs
      · rw [if_neg h2] at hs ⊢
        exact fin t4 o4 hs

theorem remove_flat {t t' : Tree (List UInt8)} (h : Ok pd D t) {ltr : Bool} {id index : ℕ} {st : TState}
    (hs : Index.remove t ltr id index = some (t', st)) :
    Ok pd D t' ∧ FTree.remove (flat pd t) ltr id index = some (flat pd t', st) := by
  unfold Index.remove at hs
  unfold FTree.remove
  simp only [Option.bind_eq_bind, Option.bind_eq_some_iff] at hs
  obtain ⟨node, hn, hs⟩ := hs
  have hn' : (flat pd t).nodes[id]? = some node := hn
  simp only [hn', Option.bind_eq_bind, Option.bind_some]
  cases hl : node.links with
  | inner a b => rw [hl] at hs; simp at hs
  | leaf a b =>
    rw [hl] at hs
    dsimp only at hs ⊢
    by_cases h0 : b = 0
    · rw [if_pos h0] at hs; simp at hs
    · rw [if_neg h0] at hs ⊢
      simp only [Option.bind_eq_some_iff] at hs
      obtain ⟨t1, g1, hs⟩ := hs
      obtain ⟨o1, e1⟩ := setLinks_flat h g1
      simp only [e1, Option.bind_some]
      split_ifs at hs ⊢ with h1 h2
      · exact unlink_flat o1 hs
      · simp only [Option.bind_eq_some_iff] at hs
        obtain ⟨t2, g2, t3, g3, s, g4, hs⟩ := hs
        obtain ⟨o2, e2⟩ := swapValues_flat o1 g2
        obtain ⟨o3, e3⟩ := updateAug_flat o2 g3
        cases hs
        simp only [e2, e3, skip_view g4, Option.bind_some]
        exact ⟨o3, trivial⟩
      · simp only [Option.bind_eq_some_iff] at hs
        obtain ⟨t2, g2, t3, g3, hs⟩ := hs
        obtain ⟨o2, e2⟩ := swapValues_flat o1 g2
        obtain ⟨o3, e3⟩ := updateAug_flat o2 g3
        cases hs
        simp only [e2, e3, Option.bind_some]
        exact ⟨o3, trivial⟩

/-- The filter of the flat tree gives the same answers. -/
def FilterSim (R : σ → τ → Prop) (f : σ → Aug → Ranges → Option Bool) (g : τ → Aug → Ranges → Option Bool) : Prop :=
  ∀ s s', R s s' → ∀ aug rng b, f s aug rng = some b → g s' aug rng = some b

/-- The action of the flat tree gives the same results on entries with a point and a packed set of the right
length. -/
def ActionSim {ρ : Type} (pd D : ℕ) (R : σ → τ → Prop) (f : σ → Entry (List UInt8) → Option (σ × ρ))
    (g : τ → Entry (List UInt8) → Option (τ × ρ)) : Prop :=
  ∀ s s', R s s' → ∀ e : Entry (List UInt8), Pt D e.point → e.packed.length = pd →
    ∀ s1 b, f s e = some (s1, b) → ∃ s1', R s1 s1' ∧ g s' e = some (s1', b)

theorem traverse_flat {t : Tree (List UInt8)} (h : Ok pd D t)
    {R : σ → τ → Prop} {f : σ → Aug → Ranges → Option Bool} {g : τ → Aug → Ranges → Option Bool}
    (hf : FilterSim R f g) {a : σ → Entry (List UInt8) → Option (σ × Bool)} {b : τ → Entry (List UInt8) → Option (τ × Bool)}
    (ha : ActionSim pd D R a b) {ltr : Bool} {s : σ} {s' : τ} (hR : R s s') {r : σ}
    (hs : Index.traverse t s ltr f a = some r) :
    ∃ r', R r r' ∧ FTree.traverse (flat pd t) s' ltr g b = some r' := by
  unfold Index.traverse at hs
  unfold FTree.traverse
  have er : root (flat pd t).view = root t := rfl
  rw [er]
  generalize root t = st at hs
  refine traverseLoop.partial_correctness t ltr f a (fun s st r => ∀ s', R s s' →
    ∃ r', R r r' ∧ FTree.traverseLoop (flat pd t) ltr g b s' st = some r') ?_ s st r hs s' hR
  clear hs hR s s' r er st
  intro F ih s st r hb s' hR
  rw [FTree.traverseLoop.eq_def]
  cases st with
  | done =>
    cases hb
    exact ⟨s', hR, rfl⟩
  | node id =>
    simp only [Option.bind_eq_bind, Option.bind_eq_some_iff] at hb
    obtain ⟨node, hn, rng, hr, en, hen, hb⟩ := hb
    have hn' : (flat pd t).nodes[id]? = some node := hn
    simp only [hn', ranges_flat h, hr, hf s s' hR _ _ _ hen, Option.bind_eq_bind, Option.bind_some]
    split_ifs at hb ⊢ with h1
    · simp only [Option.bind_eq_some_iff] at hb
      obtain ⟨st, g1, hb⟩ := hb
      simp only [enter_view g1, Option.bind_some]
      exact ih _ _ _ hb s' hR
    · simp only [Option.bind_eq_some_iff] at hb
      obtain ⟨st, g1, hb⟩ := hb
      simp only [skip_view g1, Option.bind_some]
      exact ih _ _ _ hb s' hR
  | point id index =>
    simp only [Option.bind_eq_bind, Option.bind_eq_some_iff] at hb
    obtain ⟨e, he, ⟨s1, c⟩, hact, hb⟩ := hb
    obtain ⟨s1', hR1, e1⟩ := ha s s' hR e (h.deq ▸ h.point e (List.mem_of_getElem? he)) (h.packed e (List.mem_of_getElem? he)) s1 c hact
    simp only [entry_flat h, he, e1, Option.bind_eq_bind, Option.bind_some]
    dsimp only at hb
    split_ifs at hb ⊢ with h1
    · simp only [Option.bind_eq_some_iff] at hb
      obtain ⟨st, g1, hb⟩ := hb
      simp only [next_view g1, Option.bind_some]
      exact ih _ _ _ hb s1' hR1
    · cases hb
      exact ⟨s1', hR1, rfl⟩

theorem setValue_flat {t : Tree (List UInt8)} (h : Ok pd D t) {i v : ℕ} {e : Entry (List UInt8)} (he : t.entries[i]? = some e) :
    Ok pd D { t with entries := t.entries.set i { e with value := v } } ∧
    { flat pd t with values := (flat pd t).values.set i v } =
      flat pd { t with entries := t.entries.set i { e with value := v } } := by
  obtain ⟨hi, rfl⟩ := List.getElem?_eq_some_iff.1 he
  constructor
  · refine h.of_entries fun e' he' => ?_
    rcases List.mem_or_eq_of_mem_set he' with he' | rfl
    · exact ⟨e', he', rfl, rfl⟩
    · exact ⟨_, List.getElem_mem hi, rfl, rfl⟩
  · unfold flat
    simp only [List.map_set, FTree.mk.injEq, true_and]
    have e1 : (t.entries.map Entry.point).set i t.entries[i].point = t.entries.map Entry.point := by
      have : t.entries[i].point = (t.entries.map Entry.point)[i]'(by simpa using hi) := by simp
      rw [this, List.set_getElem_self]
    have e2 : (t.entries.map Entry.packed).set i t.entries[i].packed = t.entries.map Entry.packed := by
      have : t.entries[i].packed = (t.entries.map Entry.packed)[i]'(by simpa using hi) := by simp
      rw [this, List.set_getElem_self]
    exact ⟨by rw [e1], by rw [e2], trivial⟩

theorem traverseMut_flat {t t' : Tree (List UInt8)} (h : Ok pd D t)
    {R : σ → τ → Prop} {f : σ → Aug → Ranges → Option Bool} {g : τ → Aug → Ranges → Option Bool}
    (hf : FilterSim R f g) {a : σ → Entry (List UInt8) → Option (σ × ℕ × Verdict)}
    {b : τ → Entry (List UInt8) → Option (τ × ℕ × Verdict)}
    (ha : ActionSim pd D R a b) {ltr : Bool} {s : σ} {s' : τ} (hR : R s s') {r : σ}
    (hs : Index.traverseMut t s ltr f a = some (t', r)) :
    Ok pd D t' ∧ ∃ r', R r r' ∧ FTree.traverseMut (flat pd t) s' ltr g b = some (flat pd t', r') := by
  unfold Index.traverseMut at hs
  unfold FTree.traverseMut
  have er : root (flat pd t).view = root t := rfl
  rw [er]
  generalize root t = st at hs
  refine traverseMutLoop.partial_correctness ltr f a (fun t s st r => Ok pd D t → ∀ s', R s s' →
    Ok pd D r.1 ∧ ∃ r', R r.2 r' ∧ FTree.traverseMutLoop ltr g b (flat pd t) s' st = some (flat pd r.1, r'))
    ?_ t s st (t', r) hs h s' hR
  clear hs hR s s' r er st h t t'
  intro F ih t s st r hb h s' hR
  rw [FTree.traverseMutLoop.eq_def]
  cases st with
  | done =>
    cases hb
    exact ⟨h, s', hR, rfl⟩
  | node id =>
    simp only [Option.bind_eq_bind, Option.bind_eq_some_iff] at hb
    obtain ⟨node, hn, rng, hr, en, hen, hb⟩ := hb
    have hn' : (flat pd t).nodes[id]? = some node := hn
    simp only [hn', ranges_flat h, hr, hf s s' hR _ _ _ hen, Option.bind_eq_bind, Option.bind_some]
    split_ifs at hb ⊢ with h1
    · simp only [Option.bind_eq_some_iff] at hb
      obtain ⟨st, g1, hb⟩ := hb
      simp only [enter_view g1, Option.bind_some]
      exact ih _ _ _ _ hb h s' hR
    · simp only [Option.bind_eq_some_iff] at hb
      obtain ⟨st, g1, hb⟩ := hb
      simp only [skip_view g1, Option.bind_some]
      exact ih _ _ _ _ hb h s' hR
  | point id index =>
    simp only [Option.bind_eq_bind, Option.bind_eq_some_iff] at hb
    obtain ⟨e, he, ⟨s1, v, c⟩, hact, hb⟩ := hb
    obtain ⟨s1', hR1, e1⟩ := ha s s' hR e (h.deq ▸ h.point e (List.mem_of_getElem? he)) (h.packed e (List.mem_of_getElem? he)) s1 (v, c) hact
    obtain ⟨o1, e2⟩ := setValue_flat h (v := v) he
    simp only [entry_flat h, he, e1, Option.bind_eq_bind, Option.bind_some, e2]
    dsimp only at hb
    cases c with
    | brk =>
      cases hb
      exact ⟨o1, s1', hR1, rfl⟩
    | remove =>
      simp only [Option.bind_eq_some_iff] at hb
      obtain ⟨⟨t2, st⟩, g1, hb⟩ := hb
      obtain ⟨o2, e3⟩ := remove_flat o1 g1
      simp only [e3, Option.bind_some]
      exact ih _ _ _ _ hb o2 s1' hR1
    | retain =>
      by_cases h1 : v ≠ e.value
      · rw [if_pos h1] at hb
        simp only [if_pos h1]
        simp only [Option.bind_eq_some_iff] at hb
        obtain ⟨t2, g1, st, g2, hb⟩ := hb
        obtain ⟨o2, e3⟩ := updateAug_flat o1 g1
        simp only [e3, Option.bind_some, next_view g2]
        exact ih _ _ _ _ hb o2 s1' hR1
      · rw [if_neg h1] at hb
        simp only [if_neg h1]
        simp only [Option.bind_eq_some_iff] at hb
        obtain ⟨t2, g1, st, g2, hb⟩ := hb
        cases g1
        simp only [Option.bind_some, next_view g2]
        exact ih _ _ _ _ hb o1 s1' hR1

end Sortnet.Index.Flat
