import Verif.Proof.FlatTree
import Verif.Proof.IndexHistory

/-!
# The index with flat vectors computes the same as the index with lists of entries
-/

namespace Sortnet.Index.Flat

variable {σ τ : Type} {n : ℕ}

/-- The flat vectors of an index. -/
def flatIdx (idx : OutputSetIndex n) : FIndex n where
  trees := idx.trees.map (flat (packedLen n))
  pointDim := idx.pointDim
  points := (idx.loose.map Entry.point).flatten
  packedDim := packedLen n
  packed := (idx.loose.map Entry.packed).flatten
  values := idx.loose.map Entry.value

theorem packedLen_pos (n : ℕ) : 0 < packedLen n := by
  have : 0 < 2 ^ n := Nat.two_pow_pos n
  unfold packedLen
  omega

/-- All rows of an index have the right length. -/
structure OkI (idx : OutputSetIndex n) : Prop where
  dim : 0 < idx.pointDim
  trees : ∀ t ∈ idx.trees, Ok (packedLen n) idx.pointDim t
  point : ∀ e ∈ idx.loose, Pt idx.pointDim e.point
  packed : ∀ e ∈ idx.loose, e.packed.length = packedLen n

theorem OkI.upoints {idx : OutputSetIndex n} (h : OkI idx) : Uniform idx.pointDim (idx.loose.map Entry.point) := by
  intro x hx
  obtain ⟨e, he, rfl⟩ := List.mem_map.1 hx
  exact (h.point e he).1

theorem OkI.upacked {idx : OutputSetIndex n} (h : OkI idx) : Uniform (packedLen n) (idx.loose.map Entry.packed) := by
  intro x hx
  obtain ⟨e, he, rfl⟩ := List.mem_map.1 hx
  exact h.packed e he

/-- A buffer with other contents does not matter. -/
theorem unpackBits_old (old old' : List Bool) (src : List UInt8) (hl : old.length = old'.length)
    (hs : (old.length + 7) / 8 ≤ src.length) : unpackBits old src = unpackBits old' src := by
  induction src generalizing old old' with
  | nil =>
    simp only [List.length_nil] at hs
    rw [unpackBits, if_pos (by omega), unpackBits, if_pos (by omega)]
  | cons b src ih =>
    rw [unpackBits, unpackBits, ← hl]
    split_ifs with h1 h2
    · rfl
    · show Option.map _ _ = Option.map _ _
      rw [ih (old.drop 8) (old'.drop 8) (by simp [hl]) (by simp only [List.length_drop, List.length_cons] at *; omega)]
    · rfl

theorem unpackInto_eq {buffer : List Bool} (hb : buffer.length = 2 ^ n) {packed : List UInt8}
    (hp : packed.length = packedLen n) {s : Bitmap n} (hs : unpackSet n packed = some s) :
    ∃ buffer', buffer'.length = 2 ^ n ∧ unpackInto n buffer packed = some (buffer', s) := by
  unfold unpackSet at hs
  unfold unpackInto
  rw [unpackBits_old buffer (List.replicate (2 ^ n) false) packed (by simp [hb]) (by rw [hb, hp]; exact le_rfl)]
  simp only [Option.bind_eq_bind, Option.bind_eq_some_iff] at hs ⊢
  obtain ⟨l, h1, h2⟩ := hs
  split_ifs at h2 with hl
  cases h2
  exact ⟨l, hl, l, h1, by rw [dif_pos hl]⟩

/-- The state with a buffer. -/
def WithBuf (n : ℕ) (s : σ) (s' : σ × List Bool) : Prop := s'.1 = s ∧ s'.2.length = 2 ^ n

theorem withBuf_new (s : σ) : WithBuf n s (s, newBuffer n) := ⟨rfl, by simp [newBuffer]⟩

/-- One step of an action without verdict. -/
def StepSim (pd D : ℕ) (R : σ → τ → Prop) (f : σ → Entry (List UInt8) → Option σ)
    (g : τ → Entry (List UInt8) → Option τ) : Prop :=
  ∀ s s', R s s' → ∀ e : Entry (List UInt8), Pt D e.point → e.packed.length = pd → ∀ s1, f s e = some s1 →
    ∃ s1', R s1 s1' ∧ g s' e = some s1'

theorem StepSim.action {pd D : ℕ} {R : σ → τ → Prop} {f : σ → Entry (List UInt8) → Option σ}
    {g : τ → Entry (List UInt8) → Option τ} (h : StepSim pd D R f g) :
    ActionSim pd D R (fun s e => (f s e).map fun s => (s, true)) (fun s e => (g s e).map fun s => (s, true)) := by
  intro s s' hR e h1 h2 s1 b hs
  obtain ⟨s2, h3, h4⟩ := Option.map_eq_some_iff.1 hs
  cases h4
  obtain ⟨s1', h5, h6⟩ := h s s' hR e h1 h2 _ h3
  exact ⟨s1', h5, by show Option.map _ (g s' e) = _; rw [h6]; rfl⟩

theorem foldTrees_flat {pd D : ℕ} {R : σ → τ → Prop} {f : σ → Aug → Ranges → Option Bool}
    {g : τ → Aug → Ranges → Option Bool} (hf : FilterSim R f g)
    {a : σ → Entry (List UInt8) → Option (σ × Bool)} {b : τ → Entry (List UInt8) → Option (τ × Bool)}
    (ha : ActionSim pd D R a b) {ltr : Bool} {trees : List (Tree (List UInt8))} (h : ∀ t ∈ trees, Ok pd D t) {s : σ}
    {s' : τ} (hR : R s s') {r : σ} (hs : trees.foldlM (fun s t => traverse t s ltr f a) s = some r) :
    ∃ r', R r r' ∧ (trees.map (flat pd)).foldlM (fun s t => FTree.traverse t s ltr g b) s' = some r' := by
  induction trees generalizing s s' with
  | nil => cases hs; exact ⟨s', hR, rfl⟩
  | cons t trees ih =>
    rw [List.foldlM_cons, Option.bind_eq_bind, Option.bind_eq_some_iff] at hs
    obtain ⟨s1, h1, h2⟩ := hs
    obtain ⟨s1', h3, h4⟩ := traverse_flat (h t (List.mem_cons_self ..)) hf ha hR h1
    rw [List.map_cons, List.foldlM_cons, h4]
    exact ih (fun t ht => h t (List.mem_cons_of_mem _ ht)) h3 h2

theorem entryI_flat {idx : OutputSetIndex n} (h : OkI idx) {i : ℕ} {e : Entry (List UInt8)} (he : idx.loose[i]? = some e)
    (v : ℕ) : FIndex.entry (flatIdx idx) i v = some { e with value := v } := by
  unfold FIndex.entry flatIdx
  dsimp only
  rw [row_flatten h.dim h.upoints, row_flatten (packedLen_pos n) h.upacked]
  simp [he]

theorem forLoose_flat {idx : OutputSetIndex n} (h : OkI idx) {R : σ → τ → Prop} {f : σ → Entry (List UInt8) → Option σ}
    {g : τ → Entry (List UInt8) → Option τ} (hfg : StepSim (packedLen n) idx.pointDim R f g) {s : σ} {s' : τ}
    (hR : R s s') {r : σ} (hs : idx.loose.foldlM f s = some r) :
    ∃ r', R r r' ∧ FIndex.forLoose (flatIdx idx) g s' = some r' := by
  have key : ∀ (l pre : List (Entry (List UInt8))), pre ++ l = idx.loose → ∀ (s : σ) (s' : τ), R s s' →
      l.foldlM f s = some r → ∃ r', R r r' ∧ ((l.map Entry.value).zipIdx pre.length).foldlM (fun s vi => do
        let e ← FIndex.entry (flatIdx idx) vi.2 vi.1
        g s e) s' = some r' := by
    intro l
    induction l with
    | nil => intro pre _ s s' hR hs; cases hs; exact ⟨s', hR, rfl⟩
    | cons e l ih =>
      intro pre hp s s' hR hs
      rw [List.foldlM_cons, Option.bind_eq_bind, Option.bind_eq_some_iff] at hs
      obtain ⟨s1, h1, h2⟩ := hs
      have he : idx.loose[pre.length]? = some e := by rw [← hp]; simp
      have hm := List.mem_of_getElem? he
      obtain ⟨s1', h3, h4⟩ := hfg s s' hR e (h.point e hm) (h.packed e hm) _ h1
      rw [List.map_cons, List.zipIdx_cons, List.foldlM_cons]
      dsimp only
      rw [entryI_flat h he]
      simp only [Option.bind_eq_bind, Option.bind_some]
      rw [h4]
      have := ih (pre ++ [e]) (by rw [← hp]; simp) s1 s1' h3 h2
      rw [List.length_append, List.length_singleton] at this
      exact this
  exact key idx.loose [] rfl s s' hR hs

theorem hitAction_sim (D : ℕ) (d : Dir) (q : Bitmap n) (abs : List ℕ) :
    StepSim (packedLen n) D (WithBuf n) (OutputSetIndex.hitAction d q abs) (FIndex.hitAction d q abs) := by
  rintro s ⟨_, buf⟩ ⟨rfl, hb⟩ e _ hp s1 hs
  unfold OutputSetIndex.hitAction at hs
  unfold FIndex.hitAction
  dsimp only at hb hs ⊢
  split_ifs at hs ⊢ with h1
  · cases hs; exact ⟨_, ⟨rfl, hb⟩, rfl⟩
  simp only [Option.bind_eq_bind, Option.bind_eq_some_iff] at hs
  obtain ⟨ok, h2, hs⟩ := hs
  simp only [h2, Option.bind_eq_bind, Option.bind_some]
  split_ifs at hs ⊢ with h3
  · cases hs; exact ⟨_, ⟨rfl, hb⟩, rfl⟩
  simp only [Option.bind_eq_some_iff] at hs
  obtain ⟨cand, h4, hs⟩ := hs
  obtain ⟨buf', h5, h6⟩ := unpackInto_eq hb hp h4
  simp only [h6, Option.bind_some]
  split_ifs at hs ⊢ with h7
  · cases hs; exact ⟨_, ⟨rfl, h5⟩, rfl⟩
  simp only [Option.bind_eq_some_iff] at hs
  obtain ⟨perm, h8, hs⟩ := hs
  simp only [h8, Option.bind_some]
  cases perm with
  | some p => cases hs; exact ⟨_, ⟨rfl, h5⟩, rfl⟩
  | none => cases hs; exact ⟨_, ⟨rfl, h5⟩, rfl⟩

theorem valueAction_sim (D : ℕ) (d : Dir) (q : Bitmap n) (abs : List ℕ) :
    StepSim (packedLen n) D (WithBuf n) (OutputSetIndex.valueAction d q abs) (FIndex.valueAction d q abs) := by
  rintro s ⟨_, buf⟩ ⟨rfl, hb⟩ e _ hp s1 hs
  unfold OutputSetIndex.valueAction at hs
  unfold FIndex.valueAction
  dsimp only at hb hs ⊢
  split_ifs at hs ⊢ with h1
  · cases hs; exact ⟨_, ⟨rfl, hb⟩, rfl⟩
  simp only [Option.bind_eq_bind, Option.bind_eq_some_iff] at hs
  obtain ⟨ok, h2, hs⟩ := hs
  simp only [h2, Option.bind_eq_bind, Option.bind_some]
  split_ifs at hs ⊢ with h3
  · cases hs; exact ⟨_, ⟨rfl, hb⟩, rfl⟩
  simp only [Option.bind_eq_some_iff] at hs
  obtain ⟨cand, h4, hs⟩ := hs
  obtain ⟨buf', h5, h6⟩ := unpackInto_eq hb hp h4
  simp only [h6, Option.bind_some]
  by_cases h7 : cand.toList ≠ q.toList
  · rw [if_pos h7] at hs ⊢
    simp only [Option.bind_eq_some_iff] at hs
    obtain ⟨perm, h8, hs⟩ := hs
    simp only [h8, Option.bind_some]
    split_ifs at hs ⊢
    · cases hs; exact ⟨_, ⟨rfl, h5⟩, rfl⟩
    · cases hs; exact ⟨_, ⟨rfl, h5⟩, rfl⟩
  · rw [if_neg h7] at hs ⊢
    cases hs; exact ⟨_, ⟨rfl, h5⟩, rfl⟩

theorem eachAction_sim (D : ℕ) :
    StepSim (packedLen n) D (WithBuf n) (OutputSetIndex.eachAction n) (FIndex.eachAction n) := by
  rintro s ⟨_, buf⟩ ⟨rfl, hb⟩ e _ hp s1 hs
  unfold OutputSetIndex.eachAction at hs
  unfold FIndex.eachAction
  dsimp only at hb hs ⊢
  simp only [Option.bind_eq_bind, Option.bind_eq_some_iff] at hs
  obtain ⟨cand, h4, hs⟩ := hs
  obtain ⟨buf', h5, h6⟩ := unpackInto_eq hb hp h4
  simp only [h6, Option.bind_eq_bind, Option.bind_some]
  cases hs
  exact ⟨_, ⟨rfl, h5⟩, rfl⟩

theorem updateAction_sim (D : ℕ) (d : Dir) (q : Bitmap n) (abs : List ℕ) (value : ℕ) :
    ActionSim (packedLen n) D (WithBuf n) (OutputSetIndex.updateAction d q abs value)
      (FIndex.updateAction d q abs value) := by
  rintro s ⟨_, buf⟩ ⟨rfl, hb⟩ e _ hp s1 b hs
  unfold OutputSetIndex.updateAction at hs
  unfold FIndex.updateAction
  dsimp only at hb hs ⊢
  by_cases h1 : (!d.wouldBeUpdated e.value value) = true
  · rw [if_pos h1] at hs ⊢
    cases hs; exact ⟨_, ⟨rfl, hb⟩, rfl⟩
  rw [if_neg h1] at hs ⊢
  simp only [Option.bind_eq_bind, Option.bind_eq_some_iff] at hs
  obtain ⟨ok, h2, hs⟩ := hs
  simp only [h2, Option.bind_eq_bind, Option.bind_some]
  by_cases h3 : (!ok) = true
  · rw [if_pos h3] at hs ⊢
    cases hs; exact ⟨_, ⟨rfl, hb⟩, rfl⟩
  rw [if_neg h3] at hs ⊢
  simp only [Option.bind_eq_some_iff] at hs
  obtain ⟨cand, h4, hs⟩ := hs
  obtain ⟨buf', h5, h6⟩ := unpackInto_eq hb hp h4
  simp only [h6, Option.bind_some]
  by_cases h7 : cand.toList = q.toList
  · rw [if_pos h7] at hs ⊢
    split_ifs at hs ⊢
    cases hs; exact ⟨_, ⟨rfl, h5⟩, rfl⟩
  · rw [if_neg h7] at hs ⊢
    simp only [Option.bind_eq_some_iff] at hs
    obtain ⟨ok, h8, hs⟩ := hs
    simp only [h8, Option.bind_some]
    split_ifs at hs ⊢
    · cases hs; exact ⟨_, ⟨rfl, h5⟩, rfl⟩
    · cases hs; exact ⟨_, ⟨rfl, h5⟩, rfl⟩

theorem lookup_flat {idx : OutputSetIndex n} (h : OkI idx) {d : Dir} {q : Bitmap n} {abs : List ℕ} {r : Option ℕ}
    (hs : idx.lookup d q abs = some r) : (flatIdx idx).lookup d q abs = some r := by
  unfold OutputSetIndex.lookup at hs
  unfold FIndex.lookup
  simp only [Option.bind_eq_bind, Option.bind_eq_some_iff] at hs
  obtain ⟨s1, h1, h2⟩ := hs
  obtain ⟨s1', h3, h4⟩ := foldTrees_flat (R := WithBuf n)
    (g := fun s aug rng => OutputSetIndex.nodeFilter d abs s.1 aug rng)
    (fun s s' hR aug rng b hb => by rw [← hb]; dsimp only; rw [hR.1]) (valueAction_sim idx.pointDim d q abs).action h.trees
    (withBuf_new none) h1
  obtain ⟨s2', h5, h6⟩ := forLoose_flat h (valueAction_sim idx.pointDim d q abs) h3 h2
  rw [show (flatIdx idx).trees = idx.trees.map (flat (packedLen n)) from rfl, h4]
  simp only [Option.bind_eq_bind, Option.bind_some, h6, h5.1]

theorem lookupSubsuming_flat {idx : OutputSetIndex n} (h : OkI idx) {d : Dir} {q : Bitmap n} {abs : List ℕ}
    {r : Option (OutputSetIndex.Hit n)} (hs : idx.lookupSubsuming d q abs = some r) :
    (flatIdx idx).lookupSubsuming d q abs = some r := by
  unfold OutputSetIndex.lookupSubsuming at hs
  unfold FIndex.lookupSubsuming
  simp only [Option.bind_eq_bind, Option.bind_eq_some_iff] at hs
  obtain ⟨s1, h1, h2⟩ := hs
  obtain ⟨s1', h3, h4⟩ := foldTrees_flat (R := WithBuf n)
    (g := fun s aug rng => OutputSetIndex.nodeFilter d abs (s.1.map Prod.fst) aug rng)
    (fun s s' hR aug rng b hb => by rw [← hb]; dsimp only; rw [hR.1]) (hitAction_sim idx.pointDim d q abs).action h.trees
    (withBuf_new none) h1
  obtain ⟨s2', h5, h6⟩ := forLoose_flat h (hitAction_sim idx.pointDim d q abs) h3 h2
  rw [show (flatIdx idx).trees = idx.trees.map (flat (packedLen n)) from rfl, h4]
  simp only [Option.bind_eq_bind, Option.bind_some, h6, h5.1]

theorem forEach_flat {idx : OutputSetIndex n} (h : OkI idx) {d : Dir}
    {r : List (Bitmap n × List ℕ × ℕ)} (hs : idx.forEach d = some r) :
    (flatIdx idx).forEach d = some r := by
  unfold OutputSetIndex.forEach at hs
  unfold FIndex.forEach
  simp only [Option.bind_eq_bind, Option.bind_eq_some_iff] at hs
  obtain ⟨s1, h1, h2⟩ := hs
  obtain ⟨s1', h3, h4⟩ := foldTrees_flat (R := WithBuf n) (g := fun _ _ _ => some true)
    (fun s s' hR aug rng b hb => hb) (eachAction_sim idx.pointDim).action h.trees
    (withBuf_new []) h1
  obtain ⟨s2', h5, h6⟩ := forLoose_flat h (eachAction_sim idx.pointDim) h3 h2
  rw [show (flatIdx idx).trees = idx.trees.map (flat (packedLen n)) from rfl, h4]
  simp only [Option.bind_eq_bind, Option.bind_some, h6, h5.1]

theorem len_view (pd : ℕ) (t : Tree (List UInt8)) : (flat pd t).len = Index.len t := rfl

theorem len_flat (idx : OutputSetIndex n) : (flatIdx idx).len = idx.len := by
  unfold FIndex.len OutputSetIndex.len flatIdx
  simp only [List.length_map, List.map_map]
  rfl

theorem isEmpty_flat (idx : OutputSetIndex n) : (flatIdx idx).isEmpty = idx.isEmpty := by
  unfold FIndex.isEmpty OutputSetIndex.isEmpty flatIdx
  simp

/-- The loose entries as three vectors. -/
def flatLoose (l : List (Entry (List UInt8))) : List ℕ × List UInt8 × List ℕ :=
  ((l.map Entry.point).flatten, (l.map Entry.packed).flatten, l.map Entry.value)

theorem mergeTrees_flat {pd D : ℕ} {d : Dir} {trees trees' : List (Tree (List UInt8))} {l l' : List (Entry (List UInt8))}
    (h : ∀ t ∈ trees, Ok pd D t) (hl : ∀ e ∈ l, Pt D e.point ∧ e.packed.length = pd)
    (hs : OutputSetIndex.mergeTrees d trees l = some (trees', l')) :
    (∀ t ∈ trees', Ok pd D t) ∧ (∀ e ∈ l', Pt D e.point ∧ e.packed.length = pd) ∧
    FIndex.mergeTrees d (trees.map (flat pd)) (flatLoose l) = some (trees'.map (flat pd), flatLoose l') := by
  induction trees generalizing l with
  | nil => cases hs; exact ⟨by simp, hl, rfl⟩
  | cons t trees ih =>
    unfold OutputSetIndex.mergeTrees at hs
    rw [List.map_cons]
    unfold FIndex.mergeTrees
    rw [len_view, show (flatLoose l).2.2.length = l.length by simp [flatLoose]]
    split_ifs at hs ⊢ with h1
    · cases hs; exact ⟨h, hl, rfl⟩
    · simp only [Option.bind_eq_bind, Option.bind_eq_some_iff] at hs
      obtain ⟨l1, h2, h3⟩ := hs
      obtain ⟨l1', ⟨h4, h4'⟩, h5⟩ := traverse_flat (h t (List.mem_cons_self ..))
        (R := fun l l' => l' = flatLoose l ∧ ∀ e ∈ l, Pt D e.point ∧ e.packed.length = pd)
        (g := fun _ _ _ => some true)
        (b := fun l e => some ((l.1 ++ e.point, l.2.1 ++ e.packed, l.2.2 ++ [e.value]), true))
        (fun s s' hR aug rng b hb => hb)
        (by
          rintro s s' ⟨rfl, hs'⟩ e hp hk s1 b he
          cases he
          refine ⟨flatLoose (s ++ [e]), ⟨rfl, ?_⟩, ?_⟩
          · intro x hx
            rcases List.mem_append.1 hx with hx | hx
            · exact hs' x hx
            · rw [List.mem_singleton.1 hx]; exact ⟨hp, hk⟩
          · simp [flatLoose])
        ⟨rfl, hl⟩ h2
      obtain ⟨g1, g2, g3⟩ := ih (fun t ht => h t (List.mem_cons_of_mem _ ht)) h4' h3
      refine ⟨g1, g2, ?_⟩
      rw [h5]
      simp only [Option.bind_eq_bind, Option.bind_some]
      rw [h4]
      exact g3

theorem insertionSort_flat (pd : ℕ) (trees : List (Tree (List UInt8))) :
    (trees.map (flat pd)).insertionSort (fun a b => b.len ≤ a.len) =
      (trees.insertionSort fun a b => Index.len b ≤ Index.len a).map (flat pd) := by
  have key : ∀ (t : Tree (List UInt8)) (ts : List (Tree (List UInt8))),
      (ts.map (flat pd)).orderedInsert (fun a b => b.len ≤ a.len) (flat pd t) =
        (ts.orderedInsert (fun a b => Index.len b ≤ Index.len a) t).map (flat pd) := by
    intro t ts
    induction ts with
    | nil => rfl
    | cons u ts ih =>
      rw [List.map_cons, List.orderedInsert_cons, List.orderedInsert_cons, len_view, len_view]
      split_ifs
      · rfl
      · rw [ih]; rfl
  induction trees with
  | nil => rfl
  | cons t ts ih =>
    rw [List.map_cons, List.insertionSort_cons, List.insertionSort_cons, ih, key]

theorem insertNew_flat {idx idx' : OutputSetIndex n} (h : OkI idx) {d : Dir} {q : Bitmap n} {abs : List ℕ}
    (ha : Pt idx.pointDim abs) {value : ℕ} (hs : idx.insertNew d q abs value = some idx') :
    OkI idx' ∧ idx'.pointDim = idx.pointDim ∧ (flatIdx idx).insertNew d q abs value = some (flatIdx idx') := by
  unfold OutputSetIndex.insertNew at hs
  unfold FIndex.insertNew
  have hp : FIndex.packInto ((flatIdx idx).packed ++ List.replicate (flatIdx idx).packedDim 0)
      (flatIdx idx).packed.length q = some ((flatIdx idx).packed ++ q.packed) := by
    unfold FIndex.packInto
    rw [if_pos (by rw [List.length_append, List.length_replicate, packed_length]; rfl)]
    unfold overwrite
    rw [List.take_left, List.drop_eq_nil_of_le (by rw [List.length_append, List.length_replicate, packed_length]; exact le_rfl),
      List.append_nil]
  rw [hp]
  simp only [Option.bind_eq_bind, Option.bind_some]
  have hlen : ((flatIdx idx).values ++ [value]).length =
      (idx.loose ++ [({ point := abs, packed := q.packed, value := value } : Entry (List UInt8))]).length := by
    simp [flatIdx]
  have hfl : ((flatIdx idx).points ++ abs, (flatIdx idx).packed ++ q.packed, (flatIdx idx).values ++ [value]) =
      flatLoose (idx.loose ++ [{ point := abs, packed := q.packed, value := value }]) := by
    simp [flatLoose, flatIdx]
  have hl : ∀ e ∈ idx.loose ++ [({ point := abs, packed := q.packed, value := value } : Entry (List UInt8))],
      Pt idx.pointDim e.point ∧ e.packed.length = packedLen n := by
    intro e he
    rcases List.mem_append.1 he with he | he
    · exact ⟨h.point e he, h.packed e he⟩
    · rw [List.mem_singleton.1 he]; exact ⟨ha, packed_length q⟩
  rw [hlen]
  dsimp only at hs
  split_ifs at hs ⊢ with h1
  · simp only [Option.bind_eq_bind, Option.bind_eq_some_iff] at hs
    obtain ⟨⟨trees, loose⟩, h2, tree, h3, h4⟩ := hs
    dsimp only at h3 h4
    obtain ⟨g1, g2, g3⟩ := mergeTrees_flat (pd := packedLen n) (D := idx.pointDim) (by
      intro t ht
      exact h.trees t ((List.mem_insertionSort _).1 (List.mem_reverse.1 ht))) hl h2
    obtain ⟨g4, g5⟩ := new_flat h.dim (packedLen_pos n) (fun e he => (g2 e he).1) (fun e he => (g2 e he).2) h3
    rw [show (flatIdx idx).trees = idx.trees.map (flat (packedLen n)) from rfl, insertionSort_flat, ← List.map_reverse,
      hfl, g3]
    cases h4
    refine ⟨⟨h.dim, ?_, by simp, by simp⟩, rfl, ?_⟩
    · intro t ht
      rcases List.mem_append.1 ht with ht | ht
      · exact g1 t (List.mem_reverse.1 ht)
      · rw [List.mem_singleton.1 ht]; exact g4
    · simp only [Option.bind_some, flatLoose]
      have g5' := g5
      rw [show (flatIdx idx).pointDim = idx.pointDim from rfl, show (flatIdx idx).packedDim = packedLen n from rfl, g5]
      simp [flatIdx]
  · cases hs
    refine ⟨⟨h.dim, h.trees, fun e he => (hl e he).1, fun e he => (hl e he).2⟩, rfl, ?_⟩
    simp [flatIdx]

theorem updateTrees_flat {D : ℕ} {d : Dir} {q : Bitmap n} {abs : List ℕ} {value : ℕ}
    {trees trees' : List (Tree (List UInt8))} (h : ∀ t ∈ trees, Ok (packedLen n) D t) {s r : Bool}
    {s' : Bool × List Bool} (hR : WithBuf n s s')
    (hs : OutputSetIndex.updateTrees d q abs value s trees = some (r, trees')) :
    (∀ t ∈ trees', Ok (packedLen n) D t) ∧ ∃ r', WithBuf n r r' ∧
      FIndex.updateTrees d q abs value s' (trees.map (flat (packedLen n))) = some (r', trees'.map (flat (packedLen n))) := by
  induction trees generalizing s s' trees' with
  | nil => cases hs; exact ⟨by simp, s', hR, rfl⟩
  | cons t trees ih =>
    unfold OutputSetIndex.updateTrees at hs
    simp only [Option.bind_eq_bind, Option.bind_eq_some_iff] at hs
    obtain ⟨⟨t1, s1⟩, h1, ⟨s2, rest⟩, h2, h3⟩ := hs
    cases h3
    obtain ⟨o1, s1', hR1, e1⟩ := traverseMut_flat (h t (List.mem_cons_self ..))
      (g := fun _ aug rng => OutputSetIndex.updateFilter d abs value aug rng)
      (fun s s' hR aug rng b hb => hb) (updateAction_sim D d q abs value) hR h1
    obtain ⟨o2, r', hR2, e2⟩ := ih (fun t ht => h t (List.mem_cons_of_mem _ ht)) hR1 h2
    refine ⟨?_, r', hR2, ?_⟩
    · intro t ht
      rcases List.mem_cons.1 ht with rfl | ht
      · exact o1
      · exact o2 t ht
    · rw [List.map_cons]
      unfold FIndex.updateTrees
      rw [e1]
      simp only [Option.bind_eq_bind, Option.bind_some]
      rw [e2]
      rfl

theorem moveLast_flat {α : Type} {k : ℕ} (hk : 0 < k) {l : List (List α)} (h : Uniform k l) {i : ℕ} {x : List α}
    (hi : i < l.length - 1) (hx : l.getLast? = some x) :
    ∃ v, FIndex.moveLast l.flatten k (l.length - 1) i = some v ∧
      v.take ((l.length - 1) * k) = ((l.set i x).dropLast).flatten := by
  have hxk : x.length = k := h x (List.mem_of_getLast? hx)
  unfold FIndex.moveLast
  have e1 : l.flatten.take ((l.length - 1) * k) = l.dropLast.flatten := by
    rw [take_flatten h, List.dropLast_eq_take]
  have e2 : l.flatten.drop ((l.length - 1) * k) = x := by
    rw [drop_flatten h]
    have hd := List.dropLast_append_getLast? x hx
    conv_lhs => rw [← hd]
    rw [List.drop_left' (by simp)]
    simp
  have hu : Uniform k l.dropLast := fun y hy => h y (List.mem_of_mem_dropLast hy)
  rw [if_pos (by rw [length_flatten h]; exact Nat.mul_le_mul_right _ (by omega)), e1, e2]
  simp only [Option.bind_eq_bind]
  have hi' : i < l.dropLast.length := by simp; omega
  rw [row_flatten hk hu, List.getElem?_eq_getElem hi']
  simp only [Option.bind_some]
  rw [if_pos (by rw [hxk]; exact hu _ (List.getElem_mem _)), overwrite_flatten hu hi' hxk]
  refine ⟨_, rfl, ?_⟩
  rw [List.take_left' ?_]
  · congr 1
    rw [List.dropLast_eq_take, List.dropLast_eq_take, List.take_set, List.length_set]
  · rw [length_flatten (hu.set hxk)]
    simp

theorem removeLoose_flat {idx : OutputSetIndex n} (h : OkI idx) {i : ℕ} (hi : i < idx.loose.length)
    {last : Entry (List UInt8)} (hl : idx.loose.getLast? = some last) :
    FIndex.removeLoose (flatIdx idx) i =
      some (flatIdx { idx with loose := (idx.loose.set i last).dropLast }) := by
  unfold FIndex.removeLoose
  have hv : (flatIdx idx).values = idx.loose.map Entry.value := rfl
  have hpk : (flatIdx idx).packedDim = packedLen n := rfl
  have hpd : (flatIdx idx).pointDim = idx.pointDim := rfl
  have hpt : (flatIdx idx).points = (idx.loose.map Entry.point).flatten := rfl
  have hpa : (flatIdx idx).packed = (idx.loose.map Entry.packed).flatten := rfl
  simp only [hv, hpk, hpd, hpt, hpa, List.getElem?_map, List.getElem?_eq_getElem hi, List.getLast?_map, hl, Option.map_some,
    Option.bind_eq_bind, Option.bind_some, List.length_dropLast, List.length_set, List.length_map]
  have hval : ((idx.loose.map Entry.value).set i last.value).dropLast =
      ((idx.loose.set i last).dropLast).map Entry.value := by
    rw [List.map_dropLast, List.map_set]
  by_cases hlast : i = idx.loose.length - 1
  · simp only [hlast, ne_eq, not_true_eq_false, if_false, Option.bind_some]
    have hd : (idx.loose.set (idx.loose.length - 1) last).dropLast = idx.loose.dropLast := by
      rw [List.dropLast_eq_take, List.dropLast_eq_take, List.length_set, List.take_set, List.set_eq_of_length_le]
      simp
    have e1 := take_flatten h.upoints (idx.loose.length - 1)
    have e2 := take_flatten h.upacked (idx.loose.length - 1)
    rw [e1, e2]
    rw [hlast] at hval
    rw [hval, hd]
    simp only [flatIdx, List.map_dropLast, List.dropLast_eq_take, List.map_take]
  · obtain ⟨v1, g1, g2⟩ := moveLast_flat h.dim h.upoints (i := i) (x := last.point) (by simp; omega)
      (by rw [List.getLast?_map, hl]; rfl)
    obtain ⟨v2, g3, g4⟩ := moveLast_flat (packedLen_pos n) h.upacked (i := i) (x := last.packed) (by simp; omega)
      (by rw [List.getLast?_map, hl]; rfl)
    rw [List.length_map] at g1 g2 g3 g4
    simp only [ne_eq, hlast, not_false_eq_true, if_true, g1, g3, Option.bind_some, g2, g4, hval]
    simp only [flatIdx, List.map_dropLast, List.map_set]

theorem OkI.loose {idx : OutputSetIndex n} (h : OkI idx) {es : List (Entry (List UInt8))}
    (hes : ∀ e ∈ es, ∃ e' ∈ idx.loose, e.point = e'.point ∧ e.packed = e'.packed) : OkI (n := n) { idx with loose := es } where
  dim := h.dim
  trees := h.trees
  point := fun e he => by obtain ⟨e', h1, h2, _⟩ := hes e he; rw [h2]; exact h.point e' h1
  packed := fun e he => by obtain ⟨e', h1, _, h3⟩ := hes e he; rw [h3]; exact h.packed e' h1

theorem updateLoose_flat {d : Dir} {q : Bitmap n} {abs : List ℕ} {value : ℕ} (k : ℕ) :
    ∀ {idx : OutputSetIndex n} (_ : OkI idx) {s r : Bool} {s' : Bool × List Bool} (_ : WithBuf n s s') {i : ℕ}
      (_ : idx.loose.length - i = k) {loose' : List (Entry (List UInt8))}
      (_ : OutputSetIndex.updateLoose d q abs value s idx.loose i = some (r, loose')),
    OkI (n := n) { idx with loose := loose' } ∧ ∃ r', WithBuf n r r' ∧
      FIndex.updateLoose d q abs value s' (flatIdx idx) i = some (r', flatIdx { idx with loose := loose' }) := by
  induction k using Nat.strongRecOn with
  | _ k ih =>
  intro idx h s r s' hR i hk loose' hs
  rw [OutputSetIndex.updateLoose] at hs
  rw [FIndex.updateLoose]
  have hvl : (flatIdx idx).values.length = idx.loose.length := by simp [flatIdx]
  rw [hvl]
  by_cases hi : i < idx.loose.length
  · rw [dif_pos hi] at hs
    rw [if_pos hi]
    simp only [Option.bind_eq_bind, Option.bind_eq_some_iff] at hs
    obtain ⟨⟨s1, v, verdict⟩, h1, h2⟩ := hs
    have he : idx.loose[i]? = some idx.loose[i] := List.getElem?_eq_getElem hi
    have hm := List.mem_of_getElem? he
    obtain ⟨s1', hR1, e1⟩ := updateAction_sim idx.pointDim d q abs value s s' hR idx.loose[i] (h.point _ hm)
      (h.packed _ hm) _ _ h1
    have hv : (flatIdx idx).values[i]? = some idx.loose[i].value := by
      show (idx.loose.map Entry.value)[i]? = _
      rw [List.getElem?_map, he]; rfl
    simp only [hv, entryI_flat h he, Option.bind_eq_bind, Option.bind_some]
    rw [show ({ point := idx.loose[i].point, packed := idx.loose[i].packed, value := idx.loose[i].value } :
      Entry (List UInt8)) = idx.loose[i] from rfl, e1]
    simp only [Option.bind_some]
    dsimp only at h2
    -- the value is written back first
    have hset : ({ flatIdx idx with values := (flatIdx idx).values.set i v } : FIndex n) =
        flatIdx { idx with loose := idx.loose.set i { idx.loose[i] with value := v } } := by
      have e1 : (idx.loose.set i { idx.loose[i] with value := v }).map Entry.point = idx.loose.map Entry.point := by
        rw [List.map_set]
        show (idx.loose.map Entry.point).set i (idx.loose[i]).point = _
        rw [← List.getElem_map Entry.point (h := by simpa using hi), List.set_getElem_self]
      have e2 : (idx.loose.set i { idx.loose[i] with value := v }).map Entry.packed = idx.loose.map Entry.packed := by
        rw [List.map_set]
        show (idx.loose.map Entry.packed).set i (idx.loose[i]).packed = _
        rw [← List.getElem_map Entry.packed (h := by simpa using hi), List.set_getElem_self]
      have e3 : (idx.loose.set i { idx.loose[i] with value := v }).map Entry.value = (idx.loose.map Entry.value).set i v := by
        rw [List.map_set]
      unfold flatIdx
      simp only [e1, e2, e3]
    have ho : OkI (n := n) { idx with loose := idx.loose.set i { idx.loose[i] with value := v } } := by
      refine h.loose ?_
      intro e he'
      rcases List.mem_or_eq_of_mem_set he' with he' | rfl
      · exact ⟨e, he', rfl, rfl⟩
      · exact ⟨_, hm, rfl, rfl⟩
    rw [hset]
    by_cases hv' : verdict = .remove
    · rw [if_pos hv'] at h2
      rw [if_pos hv']
      split at h2
      · cases h2
      · rename_i last hl
        have hl2 : (idx.loose.set i { idx.loose[i] with value := v }).getLast? =
            some (if i = idx.loose.length - 1 then { idx.loose[i] with value := v } else last) := by
          rw [List.getLast?_eq_getElem?, List.length_set, List.getElem?_set]
          rw [List.getLast?_eq_getElem?] at hl
          by_cases hil : i = idx.loose.length - 1
          · rw [if_pos hil, if_pos hil, if_pos hi]
          · rw [if_neg hil, if_neg hil, hl]
        rw [removeLoose_flat ho (by simpa using hi) hl2]
        simp only [Option.bind_some, List.set_set]
        have hd : (idx.loose.set i (if i = idx.loose.length - 1 then { idx.loose[i] with value := v } else last)).dropLast =
            (idx.loose.set i last).dropLast := by
          by_cases hil : i = idx.loose.length - 1
          · rw [List.dropLast_eq_take, List.dropLast_eq_take, List.length_set, List.length_set, List.take_set,
              List.take_set, List.set_eq_of_length_le (by simp; omega), List.set_eq_of_length_le (by simp; omega)]
          · rw [if_neg hil]
        rw [hd]
        have ho2 : OkI (n := n) { idx with loose := (idx.loose.set i last).dropLast } := by
          refine h.loose ?_
          intro e he'
          rcases List.mem_or_eq_of_mem_set (List.mem_of_mem_dropLast he') with he' | rfl
          · exact ⟨e, he', rfl, rfl⟩
          · exact ⟨_, List.mem_of_getLast? hl, rfl, rfl⟩
        exact ih _ (by simp; omega) ho2 hR1 rfl h2
    · rw [if_neg hv'] at h2
      rw [if_neg hv']
      exact ih _ (by simp; omega) ho hR1 rfl h2
  · rw [dif_neg hi] at hs
    rw [if_neg hi]
    cases hs
    exact ⟨h, s', hR, rfl⟩

theorem insert_flat {idx idx' : OutputSetIndex n} (h : OkI idx) {d : Dir} {q : Bitmap n} {abs : List ℕ}
    (ha : Pt idx.pointDim abs) {value r : ℕ} (hs : idx.insert d q abs value = some (idx', r)) :
    OkI idx' ∧ idx'.pointDim = idx.pointDim ∧ (flatIdx idx).insert d q abs value = some (flatIdx idx', r) := by
  unfold OutputSetIndex.insert at hs
  unfold FIndex.insert
  simp only [Option.bind_eq_bind, Option.bind_eq_some_iff] at hs
  obtain ⟨best, h1, hs⟩ := hs
  rw [lookup_flat h h1]
  simp only [Option.bind_eq_bind, Option.bind_some]
  by_cases h2 : (!d.doesImprove best value) = true
  · rw [if_pos h2] at hs
    rw [if_pos h2]
    simp only [Option.bind_eq_some_iff] at hs
    obtain ⟨b, rfl, h3⟩ := hs
    cases h3
    exact ⟨h, rfl, rfl⟩
  · rw [if_neg h2] at hs
    rw [if_neg h2]
    simp only [Option.bind_eq_some_iff] at hs
    obtain ⟨⟨u1, trees⟩, h3, ⟨u2, loose⟩, h4, hs⟩ := hs
    dsimp only at h4 hs
    obtain ⟨o1, s1', hR1, e1⟩ := updateTrees_flat h.trees (withBuf_new false) h3
    rw [show (flatIdx idx).trees = idx.trees.map (flat (packedLen n)) from rfl, e1]
    simp only [Option.bind_some]
    have hf : (trees.map (flat (packedLen n))).filter (fun tree => !tree.isEmpty) =
        (trees.filter fun tree => !Index.isEmpty tree).map (flat (packedLen n)) := by
      rw [List.filter_map]; rfl
    have o2 : OkI (n := n) { idx with trees := trees.filter fun tree => !Index.isEmpty tree } :=
      ⟨h.dim, fun t ht => o1 t (List.mem_filter.1 ht).1, h.point, h.packed⟩
    obtain ⟨o3, s2', hR2, e2⟩ := updateLoose_flat _ o2 hR1 rfl h4
    rw [hf]
    have e2' : FIndex.updateLoose d q abs value s1' { flatIdx idx with
        trees := (trees.filter fun tree => !Index.isEmpty tree).map (flat (packedLen n)) } 0 = _ := e2
    rw [e2']
    simp only [Option.bind_some, hR2.1]
    by_cases h5 : u2 = true
    · rw [if_pos h5] at hs
      rw [if_pos h5]
      cases hs
      exact ⟨o3, rfl, rfl⟩
    · rw [if_neg h5] at hs
      rw [if_neg h5]
      simp only [Option.bind_eq_some_iff] at hs
      obtain ⟨i, h6, h7⟩ := hs
      cases h7
      obtain ⟨o4, e3, e4⟩ := insertNew_flat o3 ha h6
      refine ⟨o4, e3, ?_⟩
      rw [e4]
      rfl

theorem pt_abs (h0 : 0 < n) (hn : n ≤ maxChannels) (s : Bitmap n) {a : List ℕ} (ha : s.abstraction = some a) :
    Pt (n * (n - 1) * 4) a := by
  obtain ⟨v, hv, hl, hk⟩ := abstraction_eq_some s h0 hn
  rw [ha] at hv
  obtain rfl := Option.some.inj hv
  refine ⟨hl, ?_⟩
  intro c hc
  obtain ⟨k, hk', rfl⟩ := List.mem_iff_getElem.1 hc
  have := hk k
  rw [List.getElem?_eq_getElem hk', Option.getD_some, if_pos (by omega)] at this
  rw [this]
  refine (absEntry_le _ _ _ _).trans (Nat.pow_le_pow_right (by norm_num) ?_)
  unfold maxChannels at hn
  omega

/-- The state of the flat index after a history of calls. -/
theorem history_flat (h2 : 2 ≤ n) (hn : n ≤ maxChannels) {d : Dir} {ops : List (Op n)} {idx : OutputSetIndex n}
    (hs : Index.history d n ops = some idx) : OkI idx ∧ history d n ops = some (flatIdx idx) := by
  have key : ∀ (ops : List (Op n)) (i : OutputSetIndex n), OkI i → i.pointDim = n * (n - 1) * 4 →
      ops.foldlM (Op.apply d) i = some idx → OkI idx ∧ ops.foldlM (apply d) (flatIdx i) = some (flatIdx idx) := by
    intro ops
    induction ops with
    | nil => intro i h _ hs; cases hs; exact ⟨h, rfl⟩
    | cons op ops ih =>
      intro i h hd hs
      rw [List.foldlM_cons, Option.bind_eq_bind, Option.bind_eq_some_iff] at hs
      obtain ⟨i1, h1, h3⟩ := hs
      have step : OkI i1 ∧ i1.pointDim = i.pointDim ∧ apply d (flatIdx i) op = some (flatIdx i1) := by
        cases op with
        | insert s v =>
          simp only [Op.apply, Option.bind_eq_bind, Option.bind_eq_some_iff] at h1
          obtain ⟨a, ha, h1⟩ := h1
          obtain ⟨⟨i2, r⟩, h4, rfl⟩ := Option.map_eq_some_iff.1 h1
          obtain ⟨g1, g2, g3⟩ := insert_flat h (by rw [hd]; exact pt_abs (by omega) hn s ha) h4
          refine ⟨g1, g2, ?_⟩
          simp only [apply, ha, Option.bind_eq_bind, Option.bind_some, g3, Option.map_some]
        | insertNew s v =>
          simp only [Op.apply, Option.bind_eq_bind, Option.bind_eq_some_iff] at h1
          obtain ⟨a, ha, h1⟩ := h1
          obtain ⟨g1, g2, g3⟩ := insertNew_flat h (by rw [hd]; exact pt_abs (by omega) hn s ha) h1
          refine ⟨g1, g2, ?_⟩
          simp only [apply, ha, Option.bind_eq_bind, Option.bind_some, g3]
      obtain ⟨g1, g2, g3⟩ := step
      rw [List.foldlM_cons, g3]
      exact ih i1 g1 (g2.trans hd) h3
  unfold Index.history at hs
  unfold history
  simp only [OutputSetIndex.new, FIndex.new, abstractionLen_eq (show 0 < n by omega), Option.bind_eq_bind,
    Option.bind_some] at hs ⊢
  refine key ops { trees := [], pointDim := n * (n - 1) * 4, loose := [] } ⟨?_, by simp, by simp, by simp⟩ rfl hs
  have : 0 < n * (n - 1) := Nat.mul_pos (by omega) (by omega)
  show 0 < n * (n - 1) * 4
  omega

end Sortnet.Index.Flat
