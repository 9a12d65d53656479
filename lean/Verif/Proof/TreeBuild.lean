import Verif.Proof.TreeMutLoop

/-!
# Building a tree
-/

namespace Sortnet.Index

variable {β σ : Type}

/-! ## Augmentations and bounding boxes -/

theorem foldl_min_mem (l : List ℕ) (v : ℕ) : l.foldl min v ∈ v :: l := by
  induction l generalizing v with
  | nil => simp
  | cons x l ih =>
    rw [List.foldl_cons]
    have := ih (min v x)
    rcases List.mem_cons.1 this with h | h
    · rw [h]
      rcases Nat.le_total v x with h | h
      · rw [Nat.min_eq_left h]; simp
      · rw [Nat.min_eq_right h]; simp
    · simp [h]

theorem foldl_max_mem (l : List ℕ) (v : ℕ) : l.foldl max v ∈ v :: l := by
  induction l generalizing v with
  | nil => simp
  | cons x l ih =>
    rw [List.foldl_cons]
    have := ih (max v x)
    rcases List.mem_cons.1 this with h | h
    · rw [h]
      rcases Nat.le_total v x with h | h
      · rw [Nat.max_eq_right h]; simp
      · rw [Nat.max_eq_left h]; simp
    · simp [h]

theorem ofValues_iff {l : List ℕ} {a : Aug} : Aug.ofValues l = some a ↔
    a.size = l.length ∧ (a.lo ∈ l ∧ ∀ x ∈ l, a.lo ≤ x) ∧ (a.hi ∈ l ∧ ∀ x ∈ l, x ≤ a.hi) := by
  cases l with
  | nil => simp [Aug.ofValues]
  | cons v vs =>
    have h1 := foldl_min_le vs v
    have h2 := le_foldl_max vs v
    have h3 := foldl_min_mem vs v
    have h4 := foldl_max_mem vs v
    have h1' : ∀ x ∈ v :: vs, vs.foldl min v ≤ x := by
      intro x hx
      rcases List.mem_cons.1 hx with rfl | hx
      · exact h1.1
      · exact h1.2 x hx
    have h2' : ∀ x ∈ v :: vs, x ≤ vs.foldl max v := by
      intro x hx
      rcases List.mem_cons.1 hx with rfl | hx
      · exact h2.1
      · exact h2.2 x hx
    simp only [Aug.ofValues, Option.some.injEq]
    constructor
    · rintro rfl
      exact ⟨by simp, ⟨h3, h1'⟩, ⟨h4, h2'⟩⟩
    · rintro ⟨g1, ⟨g2, g3⟩, ⟨g4, g5⟩⟩
      obtain ⟨size, lo, hi⟩ := a
      dsimp only at *
      rw [Aug.mk.injEq]
      exact ⟨by simpa using g1.symm, Nat.le_antisymm (h1' _ g2) (g3 _ h3), Nat.le_antisymm (g5 _ h4) (h2' _ g4)⟩

theorem ofValues_perm {l l' : List ℕ} (h : l.Perm l') : Aug.ofValues l = Aug.ofValues l' := by
  ext a
  rw [ofValues_iff, ofValues_iff, h.length_eq]
  simp only [h.mem_iff]

theorem ofValues_append {l l' : List ℕ} {a a' : Aug} (h : Aug.ofValues l = some a) (h' : Aug.ofValues l' = some a') :
    Aug.ofValues (l ++ l') = some (a.combine a') := by
  rw [ofValues_iff] at *
  obtain ⟨h1, ⟨h2, h3⟩, ⟨h4, h5⟩⟩ := h
  obtain ⟨g1, ⟨g2, g3⟩, ⟨g4, g5⟩⟩ := h'
  unfold Aug.combine
  dsimp only
  refine ⟨by simp [h1, g1], ⟨?_, ?_⟩, ⟨?_, ?_⟩⟩
  · rcases Nat.le_total a.lo a'.lo with h | h
    · rw [Nat.min_eq_left h]; simp [h2]
    · rw [Nat.min_eq_right h]; simp [g2]
  · intro x hx
    rcases List.mem_append.1 hx with hx | hx
    · have := h3 x hx; omega
    · have := g3 x hx; omega
  · rcases Nat.le_total a.hi a'.hi with h | h
    · rw [Nat.max_eq_right h]; simp [g4]
    · rw [Nat.max_eq_left h]; simp [h4]
  · intro x hx
    rcases List.mem_append.1 hx with hx | hx
    · have := h5 x hx; omega
    · have := g5 x hx; omega

theorem zipWith_box {rng : Ranges} {p q : List ℕ} (hl : rng.length = p.length) :
    (InBox (List.zipWith (fun r c => (min r.1 c, max r.2 c)) rng p) p) ∧
    (InBox rng q → InBox (List.zipWith (fun r c => (min r.1 c, max r.2 c)) rng p) q) := by
  induction rng generalizing p q with
  | nil =>
    cases p with
    | nil => exact ⟨List.Forall₂.nil, fun h => h⟩
    | cons _ _ => simp at hl
  | cons r rng ih =>
    cases p with
    | nil => simp at hl
    | cons c p =>
      have hl' : rng.length = p.length := by simpa using hl
      refine ⟨?_, ?_⟩
      · rw [List.zipWith_cons_cons]
        exact List.Forall₂.cons ⟨Nat.min_le_right _ _, Nat.le_max_right _ _⟩ (ih (q := p) hl').1
      · intro h
        rw [List.zipWith_cons_cons]
        cases h with
        | cons h1 h2 =>
          refine List.Forall₂.cons ⟨?_, ?_⟩ ((ih hl').2 h2)
          · dsimp only; omega
          · dsimp only; omega

theorem computeRanges_spec {dim : ℕ} (hd : dim ≠ 0) {ps : List (List ℕ)} (hne : ps ≠ [])
    (hl : ∀ p ∈ ps, p.length = dim) :
    ∃ rng, computeRanges dim ps = some rng ∧ rng.length = dim ∧ ∀ p ∈ ps, InBox rng p := by
  cases ps with
  | nil => exact absurd rfl hne
  | cons p0 ps =>
    have key : ∀ (ps : List (List ℕ)) (rng : Ranges) (S : List (List ℕ)), (∀ p ∈ ps, p.length = dim) →
        rng.length = dim → (∀ p ∈ S, InBox rng p) →
        (ps.foldl (List.zipWith fun r c => (min r.1 c, max r.2 c)) rng).length = dim ∧
        ∀ p ∈ S ++ ps, InBox (ps.foldl (List.zipWith fun r c => (min r.1 c, max r.2 c)) rng) p := by
      intro ps
      induction ps with
      | nil => intro rng S _ hr hS; exact ⟨hr, by simpa using hS⟩
      | cons p ps ih =>
        intro rng S hps hr hS
        rw [List.foldl_cons]
        have hlp := hps p (by simp)
        have hb := fun q => zipWith_box (rng := rng) (p := p) (q := q) (by rw [hr, hlp])
        have := ih (List.zipWith (fun r c => (min r.1 c, max r.2 c)) rng p) (S ++ [p])
          (fun q hq => hps q (List.mem_cons_of_mem _ hq)) (by simp [hr, hlp]) (by
            intro q hq
            rcases List.mem_append.1 hq with hq | hq
            · exact (hb q).2 (hS q hq)
            · rw [List.mem_singleton.1 hq]; exact (hb p).1)
        refine ⟨this.1, ?_⟩
        have h2 := this.2
        rw [List.append_assoc, List.singleton_append] at h2
        exact h2
    have hp0 := hl p0 (by simp)
    obtain ⟨h1, h2⟩ := key ps (p0.map fun c => (c, c)) [p0] (fun p hp => hl p (List.mem_cons_of_mem _ hp))
      (by simpa using hp0) (by
        intro p hp
        rw [List.mem_singleton.1 hp]
        unfold InBox
        rw [List.forall₂_map_left_iff, List.forall₂_same]
        exact fun c _ => ⟨Nat.le_refl _, Nat.le_refl _⟩)
    exact ⟨_, by rw [computeRanges, if_neg hd], h1, h2⟩

theorem widest_spec {rng : Ranges} (h : rng ≠ []) :
    ∃ d range low, widest rng.zipIdx = some (d, range, low) ∧ d < rng.length := by
  have key : ∀ (l : List ((ℕ × ℕ) × ℕ)) (b : ℕ × ℕ × ℕ) (k : ℕ), b.1 < k → (∀ x ∈ l, x.2 < k) →
      (l.foldl (fun best r => if best.2.1 ≤ r.1.2 - r.1.1 then (r.2, r.1.2 - r.1.1, r.1.1) else best) b).1 < k := by
    intro l
    induction l with
    | nil => intro b k hb _; exact hb
    | cons x l ih =>
      intro b k hb hl
      rw [List.foldl_cons]
      apply ih
      · split
        · exact hl x (by simp)
        · exact hb
      · exact fun y hy => hl y (List.mem_cons_of_mem _ hy)
  have hz : ∀ x ∈ rng.zipIdx, x.2 < rng.length := by
    intro x hx
    have := List.snd_lt_of_mem_zipIdx hx
    omega
  cases hzi : rng.zipIdx with
  | nil => rw [List.zipIdx_eq_nil_iff] at hzi; exact absurd hzi h
  | cons r rs =>
    rw [hzi] at hz
    refine ⟨_, _, _, rfl, ?_⟩
    exact key rs _ _ (hz r (by simp)) (fun x hx => hz x (List.mem_cons_of_mem _ hx))

/-! ## Partitioning the entries of a leaf -/

/-- Only the array of entries changes. -/
structure SameShape (t t' : Tree β) : Prop where
  nodes : t'.nodes = t.nodes
  ranges : t'.ranges = t.ranges
  dim : t'.dim = t.dim

theorem split_at_two {α : Type} {l : List α} {p q : ℕ} (hpq : p < q) (hq : q < l.length) :
    ∃ (A : List α) (x : α) (B : List α) (y : α) (C : List α), l = A ++ x :: (B ++ y :: C) ∧ A.length = p ∧ A.length + 1 + B.length = q := by
  have h1 : l = l.take p ++ l[p] :: l.drop (p + 1) := by
    rw [← List.drop_eq_getElem_cons (by omega), List.take_append_drop]
  obtain ⟨m, hm⟩ : ∃ m, l.drop (p + 1) = m := ⟨_, rfl⟩
  have hml : m.length = l.length - (p + 1) := by rw [← hm, List.length_drop]
  have h2 : m = m.take (q - p - 1) ++ m[q - p - 1] :: m.drop (q - p - 1 + 1) := by
    rw [← List.drop_eq_getElem_cons (by omega), List.take_append_drop]
  refine ⟨l.take p, l[p], m.take (q - p - 1), m[q - p - 1], m.drop (q - p - 1 + 1), ?_, ?_, ?_⟩
  · rw [← h2, ← hm]; exact h1
  · rw [List.length_take]; omega
  · rw [List.length_take, List.length_take]; omega

theorem swap_in_leaf {t : Tree β} {ctx : List (Frame β)} {i : ℕ} {a : Aug} {rng : Ranges} {start : ℕ}
    {es : List (Entry β)} (h : Repr t ctx (.leaf i a rng start es)) {l r : ℕ} (hl : start ≤ l) (hlr : l < r)
    (hr : r < start + es.length) :
    ∃ t' es', swapValues t l r = some t' ∧ Repr t' ctx (.leaf i a rng start es') ∧ es'.Perm es ∧ SameShape t t' ∧
      t'.entries[l]? = t.entries[r]? := by
  obtain ⟨A, x, B, y, C, rfl, hA, hB⟩ := split_at_two (l := es) (p := l - start) (q := r - start) (by omega) (by omega)
  have hr1 : Repr t ctx (.leaf i a rng start ((A ++ x :: B) ++ y :: C)) := by
    rw [List.append_assoc, List.cons_append]; exact h
  have e1 : start + A.length = l := by omega
  have e2 : start + (A ++ x :: B).length = r := by simp only [List.length_append, List.length_cons]; omega
  have g1 := h.getEntry
  have g2 := hr1.getEntry
  rw [e1] at g1
  rw [e2] at g2
  have s1 := h.setEntry y
  rw [e1] at s1
  have s1' : Repr { t with entries := t.entries.set l y } ctx (.leaf i a rng start ((A ++ y :: B) ++ y :: C)) := by
    rw [List.append_assoc, List.cons_append]; exact s1
  have s2 := s1'.setEntry x
  have e3 : start + (A ++ y :: B).length = r := by simp only [List.length_append, List.length_cons]; omega
  rw [e3] at s2
  refine ⟨_, _, ?_, s2, ?_, ⟨rfl, rfl, rfl⟩, ?_⟩
  · rw [swapValues, if_neg (by omega), g1, g2]
    rfl
  · rw [List.append_assoc, List.cons_append]
    refine List.Perm.append_left _ ?_
    refine (List.perm_middle.cons y).trans ?_
    refine (List.Perm.swap _ _ _).trans ?_
    exact (List.perm_middle.symm).cons x
  · have := getElem?_lt g1
    rw [g2, List.getElem?_set_ne (by omega), List.getElem?_set_self this]

theorem leaf_component {t : Tree β} {ctx : List (Frame β)} {i : ℕ} {a : Aug} {rng : Ranges} {start dim : ℕ}
    {es : List (Entry β)} (h : Repr t ctx (.leaf i a rng start es)) (hd : ∀ e ∈ es, dim < e.point.length) {j : ℕ}
    (h1 : start ≤ j) (h2 : j < start + es.length) : ∃ c, component t j dim = some c := by
  have hp : es = es.take (j - start) ++ es[j - start] :: es.drop (j - start + 1) := by
    rw [← List.drop_eq_getElem_cons (by omega), List.take_append_drop]
  rw [hp] at h
  have hg := h.getEntry
  rw [List.length_take, Nat.min_eq_left (by omega), show start + (j - start) = j by omega] at hg
  have := hd es[j - start] (List.getElem_mem _)
  refine ⟨es[j - start].point[dim], ?_⟩
  rw [component, hg]
  simp only [Option.bind_eq_bind, Option.bind_some]
  exact List.getElem?_eq_getElem this

theorem scanLeft_spec {t : Tree β} {stop dim at_ : ℕ} : ∀ {left : ℕ}, left ≤ stop →
    (∀ j, left ≤ j → j < stop → ∃ c, component t j dim = some c) →
    ∃ l, scanLeft t stop dim at_ left = some l ∧ left ≤ l ∧ l ≤ stop := by
  intro left
  induction hk : stop - left using Nat.strongRecOn generalizing left with
  | _ k ih =>
    intro hl hc
    rw [scanLeft]
    split
    · rename_i hlt
      obtain ⟨c, hcc⟩ := hc left (Nat.le_refl _) hlt
      simp only [hcc, Option.bind_eq_bind, Option.bind_some]
      split
      · obtain ⟨l, h1, h2, h3⟩ := ih (stop - (left + 1)) (by omega) rfl (by omega)
          (fun j h1 h2 => hc j (by omega) h2)
        exact ⟨l, h1, by omega, h3⟩
      · exact ⟨left, rfl, Nat.le_refl _, hl⟩
    · exact ⟨left, rfl, Nat.le_refl _, hl⟩

theorem scanLeft_lt {t : Tree β} {stop dim at_ left c l : ℕ} (h : left < stop) (hc : component t left dim = some c)
    (hlt : c < at_) (hs : scanLeft t stop dim at_ left = some l) (hmono : ∀ l', scanLeft t stop dim at_ (left + 1) = some l' → left + 1 ≤ l') :
    left < l := by
  rw [scanLeft, if_pos h, hc] at hs
  simp only [Option.bind_eq_bind, Option.bind_some, if_pos hlt] at hs
  exact hmono l hs

theorem scanRight_spec {t : Tree β} {start dim at_ : ℕ} : ∀ {right : ℕ}, start ≤ right →
    (∀ j, start ≤ j → j ≤ right → ∃ c, component t j dim = some c) →
    ∃ r, scanRight t start dim at_ right = some r ∧ start ≤ r ∧ r ≤ right ∧
      (start < r → ∃ c, component t r dim = some c ∧ c < at_) := by
  intro right
  induction right with
  | zero =>
    intro hl _
    rw [scanRight, if_neg (by omega)]
    exact ⟨0, rfl, hl, Nat.le_refl _, fun h => by omega⟩
  | succ right ih =>
    intro hl hc
    rw [scanRight]
    split
    · rename_i hlt
      obtain ⟨c, hcc⟩ := hc (right + 1) (by omega) (Nat.le_refl _)
      simp only [hcc, Option.bind_eq_bind, Option.bind_some, Nat.add_sub_cancel]
      split
      · obtain ⟨r, h1, h2, h3, h4⟩ := ih (by omega) (fun j h1 h2 => hc j h1 (by omega))
        exact ⟨r, h1, h2, by omega, h4⟩
      · exact ⟨right + 1, rfl, hl, Nat.le_refl _, fun _ => ⟨c, hcc, by omega⟩⟩
    · exact ⟨right + 1, rfl, hl, Nat.le_refl _, fun h => absurd h ‹_›⟩

theorem partitionLoop_spec {ctx : List (Frame β)} {i : ℕ} {a : Aug} {rng : Ranges} {start dim at_ : ℕ} (k : ℕ) :
    ∀ {t : Tree β} {es : List (Entry β)} {left right l : ℕ}, Repr t ctx (.leaf i a rng start es) →
    (∀ e ∈ es, dim < e.point.length) → start ≤ left → left ≤ start + es.length → start ≤ right →
    right < start + es.length → scanLeft t (start + es.length) dim at_ left = some l → start + es.length - l ≤ k →
    ∃ t' m es', partitionLoop t start (start + es.length) dim at_ left right = some (t', m) ∧
      start ≤ m ∧ m ≤ start + es.length ∧ Repr t' ctx (.leaf i a rng start es') ∧ es'.Perm es ∧ SameShape t t' := by
  induction k with
  | zero =>
    intro t es left right l h hd h1 h2 h3 h4 hs hk
    have hcomp := fun {j} a b => leaf_component (j := j) h hd a b
    obtain ⟨l', hl1, hl2, hl3⟩ := scanLeft_spec (at_ := at_) h2 (fun j a b => hcomp (by omega) b)
    rw [hs] at hl1
    obtain rfl := Option.some.inj hl1
    obtain ⟨r, hr1, hr2, hr3, _⟩ := scanRight_spec (at_ := at_) h3 (fun j a b => hcomp a (by omega))
    refine ⟨t, l, es, ?_, by omega, hl3, h, List.Perm.refl _, ⟨rfl, rfl, rfl⟩⟩
    rw [partitionLoop]
    simp only [hs, hr1, Option.bind_eq_bind, Option.bind_some]
    rw [if_pos (by omega)]
  | succ k ih =>
    intro t es left right l h hd h1 h2 h3 h4 hs hk
    have hcomp := fun {j} a b => leaf_component (j := j) h hd a b
    obtain ⟨l', hl1, hl2, hl3⟩ := scanLeft_spec (at_ := at_) h2 (fun j a b => hcomp (by omega) b)
    rw [hs] at hl1
    obtain rfl := Option.some.inj hl1
    obtain ⟨r, hr1, hr2, hr3, hr4⟩ := scanRight_spec (at_ := at_) h3 (fun j a b => hcomp a (by omega))
    rw [partitionLoop]
    simp only [hs, hr1, Option.bind_eq_bind, Option.bind_some]
    by_cases hrl : r ≤ l
    · rw [if_pos hrl]
      exact ⟨t, l, es, rfl, by omega, hl3, h, List.Perm.refl _, ⟨rfl, rfl, rfl⟩⟩
    · rw [if_neg hrl]
      obtain ⟨t', es', hsw, hr', hp, hsh, hent⟩ := swap_in_leaf h (l := l) (r := r) (by omega) (by omega) (by omega)
      simp only [hsw, Option.bind_some]
      have hd' : ∀ e ∈ es', dim < e.point.length := fun e he => hd e (hp.mem_iff.1 he)
      have hlen := hp.length_eq
      have hcomp' := fun {j} a b => leaf_component (j := j) hr' hd' a b
      obtain ⟨l2, g1, g2, g3⟩ := scanLeft_spec (t := t') (at_ := at_) (left := l) (stop := start + es'.length)
        (by omega) (fun j a b => hcomp' (by omega) b)
      have hlt : l < l2 := by
        obtain ⟨c, hc1, hc2⟩ := hr4 (by omega)
        have hc' : component t' l dim = some c := by
          rw [component, hent]; exact hc1
        refine scanLeft_lt (by omega) hc' hc2 g1 ?_
        intro l' hl'
        obtain ⟨l3, k1, k2, k3⟩ := scanLeft_spec (t := t') (at_ := at_) (left := l + 1) (stop := start + es'.length)
          (by omega) (fun j a b => hcomp' (by omega) b)
        rw [hl'] at k1
        rw [Option.some.inj k1]; exact k2
      obtain ⟨t2, m, es2, q1, q2, q3, q4, q5, q6⟩ := ih (left := l) (right := r) hr' hd' (by omega) (by omega) (by omega)
        (by omega) g1 (by omega)
      rw [hlen] at q1 q3
      exact ⟨t2, m, es2, q1, q2, q3, q4, q5.trans hp, ⟨q6.nodes.trans hsh.nodes, q6.ranges.trans hsh.ranges,
        q6.dim.trans hsh.dim⟩⟩

theorem partition_spec {ctx : List (Frame β)} {i : ℕ} {a : Aug} {rng : Ranges} {start dim at_ : ℕ} {t : Tree β}
    {es : List (Entry β)} (h : Repr t ctx (.leaf i a rng start es)) (hd : ∀ e ∈ es, dim < e.point.length)
    (hne : es ≠ []) :
    ∃ t' m es', partition t start (start + es.length) dim at_ = some (t', m) ∧
      start ≤ m ∧ m ≤ start + es.length ∧ Repr t' ctx (.leaf i a rng start es') ∧ es'.Perm es ∧ SameShape t t' := by
  have hlen := List.length_pos_iff.2 hne
  obtain ⟨l, hl, _⟩ := scanLeft_spec (t := t) (at_ := at_) (left := start) (stop := start + es.length)
    (by omega) (fun j a b => leaf_component h hd a b)
  rw [partition, if_neg (by omega)]
  exact partitionLoop_spec _ h hd (Nat.le_refl _) (by omega) (by omega) (by omega) hl (Nat.le_refl _)

/-! ## Splitting a leaf -/

theorem newChild_spec {t : Tree β} {F : List Fact} (h : Holds t F) (hlen : t.ranges.length = t.nodes.length)
    (hd : t.dim ≠ 0) {es : List (Entry β)} {start stop : ℕ} (hs : slice t.entries start stop = some es) (hne : es ≠ [])
    (hp : ∀ e ∈ es, e.point.length = t.dim) (parent : ℕ) (isRight : Bool) :
    ∃ t' rng aug, newChild t parent isRight start stop = some (t', t.nodes.length) ∧
      Holds t' (⟨t.nodes.length, ⟨aug, parent, isRight, .leaf start stop⟩, rng⟩ :: F) ∧
      t'.ranges.length = t'.nodes.length ∧ t'.entries = t.entries ∧ t'.dim = t.dim ∧
      Aug.ofValues (es.map Entry.value) = some aug ∧ (∀ e ∈ es, InBox rng e.point) ∧ rng.length = t.dim := by
  obtain ⟨aug, ha⟩ := ofValues_isSome (l := es.map Entry.value) (by simpa using hne)
  obtain ⟨rng, hr1, hr2, hr3⟩ := computeRanges_spec hd (ps := es.map Entry.point) (by simpa using hne) (by
    intro p hp'
    obtain ⟨e, he, rfl⟩ := List.mem_map.1 hp'
    exact hp e he)
  refine ⟨{ t with ranges := t.ranges ++ [rng],
                   nodes := t.nodes ++ [{ aug := aug, parent := parent, isRight := isRight, links := .leaf start stop }] },
    rng, aug, ?_, ?_, ?_, ?_, ?_, ha, fun e he => hr3 _ (List.mem_map_of_mem he), hr2⟩
  rotate_left 1
  · constructor
    rotate_left 1
    · rw [List.map_cons, List.nodup_cons]
      refine ⟨?_, h.nodup⟩
      intro hc
      obtain ⟨f, hf, hid⟩ := List.mem_map.1 hc
      have := getElem?_lt (h.get f hf).1
      dsimp only at hid
      omega
    · intro f hf
      rcases List.mem_cons.1 hf with rfl | hf
      · dsimp only
        refine ⟨List.getElem?_concat_length, ?_⟩
        rw [← hlen]
        exact List.getElem?_concat_length
      · obtain ⟨g1, g2⟩ := h.get f hf
        have l1 := getElem?_lt g1
        have l2 := getElem?_lt g2
        dsimp only
        rw [List.getElem?_append_left l1, List.getElem?_append_left l2]
        exact ⟨g1, g2⟩
  · simp [hlen]
  · rfl
  · rfl
  · rw [newChild, hs]
    simp only [Option.bind_eq_bind, Option.bind_some, hr1, ha]

/-- The invariant of building: arrays of the same length, points of the right dimension. -/
structure Building (t : Tree β) (ctx : List (Frame β)) (foc : T β) : Prop where
  repr : Repr t ctx foc
  good : ZGood ctx foc
  len : t.ranges.length = t.nodes.length
  dim : t.dim ≠ 0
  points : ∀ e ∈ foc.entries ++ pendingE true ctx, e.point.length = t.dim

def T.isLeaf : T β → Prop
  | .leaf _ _ _ _ _ => True
  | .inner _ _ _ _ _ => False

def bsize (t : T β) : ℕ := 2 * t.entries.length - 1

def pendingB (ctx : List (Frame β)) : ℕ := ((pending true ctx).map bsize).sum

theorem good_rng_ne_nil {t : Tree β} {ctx : List (Frame β)} {foc : T β} (h : Building t ctx foc) :
    foc.rng.length = t.dim := by
  obtain ⟨e, he⟩ := List.exists_mem_of_ne_nil _ h.good.good.ne_nil
  have hb := (h.good.good.inBounds e he).box
  rw [hb.length_eq]
  exact h.points e (List.mem_append_left _ he)

theorem splitLeaf_spec {t : Tree β} {ctx : List (Frame β)} {i : ℕ} {a : Aug} {rng : Ranges} {start : ℕ}
    {es : List (Entry β)} (h : Building t ctx (.leaf i a rng start es)) :
    (∃ t' es', splitLeaf t i start (start + es.length) = some (t', none) ∧ es'.Perm es ∧
      Building t' ctx (.leaf i a rng start es')) ∨
    (∃ t' c0 a0 rng0 es0 c1 a1 rng1 es1, splitLeaf t i start (start + es.length) = some (t', some c0) ∧
      (es0 ++ es1).Perm es ∧ es0 ≠ [] ∧ es1 ≠ [] ∧
      Building t' (⟨i, a, rng, false, .leaf c1 a1 rng1 (start + es0.length) es1⟩ :: ctx) (.leaf c0 a0 rng0 start es0)) := by
  have hne : es ≠ [] := h.good.good.ne_nil
  have hpt : ∀ e ∈ es, e.point.length = t.dim := fun e he => h.points e (List.mem_append_left _ he)
  by_cases hsz : es.length > splitThreshold
  · have hrl : rng.length = t.dim := good_rng_ne_nil h
    obtain ⟨d, range, low, hw, hdl⟩ := widest_spec (rng := rng) (by
      intro hc; rw [hc] at hrl; exact h.dim hrl.symm)
    obtain ⟨t1, m, es', hp, hm1, hm2, hr1, hperm, hsh⟩ := partition_spec (dim := d) (at_ := low + (range + 1) / 2) h.repr
      (fun e he => by rw [hpt e he, ← hrl]; exact hdl) hne
    have hrng := h.repr.rng
    rw [T.id_leaf] at hrng
    have hpts' : ∀ e ∈ es', e.point.length = t1.dim := fun e he => by
      rw [hsh.dim]; exact hpt e (hperm.mem_iff.1 he)
    have hlen' := hperm.length_eq
    have hzg : ZGood ctx (.leaf i a rng start es') := by
      refine ⟨⟨?_, fun e he => h.good.good.2 e (hperm.mem_iff.1 he)⟩, h.good.aug, ?_⟩
      · rw [ofValues_perm (hperm.map _)]; exact h.good.good.1
      · refine h.good.ctx.mono ?_
        intro p hp
        exact ((hperm.map Entry.point).mem_iff).1 hp
    by_cases hsplit : start ≠ m ∧ m ≠ start + es.length
    · right
      obtain ⟨hs1, hs2⟩ := hsplit
      obtain ⟨es0, hes0⟩ : ∃ es0, es'.take (m - start) = es0 := ⟨_, rfl⟩
      obtain ⟨es1, hes1⟩ : ∃ es1, es'.drop (m - start) = es1 := ⟨_, rfl⟩
      have hsp : es' = es0 ++ es1 := by rw [← hes0, ← hes1, List.take_append_drop]
      have hl0 : es0.length = m - start := by rw [← hes0, List.length_take]; omega
      have hl1 : es1.length = start + es.length - m := by rw [← hes1, List.length_drop]; omega
      have hne0 : es0 ≠ [] := by intro hc; rw [hc] at hl0; simp at hl0; omega
      have hne1 : es1 ≠ [] := by intro hc; rw [hc] at hl1; simp at hl1; omega
      have hmeq : m = start + es0.length := by omega
      subst hsp
      have hcells := hr1.cells
      have hc0 : slice t1.entries start m = some es0 := by
        rw [hmeq]
        apply slice_of_cells hne0
        intro c hc
        apply hcells.get
        apply List.mem_append_left
        show c ∈ cellsFrom start (es0 ++ es1)
        rw [cellsFrom_append]
        exact List.mem_append_left _ hc
      have hc1 : slice t1.entries m (start + es.length) = some es1 := by
        rw [show start + es.length = (start + es0.length) + es1.length by omega, hmeq]
        apply slice_of_cells hne1
        intro c hc
        apply hcells.get
        apply List.mem_append_left
        show c ∈ cellsFrom start (es0 ++ es1)
        rw [cellsFrom_append]
        exact List.mem_append_right _ hc
      have hd1 : t1.dim ≠ 0 := by rw [hsh.dim]; exact h.dim
      obtain ⟨t2, rng0, a0, n1, n2, n3, n4, n5, n6, n7, n8⟩ := newChild_spec hr1.facts
        (by rw [hsh.nodes, hsh.ranges]; exact h.len) hd1 hc0 hne0
        (fun e he => hpts' e (List.mem_append_left _ he)) i false
      obtain ⟨t3, rng1, a1, k1, k2, k3, k4, k5, k6, k7, k8⟩ := newChild_spec n2 n3 (by rw [n5]; exact hd1)
        (by rw [n4]; exact hc1) hne1
        (fun e he => by rw [n5]; exact hpts' e (List.mem_append_right _ he)) i true
      have k2' := k2.perm (List.Perm.cons _ (List.Perm.swap _ _ _))
      have k2'' := k2'.perm (List.Perm.swap _ _ _)
      obtain ⟨t4, q1, q2, q3, q4⟩ := setLinks_holds (f := ⟨i, (T.leaf i a rng start (es0 ++ es1)).node _ _, rng⟩) k2''
        (.inner t1.nodes.length t2.nodes.length)
      have q5 : t4.ranges = t3.ranges ∧ t4.nodes.length = t3.nodes.length := by
        rw [setLinks] at q1
        cases hg : t3.nodes[i]? with
        | none => rw [hg] at q1; simp at q1
        | some nd =>
          rw [hg] at q1
          simp only [Option.bind_eq_bind, Option.bind_some, Option.some.injEq] at q1
          rw [← q1]
          exact ⟨rfl, by simp⟩
      refine ⟨t4, t1.nodes.length, a0, rng0, es0, t2.nodes.length, a1, rng1, es1, ?_, hperm, hne0, hne1, ?_⟩
      · rw [splitLeaf, if_pos (by omega), hrng]
        simp only [Option.bind_eq_bind, Option.bind_some, hw, hp, T.rng]
        rw [if_pos ⟨hs1, hs2⟩]
        simp only [n1, k1, q1, Option.bind_some]
      · have hrepr : Repr t4 ctx (.inner i a rng (.leaf t1.nodes.length a0 rng0 start es0)
            (.leaf t2.nodes.length a1 rng1 (start + es0.length) es1)) := by
          refine ⟨?_, ?_, hr1.root⟩
          · refine q2.perm ?_
            simp only [T.facts, T.node, T.links, T.sub, T.id_leaf, T.aug, T.rng, List.cons_append, List.nil_append,
              T.id_inner, List.append_nil]
            refine List.Perm.cons _ ?_
            rw [show start + es.length = start + es0.length + es1.length by omega, hmeq]
            exact List.Perm.swap _ _ _
          · refine HoldsE.congr (hcells.perm ?_) (by rw [q3, k4, n4])
            apply List.Perm.append_right
            show (cellsFrom start (es0 ++ es1)).Perm (cellsFrom start es0 ++ cellsFrom (start + es0.length) es1)
            rw [cellsFrom_append]
        have hgood : ZGood ctx (.inner i a rng (.leaf t1.nodes.length a0 rng0 start es0)
            (.leaf t2.nodes.length a1 rng1 (start + es0.length) es1)) := by
          refine ⟨⟨⟨n6, n7⟩, ⟨k6, k7⟩, ?_, hzg.good.2⟩, hzg.aug, hzg.ctx⟩
          have h1 := hzg.good.1
          rw [List.map_append, ofValues_append n6 k6] at h1
          exact (Option.some.inj h1).symm
        have hdim : t4.dim = t.dim := by rw [q4, k5, n5, hsh.dim]
        refine ⟨Repr.down hrepr, ZGood.down hgood, by rw [q5.1, q5.2]; exact k3, by rw [hdim]; exact h.dim, ?_⟩
        intro e he
        rw [hdim]
        apply h.points e
        rw [pendingE, pending, if_neg (by simp), List.flatMap_cons, ← List.append_assoc] at he
        rcases List.mem_append.1 he with he | he
        · exact List.mem_append_left _ (hperm.mem_iff.1 he)
        · exact List.mem_append_right _ he
    · left
      refine ⟨t1, es', ?_, hperm, hr1, hzg, by rw [hsh.nodes, hsh.ranges]; exact h.len, by rw [hsh.dim]; exact h.dim, ?_⟩
      · rw [splitLeaf, if_pos (by omega), hrng]
        simp only [Option.bind_eq_bind, Option.bind_some, hw, hp, T.rng]
        rw [if_neg hsplit]
      · intro e he
        rw [hsh.dim]
        apply h.points e
        rcases List.mem_append.1 he with he | he
        · exact List.mem_append_left _ (hperm.mem_iff.1 he)
        · exact List.mem_append_right _ he
  · left
    exact ⟨t, es, by rw [splitLeaf, if_neg (by omega)], List.Perm.refl _, h⟩

/-! ## The loop -/

theorem climb_spec {t : Tree β} {ctx : List (Frame β)} {foc : T β} (h : Repr t ctx foc) :
    (nextUp true ctx foc = none → climbRight t foc.id = some none) ∧
    ∀ ctx' foc', nextUp true ctx foc = some (ctx', foc') →
      Repr t ctx' foc' ∧ ∃ id, climbRight t foc.id = some (some id) ∧ rightSibling t id = some foc'.id := by
  induction ctx generalizing foc with
  | nil =>
    have h0 : foc.id = 0 := h.root
    have hnode := h.node
    refine ⟨fun _ => ?_, fun ctx' foc' hn => by simp [nextUp] at hn⟩
    rw [climbRight, hnode]
    simp [T.node, ctxRight, h0]
  | cons f rest ih =>
    have h0 : foc.id ≠ 0 := fun h0 => by simpa using h.id_eq_zero.1 h0
    have hup := h.up
    have hnode := h.node
    have hpar := hup.node
    rw [plug_id, plug_node] at hpar
    rw [climbRight]
    simp only [hnode, Option.bind_eq_bind, Option.bind_some, T.node, ctxRight, ctxParent, nextUp]
    by_cases hr : f.right = true
    · rw [if_pos hr, if_pos hr, if_neg h0]
      have := ih hup
      rw [plug_id] at this
      exact this
    · rw [if_neg hr, if_neg hr]
      refine ⟨fun hn => by simp at hn, fun ctx' foc' hn => ?_⟩
      simp only [Option.some.injEq, Prod.mk.injEq] at hn
      obtain ⟨rfl, rfl⟩ := hn
      refine ⟨h.across, foc.id, rfl, ?_⟩
      rw [rightSibling, hnode]
      simp only [T.node, ctxParent, Option.bind_eq_bind, Option.bind_some, hpar, Frame.links]
      rw [if_neg hr]

theorem buildTree_spec (k : ℕ) : ∀ {t : Tree β} {ctx : List (Frame β)} {foc : T β}, Building t ctx foc → foc.isLeaf →
    (∀ p ∈ pending true ctx, p.isLeaf) → bsize foc + pendingB ctx ≤ k →
    ∃ t', buildTree t foc.id = some t' ∧ t'.dim = t.dim ∧
      Contains t' (foc.entries ++ pendingE true ctx ++ doneE true ctx) := by
  induction k with
  | zero =>
    intro t ctx foc h _ _ hk
    have := List.length_pos_iff.2 h.good.good.ne_nil
    unfold bsize at hk
    omega
  | succ k ih =>
    intro t ctx foc h hleaf hpl hk
    cases foc with
    | inner => exact absurd hleaf id
    | leaf i a rng start es =>
    have hnode := h.repr.node
    rw [T.id_leaf] at hnode
    rw [T.id_leaf, buildTree, hnode]
    simp only [Option.bind_eq_bind, Option.bind_some, T.node, T.links]
    have hbs : bsize (T.leaf i a rng start es) = 2 * es.length - 1 := rfl
    rcases splitLeaf_spec h with ⟨t', es', h1, h2, h3⟩ |
      ⟨t', c0, a0, rng0, es0, c1, a1, rng1, es1, h1, h2, hne0, hne1, h3⟩
    · rw [h1]
      simp only [Option.bind_some]
      have hperm : (es' ++ pendingE true ctx ++ doneE true ctx).Perm (es ++ pendingE true ctx ++ doneE true ctx) :=
        (h2.append_right _).append_right _
      obtain ⟨g1, g2⟩ := climb_spec h3.repr
      have hdim : t'.dim = t.dim := by
        obtain ⟨e, he⟩ := List.exists_mem_of_ne_nil _ h3.good.good.ne_nil
        have e1 := h3.points e (List.mem_append_left _ he)
        have e2 := h.points e (List.mem_append_left _ (h2.mem_iff.1 he))
        omega
      cases hn : nextUp true ctx (T.leaf i a rng start es') with
      | none =>
        obtain ⟨hp, hc⟩ := nextUp_none h3.repr h3.good hn
        have := g1 hn
        rw [T.id_leaf] at this
        simp only [this, Option.bind_some]
        refine ⟨t', rfl, hdim, hc.perm ?_⟩
        rw [show pendingE true ctx = [] by rw [pendingE, hp]; rfl, List.append_nil]
        exact h2.append_right _
      | some p =>
        obtain ⟨ctx', foc'⟩ := p
        obtain ⟨hr', id, hcl, hrs⟩ := g2 ctx' foc' hn
        obtain ⟨hg', hp, hd⟩ := nextUp_some h3.good hn
        rw [T.id_leaf] at hcl
        simp only [hcl, hrs, Option.bind_some]
        have hpe : pendingE true ctx = foc'.entries ++ pendingE true ctx' := by simp [pendingE, hp]
        have hpb : pendingB ctx = bsize foc' + pendingB ctx' := by simp [pendingB, hp]
        obtain ⟨t2, q1, q2, q3⟩ := ih (t := t') (ctx := ctx') (foc := foc')
          ⟨hr', hg', h3.len, h3.dim, by rw [← hpe]; exact fun e he => h3.points e (List.mem_append_right _ he)⟩
          (hpl foc' (by rw [hp]; simp)) (fun p hp' => hpl p (by rw [hp]; simp [hp'])) (by
            have := List.length_pos_iff.2 (show es ≠ [] from h.good.good.ne_nil)
            omega)
        refine ⟨t2, q1, q2.trans hdim, q3.perm ?_⟩
        rw [← hpe]
        refine List.Perm.trans ?_ hperm
        refine (hd.append_left _).trans ?_
        rw [← List.append_assoc]
        exact List.perm_append_comm.append_right _
    · rw [h1]
      simp only [Option.bind_some]
      have l0 := List.length_pos_iff.2 hne0
      have l1 := List.length_pos_iff.2 hne1
      have ll := h2.length_eq
      rw [List.length_append] at ll
      have hp : pending true (⟨i, a, rng, false, .leaf c1 a1 rng1 (start + es0.length) es1⟩ :: ctx) =
          T.leaf c1 a1 rng1 (start + es0.length) es1 :: pending true ctx := by
        rw [pending, if_neg (by simp)]
      obtain ⟨t2, q1, q2, q3⟩ := ih h3 trivial (by
        intro p hp'
        rw [hp] at hp'
        rcases List.mem_cons.1 hp' with rfl | hp'
        · trivial
        · exact hpl p hp') (by
        rw [pendingB, hp, List.map_cons, List.sum_cons]
        show (2 * es0.length - 1) + ((2 * es1.length - 1) + pendingB ctx) ≤ k
        omega)
      have hdim : t'.dim = t.dim := by
        obtain ⟨e, he⟩ := List.exists_mem_of_ne_nil _ hne0
        have e1 := h3.points e (List.mem_append_left _ he)
        have e2 := h.points e (List.mem_append_left _ (h2.mem_iff.1 (List.mem_append_left _ he)))
        omega
      refine ⟨t2, q1, q2.trans hdim, q3.perm ?_⟩
      rw [pendingE, hp, doneE, if_neg (by simp), List.flatMap_cons, ← List.append_assoc]
      exact (h2.append_right _).append_right _

/-- Building a tree from a list of entries. -/
theorem new_spec {dim : ℕ} (hd : dim ≠ 0) {L : List (Entry β)} (hL : ∀ e ∈ L, e.point.length = dim) :
    ∃ t, new dim L = some t ∧ t.dim = dim ∧ Contains t L := by
  by_cases hne : L = []
  · subst hne
    exact ⟨_, rfl, rfl, Or.inl ⟨rfl, rfl⟩⟩
  · obtain ⟨aug, ha⟩ := ofValues_isSome (l := L.map Entry.value) (by simpa using hne)
    obtain ⟨rng, hr1, hr2, hr3⟩ := computeRanges_spec hd (ps := L.map Entry.point) (by simpa using hne) (by
      intro p hp'
      obtain ⟨e, he, rfl⟩ := List.mem_map.1 hp'
      exact hL e he)
    have hb : Building (⟨dim, L, [rng],
        [{ aug := aug, parent := 0, isRight := true, links := .leaf 0 L.length }]⟩ : Tree β) []
        (.leaf 0 aug rng 0 L) := by
      refine ⟨⟨⟨?_, ?_⟩, ⟨?_, ?_⟩, rfl⟩, ⟨⟨ha, fun e he => hr3 _ (List.mem_map_of_mem he)⟩, trivial, trivial⟩, rfl, hd, ?_⟩
      · intro f hf
        simp only [T.facts, T.sub, ctxFacts, List.append_nil, List.mem_singleton] at hf
        subst hf
        simp [T.node, T.links, T.id_leaf, ctxParent, ctxRight, T.aug, T.rng]
      · simp [T.facts, T.sub, ctxFacts]
      · have key : ∀ (L M : List (Entry β)), ∀ c ∈ cellsFrom M.length L, (M ++ L)[c.1]? = some c.2 := by
          intro L
          induction L with
          | nil => intro M c hc; simp [cellsFrom] at hc
          | cons e L ih =>
            intro M c hc
            rw [cellsFrom] at hc
            rcases List.mem_cons.1 hc with rfl | hc
            · simp
            · have := ih (M ++ [e]) c (by rw [List.length_append, List.length_singleton]; exact hc)
              rw [List.append_assoc, List.singleton_append] at this
              exact this
        intro c hc
        simp only [ctxCells, List.append_nil] at hc
        exact key L [] c hc
      · have key : ∀ (L : List (Entry β)) (s : ℕ), (∀ x ∈ (cellsFrom s L).map Prod.fst, s ≤ x) ∧
            ((cellsFrom s L).map Prod.fst).Nodup := by
          intro L
          induction L with
          | nil => intro s; simp [cellsFrom]
          | cons e L ih =>
            intro s
            obtain ⟨h1, h2⟩ := ih (s + 1)
            rw [cellsFrom, List.map_cons, List.nodup_cons]
            refine ⟨?_, ?_, h2⟩
            · intro x hx
              rcases List.mem_cons.1 hx with rfl | hx
              · exact Nat.le_refl _
              · have := h1 x hx; omega
            · intro hc
              have := h1 s hc
              omega
        simp only [ctxCells, List.append_nil]
        exact (key L 0).2
      · simp only [pendingE, pending, List.flatMap_nil, List.append_nil]
        exact hL
    obtain ⟨t', h1, h2, h3⟩ := buildTree_spec _ hb trivial (by simp [pending]) (Nat.le_refl _)
    refine ⟨t', ?_, h2, h3.perm (by simp [pendingE, pending, doneE, T.entries])⟩
    rw [new, if_neg (by simpa using hne)]
    simp only [ha, hr1, Option.bind_eq_bind, Option.bind_some]
    exact h1

end Sortnet.Index
