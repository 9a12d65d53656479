import Verif.Model.LazyChecker
import Verif.Proof.CheckerUndef

/-! # An evaluated result of the lazy checker is the result of `Model/Checker.lean` -/

namespace Sortnet.Lazy

open Checker (VectTrie ProofWitness Undef)

/-- If `x` can be evaluated, its value is `y`. -/
def Ap {α : Type} (x : L α) (y : α) : Prop := ∀ a, x = some a → a = y

variable {α β : Type}

theorem ap_some (y : α) : Ap (some y) y := by rintro a h; simpa using h.symm

theorem ap_none (y : α) : Ap none y := by rintro a h; cases h

theorem Ap.bind {x : L α} {y : α} {f : α → L β} {z : β} (h : Ap x y) (hf : Ap (f y) z) : Ap (x >>= f) z := by
  intro b hb
  rw [Option.bind_eq_bind, Option.bind_eq_some_iff] at hb
  obtain ⟨a, ha, hb⟩ := hb
  rw [h a ha] at hb
  exact hf b hb

theorem Ap.and {a b : L Bool} {a' b' : Bool} (ha : Ap a a') (hb : Ap b b') : Ap (and a b) (a' && b') := by
  refine ha.bind ?_
  cases a'
  · exact ap_some _
  · simpa using hb

theorem Ap.or {a b : L Bool} {a' b' : Bool} (ha : Ap a a') (hb : Ap b b') : Ap (or a b) (a' || b') := by
  refine ha.bind ?_
  cases a'
  · simpa using hb
  · exact ap_some _

theorem Ap.not {a : L Bool} {a' : Bool} (ha : Ap a a') : Ap (not a) (!a') := ha.bind (ap_some _)

theorem Ap.map {x : L α} {y : α} (f : α → β) (h : Ap x y) : Ap (x >>= fun a => some (f a)) (f y) := h.bind (ap_some _)

theorem ap_all {p : α → L Bool} {q : β → Bool} {xs : List α} {ys : List β} (h : List.Forall₂ (fun x y => Ap (p x) (q y)) xs ys) :
    Ap (all p xs) (ys.all q) := by
  induction h with
  | nil => exact ap_some _
  | cons h _ ih => exact h.and ih

theorem ap_all_same {p : α → L Bool} {q : α → Bool} (xs : List α) (h : ∀ x ∈ xs, Ap (p x) (q x)) : Ap (all p xs) (xs.all q) := by
  apply ap_all
  rw [List.forall₂_same]
  exact h

theorem ap_filter {p : α → L Bool} {q : α → Bool} (xs : List α) (h : ∀ x ∈ xs, Ap (p x) (q x)) :
    Ap (filter p xs) (xs.filter q) := by
  induction xs with
  | nil => exact ap_some _
  | cons x xs ih =>
    refine (h x (by simp)).bind ((ih fun y hy => h y (by simp [hy])).bind ?_)
    rw [List.filter_cons]
    exact ap_some _

theorem ap_nth (u : α) (xs : List α) (i : ℕ) : Ap (nth xs i) (Checker.nth u xs i) := by
  induction xs generalizing i with
  | nil => exact ap_none _
  | cons x xs ih =>
    rw [nth, Checker.nth]
    split_ifs
    · exact ap_some _
    · exact ih _

theorem ap_pred (u : Undef) {n : L ℕ} {m : ℕ} (h : Ap n m) : Ap (pred n) (Checker.pred u m) := by
  refine h.bind ?_
  unfold Checker.pred
  split_ifs
  · exact ap_none _
  · exact ap_some _

theorem ap_vtSingleton {xs : List (L Bool)} {ys : List Bool} (h : List.Forall₂ Ap xs ys) :
    Ap (vtSingleton xs) (Checker.vtSingleton ys) := by
  induction h with
  | nil => exact ap_some _
  | @cons x y xs ys h _ ih =>
    rw [vtSingleton]
    refine h.bind ?_
    cases y
    · exact ih.bind (ap_some _)
    · exact ih.bind (ap_some _)

theorem ap_vtList {xs : List (List (L Bool))} {ys : List (List Bool)} (h : List.Forall₂ (List.Forall₂ Ap) xs ys) :
    Ap (vtList xs) (Checker.vtList ys) := by
  unfold vtList Checker.vtList
  suffices ∀ (s : L VectTrie) (t : VectTrie), Ap s t →
      Ap (Checker.fold (fun x s => vtUnion (vtSingleton x) s) xs s) (Checker.fold (Checker.vtUnion ∘ Checker.vtSingleton) ys t) from
    this _ _ (ap_some _)
  induction h with
  | nil => intro s t h; exact h
  | cons h _ ih =>
    intro s t hs
    exact ih _ _ ((ap_vtSingleton h).bind (hs.bind (ap_some _)))

theorem forall₂_some (l : List α) : List.Forall₂ Ap (l.map some) l := by
  induction l with
  | nil => exact .nil
  | cons x l ih => exact .cons (ap_some _) ih

theorem ap_vtList_some {x : L (List (List Bool))} {y : List (List Bool)} (h : Ap x y) :
    Ap (x >>= fun l => vtList (l.map fun xs => xs.map some)) (Checker.vtList y) := by
  refine h.bind (ap_vtList ?_)
  rw [List.forall₂_map_left_iff, List.forall₂_same]
  exact fun l _ => forall₂_some l

theorem ap_isUnsortedVt {n : L ℕ} {m : ℕ} {a : L VectTrie} {b : VectTrie} (hn : Ap n m) (ha : Ap a b) :
    Ap (isUnsortedVt n a) (Checker.isUnsortedVt m b) := hn.bind (ha.bind (ap_some _))

theorem ap_isSubsetVt {a b : L VectTrie} {a' b' : VectTrie} (ha : Ap a a') (hb : Ap b b') :
    Ap (isSubsetVt a b) (Checker.isSubsetVt a' b') := by
  refine ha.bind ?_
  cases a' with
  | empty => rw [Checker.isSubsetVt]; exact ap_some _
  | node v lo hi => exact hb.bind (ap_some _)

theorem ap_permuteVt (u : Undef) (ps : List ℕ) {a : L VectTrie} {b : VectTrie} (h : Ap a b) :
    Ap (permuteVt ps a) (Checker.permuteVt u ps b) := by
  refine h.bind (ap_vtList ?_)
  rw [List.forall₂_map_left_iff, List.forall₂_map_right_iff, List.forall₂_same]
  intro l _
  unfold permuteListVect Checker.permuteListVect
  rw [List.forall₂_map_left_iff, List.forall₂_map_right_iff, List.forall₂_same]
  exact fun i _ => ap_nth _ _ _

theorem ap_invertVt (z : Bool) {a : L VectTrie} {b : VectTrie} (h : Ap a b) : Ap (invertVt z a) (Checker.invertVt z b) :=
  h.bind (ap_some _)

/-- Lists with unevaluated elements. -/
def ApList (x : L (List (L α))) (y : List α) : Prop := ∀ l, x = some l → List.Forall₂ Ap l y

/-- `Maybe` with an unevaluated element. -/
def ApO (x : L (Option (L α))) (y : Option α) : Prop :=
  ∀ a, x = some a → (a = none ∧ y = none) ∨ ∃ t v, a = some t ∧ y = some v ∧ Ap t v

/-- The fields of a step that can be evaluated have the values of the other step. -/
structure ApStep (s : ProofStep) (t : Checker.ProofStep) : Prop where
  width : Ap s.width t.width
  vectList : Ap s.vectList t.vectList
  bound : Ap s.bound t.bound
  witnesses : ∀ w, s.witnesses = some w →
    (∃ pol ws ws', w = .huffman pol ws ∧ t.witnesses = .huffman pol ws' ∧ ApList ws ws') ∨
    ∃ ws ws', w = .successor ws ∧ t.witnesses = .successor ws' ∧ ApList ws ws'

theorem ap_getBound (u : Undef) {steps : ℤ → ProofStep} {steps' : ℤ → Checker.ProofStep} (hs : ∀ i, ApStep (steps i) (steps' i))
    (limit : ℤ) {w : L (Option ProofWitness)} {w' : Option ProofWitness} (hw : Ap w w') {width : L ℕ} {width' : ℕ}
    (hwidth : Ap width width') {a : L VectTrie} {a' : VectTrie} (ha : Ap a a') :
    ApO (getBound steps limit w width a) (Checker.getBound u steps' limit w' width' a') := by
  intro r hr
  unfold getBound at hr
  rw [Option.bind_eq_bind, Option.bind_eq_some_iff] at hr
  obtain ⟨x, hx, hr⟩ := hr
  obtain rfl := hw x hx
  cases x with
  | none =>
    simp only [Option.some.injEq] at hr
    refine .inr ⟨_, _, hr.symm, rfl, ?_⟩
    refine (ap_isUnsortedVt hwidth ha).bind ?_
    cases Checker.isUnsortedVt width' a' <;> exact ap_some _
  | some w =>
    simp only at hr
    rw [Option.bind_eq_bind, Option.bind_eq_some_iff] at hr
    obtain ⟨bad, hbad, hr⟩ := hr
    have key := Ap.or (ap_some (!(decide (0 ≤ w.stepId) && decide (w.stepId < limit))))
      (Ap.or (ap_all_same (p := fun i => and (some (decide (0 ≤ i))) (do
              let width ← width
              some (decide (i < width)))) (q := fun i => decide (0 ≤ i) && decide (i < width')) (w.perm.map Checker.nat)
              (fun i _ => (ap_some _).and (hwidth.map fun width => decide (i < width)))).not
        (Ap.or (hwidth.map fun width => decide (Checker.sizeList (w.perm.map Checker.nat) = width)).not
          (Ap.or (ap_some (!(Checker.distinct (w.perm.map Checker.nat))))
            (Ap.or (Ap.not ((hs w.stepId).vectList.bind
                (f := fun bList => all (fun xs => do
                      let width ← width
                      some (decide (Checker.sizeList xs = width))) bList)
                (ap_all_same (q := fun xs => decide (Checker.sizeList xs = width')) _
                  (fun xs _ => hwidth.map fun width => decide (Checker.sizeList xs = width)))))
              (ap_isSubsetVt (ap_permuteVt u (w.perm.map Checker.nat) (ap_invertVt w.invert
                (ap_vtList_some (hs w.stepId).vectList))) ha).not))))
    have e := key bad hbad
    rw [Checker.getBound, ← e]
    cases bad with
    | true => simp at hr; exact .inl ⟨hr.symm, rfl⟩
    | false =>
      simp only [Bool.false_eq_true, if_false, Option.some.injEq] at hr
      exact .inr ⟨_, _, hr.symm, rfl, (hs w.stepId).bound.map Checker.nat⟩

theorem ap_isRedundantCmpVt (u : Undef) (c : ℕ × ℕ) {a : L VectTrie} {a' : VectTrie} (ha : Ap a a') :
    Ap (isRedundantCmpVt c a) (Checker.isRedundantCmpVt u c a') := by
  refine ha.bind ?_
  exact (Ap.and (ap_all_same _ fun x _ => ((ap_nth _ _ _).and (ap_nth _ _ _).not).not).not
    (ap_all_same _ fun x _ => ((ap_nth _ _ _).not.and (ap_nth _ _ _)).not).not).not

theorem forall₂_listUpdate {R : α → β → Prop} {xs : List α} {ys : List β} (h : List.Forall₂ R xs ys) (i : ℕ) {x : α} {y : β}
    (hxy : R x y) : List.Forall₂ R (Checker.listUpdate xs i x) (Checker.listUpdate ys i y) := by
  induction h generalizing i with
  | nil => exact .nil
  | cons h h' ih =>
    simp only [Checker.listUpdate]
    split_ifs
    · exact .cons hxy h'
    · exact .cons h (ih _)

theorem ap_applyCmpList (u : Undef) (c : ℕ × ℕ) (xs : List Bool) :
    List.Forall₂ Ap (applyCmpList c xs) (Checker.applyCmpList u c xs) :=
  forall₂_listUpdate (forall₂_listUpdate (forall₂_some xs) _ ((ap_nth _ _ _).and (ap_nth _ _ _))) _
    ((ap_nth _ _ _).or (ap_nth _ _ _))

theorem ap_listAll2 {γ δ : Type} {p : α → β → L Bool} {q : γ → δ → Bool} {R : α → γ → Prop} {S : β → δ → Prop}
    (h : ∀ a c b d, R a c → S b d → Ap (p a b) (q c d)) {xs : List α} {zs : List γ} (h1 : List.Forall₂ R xs zs)
    {ys : List β} {ws : List δ} (h2 : List.Forall₂ S ys ws) : Ap (listAll2 p xs ys) (Checker.listAll2 q zs ws) := by
  induction h1 generalizing ys ws with
  | nil =>
    cases h2 with
    | nil => exact ap_some _
    | cons => exact ap_some _
  | cons h3 h4 ih =>
    cases h2 with
    | nil => exact ap_some _
    | cons h5 h6 => exact (h _ _ _ _ h3 h5).and (ih h6)

theorem ApList.length {x : L (List (L α))} {y : List α} (h : ApList x y) {l : List (L α)} (e : x = some l) :
    l.length = y.length := (h l e).length_eq

theorem Ap.bindList {x : L (List (L α))} {y : List α} {f : List (L α) → L β} {z : β} (h : ApList x y)
    (hf : ∀ l, List.Forall₂ Ap l y → Ap (f l) z) : Ap (x >>= f) z := by
  intro b hb
  rw [Option.bind_eq_bind, Option.bind_eq_some_iff] at hb
  obtain ⟨a, ha, hb⟩ := hb
  exact hf a (h a ha) b hb

theorem Ap.bindO {x : L (Option (L α))} {y : Option α} {f : Option (L α) → L β} {z : β} (h : ApO x y)
    (h0 : y = none → Ap (f none) z) (h1 : ∀ t v, y = some v → Ap t v → Ap (f (some t)) z) : Ap (x >>= f) z := by
  intro b hb
  rw [Option.bind_eq_bind, Option.bind_eq_some_iff] at hb
  obtain ⟨a, ha, hb⟩ := hb
  rcases h a ha with ⟨rfl, hy⟩ | ⟨t, v, rfl, hy, htv⟩
  · exact h0 hy b hb
  · exact h1 t v hy htv b hb

theorem ap_checkSuccessors (u : Undef) {steps : ℤ → ProofStep} {steps' : ℤ → Checker.ProofStep}
    (hs : ∀ i, ApStep (steps i) (steps' i)) (limit : ℤ) {s : ProofStep} {t : Checker.ProofStep} (h : ApStep s t) :
    Ap (checkSuccessors steps limit s) (Checker.checkSuccessors u steps' limit t) := by
  intro r hr
  unfold checkSuccessors at hr
  rw [Option.bind_eq_bind, Option.bind_eq_some_iff] at hr
  obtain ⟨w, hw, hr⟩ := hr
  rcases h.witnesses w hw with ⟨pol, ws, ws', rfl, e, hws⟩ | ⟨ws, ws', rfl, e, hws⟩
  · simp only [Option.some.injEq] at hr
    rw [Checker.checkSuccessors, e, ← hr]
  · simp only at hr
    rw [Checker.checkSuccessors, e]
    simp only
    revert r
    change Ap _ _
    have hwidth := h.width.map Checker.nat
    have hbound := h.bound.map Checker.nat
    have ha := ap_vtList_some h.vectList
    have hnr := hwidth.bind (f := fun width => filter (fun c => not (isRedundantCmpVt c (do
      let aList ← s.vectList
      vtList (aList.map fun xs => xs.map some)))) (Checker.ocmpList width)) (ap_filter _ fun c _ =>
        (ap_isRedundantCmpVt u c ha).not)
    refine (hbound.map fun b => !(decide (b = 0))).and ((ap_isUnsortedVt hwidth ha).and (Ap.and ?_ (Ap.and ?_ ?_)))
    · refine hnr.bind (Ap.bindList hws fun l hl => ?_)
      rw [Checker.sizeList_eq, Checker.sizeList_eq, Checker.sizeList_eq, hl.length_eq]
      exact ap_some _
    · exact h.vectList.bind (ap_all_same _ fun xs _ => hwidth.map fun width => decide (Checker.sizeList xs = width))
    · refine Ap.bindList (y := ((Checker.ocmpList (Checker.nat t.width)).filter fun c =>
          !(Checker.isRedundantCmpVt u c (Checker.vtList t.vectList))).map fun c =>
            Checker.vtList (t.vectList.map (Checker.applyCmpList u c))) ?_ fun l hl => Ap.bindList hws fun l2 hl2 =>
          ap_listAll2 (R := Ap) (S := Ap) ?_ hl hl2
      · intro l hl
        rw [Option.bind_eq_bind, Option.bind_eq_some_iff] at hl
        obtain ⟨nr, hnr', hl⟩ := hl
        rw [← hnr nr hnr']
        simp only [Option.some.injEq] at hl
        rw [← hl, List.forall₂_map_left_iff, List.forall₂_map_right_iff, List.forall₂_same]
        intro c _
        refine h.vectList.bind (ap_vtList ?_)
        rw [List.forall₂_map_left_iff, List.forall₂_map_right_iff, List.forall₂_same]
        exact fun l _ => ap_applyCmpList u c l
      · intro b b' w w' hb hw
        refine Ap.bindO (ap_getBound u hs limit hw hwidth hb) (fun e => ?_) (fun t v e htv => ?_)
        · rw [e]; exact ap_some _
        · rw [e]; exact hbound.bind (htv.bind (ap_some _))

theorem nth_isSome {xs : List α} {i : ℕ} (h : i < xs.length) (u : α) : nth xs i = some (Checker.nth u xs i) := by
  induction xs generalizing i with
  | nil => simp at h
  | cons x xs ih =>
    rw [nth, Checker.nth]
    split_ifs
    · rfl
    · exact ih (by simp at h; omega)

theorem sortKey_eq (u : α) (f : α → ℕ) (xs : List α) : sortKey f xs = some (Checker.sortKey u f xs) := by
  fun_induction Checker.sortKey u f xs with
  | case1 => simp [sortKey]
  | case2 => simp [sortKey]
  | case3 x y h => simp [sortKey, h]
  | case4 x y h => simp [sortKey, h]
  | case5 x y z rest p ih1 ih2 =>
    rw [sortKey]
    have h : nth (x :: y :: z :: rest) (Checker.sizeList (x :: y :: z :: rest) / 2) =
        some (Checker.nth u (x :: y :: z :: rest) (Checker.sizeList (x :: y :: z :: rest) / 2)) :=
      nth_isSome (by simp; omega) u
    split
    · next h' => rw [h] at h'; cases h'
    · next pivot h' =>
      rw [h] at h'
      cases h'
      simp only [p] at ih1 ih2
      rw [ih1, ih2]
      rfl

theorem huffmanForced_eq (u : Undef) (a : List ℕ) (h : a ≠ []) : huffmanForced a = some (Checker.sucmaxValueBoundHuffman u a) := by
  fun_induction Checker.sucmaxValueBoundHuffman u a with
  | case1 a h0 => simp at h0; exact absurd h0 h
  | case2 => simp [huffmanForced]
  | case3 a h0 h1 h2 =>
    simp at h0 h1
    exfalso
    match a, h0, h1 with
    | [x], _, _ => exact h2 x rfl
    | x :: y :: r, _, h1 => simp at h1
  | case4 a h0 h1 ih =>
    rw [huffmanForced.eq_def, if_neg h0, if_neg h1, sortKey_eq u.nat]
    simp only
    apply ih
    have := Checker.sortKey_length u.nat (fun x => x) a
    intro h2
    simp only [Checker.sizeList_eq] at *
    match hs : Checker.sortKey u.nat (fun x => x) a with
    | [] => rw [hs] at this; simp at this; omega
    | [x] => rw [hs] at h2; simp [Checker.sucmaxHuffmanStep] at h2
    | x :: y :: r => rw [hs] at h2; simp [Checker.sucmaxHuffmanStep] at h2

theorem forall₂_mapM {xs : List (L α)} {ys : List α} (h : List.Forall₂ Ap xs ys) : Ap (xs.mapM id) ys := by
  induction h with
  | nil => exact ap_some _
  | cons h _ ih =>
    rw [List.mapM_cons]
    exact Ap.bind h (ih.bind (ap_some _))

theorem ap_sucmaxValueBoundHuffman (u : Undef) {xs : List (L ℕ)} {ys : List ℕ} (h : List.Forall₂ Ap xs ys) :
    Ap (sucmaxValueBoundHuffman xs) (Checker.sucmaxValueBoundHuffman u ys) := by
  refine (forall₂_mapM h).bind ?_
  by_cases h0 : ys = []
  · subst h0
    rw [huffmanForced.eq_def]
    exact ap_none _
  · rw [huffmanForced_eq u ys h0]
    exact ap_some _

theorem ap_extremalChannelsVt {a : L VectTrie} {a' : VectTrie} (ha : Ap a a') (n : ℕ) (pol : Bool) :
    Ap (extremalChannelsVt a n pol) (Checker.extremalChannelsVt a' n pol) :=
  ap_filter _ fun _ _ => ha.bind (ap_some _)

theorem ap_the (u : Undef) {x : L (Option (L ℕ))} {y : Option ℕ} (h : ApO x y) : Ap (the x) (Checker.the u.nat y) :=
  Ap.bindO h (fun _ => ap_none _) (fun t v e htv => by rw [e]; exact htv)

theorem forall₂_zip {γ δ : Type} {R : α → γ → Prop} {S : β → δ → Prop} {xs : List α} {zs : List γ} (h1 : List.Forall₂ R xs zs)
    {ys : List β} {ws : List δ} (h2 : List.Forall₂ S ys ws) :
    List.Forall₂ (fun p q => R p.1 q.1 ∧ S p.2 q.2) (xs.zip ys) (zs.zip ws) := by
  induction h1 generalizing ys ws with
  | nil => exact .nil
  | cons h3 h4 ih =>
    cases h2 with
    | nil => exact .nil
    | cons h5 h6 => exact .cons ⟨h3, h5⟩ (ih h6)

theorem ap_checkHuffman (u : Undef) {steps : ℤ → ProofStep} {steps' : ℤ → Checker.ProofStep}
    (hs : ∀ i, ApStep (steps i) (steps' i)) (limit : ℤ) {s : ProofStep} {t : Checker.ProofStep} (h : ApStep s t) :
    Ap (checkHuffman steps limit s) (Checker.checkHuffman u steps' limit t) := by
  intro r hr
  unfold checkHuffman at hr
  rw [Option.bind_eq_bind, Option.bind_eq_some_iff] at hr
  obtain ⟨w, hw, hr⟩ := hr
  rcases h.witnesses w hw with ⟨pol, ws, ws', rfl, e, hws⟩ | ⟨ws, ws', rfl, e, hws⟩
  · simp only at hr
    rw [Checker.checkHuffman, e]
    simp only
    revert r
    change Ap _ _
    have hwidth := h.width.map Checker.nat
    have hbound := h.bound.map Checker.nat
    have ha := ap_vtList_some h.vectList
    have hex := hwidth.bind (f := fun width => extremalChannelsVt (do
      let aList ← s.vectList
      vtList (aList.map fun xs => xs.map some)) width pol) (ap_extremalChannelsVt ha _ pol)
    have hbs : ∀ l, (do
        let bs ← (do
          let extremalChannels ← (do
            let width ← (do
              let width ← s.width
              some (Checker.nat width))
            extremalChannelsVt (do
              let aList ← s.vectList
              vtList (aList.map fun xs => xs.map some)) width pol)
          some (extremalChannels.map fun c => pruneExtremalVt pol c (do
              let aList ← s.vectList
              vtList (aList.map fun xs => xs.map some))))
        let witnesses ← ws
        some ((bs.zip witnesses).map fun p => getBound steps limit p.2 (pred (do
              let width ← s.width
              some (Checker.nat width))) p.1)) = some l →
        List.Forall₂ ApO l ((((Checker.extremalChannelsVt (Checker.vtList t.vectList) (Checker.nat t.width) pol).map fun c =>
          Checker.pruneExtremalVt pol c (Checker.vtList t.vectList)).zip ws').map fun p =>
            Checker.getBound u steps' limit p.2 (Checker.pred u (Checker.nat t.width)) p.1) := by
      intro l hl
      rw [Option.bind_eq_bind, Option.bind_eq_some_iff] at hl
      obtain ⟨bs, hbs, hl⟩ := hl
      rw [Option.bind_eq_bind, Option.bind_eq_some_iff] at hl
      obtain ⟨l2, hl2, hl⟩ := hl
      rw [Option.bind_eq_bind, Option.bind_eq_some_iff] at hbs
      obtain ⟨ex, hex', hbs⟩ := hbs
      simp only [Option.some.injEq] at hl hbs
      have := hex ex hex'
      subst this
      rw [← hl, List.forall₂_map_left_iff, List.forall₂_map_right_iff]
      refine (forall₂_zip (R := Ap) (S := Ap) ?_ (hws l2 hl2)).imp fun p q hpq =>
        ap_getBound u hs limit hpq.2 (ap_pred u hwidth) hpq.1
      rw [← hbs, List.forall₂_map_left_iff, List.forall₂_map_right_iff, List.forall₂_same]
      exact fun c _ => ha.bind (ap_some _)
    refine (hwidth.map fun b => !(decide (b = 0))).and (Ap.and ?_ (Ap.and ?_ (Ap.and ?_ (Ap.and ?_ ?_))))
    · exact h.vectList.bind (ap_all_same _ fun xs _ => hwidth.map fun width => decide (Checker.sizeList xs = width))
    · refine Ap.bindList hws fun l hl => ?_
      cases hl <;> exact ap_some _
    · refine hex.bind (Ap.bindList hws fun l hl => ?_)
      rw [Checker.sizeList_eq, Checker.sizeList_eq, Checker.sizeList_eq, hl.length_eq]
      exact ap_some _
    · intro b hb
      rw [Option.bind_eq_bind, Option.bind_eq_some_iff] at hb
      obtain ⟨l, hl, hb⟩ := hb
      refine ap_all ((hbs l hl).imp fun x y hxy => ?_) b hb
      refine Ap.bindO hxy (fun e => ?_) (fun t v e _ => ?_) <;> rw [e] <;> exact ap_some _
    · refine hbound.bind (Ap.bind ?_ (ap_some _))
      intro b hb
      rw [Option.bind_eq_bind, Option.bind_eq_some_iff] at hb
      obtain ⟨l, hl, hb⟩ := hb
      refine ap_sucmaxValueBoundHuffman u ?_ b hb
      rw [List.forall₂_map_left_iff, List.forall₂_map_right_iff]
      exact (hbs l hl).imp fun x y hxy => ap_the u hxy
  · simp only [Option.some.injEq] at hr
    rw [Checker.checkHuffman, e, ← hr]

theorem ap_checkStep (u : Undef) {steps : ℤ → ProofStep} {steps' : ℤ → Checker.ProofStep}
    (hs : ∀ i, ApStep (steps i) (steps' i)) (limit : ℤ) {s : ProofStep} {t : Checker.ProofStep} (h : ApStep s t) :
    Ap (checkStep steps limit s) (Checker.checkStep u steps' limit t) := by
  intro r hr
  unfold checkStep at hr
  rw [Option.bind_eq_bind, Option.bind_eq_some_iff] at hr
  obtain ⟨w, hw, hr⟩ := hr
  rcases h.witnesses w hw with ⟨pol, ws, ws', rfl, e, hws⟩ | ⟨ws, ws', rfl, e, hws⟩
  · rw [Checker.checkStep, e]
    exact ap_checkHuffman u hs limit h r hr
  · rw [Checker.checkStep, e]
    exact ap_checkSuccessors u hs limit h r hr

theorem ap_allIntervalNat {p : ℕ → L Bool} {q : ℕ → Bool} (h : ∀ i, Ap (p i) (q i)) (i j : ℕ) :
    Ap (allIntervalNat p i j) (Checker.allIntervalNat q i j) := by
  fun_induction Checker.allIntervalNat q i j with
  | case1 i h0 => rw [allIntervalNat, if_pos h0]; exact ap_some _
  | case2 i h0 ih => rw [allIntervalNat, if_neg h0]; exact (h i).and ih

theorem ap_parRangeAll {p : ℕ → L Bool} {q : ℕ → Bool} (h : ∀ i, Ap (p i) (q i)) (lo n : ℕ) :
    Ap (parRangeAll p lo n) (Checker.parRangeAll q lo n) := by
  fun_induction Checker.parRangeAll q lo n with
  | case1 lo n h0 => rw [parRangeAll, if_pos h0]; exact ap_allIntervalNat h _ _
  | case2 lo n h0 na a b ih1 ih2 => rw [parRangeAll, if_neg h0]; exact ih1.and ih2

/-- The steps that can be evaluated are those of the other certificate. -/
structure ApCert (c : ProofCert) (d : Checker.ProofCert) : Prop where
  length : Ap c.length d.length
  step : ∀ i, ApStep (c.step i) (d.step i)

theorem ap_checkProof (u : Undef) {c : ProofCert} {d : Checker.ProofCert} (h : ApCert c d) :
    Ap (checkProof c) (Checker.checkProof u d) :=
  h.length.bind ((ap_some _).and (ap_parRangeAll (fun i => ap_checkStep u h.step _ (h.step _)) _ _))

/-- `print` of the result. -/
def printed (r : L (Option (L ℤ × L ℤ))) : L (Option (ℤ × ℤ)) := do
  match ← r with
  | none => some none
  | some (width, bound) => do
    let width ← width
    let bound ← bound
    some (some (width, bound))

theorem ap_checkProofGetBound (u : Undef) {c : ProofCert} {d : Checker.ProofCert} (h : ApCert c d) :
    Ap (printed (checkProofGetBound c)) (Checker.checkProofGetBound u d) := by
  intro r hr
  unfold printed at hr
  rw [Option.bind_eq_bind, Option.bind_eq_some_iff] at hr
  obtain ⟨x, hx, hr⟩ := hr
  unfold checkProofGetBound at hx
  rw [Option.bind_eq_bind, Option.bind_eq_some_iff] at hx
  obtain ⟨ok, hok, hx⟩ := hx
  have e := (ap_checkProof u h).and (h.length.map fun n => decide (0 < n)) ok hok
  unfold Checker.checkProofGetBound
  rw [← e]
  cases ok with
  | false =>
    simp only [Bool.false_eq_true, if_false, Option.some.injEq] at hx ⊢
    subst hx
    simpa using hr.symm
  | true =>
    rw [if_pos rfl, Option.bind_eq_bind, Option.bind_eq_some_iff] at hx
    obtain ⟨n, hn, hx⟩ := hx
    simp only [Option.some.injEq] at hx
    subst hx
    rw [if_pos rfl]
    obtain rfl := h.length n hn
    exact (h.step _).width.bind ((h.step (d.length - 1)).bound.bind (by exact ap_some _)) r hr

end Sortnet.Lazy
