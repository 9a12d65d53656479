import Verif.Proof.LazyDecode

/-! # The lazy checker does not throw on evaluated certificates -/

namespace Sortnet.Lazy

open Checker (VectTrie ProofWitness Undef)

variable {α β : Type}

/-- `x` can be evaluated. -/
def Def (x : L α) : Prop := ∃ a, x = some a

theorem def_some (a : α) : Def (some a) := ⟨a, rfl⟩

theorem Def.bind {x : L α} {f : α → L β} (h : Def x) (hf : ∀ a, x = some a → Def (f a)) : Def (x >>= f) := by
  obtain ⟨a, rfl⟩ := h
  exact hf a rfl

theorem Def.and {a b : L Bool} (ha : Def a) (hb : a = some true → Def b) : Def (and a b) := by
  obtain ⟨x, rfl⟩ := ha
  cases x
  · exact def_some _
  · exact hb rfl

theorem Def.or {a b : L Bool} (ha : Def a) (hb : a = some false → Def b) : Def (or a b) := by
  obtain ⟨x, rfl⟩ := ha
  cases x
  · exact hb rfl
  · exact def_some _

theorem Def.not {a : L Bool} (ha : Def a) : Def (not a) := ha.bind fun _ _ => def_some _

theorem or_false_left {a b : L Bool} (h : or a b = some false) : a = some false ∧ b = some false := by
  unfold or at h
  rw [Option.bind_eq_bind, Option.bind_eq_some_iff] at h
  obtain ⟨x, hx, h⟩ := h
  cases x
  · exact ⟨hx, h⟩
  · simp at h

theorem and_true_left {a b : L Bool} (h : and a b = some true) : a = some true ∧ b = some true := by
  unfold and at h
  rw [Option.bind_eq_bind, Option.bind_eq_some_iff] at h
  obtain ⟨x, hx, h⟩ := h
  cases x
  · simp at h
  · exact ⟨hx, h⟩

theorem not_false_iff {a : L Bool} (h : not a = some false) : a = some true := by
  unfold not at h
  rw [Option.bind_eq_bind, Option.bind_eq_some_iff] at h
  obtain ⟨x, hx, h⟩ := h
  cases x
  · simp at h
  · exact hx

theorem def_all {p : α → L Bool} (xs : List α) (h : ∀ x ∈ xs, Def (p x)) : Def (all p xs) := by
  induction xs with
  | nil => exact def_some _
  | cons x xs ih => exact (h x (by simp)).and fun _ => ih fun y hy => h y (by simp [hy])

theorem all_true {p : α → L Bool} {xs : List α} (h : all p xs = some true) : ∀ x ∈ xs, p x = some true := by
  induction xs with
  | nil => simp
  | cons x xs ih =>
    obtain ⟨h1, h2⟩ := and_true_left h
    intro y hy
    rcases List.mem_cons.1 hy with rfl | hy
    · exact h1
    · exact ih h2 y hy

theorem def_filter {p : α → L Bool} (xs : List α) (h : ∀ x ∈ xs, Def (p x)) : Def (filter p xs) := by
  induction xs with
  | nil => exact def_some _
  | cons x xs ih => exact (h x (by simp)).bind fun _ _ => (ih fun y hy => h y (by simp [hy])).bind fun _ _ => def_some _

theorem def_nth {xs : List α} {i : ℕ} (h : i < xs.length) : Def (nth xs i) := by
  induction xs generalizing i with
  | nil => simp at h
  | cons x xs ih =>
    rw [nth]
    split_ifs
    · exact def_some _
    · exact ih (by simp at h; omega)

theorem def_vtSingleton {xs : List (L Bool)} (h : ∀ x ∈ xs, Def x) : Def (vtSingleton xs) := by
  induction xs with
  | nil => exact def_some _
  | cons x xs ih =>
    have := ih fun y hy => h y (by simp [hy])
    rw [vtSingleton]
    refine (h x (by simp)).bind fun b _ => ?_
    cases b <;> exact this.bind fun _ _ => def_some _

theorem def_vtList {xs : List (List (L Bool))} (h : ∀ l ∈ xs, ∀ x ∈ l, Def x) : Def (vtList xs) := by
  unfold vtList
  suffices ∀ s : L VectTrie, Def s → Def (Checker.fold (fun x s => vtUnion (vtSingleton x) s) xs s) from
    this _ (def_some _)
  induction xs with
  | nil => exact fun s hs => hs
  | cons x xs ih =>
    intro s hs
    exact ih (fun l hl => h l (by simp [hl])) _
      ((def_vtSingleton (h x (by simp))).bind fun _ _ => hs.bind fun _ _ => def_some _)

theorem vtList_some (l : List (List Bool)) : vtList (l.map fun xs => xs.map some) = some (Checker.vtList l) := by
  obtain ⟨a, ha⟩ : Def (vtList (l.map fun xs => xs.map some)) := def_vtList fun v hv x hx => by
    obtain ⟨y, _, rfl⟩ := List.mem_map.1 hv
    obtain ⟨z, _, rfl⟩ := List.mem_map.1 hx
    exact def_some _
  rw [ha, ap_vtList_some (ap_some l) a ha]

theorem def_isUnsortedVt {n : L ℕ} {a : L VectTrie} (hn : Def n) (ha : Def a) : Def (isUnsortedVt n a) :=
  hn.bind fun _ _ => ha.bind fun _ _ => def_some _

theorem def_isSubsetVt {a b : L VectTrie} (ha : Def a) (hb : Def b) : Def (isSubsetVt a b) := by
  refine ha.bind fun x _ => ?_
  cases x
  · exact def_some _
  · exact hb.bind fun _ _ => def_some _

theorem def_permuteVt {ps : List ℕ} {n : ℕ} (hps : ∀ p ∈ ps, p < n) {a : VectTrie} (ha : Checker.VtWidth n a) :
    Def (permuteVt ps (some a)) := by
  refine (def_some a).bind fun b hb => ?_
  cases hb
  refine def_vtList fun l hl x hx => ?_
  obtain ⟨v, hv, rfl⟩ := List.mem_map.1 hl
  obtain ⟨p, hp, rfl⟩ := List.mem_map.1 hx
  apply def_nth
  rw [ha v ((Checker.mem_listVt _ _).1 hv)]
  exact hps p hp

/-- The witnesses of a step with all parts evaluated. -/
def ofWitnesses : Checker.StepWitnesses → StepWitnesses
  | .huffman pol ws => .huffman pol (some (ws.map some))
  | .successor ws => .successor (some (ws.map some))

/-- A step with all parts evaluated. -/
def ofStep (t : Checker.ProofStep) : ProofStep :=
  { width := some t.width, vectList := some t.vectList, bound := some t.bound, witnesses := some (ofWitnesses t.witnesses) }

/-- The result of `get_bound` and the bound in it can be evaluated. -/
theorem def_getBound {steps : ℤ → ProofStep} {steps' : ℤ → Checker.ProofStep} {limit : ℤ}
    (hs : ∀ i, 0 ≤ i → i < limit → steps i = ofStep (steps' i)) (w : Option ProofWitness) (width : ℕ) {a : L VectTrie}
    (ha : Def a) : ∃ r, getBound steps limit (some w) (some width) a = some r ∧ ∀ t, r = some t → Def t := by
  cases w with
  | none =>
    refine ⟨_, rfl, fun t ht => ?_⟩
    cases ht
    refine (def_isUnsortedVt (def_some _) ha).bind fun b _ => ?_
    cases b <;> exact def_some _
  | some w =>
    unfold getBound
    simp only [Option.bind_eq_bind, Option.bind_some]
    by_cases h0 : (decide (0 ≤ w.stepId) && decide (w.stepId < limit)) = true
    · have h0' := h0
      simp only [Bool.and_eq_true, decide_eq_true_eq] at h0'
      rw [hs _ h0'.1 h0'.2]
      set bad := or _ _ with hbad
      have hd : Def bad := by
        refine (def_some _).or fun _ => Def.or (Def.not (def_all _ fun i _ => (def_some _).and fun _ => def_some _)) fun h1 =>
          Def.or (def_some _) fun h2 => (def_some _).or fun _ => Def.or (Def.not ?_) fun h3 => Def.not (def_isSubsetVt ?_ ha)
        · exact def_all _ fun xs _ => def_some _
        · have h1' := all_true (not_false_iff h1)
          have h3' := all_true (not_false_iff h3)
          have e : ((ofStep (steps' w.stepId)).vectList.bind fun bList => vtList (bList.map fun xs => xs.map some)) =
              some (Checker.vtList (steps' w.stepId).vectList) := vtList_some _
          rw [e]
          refine def_permuteVt (n := width) (fun p hp => ?_) (Checker.vtWidth_invertVt (Checker.vtWidth_vtList fun l hl => ?_))
          · simpa [and] using h1' p hp
          · simpa using h3' l hl
      obtain ⟨b, hb⟩ := hd
      rw [hb]
      cases b with
      | true => exact ⟨_, rfl, by simp⟩
      | false =>
        refine ⟨_, rfl, fun t ht => ?_⟩
        simp only [Option.some.injEq] at ht
        subst ht
        exact def_some _
    · rw [Bool.not_eq_true] at h0
      rw [h0]
      exact ⟨none, rfl, by simp⟩

theorem def_isRedundantCmpVt {n : ℕ} {c : ℕ × ℕ} (h1 : c.1 < n) (h2 : c.2 < n) {a : VectTrie} (ha : Checker.VtWidth n a) :
    Def (isRedundantCmpVt c (some a)) := by
  refine (def_some a).bind fun b hb => ?_
  cases hb
  have hd : ∀ x ∈ Checker.listVt a, Def (nth x c.1) ∧ Def (nth x c.2) := by
    intro x hx
    have := ha x ((Checker.mem_listVt _ _).1 hx)
    exact ⟨def_nth (by omega), def_nth (by omega)⟩
  refine Def.not (Def.and (Def.not (def_all _ fun x hx => ?_)) fun _ => Def.not (def_all _ fun x hx => ?_))
  · exact ((hd x hx).1.and fun _ => (hd x hx).2.not).not
  · exact ((hd x hx).1.not.and fun _ => (hd x hx).2).not

theorem mem_listUpdate {xs : List α} {i : ℕ} {y x : α} (h : x ∈ Checker.listUpdate xs i y) : x ∈ xs ∨ x = y := by
  induction xs generalizing i with
  | nil => simp [Checker.listUpdate] at h
  | cons z zs ih =>
    simp only [Checker.listUpdate] at h
    split_ifs at h
    · rcases List.mem_cons.1 h with rfl | h
      · exact .inr rfl
      · exact .inl (by simp [h])
    · rcases List.mem_cons.1 h with rfl | h
      · exact .inl (by simp)
      · rcases ih h with h | h
        · exact .inl (by simp [h])
        · exact .inr h

theorem def_applyCmpList {c : ℕ × ℕ} {xs : List Bool} (h1 : c.1 < xs.length) (h2 : c.2 < xs.length) :
    ∀ x ∈ applyCmpList c xs, Def x := by
  intro x hx
  unfold applyCmpList at hx
  rcases mem_listUpdate hx with hx | rfl
  · rcases mem_listUpdate hx with hx | rfl
    · obtain ⟨z, _, rfl⟩ := List.mem_map.1 hx
      exact def_some _
    · exact (def_nth h1).and fun _ => def_nth h2
  · exact (def_nth h1).or fun _ => def_nth h2

theorem def_listAll2 {p : α → β → L Bool} (xs : List α) (ys : List β) (h : ∀ x ∈ xs, ∀ y ∈ ys, Def (p x y)) :
    Def (listAll2 p xs ys) := by
  induction xs generalizing ys with
  | nil => cases ys <;> exact def_some _
  | cons x xs ih =>
    cases ys with
    | nil => exact def_some _
    | cons y ys =>
      exact (h x (by simp) y (by simp)).and fun _ => ih ys fun a ha b hb => h a (by simp [ha]) b (by simp [hb])

theorem filter_sub {p : α → L Bool} {xs l : List α} (h : filter p xs = some l) : ∀ x ∈ l, x ∈ xs := by
  induction xs generalizing l with
  | nil => cases h; simp
  | cons x xs ih =>
    rw [filter] at h
    simp only [Option.bind_eq_bind, Option.bind_eq_some_iff, Option.some.injEq] at h
    obtain ⟨b, _, l', hl', rfl⟩ := h
    intro y hy
    cases b
    · exact List.mem_cons_of_mem _ (ih hl' y hy)
    · rcases List.mem_cons.1 hy with rfl | hy
      · simp
      · exact List.mem_cons_of_mem _ (ih hl' y hy)

theorem def_checkSuccessors {steps : ℤ → ProofStep} {steps' : ℤ → Checker.ProofStep} {limit : ℤ}
    (hs : ∀ i, 0 ≤ i → i < limit → steps i = ofStep (steps' i)) (t : Checker.ProofStep)
    (ht : ∀ l ∈ t.vectList, l.length = Checker.nat t.width) : Def (checkSuccessors steps limit (ofStep t)) := by
  unfold checkSuccessors
  have e : (do
      let aList ← (ofStep t).vectList
      vtList (aList.map fun xs => xs.map some)) = some (Checker.vtList t.vectList) := vtList_some _
  rw [e]
  simp only [ofStep, Option.bind_eq_bind, Option.bind_some]
  cases t.witnesses with
  | huffman pol ws => exact def_some _
  | successor ws =>
    simp only [ofWitnesses, Option.bind_some]
    have hnr : Def (filter (fun c => not (isRedundantCmpVt c (some (Checker.vtList t.vectList))))
        (Checker.ocmpList (Checker.nat t.width))) := by
      refine def_filter _ fun c hc => Def.not ?_
      rw [Checker.mem_ocmpList] at hc
      exact def_isRedundantCmpVt (n := Checker.nat t.width) (by omega) (by omega) (Checker.vtWidth_vtList ht)
    refine (def_some _).and fun _ => Def.and (def_some _) fun _ => Def.and ?_ fun _ => Def.and ?_ fun _ => ?_
    · exact hnr.bind fun _ _ => def_some _
    · exact def_all _ fun _ _ => def_some _
    · obtain ⟨nr, hnr⟩ := hnr
      rw [hnr]
      refine def_listAll2 _ _ fun b hb w hw => ?_
      obtain ⟨c, hc, rfl⟩ := List.mem_map.1 hb
      obtain ⟨w, _, rfl⟩ := List.mem_map.1 hw
      have hc' := filter_sub hnr c hc
      rw [Checker.mem_ocmpList] at hc'
      have hb' : Def (vtList (t.vectList.map (applyCmpList c))) := by
        refine def_vtList fun l hl => ?_
        obtain ⟨v, hv, rfl⟩ := List.mem_map.1 hl
        have := ht v hv
        exact def_applyCmpList (by omega) (by omega)
      obtain ⟨r, hr, hr'⟩ := def_getBound hs w (Checker.nat t.width) hb'
      rw [hr]
      cases r with
      | none => exact def_some _
      | some x => exact (hr' x rfl).bind fun _ _ => def_some _

theorem mapM_def {xs : List (L α)} (h : ∀ x ∈ xs, Def x) : ∃ l, xs.mapM id = some l ∧ l.length = xs.length := by
  induction xs with
  | nil => exact ⟨[], rfl, rfl⟩
  | cons x xs ih =>
    obtain ⟨a, ha⟩ := h x (by simp)
    obtain ⟨l, hl, hlen⟩ := ih fun y hy => h y (by simp [hy])
    refine ⟨a :: l, ?_, by simp [hlen]⟩
    rw [List.mapM_cons, hl, ha]
    rfl

theorem def_checkHuffman {steps : ℤ → ProofStep} {steps' : ℤ → Checker.ProofStep} {limit : ℤ}
    (hs : ∀ i, 0 ≤ i → i < limit → steps i = ofStep (steps' i)) (t : Checker.ProofStep) :
    Def (checkHuffman steps limit (ofStep t)) := by
  unfold checkHuffman
  have e : (do
      let aList ← (ofStep t).vectList
      vtList (aList.map fun xs => xs.map some)) = some (Checker.vtList t.vectList) := vtList_some _
  rw [e]
  simp only [ofStep, Option.bind_eq_bind, Option.bind_some]
  cases t.witnesses with
  | successor ws => exact def_some _
  | huffman pol ws =>
    simp only [ofWitnesses, Option.bind_some]
    obtain ⟨ex, hex⟩ : Def (extremalChannelsVt (some (Checker.vtList t.vectList)) (Checker.nat t.width) pol) :=
      def_filter _ fun _ _ => def_some _
    rw [hex]
    simp only [Option.bind_some, pruneExtremalVt, Option.bind_eq_bind]
    refine (def_some _).and fun hw => Def.and (def_all _ fun _ _ => def_some _) fun _ => Def.and (def_some _) fun hne =>
      Def.and (def_some _) fun hlen => ?_
    have hp : pred (some (Checker.nat t.width)) = some (Checker.nat t.width - 1) := by
      simp only [Option.some.injEq, Bool.not_eq_true', decide_eq_false_iff_not] at hw
      simp [pred, hw]
    rw [hp]
    have hb : ∀ b ∈ ((ex.map fun c => some (Checker.pruneExtremalVt pol c (Checker.vtList t.vectList))).zip
        (ws.map some)).map fun p => getBound steps limit p.2 (some (Checker.nat t.width - 1)) p.1,
        ∃ r, b = some r ∧ ∀ t, r = some t → Def t := by
      intro b hb
      obtain ⟨p, hp, rfl⟩ := List.mem_map.1 hb
      obtain ⟨h1, h2⟩ := List.of_mem_zip hp
      obtain ⟨c, _, e1⟩ := List.mem_map.1 h1
      obtain ⟨w, _, e2⟩ := List.mem_map.1 h2
      rw [← e1, ← e2]
      exact def_getBound hs w _ (def_some _)
    refine Def.and (def_all _ fun b hb' => ?_) fun hall => ?_
    · obtain ⟨r, rfl, _⟩ := hb b hb'
      exact def_some _
    · refine Def.bind ?_ fun _ _ => def_some _
      unfold sucmaxValueBoundHuffman
      obtain ⟨l, hl, hl'⟩ := mapM_def (xs := List.map the (((ex.map fun c =>
          some (Checker.pruneExtremalVt pol c (Checker.vtList t.vectList))).zip
            (ws.map some)).map fun p => getBound steps limit p.2 (some (Checker.nat t.width - 1)) p.1)) (by
        intro x hx
        obtain ⟨b, hb', rfl⟩ := List.mem_map.1 hx
        obtain ⟨r, rfl, hr⟩ := hb b hb'
        have := all_true hall _ hb'
        cases r with
        | none => simp [Checker.isNone] at this
        | some y => exact hr y rfl)
      rw [hl]
      refine ⟨_, huffmanForced_eq ⟨false, 0⟩ l ?_⟩
      rintro rfl
      simp only [Option.some.injEq, Bool.not_eq_true', List.isEmpty_eq_false_iff, Checker.sizeList_eq, decide_eq_true_eq,
        List.length_map] at hne hlen
      simp only [List.length_nil, List.length_map, List.length_zip, hlen, Nat.min_self] at hl'
      exact hne (by rw [List.map_eq_nil_iff]; exact List.length_eq_zero_iff.1 hl'.symm)

theorem def_checkStep {steps : ℤ → ProofStep} {steps' : ℤ → Checker.ProofStep} {limit : ℤ}
    (hs : ∀ i, 0 ≤ i → i < limit → steps i = ofStep (steps' i)) (t : Checker.ProofStep)
    (ht : ∀ l ∈ t.vectList, l.length = Checker.nat t.width) : Def (checkStep steps limit (ofStep t)) := by
  unfold checkStep
  refine (def_some _).bind fun w _ => ?_
  cases w
  · exact def_checkHuffman hs t
  · exact def_checkSuccessors hs t ht

theorem def_allIntervalNat {p : ℕ → L Bool} (i j : ℕ) (h : ∀ k, i ≤ k → k < j → Def (p k)) : Def (allIntervalNat p i j) := by
  fun_induction allIntervalNat p i j with
  | case1 => exact def_some _
  | case2 i h0 ih => exact (h i (by omega) (by omega)).and fun _ => ih fun k h1 h2 => h k (by omega) h2

theorem def_parRangeAll {p : ℕ → L Bool} (lo n : ℕ) (h : ∀ k, lo ≤ k → k < lo + n → Def (p k)) : Def (parRangeAll p lo n) := by
  fun_induction parRangeAll p lo n with
  | case1 lo n h0 => exact def_allIntervalNat _ _ h
  | case2 lo n h0 ih1 ih2 =>
    exact (ih1 fun k h1 h2 => h k h1 (by omega)).and fun _ => ih2 fun k h1 h2 => h k (by omega) (by omega)

/-- A certificate whose steps can all be evaluated and have vectors of the right length is checked without throwing. -/
theorem checkProofGetBound_defined (u : Undef) (c : ProofCert) (d : Checker.ProofCert) (hl : c.length = some d.length)
    (hs : ∀ i, 0 ≤ i → i < d.length → c.step i = ofStep (d.step i))
    (hw : ∀ i, 0 ≤ i → i < d.length → ∀ l ∈ (d.step i).vectList, l.length = Checker.nat (d.step i).width)
    (ha : ∀ i, ApStep (c.step i) (d.step i)) :
    printed (checkProofGetBound c) = some (Checker.checkProofGetBound u d) := by
  suffices h : Def (printed (checkProofGetBound c)) by
    obtain ⟨r, hr⟩ := h
    rw [hr, ap_checkProofGetBound u ⟨by rw [hl]; exact ap_some _, ha⟩ r hr]
  unfold checkProofGetBound
  have h1 : Def (checkProof c) := by
    unfold checkProof
    rw [hl]
    refine (def_some d.length).bind fun n hn => ?_
    cases hn
    refine (def_some _).and fun h0 => def_parRangeAll _ _ fun k _ hk => ?_
    have hk' : (k : ℤ) < d.length := by unfold Checker.nat at hk; omega
    rw [hs k (by omega) hk']
    exact def_checkStep (fun i h1 h2 => hs i h1 (by omega)) _ (hw k (by omega) hk')
  rw [hl]
  simp only [Option.bind_eq_bind, Option.bind_some]
  obtain ⟨ok, hok⟩ : Def (and (checkProof c) (some (decide (0 < d.length)))) := h1.and fun _ => def_some _
  rw [hok]
  cases ok with
  | false => exact def_some _
  | true =>
    have := (and_true_left hok).2
    simp only [Option.some.injEq, decide_eq_true_eq] at this
    simp only [Option.bind_some, if_true, printed, Option.bind_eq_bind]
    rw [hs _ (by omega) (by omega)]
    exact def_some _

end Sortnet.Lazy
