import Verif.Proof.Index

/-!
# Histories of an index
-/

namespace Sortnet.Index

open scoped Classical

noncomputable section

variable {n : ℕ}

/-- The first pair makes the second one redundant. -/
def Dominates (d : Dir) (p p' : Bitmap n × ℕ) : Prop := d.Matches p.1.toSet p'.1.toSet ∧ d.AtLeast p.2 p'.2

theorem Dominates.refl (d : Dir) (p : Bitmap n × ℕ) : Dominates d p p := ⟨d.matches_refl _, d.atLeast_refl _⟩

theorem Dominates.trans {d : Dir} {p p' p'' : Bitmap n × ℕ} (h : Dominates d p p') (h' : Dominates d p' p'') :
    Dominates d p p'' := ⟨d.matches_trans h.1 h'.1, Dir.atLeast_trans h.2 h'.2⟩

/-- `C` and `H` carry the same information. -/
structure Covers (d : Dir) (C H : List (Bitmap n × ℕ)) : Prop where
  sub : ∀ p ∈ C, p ∈ H
  cov : ∀ p ∈ H, ∃ p' ∈ C, Dominates d p' p

theorem Covers.isBest {d : Dir} {C H : List (Bitmap n × ℕ)} (h : Covers d C H) {Q : Set (Fin n → Bool)} {r : Option ℕ}
    (hr : IsBest d C Q r) : IsBest d H Q r := by
  cases r with
  | none =>
    intro p hp hm
    obtain ⟨p', h1, h2⟩ := h.cov p hp
    exact hr p' h1 (d.matches_trans h2.1 hm)
  | some v =>
    obtain ⟨⟨p, h1, h2, h3⟩, h4⟩ := hr
    refine ⟨⟨p, h.sub p h1, h2, h3⟩, ?_⟩
    intro p hp hm
    obtain ⟨p', g1, g2⟩ := h.cov p hp
    exact Dir.atLeast_trans (h4 p' g1 (d.matches_trans g2.1 hm)) g2.2

theorem Covers.refl (d : Dir) (C : List (Bitmap n × ℕ)) : Covers d C C :=
  ⟨fun _ h => h, fun p h => ⟨p, h, Dominates.refl d p⟩⟩

theorem Covers.trans {d : Dir} {C H K : List (Bitmap n × ℕ)} (h : Covers d C H) (h' : Covers d H K) : Covers d C K := by
  refine ⟨fun p hp => h'.sub p (h.sub p hp), fun p hp => ?_⟩
  obtain ⟨p', h1, h2⟩ := h'.cov p hp
  obtain ⟨p'', h3, h4⟩ := h.cov p' h1
  exact ⟨p'', h3, h4.trans h2⟩

theorem Covers.append {d : Dir} {C H : List (Bitmap n × ℕ)} (h : Covers d C H) (p : Bitmap n × ℕ) :
    Covers d (p :: C) (H ++ [p]) := by
  constructor
  · intro x hx
    rcases List.mem_cons.1 hx with rfl | hx
    · simp
    · exact List.mem_append_left _ (h.sub x hx)
  · intro x hx
    rcases List.mem_append.1 hx with hx | hx
    · obtain ⟨p', h1, h2⟩ := h.cov x hx
      exact ⟨p', List.mem_cons_of_mem _ h1, h2⟩
    · rw [List.mem_singleton.1 hx]
      exact ⟨p, by simp, Dominates.refl d p⟩

theorem covers_inserted (d : Dir) (q : Bitmap n) (v : ℕ) (C : List (Bitmap n × ℕ)) :
    Covers d (inserted d q v C) ((q, v) :: C) := by
  unfold inserted
  constructor
  · intro p hp
    rcases List.mem_cons.1 hp with rfl | hp
    · simp
    · exact List.mem_cons_of_mem _ (List.mem_filter.1 hp).1
  · intro p hp
    rcases List.mem_cons.1 hp with rfl | hp
    · exact ⟨(q, v), by simp, Dominates.refl d _⟩
    · by_cases hc : d.AtLeast v p.2 ∧ d.Matches q.toSet p.1.toSet
      · exact ⟨(q, v), by simp, hc.2, hc.1⟩
      · exact ⟨p, List.mem_cons_of_mem _ (List.mem_filter.2 ⟨hp, by rw [decide_eq_false hc]; rfl⟩), Dominates.refl d p⟩

theorem covers_skip {d : Dir} {q : Bitmap n} {v b : ℕ} {C : List (Bitmap n × ℕ)} (hb : IsBest d C q.toSet (some b))
    (hi : d.doesImprove (some b) v = false) : Covers d C ((q, v) :: C) := by
  refine ⟨fun p hp => List.mem_cons_of_mem _ hp, ?_⟩
  intro p hp
  rcases List.mem_cons.1 hp with rfl | hp
  · obtain ⟨⟨p', h1, h2, h3⟩, _⟩ := hb
    refine ⟨p', h1, h3, ?_⟩
    rw [h2]
    by_contra hc
    rw [Dir.doesImprove_some.2 hc] at hi
    cases hi
  · exact ⟨p, hp, Dominates.refl d p⟩

/-- No entry makes another one redundant. -/
def Antichain (d : Dir) (C : List (Bitmap n × ℕ)) : Prop :=
  C.Pairwise fun p p' => ¬ Dominates d p p' ∧ ¬ Dominates d p' p

theorem Antichain.nodup {d : Dir} {C : List (Bitmap n × ℕ)} (h : Antichain d C) : (C.map Prod.fst).Nodup := by
  unfold List.Nodup
  rw [List.pairwise_map]
  refine h.imp ?_
  rintro ⟨s, v⟩ ⟨t, w⟩ ⟨h1, h2⟩ hst
  dsimp only at hst
  subst hst
  rcases d.atLeast_total v w with hv | hv
  · exact h1 ⟨d.matches_refl _, hv⟩
  · exact h2 ⟨d.matches_refl _, hv⟩

theorem Antichain.perm {d : Dir} {C C' : List (Bitmap n × ℕ)} (h : Antichain d C) (hp : C.Perm C') : Antichain d C' :=
  (hp.pairwise_iff (fun h => ⟨h.2, h.1⟩)).1 h

theorem Antichain.inserted {d : Dir} {q : Bitmap n} {v : ℕ} {C : List (Bitmap n × ℕ)} (h : Antichain d C)
    {best : Option ℕ} (hb : IsBest d C q.toSet best) (hi : d.doesImprove best v = true) :
    Antichain d (inserted d q v C) := by
  unfold Antichain Index.inserted
  rw [List.pairwise_cons]
  refine ⟨?_, h.sublist List.filter_sublist⟩
  intro p hp
  obtain ⟨h1, h2⟩ := List.mem_filter.1 hp
  have h2 : ¬ (d.AtLeast v p.2 ∧ d.Matches q.toSet p.1.toSet) := by
    intro hc; rw [decide_eq_true hc] at h2; simp at h2
  refine ⟨fun hd => h2 ⟨hd.2, hd.1⟩, fun hd => ?_⟩
  cases best with
  | none => exact hb p h1 hd.1
  | some b => exact Dir.doesImprove_some.1 hi (Dir.atLeast_trans (hb.2 p h1 hd.1) hd.2)

/-! ## Single calls -/

variable (h2 : 2 ≤ n) (hn : n ≤ maxChannels)

include h2 hn

theorem insert_covers {idx idx' : OutputSetIndex n} {C : List (Bitmap n × ℕ)} (h : Rep idx C) {d : Dir} {q : Bitmap n}
    {v r : ℕ} (hres : idx.insert d q (absOf q) v = some (idx', r)) :
    ∃ C', Rep idx' C' ∧ Covers d C' ((q, v) :: C) ∧ IsBest d ((q, v) :: C) q.toSet (some r) ∧
      ((∀ p ∈ C, d.Matches p.1.toSet q.toSet → ¬ d.AtLeast p.2 v) → r = v ∧ C' = inserted d q v C) ∧
      ((∃ p ∈ C, d.Matches p.1.toSet q.toSet ∧ d.AtLeast p.2 v) → idx' = idx ∧ C' = C) ∧
      (Antichain d C → Antichain d C') := by
  obtain ⟨best, hb, h1, h3, h4⟩ := insert_spec h2 hn h d q v
  by_cases hi : d.doesImprove best v = true
  · by_cases hu : Unique d q v false C
    · obtain ⟨idx'', g1, g2⟩ := h4 hi hu
      rw [g1] at hres
      obtain ⟨rfl, rfl⟩ := Prod.mk.inj (Option.some.inj hres)
      refine ⟨_, g2, covers_inserted d q v C, ?_, fun _ => ⟨rfl, rfl⟩, ?_, fun ha => ha.inserted hb hi⟩
      · refine ⟨⟨(q, v), by simp, rfl, d.matches_refl _⟩, ?_⟩
        intro p hp hm
        rcases List.mem_cons.1 hp with rfl | hp
        · exact d.atLeast_refl _
        · cases best with
          | none => exact absurd hm (hb p hp)
          | some b =>
            exact Dir.atLeast_trans ((d.atLeast_total b v).resolve_left (Dir.doesImprove_some.1 hi)) (hb.2 p hp hm)
      · rintro ⟨p, hp, hm, hat⟩
        cases best with
        | none => exact absurd hm (hb p hp)
        | some b => exact absurd (Dir.atLeast_trans (hb.2 p hp hm) hat) (Dir.doesImprove_some.1 hi)
    · rw [h3 hi hu] at hres
      simp at hres
  · rw [Bool.not_eq_true] at hi
    obtain ⟨b, rfl, g1⟩ := h1 hi
    rw [g1] at hres
    obtain ⟨rfl, rfl⟩ := Prod.mk.inj (Option.some.inj hres)
    have hat : d.AtLeast b v := by
      by_contra hc
      rw [Dir.doesImprove_some.2 hc] at hi
      cases hi
    refine ⟨C, h, covers_skip hb hi, ?_, ?_, fun _ => ⟨rfl, rfl⟩, fun h => h⟩
    · obtain ⟨⟨p, k1, k2, k3⟩, k4⟩ := hb
      refine ⟨⟨p, List.mem_cons_of_mem _ k1, k2, k3⟩, ?_⟩
      intro p hp hm
      rcases List.mem_cons.1 hp with rfl | hp
      · exact hat
      · exact k4 p hp hm
    · intro hall
      obtain ⟨⟨p, k1, k2, k3⟩, k4⟩ := hb
      exact absurd (by rw [k2]; exact hat) (hall p k1 k3)

theorem insert_total {idx : OutputSetIndex n} {C : List (Bitmap n × ℕ)} (h : Rep idx C) (hnd : (C.map Prod.fst).Nodup)
    (d : Dir) (q : Bitmap n) (v : ℕ) : ∃ idx' r, idx.insert d q (absOf q) v = some (idx', r) := by
  obtain ⟨best, hb, h1, h3, h4⟩ := insert_spec h2 hn h d q v
  by_cases hi : d.doesImprove best v = true
  · obtain ⟨idx'', g1, g2⟩ := h4 hi (unique_of_nodup hnd)
    exact ⟨_, _, g1⟩
  · rw [Bool.not_eq_true] at hi
    obtain ⟨b, rfl, g1⟩ := h1 hi
    exact ⟨_, _, g1⟩

omit h2 hn in
theorem abstractionLen_eq (h0 : 0 < n) : abstractionLen n = some (n * (n - 1) * 4) := by
  cases n with
  | zero => omega
  | succ n => rfl

theorem new_rep : ∃ idx : OutputSetIndex n, OutputSetIndex.new n = some idx ∧ Rep idx [] := by
  refine ⟨_, by rw [OutputSetIndex.new, abstractionLen_eq (by omega)]; rfl, ⟨[], List.Forall₂.nil, ?_⟩, ?_, rfl⟩
  · exact List.Perm.refl _
  · intro t ht; simp at ht

theorem apply_covers {idx idx' : OutputSetIndex n} {C : List (Bitmap n × ℕ)} (h : Rep idx C) {d : Dir} {op : Op n}
    (hres : op.apply d idx = some idx') : ∃ C', Rep idx' C' ∧ Covers d C' (op.pair :: C) := by
  cases op with
  | insert s v =>
    rw [Op.apply, abstraction_absOf (by omega) hn] at hres
    obtain ⟨⟨i, r⟩, h1, rfl⟩ := Option.map_eq_some_iff.1 hres
    obtain ⟨C', g1, g2, _⟩ := insert_covers h2 hn h h1
    exact ⟨C', g1, g2⟩
  | insertNew s v =>
    rw [Op.apply, abstraction_absOf (by omega) hn] at hres
    obtain ⟨i, g1, g2⟩ := insertNew_spec h2 hn h d s v
    simp only [Option.bind_eq_bind, Option.bind_some] at hres
    rw [g1] at hres
    obtain rfl := Option.some.inj hres
    exact ⟨_, g2, Covers.refl d _⟩

theorem fold_covers {d : Dir} {ops : List (Op n)} : ∀ {idx idx' : OutputSetIndex n} {C H : List (Bitmap n × ℕ)},
    Rep idx C → Covers d C H → ops.foldlM (Op.apply d) idx = some idx' →
    ∃ C', Rep idx' C' ∧ Covers d C' (H ++ ops.map Op.pair) := by
  induction ops with
  | nil =>
    intro idx idx' C H h hc hres
    obtain rfl := Option.some.inj hres
    exact ⟨C, h, by simpa using hc⟩
  | cons op ops ih =>
    intro idx idx' C H h hc hres
    rw [List.foldlM_cons] at hres
    cases h1 : op.apply d idx with
    | none => rw [h1] at hres; simp at hres
    | some idx1 =>
      rw [h1] at hres
      obtain ⟨C1, g1, g2⟩ := apply_covers h2 hn h h1
      obtain ⟨C', k1, k2⟩ := ih g1 (g2.trans (hc.append _)) hres
      refine ⟨C', k1, ?_⟩
      rw [List.append_assoc] at k2
      exact k2

/-- The contents of an index after a history. -/
theorem history_spec {d : Dir} {ops : List (Op n)} {idx : OutputSetIndex n} (h : history d n ops = some idx) :
    ∃ C, Rep idx C ∧ Covers d C (ops.map Op.pair) := by
  obtain ⟨idx0, h1, h3⟩ := new_rep h2 hn
  rw [history, h1] at h
  exact fold_covers h2 hn h3 (Covers.refl d []) h

/-- The number of stored entries when only the unchecked insertion is used. -/
theorem history_insertNew (d : Dir) (ps : List (Bitmap n × ℕ)) :
    ∃ idx, history d n (ps.map fun p => .insertNew p.1 p.2) = some idx ∧ Rep idx ps := by
  obtain ⟨idx0, h1, h3⟩ := new_rep h2 hn
  have key : ∀ (ps : List (Bitmap n × ℕ)) (idx : OutputSetIndex n) (C : List (Bitmap n × ℕ)), Rep idx C →
      ∃ idx', (ps.map fun p => Op.insertNew p.1 p.2).foldlM (Op.apply d) idx = some idx' ∧ Rep idx' (C ++ ps) := by
    intro ps
    induction ps with
    | nil => intro idx C h; exact ⟨idx, rfl, by simpa using h⟩
    | cons p ps ih =>
      intro idx C h
      obtain ⟨i, g1, g2⟩ := insertNew_spec h2 hn h d p.1 p.2
      obtain ⟨i', k1, k2⟩ := ih i _ g2
      refine ⟨i', ?_, k2.perm ?_⟩
      · rw [List.map_cons, List.foldlM_cons]
        have : Op.apply d idx (Op.insertNew p.1 p.2) = some i := by
          rw [Op.apply, abstraction_absOf (by omega) hn]
          exact g1
        rw [this]
        exact k1
      · exact List.perm_middle.symm
  obtain ⟨idx, g1, g2⟩ := key ps idx0 [] h3
  refine ⟨idx, ?_, g2⟩
  rw [history, h1]
  exact g1

/-- Only the checked insertion. -/
theorem history_insert (d : Dir) (ps : List (Bitmap n × ℕ)) :
    ∃ idx C, history d n (ps.map fun p => .insert p.1 p.2) = some idx ∧ Rep idx C ∧ Antichain d C ∧ Covers d C ps := by
  obtain ⟨idx0, h1, h3⟩ := new_rep h2 hn
  have key : ∀ (ps : List (Bitmap n × ℕ)) (idx : OutputSetIndex n) (C H : List (Bitmap n × ℕ)), Rep idx C →
      Antichain d C → Covers d C H →
      ∃ idx' C', (ps.map fun p => Op.insert p.1 p.2).foldlM (Op.apply d) idx = some idx' ∧ Rep idx' C' ∧
        Antichain d C' ∧ Covers d C' (H ++ ps) := by
    intro ps
    induction ps with
    | nil => intro idx C H h ha hc; exact ⟨idx, C, rfl, h, ha, by simpa using hc⟩
    | cons p ps ih =>
      intro idx C H h ha hc
      obtain ⟨i, r, g1⟩ := insert_total h2 hn h ha.nodup d p.1 p.2
      obtain ⟨C', k1, k2, k3, k4, k5, k6⟩ := insert_covers h2 hn h g1
      obtain ⟨i', C'', m1, m2, m3, m4⟩ := ih i C' (H ++ [p]) k1 (k6 ha) (k2.trans (hc.append p))
      refine ⟨i', C'', ?_, m2, m3, by rw [List.append_assoc] at m4; exact m4⟩
      rw [List.map_cons, List.foldlM_cons]
      have : Op.apply d idx (Op.insert p.1 p.2) = some i := by
        rw [Op.apply, abstraction_absOf (by omega) hn]
        simp only [Option.bind_eq_bind, Option.bind_some]
        rw [g1]
        rfl
      rw [this]
      exact m1
  obtain ⟨idx, C, g1, g2, g3, g4⟩ := key ps idx0 [] [] h3 List.Pairwise.nil (Covers.refl d [])
  refine ⟨idx, C, ?_, g2, g3, g4⟩
  rw [history, h1]
  exact g1

end

end Sortnet.Index
