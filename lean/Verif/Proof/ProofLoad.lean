import Verif.Model.ProofGen
import Verif.Spec.Cert
import Verif.Proof.PruneCrash
import Verif.Proof.SearchSpec

/-!
# Proofs about loading a log in `gen_proof`, and about finding witnesses
-/

namespace Sortnet

namespace ProofGen

open Search Files Index

/-! ## The maps -/

section Map

variable {β : Type} {m : List (OSet × β)} {A B : OSet} {v w : β}

theorem mapGet_cons (e : OSet × β) : mapGet (e :: m) A = if e.1 = A then some e.2 else mapGet m A := by
  unfold mapGet
  rw [List.find?_cons]
  by_cases h : e.1 = A
  · simp [h]
  · simp [h]

theorem mapGet_filter_ne (h : B ≠ A) : mapGet (m.filter fun e => decide (e.1 ≠ A)) B = mapGet m B := by
  induction m with
  | nil => rfl
  | cons e m ih =>
    rw [List.filter_cons]
    by_cases he : e.1 = A
    · rw [if_neg (by simp [he]), ih, mapGet_cons, if_neg (fun h' => h (h'.symm.trans he))]
    · rw [if_pos (by simp [he]), mapGet_cons, mapGet_cons, ih]

theorem mapGet_insert : mapGet (mapInsert m A v) B = if A = B then some v else mapGet m B := by
  unfold mapInsert
  rw [mapGet_cons]
  dsimp only
  by_cases h : A = B
  · rw [if_pos h, if_pos h]
  · rw [if_neg h, if_neg h, mapGet_filter_ne (Ne.symm h)]

theorem mapGet_mem (h : mapGet m A = some v) : (A, v) ∈ m := by
  induction m with
  | nil => simp [mapGet] at h
  | cons e m ih =>
    rw [mapGet_cons] at h
    split at h
    · rename_i he
      cases h; subst he
      exact List.mem_cons_self
    · exact List.mem_cons_of_mem _ (ih h)

theorem mapGet_some_of_mem (h : (A, v) ∈ m) : ∃ w, mapGet m A = some w := by
  induction m with
  | nil => simp at h
  | cons e m ih =>
    rw [mapGet_cons]
    split
    · exact ⟨_, rfl⟩
    · rename_i he
      rcases List.mem_cons.1 h with rfl | h
      · exact absurd rfl he
      · exact ih h

end Map

/-! ## Indexes -/

/-- The indexes store the sets of the log. -/
structure MRep (m : Indexes) (L : List (OSet × ℕ)) : Prop where
  sorted : (m.map Sigma.fst).Pairwise (· < ·)
  rep : ∀ e ∈ m, 2 ≤ e.1 ∧ e.1 ≤ 11 ∧ ∃ C, Rep e.2 C ∧ ∀ s b, (s, b) ∈ C ↔ (⟨e.1, s⟩, b) ∈ L
  key : ∀ p ∈ L, ∃ e ∈ m, e.1 = p.1.n

theorem Indexes.get_some {m : Indexes} {n : ℕ} {idx : OutputSetIndex n} (h : m.get n = some idx) : ⟨n, idx⟩ ∈ m := by
  induction m with
  | nil => simp [Indexes.get] at h
  | cons e m ih =>
    obtain ⟨k, i0⟩ := e
    rw [Indexes.get] at h
    split at h
    · rename_i hk
      subst hk
      cases h
      exact List.mem_cons_self
    · exact List.mem_cons_of_mem _ (ih h)

theorem Indexes.get_none {m : Indexes} {n : ℕ} (h : m.get n = none) : ∀ e ∈ m, e.1 ≠ n := by
  induction m with
  | nil => simp
  | cons e m ih =>
    obtain ⟨k, i0⟩ := e
    rw [Indexes.get] at h
    split at h
    · simp at h
    · rename_i hk
      intro e he
      rcases List.mem_cons.1 he with rfl | he
      · exact hk
      · exact ih h e he

/-- What changing one entry does. -/
theorem modify_spec {n : ℕ} (h2 : 2 ≤ n) (hn : n ≤ 11) {f : OutputSetIndex n → Option (OutputSetIndex n)}
    {new : List (Bitmap n × ℕ)}
    (hf : ∀ idx C, Rep idx C → ∃ idx' C', f idx = some idx' ∧ Rep idx' C' ∧ ∀ p, p ∈ C' ↔ p ∈ C ∨ p ∈ new)
    (m : Indexes) (hs : (m.map Sigma.fst).Pairwise (· < ·)) (hm : ∀ e ∈ m, ∃ C, Rep e.2 C) :
    ∃ (m' : Indexes), m.modify n f = some m' ∧ (m'.map Sigma.fst).Pairwise (· < ·) ∧
      (∀ k, k ∈ m'.map Sigma.fst ↔ k = n ∨ k ∈ m.map Sigma.fst) ∧
      ∀ e ∈ m', (e.1 ≠ n ∧ e ∈ m) ∨ ∃ (idx' : OutputSetIndex n) (C' : List (Bitmap n × ℕ)), e = ⟨n, idx'⟩ ∧ Rep idx' C' ∧
        ((n ∉ m.map Sigma.fst ∧ ∀ p, p ∈ C' ↔ p ∈ new) ∨
          ∃ (idx : OutputSetIndex n), ⟨n, idx⟩ ∈ m ∧ ∀ C, Rep idx C → ∃ C'', Rep idx' C'' ∧ ∀ p, p ∈ C'' ↔ p ∈ C ∨ p ∈ new) := by
  have hnew : ∃ idx0 idx' C', OutputSetIndex.new n = some idx0 ∧ f idx0 = some idx' ∧ Rep idx' C' ∧ ∀ p, p ∈ C' ↔ p ∈ new := by
    obtain ⟨idx0, e0, r0⟩ := new_rep h2 hn
    obtain ⟨idx', C', e1, r1, hc⟩ := hf idx0 [] r0
    exact ⟨idx0, idx', C', e0, e1, r1, by simpa using hc⟩
  obtain ⟨idx0, idxn, Cn, e0, e1, r1, hc1⟩ := hnew
  induction m with
  | nil =>
    refine ⟨[⟨n, idxn⟩], by simp [Indexes.modify, e0, e1], by simp, by simp, ?_⟩
    intro e he
    rw [List.mem_singleton.1 he]
    exact Or.inr ⟨idxn, Cn, rfl, r1, Or.inl ⟨by simp, hc1⟩⟩
  | cons e m ih =>
    obtain ⟨k, i0⟩ := e
    rw [List.map_cons, List.pairwise_cons] at hs
    rw [Indexes.modify]
    by_cases hk : k = n
    · subst hk
      rw [dif_pos rfl]
      obtain ⟨C, hC⟩ := hm _ List.mem_cons_self
      obtain ⟨idx', C', e2, r2, hc2⟩ := hf i0 C hC
      refine ⟨⟨k, idx'⟩ :: m, by simp [e2], ?_, by simp, ?_⟩
      · rw [List.map_cons, List.pairwise_cons]; exact hs
      · intro e he
        rcases List.mem_cons.1 he with rfl | he
        · refine Or.inr ⟨idx', C', rfl, r2, Or.inr ⟨i0, List.mem_cons_self, ?_⟩⟩
          intro C2 hC2
          obtain ⟨idx2, C2', e3, r3, hc3⟩ := hf i0 C2 hC2
          rw [e2] at e3
          cases e3
          exact ⟨C2', r3, hc3⟩
        · refine Or.inl ⟨?_, List.mem_cons_of_mem _ he⟩
          have : k < e.1 := hs.1 e.1 (List.mem_map.2 ⟨e, he, rfl⟩)
          omega
    · rw [dif_neg hk]
      by_cases hlt : n < k
      · rw [if_pos hlt]
        refine ⟨⟨n, idxn⟩ :: ⟨k, i0⟩ :: m, by simp [e0, e1], ?_, by simp, ?_⟩
        · rw [List.map_cons, List.map_cons, List.pairwise_cons, List.pairwise_cons]
          refine ⟨?_, hs⟩
          intro x hx
          rcases List.mem_cons.1 hx with rfl | hx
          · exact hlt
          · exact hlt.trans (hs.1 x hx)
        · have hnot : n ∉ ((⟨k, i0⟩ :: m : Indexes).map Sigma.fst) := by
            rw [List.map_cons, List.mem_cons]
            rintro (h | h)
            · exact hk h.symm
            · exact absurd (hs.1 n h) (by dsimp only; omega)
          intro e he
          rcases List.mem_cons.1 he with rfl | he
          · exact Or.inr ⟨idxn, Cn, rfl, r1, Or.inl ⟨hnot, hc1⟩⟩
          · refine Or.inl ⟨?_, he⟩
            intro h
            exact hnot (h ▸ List.mem_map.2 ⟨e, he, rfl⟩)
      · rw [if_neg hlt]
        obtain ⟨m', e2, s2, k2, h3⟩ := ih hs.2 fun e he => hm e (List.mem_cons_of_mem _ he)
        refine ⟨⟨k, i0⟩ :: m', by simp [e2], ?_, ?_, ?_⟩
        · rw [List.map_cons, List.pairwise_cons]
          refine ⟨?_, s2⟩
          intro x hx
          rcases (k2 x).1 hx with rfl | hx
          · dsimp only; omega
          · exact hs.1 x hx
        · intro x
          rw [List.map_cons, List.mem_cons, k2, List.map_cons, List.mem_cons]
          tauto
        · intro e he
          rcases List.mem_cons.1 he with rfl | he
          · exact Or.inl ⟨hk, List.mem_cons_self⟩
          · rcases h3 e he with ⟨h4, h5⟩ | ⟨idx', C', h4, h5, h6⟩
            · exact Or.inl ⟨h4, List.mem_cons_of_mem _ h5⟩
            · refine Or.inr ⟨idx', C', h4, h5, ?_⟩
              rcases h6 with ⟨h6, h7⟩ | ⟨idx, h6, h7⟩
              · refine Or.inl ⟨?_, h7⟩
                rw [List.map_cons, List.mem_cons]
                rintro (h | h)
                · exact hk h.symm
                · exact h6 h
              · exact Or.inr ⟨idx, List.mem_cons_of_mem _ h6, h7⟩

/-! ## Loading -/

theorem insertPacked_spec {n b : ℕ} (h2 : 2 ≤ n) (hn : n ≤ 11) (sets : List (Bitmap n)) (idx : OutputSetIndex n)
    (C : List (Bitmap n × ℕ)) (h : Rep idx C) :
    ∃ idx' C', (sets.map Bitmap.packed).foldlM (insertPacked n b) idx = some idx' ∧ Rep idx' C' ∧
      ∀ p, p ∈ C' ↔ p ∈ C ∨ p ∈ sets.map fun s => (s, b) := by
  induction sets generalizing idx C with
  | nil => exact ⟨idx, C, rfl, h, by simp⟩
  | cons s sets ih =>
    obtain ⟨idx1, e1, r1⟩ := insertNew_spec h2 hn h .lowerInvert s b
    obtain ⟨idx2, C2, e2, r2, h3⟩ := ih idx1 _ r1
    refine ⟨idx2, C2, ?_, r2, ?_⟩
    · rw [List.map_cons, List.foldlM_cons, insertPacked, Files.fromPacked_packed]
      simp only [Option.bind_eq_bind, Option.bind_some]
      rw [abstraction_absOf (by omega) hn]
      simp only [Option.bind_some]
      rw [e1]
      exact e2
    · intro p
      rw [h3, List.mem_cons, List.map_cons, List.mem_cons]
      tauto

theorem MRep.modify {m : Indexes} {L : List (OSet × ℕ)} (h : MRep m L) {n b : ℕ} (h2 : 2 ≤ n) (hn : n ≤ 11)
    (sets : List (Bitmap n)) (hne : sets ≠ []) :
    ∃ m', Indexes.modify n (fun idx => (sets.map Bitmap.packed).foldlM (insertPacked n b) idx) m = some m' ∧
      MRep m' (L ++ sets.map fun s => (⟨n, s⟩, b)) := by
  obtain ⟨m', e1, s1, k1, h1⟩ := modify_spec h2 hn (new := sets.map fun s => (s, b))
    (fun idx C hC => insertPacked_spec h2 hn sets idx C hC) m h.sorted (fun e he => by
      obtain ⟨_, _, C, hC, _⟩ := h.rep e he; exact ⟨C, hC⟩)
  have hkey : ∀ k : ℕ, k ∉ m.map Sigma.fst → ∀ (s : Bitmap k) c, ((⟨k, s⟩ : OSet), c) ∉ L := by
    intro k hk s c hL
    obtain ⟨e, he, hek⟩ := h.key _ hL
    exact hk (List.mem_map.2 ⟨e, he, hek⟩)
  have hin : ∀ (s : Bitmap n) c, ((⟨n, s⟩ : OSet), c) ∈ sets.map (fun s => ((⟨n, s⟩ : OSet), b)) ↔
      (s, c) ∈ sets.map fun s => (s, b) := by
    intro s c
    simp only [List.mem_map, Prod.mk.injEq]
    constructor
    · rintro ⟨t, ht, e, rfl⟩
      cases e
      exact ⟨s, ht, rfl, rfl⟩
    · rintro ⟨t, ht, rfl, rfl⟩
      exact ⟨t, ht, rfl, rfl⟩
  refine ⟨m', e1, s1, ?_, ?_⟩
  · intro e he
    rcases h1 e he with ⟨h3, h4⟩ | ⟨idx', C', rfl, r', h4⟩
    · obtain ⟨g1, g2, C, g3, g4⟩ := h.rep e h4
      refine ⟨g1, g2, C, g3, fun s c => ?_⟩
      rw [g4, List.mem_append]
      refine ⟨Or.inl, ?_⟩
      rintro (h | h)
      · exact h
      · obtain ⟨t, _, ht⟩ := List.mem_map.1 h
        exact absurd (congrArg (fun p : OSet × ℕ => p.1.n) ht).symm h3
    · refine ⟨h2, hn, ?_⟩
      rcases h4 with ⟨h5, h6⟩ | ⟨idx, h5, h6⟩
      · refine ⟨C', r', fun s c => ?_⟩
        rw [h6, List.mem_append, hin]
        exact ⟨Or.inr, fun h => h.resolve_left (hkey n h5 s c)⟩
      · obtain ⟨_, _, C, g3, g4⟩ := h.rep _ h5
        obtain ⟨C'', r'', h7⟩ := h6 C g3
        refine ⟨C'', r'', fun s c => ?_⟩
        rw [h7, List.mem_append, hin, g4]
  · intro p hp
    have : p.1.n ∈ m'.map Sigma.fst := by
      rw [k1]
      rcases List.mem_append.1 hp with hp | hp
      · obtain ⟨e, he, hek⟩ := h.key p hp
        exact Or.inr (hek ▸ List.mem_map.2 ⟨e, he, rfl⟩)
      · obtain ⟨t, _, ht⟩ := List.mem_map.1 hp
        exact Or.inl (congrArg (fun p : OSet × ℕ => p.1.n) ht).symm
    obtain ⟨e, he, hek⟩ := List.mem_map.1 this
    exact ⟨e, he, hek⟩

theorem loadLine_spec {fs : FS} {g : ℕ × ℕ} {sets : List (Bitmap g.1)} (h2 : 2 ≤ g.1) (hn : g.1 ≤ 11) (hb : g.2 < 256)
    (hne : sets ≠ []) (hf : fs (pbinName g) = some (sets.flatMap Bitmap.packed)) {m : Indexes} {L : List (OSet × ℕ)}
    (h : MRep m L) : ∃ m', loadLine fs m (groupName g) = some m' ∧ MRep m' (L ++ sets.map fun s => (⟨g.1, s⟩, g.2)) := by
  obtain ⟨m', e, h'⟩ := h.modify (b := g.2) h2 hn sets hne
  refine ⟨m', ?_, h'⟩
  unfold loadLine
  rw [lineChannels_groupName (by have : (11 : ℕ) < 2 ^ 64 := by norm_num
                                 omega), lineBound_groupName hb]
  simp only [Option.bind_eq_bind, Option.bind_some]
  rw [show withExtension (groupName g) extPbin = pbinName g from rfl, hf]
  simp only [Option.bind_some]
  have hd : sets.flatMap Bitmap.packed ≠ [] := by
    intro hd
    obtain ⟨s, hs⟩ := List.exists_mem_of_ne_nil _ hne
    have hp := packed_length s
    have h0 := List.flatMap_eq_nil_iff.1 hd s hs
    rw [h0] at hp
    have := Nat.one_le_two_pow (n := g.1)
    simp only [List.length_nil, packedLen] at hp
    omega
  rw [if_neg hd, chunks_sets]
  exact e

theorem load_spec {fs : FS} {groups : List (ℕ × ℕ)} {sets : (g : ℕ × ℕ) → List (Bitmap g.1)} (h : LogDir fs groups sets) :
    ∃ m, load fs = some m ∧ MRep m (logged groups sets) := by
  have key : ∀ (gs : List (ℕ × ℕ)) (m : Indexes) (L : List (OSet × ℕ)), (∀ g ∈ gs, g ∈ groups) → MRep m L →
      ∃ m', (gs.map groupName).foldlM (loadLine fs) m = some m' ∧ MRep m' (L ++ logged gs sets) := by
    intro gs
    induction gs with
    | nil => intro m L _ hm; exact ⟨m, rfl, by simpa [logged] using hm⟩
    | cons g gs ih =>
      intro m L hgs hm
      have hg := hgs g List.mem_cons_self
      obtain ⟨m1, e1, h1⟩ := loadLine_spec (h.channels g hg).1 (h.channels g hg).2 (h.bound g hg) (h.sets_ne g hg) (h.file g hg) hm
      obtain ⟨m2, e2, h2⟩ := ih m1 _ (fun g' hg' => hgs g' (List.mem_cons_of_mem _ hg')) h1
      refine ⟨m2, ?_, ?_⟩
      · rw [List.map_cons, List.foldlM_cons, e1]; exact e2
      · unfold logged at h2 ⊢
        rw [List.flatMap_cons, ← List.append_assoc]; exact h2
  obtain ⟨m, e, hm⟩ := key groups [] [] (fun _ h => h) ⟨by simp, by simp, by simp⟩
  refine ⟨m, ?_, by simpa using hm⟩
  unfold load
  obtain ⟨data, h1, h2⟩ := h.index
  rw [h1]
  simp only [Option.bind_eq_bind, Option.bind_some]
  rw [h2]
  exact e

/-! ## The map of all sets -/

/-- The map `output_sets` has one bound for each set of the log. -/
structure OutRep (o : List (OSet × ℕ)) (L : List (OSet × ℕ)) : Prop where
  nodup : (o.map Prod.fst).Nodup
  sub : ∀ p ∈ o, p ∈ L
  cover : ∀ p ∈ L, ∃ b, (p.1, b) ∈ o

theorem mapGet_of_nodup {β : Type} {m : List (OSet × β)} (hnd : (m.map Prod.fst).Nodup) {A : OSet} {v : β}
    (h : (A, v) ∈ m) : mapGet m A = some v := by
  induction m with
  | nil => simp at h
  | cons e m ih =>
    rw [List.map_cons, List.nodup_cons] at hnd
    rw [mapGet_cons]
    rcases List.mem_cons.1 h with rfl | h
    · rw [if_pos rfl]
    · rw [if_neg, ih hnd.2 h]
      rintro rfl
      exact hnd.1 (List.mem_map.2 ⟨_, h, rfl⟩)

theorem mapInsert_nodup {m : List (OSet × ℕ)} {A : OSet} {v : ℕ} (h : (m.map Prod.fst).Nodup) :
    ((mapInsert m A v).map Prod.fst).Nodup := by
  unfold mapInsert
  rw [List.map_cons, List.nodup_cons]
  refine ⟨?_, h.sublist (List.Sublist.map _ List.filter_sublist)⟩
  intro hm
  obtain ⟨e, he, rfl⟩ := List.mem_map.1 hm
  simpa using (List.mem_filter.1 he).2

theorem insertAll_spec {L : List (OSet × ℕ)} (es : List (OSet × ℕ)) (hes : ∀ e ∈ es, e ∈ L) (m : List (OSet × ℕ))
    (hm : (m.map Prod.fst).Nodup) (hmL : ∀ e ∈ m, e ∈ L) :
    ((es.foldl (fun m x => mapInsert m x.1 x.2) m).map Prod.fst).Nodup ∧
    (∀ e ∈ es.foldl (fun m x => mapInsert m x.1 x.2) m, e ∈ L) ∧
    ∀ A, (∃ b, (A, b) ∈ m ∨ (A, b) ∈ es) → ∃ b, (A, b) ∈ es.foldl (fun m x => mapInsert m x.1 x.2) m := by
  induction es generalizing m with
  | nil => exact ⟨hm, hmL, by simp⟩
  | cons e es ih =>
    rw [List.foldl_cons]
    obtain ⟨h1, h2, h3⟩ := ih (fun x hx => hes x (List.mem_cons_of_mem _ hx)) (mapInsert m e.1 e.2) (mapInsert_nodup hm) (by
      intro x hx
      rcases List.mem_cons.1 hx with rfl | hx
      · exact hes _ List.mem_cons_self
      · exact hmL x (List.mem_filter.1 hx).1)
    refine ⟨h1, h2, ?_⟩
    rintro A ⟨b, hA⟩
    apply h3
    by_cases hAe : A = e.1
    · exact ⟨e.2, Or.inl (by rw [hAe]; exact List.mem_cons_self)⟩
    · refine ⟨b, ?_⟩
      rcases hA with hA | hA
      · exact Or.inl (List.mem_cons_of_mem _ (List.mem_filter.2 ⟨hA, by simpa using hAe⟩))
      · rcases List.mem_cons.1 hA with rfl | hA
        · exact absurd rfl hAe
        · exact Or.inr hA

theorem addSets_spec {L : List (OSet × ℕ)} (m : Indexes)
    (hm : ∀ e ∈ m, ∃ C, Rep e.2 C ∧ ∀ s b, (s, b) ∈ C ↔ (⟨e.1, s⟩, b) ∈ L) (o : List (OSet × ℕ))
    (ho : (o.map Prod.fst).Nodup) (hoL : ∀ e ∈ o, e ∈ L) :
    ∃ o', m.foldlM addSets o = some o' ∧ (o'.map Prod.fst).Nodup ∧ (∀ e ∈ o', e ∈ L) ∧
      ∀ A, ((∃ b, (A, b) ∈ o) ∨ (∃ b, (A, b) ∈ L) ∧ ∃ e ∈ m, e.1 = A.n) → ∃ b, (A, b) ∈ o' := by
  induction m generalizing o with
  | nil => exact ⟨o, rfl, ho, hoL, by simp⟩
  | cons e m ih =>
    obtain ⟨C, hC, hCL⟩ := hm e List.mem_cons_self
    obtain ⟨C', hp, hf⟩ := forEach_spec hC .lowerInvert
    have hfold : (C'.map fun p => (p.1, absOf p.1, p.2)).foldl (fun m x => mapInsert m (⟨e.1, x.1⟩ : OSet) x.2.2) o =
        (C'.map fun p => ((⟨e.1, p.1⟩ : OSet), p.2)).foldl (fun m x => mapInsert m x.1 x.2) o := by
      rw [List.foldl_map, List.foldl_map]
    have hmemC : ∀ (A : OSet) b, (A, b) ∈ C'.map (fun p => ((⟨e.1, p.1⟩ : OSet), p.2)) ↔ (A, b) ∈ L ∧ A.n = e.1 := by
      intro A b
      constructor
      · intro h
        obtain ⟨q, hq, hqe⟩ := List.mem_map.1 h
        rw [Prod.mk.injEq] at hqe
        obtain ⟨rfl, rfl⟩ := hqe
        exact ⟨(hCL _ _).1 (hp.mem_iff.1 hq), rfl⟩
      · rintro ⟨h, hn⟩
        obtain ⟨n, s⟩ := A
        obtain rfl : n = e.1 := hn
        exact List.mem_map.2 ⟨(s, b), hp.mem_iff.2 ((hCL _ _).2 h), rfl⟩
    obtain ⟨h1, h2, h3⟩ := insertAll_spec (L := L) (C'.map fun p => ((⟨e.1, p.1⟩ : OSet), p.2))
      (fun x hx => ((hmemC x.1 x.2).1 hx).1) o ho hoL
    obtain ⟨o', e1, g1, g2, g3⟩ := ih (fun e he => hm e (List.mem_cons_of_mem _ he)) _ h1 h2
    refine ⟨o', ?_, g1, g2, ?_⟩
    · rw [List.foldlM_cons, addSets, hf]
      simp only [Option.bind_eq_bind, Option.bind_some]
      rw [hfold]
      exact e1
    · intro A hA
      apply g3
      by_cases hn : A.n = e.1
      · left
        rcases hA with ⟨b, hA⟩ | ⟨⟨b, hA⟩, _⟩
        · exact h3 A ⟨b, Or.inl hA⟩
        · exact h3 A ⟨b, Or.inr ((hmemC A b).2 ⟨hA, hn⟩)⟩
      · rcases hA with ⟨b, hA⟩ | ⟨hA, e', he', hen⟩
        · exact Or.inl (h3 A ⟨b, Or.inl hA⟩)
        · refine Or.inr ⟨hA, e', ?_, hen⟩
          rcases List.mem_cons.1 he' with rfl | he'
          · exact absurd hen.symm hn
          · exact he'

/-- The state of `GenProof` before the search for steps. -/
structure GRep (g : GenProof) (L : List (OSet × ℕ)) : Prop where
  idx : MRep g.prunedIndexes L
  out : OutRep g.outputSets L

theorem new_spec {m : Indexes} {L : List (OSet × ℕ)} (h : MRep m L) : ∃ g, GenProof.new m = some g ∧ GRep g L ∧
    g.prunedIndexes = m := by
  obtain ⟨o, e, h1, h2, h3⟩ := addSets_spec (L := L) m (fun e he => (h.rep e he).2.2) [] (by simp) (by simp)
  refine ⟨⟨m, o, []⟩, ?_, ⟨h, h1, h2, ?_⟩, rfl⟩
  · unfold GenProof.new
    rw [e]; rfl
  · intro p hp
    exact h3 p.1 (Or.inr ⟨⟨p.2, hp⟩, h.key p hp⟩)

/-! ## Witnesses -/

/-- What `lookup_witness` returns for the set `T`. -/
structure WitOK (L : List (OSet × ℕ)) (T : OSet) (r : ℕ × Option PWitness) : Prop where
  /-- no bound in the log that applies to `T` is better -/
  best : ∀ (s : Bitmap T.n) b, (⟨T.n, s⟩, b) ∈ L → SubsumesInv s.toSet T.s.toSet → b ≤ r.1
  fallback : r.2 = none → r.1 = if T.s.isSorted then 0 else 1
  noMatch : r.2 = none → ∀ (s : Bitmap T.n) b, (⟨T.n, s⟩, b) ∈ L → ¬ SubsumesInv s.toSet T.s.toSet
  wit : ∀ w, r.2 = some w → ∃ (s : Bitmap T.n) (π : Equiv.Perm (Fin T.n)), w.target = ⟨T.n, s⟩ ∧ (w.target, r.1) ∈ L ∧
    w.perm = (List.finRange T.n).map (fun i => (π i : ℕ)) ∧
    permSet π (if w.invert then complSet s.toSet else s.toSet) ⊆ T.s.toSet

theorem GRep.lookupWitness {g : GenProof} {L : List (OSet × ℕ)} (h : GRep g L) (T : OSet) :
    ∃ r, g.lookupWitness T = some r ∧ WitOK L T r := by
  have hfall : ∀ hno : ∀ (s : Bitmap T.n) b, (⟨T.n, s⟩, b) ∈ L → ¬ SubsumesInv s.toSet T.s.toSet,
      WitOK L T (if T.s.isSorted then 0 else 1, none) := by
    intro hno
    refine ⟨fun s b hs hm => absurd hm (hno s b hs), fun _ => rfl, fun _ => hno, ?_⟩
    intro w hw
    simp at hw
  unfold GenProof.lookupWitness GenProof.subsuming
  cases hg : g.prunedIndexes.get T.n with
  | none =>
    refine ⟨_, rfl, hfall ?_⟩
    intro s b hs _
    obtain ⟨e, he, hen⟩ := h.idx.key _ hs
    exact Indexes.get_none hg e he hen
  | some idx =>
    obtain ⟨h2, hn, C, hC, hCL⟩ := h.idx.rep _ (Indexes.get_some hg)
    dsimp only at h2 hn C hC hCL
    obtain ⟨r, e1, e2, h3⟩ := lookupSubsuming_spec (by omega) hn hC .lowerInvert T.s
    obtain ⟨r', e3, h4⟩ := lookup_spec (by omega) hn hC .lowerInvert T.s
    rw [e2] at e3
    obtain rfl := Option.some.inj e3
    dsimp only
    rw [abstraction_absOf (by omega) hn]
    simp only [Option.bind_eq_bind, Option.bind_some]
    rw [e1]
    simp only [Option.bind_some]
    cases r with
    | none =>
      refine ⟨_, rfl, hfall ?_⟩
      intro s b hs
      exact h4 (s, b) ((hCL _ _).2 hs)
    | some r =>
      obtain ⟨v, ⟨inv, perm⟩, s⟩ := r
      obtain ⟨hmem, π, hπ, hw⟩ := h3
      obtain ⟨b, hb⟩ := h.out.cover _ ((hCL _ _).1 hmem)
      dsimp only at hb ⊢
      rw [mapGet_of_nodup h.out.nodup hb]
      refine ⟨_, rfl, ?_, ?_, ?_, ?_⟩
      · intro t b' ht hm
        exact h4.2 (t, b') ((hCL _ _).2 ht) hm
      · intro h; simp at h
      · intro h; simp at h
      · intro w hw'
        obtain rfl := Option.some.inj hw'
        refine ⟨s, π, rfl, (hCL _ _).1 hmem, ?_, hw⟩
        dsimp only at hπ ⊢
        rw [hπ]

end ProofGen

end Sortnet
