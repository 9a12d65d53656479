import Verif.Proof.IndexHistory

/-!
# C26: the contents of an index are preserved by its internal reorganisation
-/

namespace Sortnet

open Index

variable {n : ℕ}

/-- C26.  After any history of insertions that did not panic, `for_each` reports a list `L` of entries,
`len` is the number of reported entries, `is_empty` says whether there are none, and every reported
entry consists of a set, the abstraction of this set, and a bound with which this set was inserted. -/
theorem C26_reported_entries (h2 : 2 ≤ n) (hn : n ≤ 11) (d : Dir) (ops : List (Op n)) (idx : OutputSetIndex n)
    (h : history d n ops = some idx) :
    ∃ L, idx.forEach d = some L ∧ idx.len = L.length ∧ (idx.isEmpty = true ↔ L = []) ∧
      ∀ s a v, (s, a, v) ∈ L → s.abstraction = some a ∧ (s, v) ∈ ops.map Op.pair := by
  obtain ⟨C, h1, h3⟩ := history_spec h2 hn h
  obtain ⟨C', hp, hf⟩ := forEach_spec h1 d
  refine ⟨_, hf, ?_, ?_, ?_⟩
  · rw [len_spec h1, List.length_map, hp.length_eq]
  · rw [isEmpty_spec h1, List.isEmpty_iff, List.map_eq_nil_iff]
    constructor
    · rintro rfl; exact List.perm_nil.1 hp
    · rintro rfl; exact List.nil_perm.1 hp
  · intro s a v hs
    obtain ⟨p, hp', he⟩ := List.mem_map.1 hs
    simp only [Prod.mk.injEq] at he
    obtain ⟨rfl, rfl, rfl⟩ := he
    exact ⟨abstraction_absOf (by omega) hn _, h3.sub _ (hp.mem_iff.1 hp')⟩

/-- C26: the unchecked insertion always returns and adds exactly one entry; this includes the merging
and rebuilding of trees. -/
theorem C26_insertNew_adds_one (h2 : 2 ≤ n) (hn : n ≤ 11) (d : Dir) (ops : List (Op n)) (idx : OutputSetIndex n)
    (h : history d n ops = some idx) (s : Bitmap n) (a : List ℕ) (ha : s.abstraction = some a) (v : ℕ) :
    ∃ idx' L L', idx.insertNew d s a v = some idx' ∧ idx.forEach d = some L ∧ idx'.forEach d = some L' ∧
      L'.Perm ((s, a, v) :: L) := by
  obtain ⟨C, h1, h3⟩ := history_spec h2 hn h
  rw [abstraction_absOf (by omega) hn] at ha
  obtain rfl := Option.some.inj ha
  obtain ⟨C1, p1, f1⟩ := forEach_spec h1 d
  obtain ⟨idx', g1, g2⟩ := insertNew_spec h2 hn h1 d s v
  obtain ⟨C2, p2, f2⟩ := forEach_spec g2 d
  exact ⟨idx', _, _, g1, f1, f2, ((p2.trans (p1.symm.cons _)).map _)⟩

open scoped Classical in
/-- C26: the checked insertion either leaves the index unchanged, if some entry is relevant for the set and has a
bound that is at least as good, or adds exactly one entry and removes exactly the entries that the new
one makes redundant. -/
theorem C26_insert_replaces (h2 : 2 ≤ n) (hn : n ≤ 11) (d : Dir) (ops : List (Op n)) (idx : OutputSetIndex n)
    (h : history d n ops = some idx) (s : Bitmap n) (a : List ℕ) (ha : s.abstraction = some a) (v : ℕ)
    (idx' : OutputSetIndex n) (r : ℕ) (hi : idx.insert d s a v = some (idx', r)) :
    ∃ L L', idx.forEach d = some L ∧ idx'.forEach d = some L' ∧
      if ∃ e ∈ L, d.Matches e.1.toSet s.toSet ∧ d.AtLeast e.2.2 v then idx' = idx
      else r = v ∧
        L'.Perm ((s, a, v) :: L.filter fun e => ¬ (d.Matches s.toSet e.1.toSet ∧ d.AtLeast v e.2.2)) := by
  obtain ⟨C, h1, h3⟩ := history_spec h2 hn h
  rw [abstraction_absOf (by omega) hn] at ha
  obtain rfl := Option.some.inj ha
  obtain ⟨C', k1, k2, k3, k4, k5, k6⟩ := insert_covers h2 hn h1 hi
  obtain ⟨C1, p1, f1⟩ := forEach_spec h1 d
  obtain ⟨C2, p2, f2⟩ := forEach_spec k1 d
  refine ⟨_, _, f1, f2, ?_⟩
  split
  · rename_i hex
    obtain ⟨e, he, hm⟩ := hex
    obtain ⟨p, hp, rfl⟩ := List.mem_map.1 he
    exact (k5 ⟨p, p1.mem_iff.1 hp, hm⟩).1
  · rename_i hex
    obtain ⟨rfl, rfl⟩ := k4 (by
      intro p hp hm hat
      exact hex ⟨(p.1, absOf p.1, p.2), List.mem_map.2 ⟨p, p1.mem_iff.2 hp, rfl⟩, hm, hat⟩)
    refine ⟨rfl, (p2.map _).trans ?_⟩
    rw [inserted, List.map_cons, List.filter_map]
    refine List.Perm.cons _ (List.Perm.map _ ?_)
    refine (p1.symm.filter _).trans (List.Perm.of_eq ?_)
    apply List.filter_congr
    intro p _
    simp only [Function.comp]
    rw [Bool.eq_iff_iff]
    simp [and_comm]

/-- C26: an index filled with the unchecked insertion holds exactly the inserted pairs. -/
theorem C26_all_kept (h2 : 2 ≤ n) (hn : n ≤ 11) (d : Dir) (ps : List (Bitmap n × ℕ)) :
    ∃ idx L, history d n (ps.map fun p => .insertNew p.1 p.2) = some idx ∧ idx.forEach d = some L ∧
      (L.map fun e => (e.1, e.2.2)).Perm ps := by
  obtain ⟨idx, h1, h3⟩ := history_insertNew h2 hn d ps
  obtain ⟨C, p, f⟩ := forEach_spec h3 d
  refine ⟨idx, _, h1, f, ?_⟩
  rw [List.map_map]
  refine List.Perm.trans (List.Perm.of_eq ?_) p
  exact List.map_id' C

/-- A hundred insertions, which build and merge trees several times (a tree is built whenever 32
entries are collected): all hundred entries are there. -/
example : ∃ idx : OutputSetIndex 4, history .lower 4 ((List.range 100).map fun k =>
    .insertNew (fun x => x.toNat * 7 % 11 ≤ k) k) = some idx ∧ idx.len = 100 := by
  obtain ⟨idx, h1, h2⟩ := history_insertNew (n := 4) (by norm_num) (by decide) .lower
    ((List.range 100).map fun k => ((fun x => decide (x.toNat * 7 % 11 ≤ k)), k))
  refine ⟨idx, ?_, by rw [len_spec h2]; simp⟩
  rw [List.map_map] at h1
  exact h1

end Sortnet
