import Verif.Proof.Files
import Verif.Props.C34

/-!
# C36: `dump_states` writes every state exactly once
-/

namespace Sortnet

open Search Files

/-- The dump in terms of the entries that are drained. -/
theorem Files.dump_spec (m : StateMap) (fs : FS) (get : OSet → Option State)
    (hd : ∀ c p v, (c, p, v) ∈ m.drain ↔ ∃ s : Bitmap c, s.packed = p ∧ get ⟨c, s⟩ = some v)
    (hnd : (m.drain.map fun e => (e.1, e.2.1)).Nodup) :
    ∃ groups : List (ℕ × ℕ), groups.Nodup ∧
      (∀ g, g ∈ groups ↔ ∃ A v, get A = some v ∧ (A.n, v.lo) = g) ∧
      dumpStates m fs indexName = some (groups.flatMap fun g => groupName g ++ [10]) ∧
      (∀ g ∈ groups, ∃ sets : List (Bitmap g.1), sets.Nodup ∧
        dumpStates m fs (groupName g) = some (sets.flatMap Bitmap.packed) ∧
        ∀ s, s ∈ sets ↔ ∃ v, get ⟨g.1, s⟩ = some v ∧ v.lo = g.2) ∧
      ∀ x, x ≠ indexName → (∀ g ∈ groups, x ≠ groupName g) → dumpStates m fs x = fs x := by
  have h := dump_inv fs m.drain
  refine ⟨_, h.nodup, fun g => ?_, h.index, fun g hg => ?_, h.other⟩
  · rw [h.mem]
    constructor
    · rintro ⟨⟨c, p, v⟩, he, rfl⟩
      obtain ⟨s, _, hv⟩ := (hd c p v).1 he
      exact ⟨⟨c, s⟩, v, hv, rfl⟩
    · rintro ⟨⟨c, s⟩, v, hv, rfl⟩
      exact ⟨(c, s.packed, v), (hd _ _ _).2 ⟨s, rfl, hv⟩, rfl⟩
  · have hfile := h.group g hg
    obtain ⟨gc, gb⟩ := g
    dsimp only
    have key : ∀ l : List (ℕ × List UInt8 × State), (∀ e ∈ l, e ∈ m.drain) → (l.map fun e => (e.1, e.2.1)).Nodup →
        ∃ sets : List (Bitmap gc), sets.Nodup ∧
          (l.filter fun e => groupOf e = (gc, gb)).flatMap (fun e => e.2.1) = sets.flatMap Bitmap.packed ∧
          ∀ s, s ∈ sets ↔ ∃ v, (gc, s.packed, v) ∈ l ∧ v.lo = gb := by
      intro l
      induction l with
      | nil => intro _ _; exact ⟨[], by simp, rfl, by simp⟩
      | cons e l ih =>
        intro hl hn
        rw [List.map_cons, List.nodup_cons] at hn
        obtain ⟨sets, h1, h2, h3⟩ := ih (fun e he => hl e (List.mem_cons_of_mem _ he)) hn.2
        obtain ⟨c, p, v⟩ := e
        by_cases hc : groupOf (c, p, v) = (gc, gb)
        · obtain ⟨s, hs, hv⟩ := (hd c p v).1 (hl _ List.mem_cons_self)
          have hlo : v.lo = gb := congrArg Prod.snd hc
          have hcc : c = gc := congrArg Prod.fst hc
          subst hcc
          refine ⟨s :: sets, ?_, ?_, fun s' => ?_⟩
          · rw [List.nodup_cons]
            refine ⟨fun hm => ?_, h1⟩
            obtain ⟨v', hv', _⟩ := (h3 s).1 hm
            exact hn.1 (List.mem_map.2 ⟨_, hv', by rw [← hs]⟩)
          · rw [List.filter_cons, if_pos (by simpa using hc), List.flatMap_cons, List.flatMap_cons, h2, hs]
          · rw [List.mem_cons, h3]
            constructor
            · rintro (rfl | ⟨v', hv', e⟩)
              · exact ⟨v, List.mem_cons.2 (Or.inl (by rw [hs])), hlo⟩
              · exact ⟨v', List.mem_cons_of_mem _ hv', e⟩
            · rintro ⟨v', hv', e⟩
              rcases List.mem_cons.1 hv' with hv' | hv'
              · left
                have : s'.packed = p := (Prod.mk.inj (Prod.mk.inj hv').2).1
                exact packed_injective (this.trans hs.symm)
              · exact Or.inr ⟨v', hv', e⟩
        · refine ⟨sets, h1, ?_, fun s' => ?_⟩
          · rw [List.filter_cons, if_neg (by simpa using hc), h2]
          · rw [h3]
            refine exists_congr fun v' => and_congr_left fun e => ?_
            rw [List.mem_cons]
            constructor
            · exact Or.inr
            · rintro (hv' | hv')
              · exfalso
                apply hc
                rw [← hv']
                exact Prod.ext rfl e
              · exact hv'
    obtain ⟨sets, h1, h2, h3⟩ := key m.drain (fun _ h => h) hnd
    refine ⟨sets, h1, ?_, fun s => ?_⟩
    · rw [← h2]
      exact hfile
    · rw [h3]
      refine exists_congr fun v => and_congr_left fun _ => ?_
      rw [hd]
      constructor
      · rintro ⟨s', hs', hv⟩
        rw [← packed_injective hs']
        exact hv
      · exact fun hv => ⟨s, rfl, hv⟩

/-- C36.  For every state map that results from calls of `set`, `index.txt` names each pair of channels and
lower bound that occurs exactly once, and the file of a group is the concatenation of the packed sets of
exactly the states with these channels and this lower bound, each once.  No other file is changed. -/
theorem C36_dump_states (hash : List UInt8 → ℕ) (threads : ℕ) (hist : List (OSet × State))
    (hh : ∀ e ∈ hist, 3 ≤ e.1.n ∧ e.1.n ≤ 11) (m : StateMap) (hm : (StateMap.new threads).run hash hist = some m)
    (fs : FS) :
    ∃ groups : List (ℕ × ℕ), groups.Nodup ∧
      (∀ g, g ∈ groups ↔ ∃ A v, lastSet hist A = some v ∧ (A.n, v.lo) = g) ∧
      dumpStates m fs indexName = some (groups.flatMap fun g => groupName g ++ [10]) ∧
      (∀ g ∈ groups, ∃ sets : List (Bitmap g.1), sets.Nodup ∧
        dumpStates m fs (groupName g) = some (sets.flatMap Bitmap.packed) ∧
        ∀ s, s ∈ sets ↔ ∃ v, lastSet hist ⟨g.1, s⟩ = some v ∧ v.lo = g.2) ∧
      ∀ x, x ≠ indexName → (∀ g ∈ groups, x ≠ groupName g) → dumpStates m fs x = fs x := by
  obtain ⟨h1, h2, _⟩ := C34_drain hash threads hist hh m hm
  exact dump_spec m fs _ h1 h2

/-- Different groups have different files, which are different from the index. -/
theorem C36_names : Function.Injective groupName ∧ ∀ g, groupName g ≠ indexName :=
  ⟨groupName_injective, groupName_ne_index⟩

/-- Reading the index back, as the other commands do, gives the channels and bounds of the groups in the order
in which they were written. -/
theorem C36_read_index (groups : List (ℕ × ℕ)) (h : ∀ g ∈ groups, g.1 < 2 ^ 64 ∧ g.2 < 256) :
    (lines (groups.flatMap fun g => groupName g ++ [10])).map (fun l => (lineChannels l, lineBound l)) =
      groups.map fun g => (some g.1, some g.2) := by
  have e : (groups.flatMap fun g => groupName g ++ [10]) = (groups.map groupName).flatMap fun s => s ++ [10] := by
    rw [List.flatMap_map]
  rw [e, lines_newlines, List.map_map]
  · refine List.map_congr_left fun g hg => ?_
    rw [Function.comp_apply, lineChannels_groupName (h g hg).1, lineBound_groupName (h g hg).2]
  · intro s hs
    obtain ⟨g, _, rfl⟩ := List.mem_map.1 hs
    exact groupName_line g

/-- Cutting a group file into chunks of the packed length gives back the packed sets. -/
theorem C36_read_group {n : ℕ} (sets : List (Bitmap n)) :
    chunks (packedLen n) (sets.flatMap Bitmap.packed) = sets.map Bitmap.packed := by
  rw [List.flatMap_def]
  refine chunks_flatten ?_ _ ?_
  · unfold packedLen
    have := Nat.one_le_two_pow (n := n)
    omega
  · intro l hl
    obtain ⟨s, _, rfl⟩ := List.mem_map.1 hl
    exact packed_length s

/-- Non-vacuity: dumping the map of the example of C34 gives two groups. -/
example :
    (((StateMap.new 1).run (fun _ => 13) exampleHistory).bind fun m => dumpStates m (fun _ => none) indexName) =
      some (str "group_3_1.bin\ngroup_3_2.bin\n".toList) ∧
    (((StateMap.new 1).run (fun _ => 13) exampleHistory).bind fun m =>
      dumpStates m (fun _ => none) (groupName (3, 1))) = some [6] ∧
    lineChannels (groupName (3, 17)) = some 3 ∧ lineBound (groupName (3, 17)) = some 17 := by
  decide +kernel

end Sortnet
