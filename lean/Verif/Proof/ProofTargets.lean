import Verif.Proof.ProofEncode

/-!
# The sets that the witnesses of a step are about, and the whole of `gen_proof`
-/

namespace Sortnet

namespace ProofGen

open Search Files Index

theorem filter_map_filterMap {α β γ : Type} (p : α → Bool) (f : α → Option β) (v : β → γ) (w : α → γ) (l : List α)
    (h : ∀ a ∈ l, (p a = true ∧ ∃ b, f a = some b ∧ v b = w a) ∨ (p a = false ∧ f a = none)) :
    (l.filterMap f).map v = (l.filter p).map w := by
  induction l with
  | nil => rfl
  | cons a l ih =>
    have ih := ih fun a ha => h a (List.mem_cons_of_mem _ ha)
    rcases h a List.mem_cons_self with ⟨h1, b, h2, h3⟩ | ⟨h1, h2⟩
    · rw [List.filterMap_cons, h2, List.filter_cons, if_pos h1, List.map_cons, List.map_cons, ih, h3]
    · rw [List.filterMap_cons, h2, List.filter_cons, if_neg (by simp [h1]), ih]

theorem succs_vset (A : OSet) : (succs A).map OSet.vset = successorSets A.s.toSet := by
  classical
  obtain ⟨n, s⟩ := A
  unfold succs successorSets
  have hp : (List.finRange n).flatMap (fun i => ((List.finRange n).filter fun j => j < i).map fun j => (j, i)) =
      (pairs n).map Prod.swap := by
    unfold pairs
    rw [List.map_flatMap]
    congr 1
    funext i
    rw [List.map_map]
    rfl
  rw [hp, List.filter_map, List.map_map]
  refine filter_map_filterMap _ _ _ _ _ ?_
  rintro ⟨i, j⟩ hij
  have hne : i ≠ j := mem_pairs_ne hij
  have hflag := applyComparator_flag s hne
  cases hs : (s.applyComparator i j).2 with
  | true =>
    left
    obtain ⟨h1, h2⟩ := hflag.1 hs
    refine ⟨?_, ⟨n, (s.applyComparator i j).1⟩, ?_, ?_⟩
    · simp only [Function.comp, Prod.swap, decide_eq_true_eq]
      refine ⟨?_, ?_⟩
      · obtain ⟨v, hv, a, b⟩ := h1; exact ⟨v, hv, b, a⟩
      · obtain ⟨v, hv, a, b⟩ := h2; exact ⟨v, hv, b, a⟩
    · simp only [successor]
      rw [if_pos hs]
    · simp only [OSet.vset, Function.comp, Prod.swap]
      rw [applyComparator_toSet s hne]
  | false =>
    right
    refine ⟨?_, ?_⟩
    · simp only [Function.comp, Prod.swap, decide_eq_false_iff_not]
      rintro ⟨⟨v, hv, a, b⟩, w, hw, c, d⟩
      have := hflag.2 ⟨⟨v, hv, b, a⟩, w, hw, d, c⟩
      rw [hs] at this
      simp at this
    · simp only [successor]
      rw [if_neg (by simp [hs])]

theorem pruned_vset (A : OSet) (pol : Bool) :
    ((extremal A pol).filterMap fun c => prune A pol c).map OSet.vset = prunedSets pol A.s.toSet := by
  classical
  obtain ⟨n, s⟩ := A
  cases n with
  | zero => rfl
  | succ n =>
    have h1 : (extremal ⟨n + 1, s⟩ pol) = (List.finRange (n + 1)).filter fun c => extremalVec pol c ∈ s.toSet := by
      unfold extremal
      refine List.filter_congr fun c _ => ?_
      rw [Bool.eq_iff_iff, decide_eq_true_eq]
      exact channelIsExtremal_iff s pol c
    unfold prunedSets
    dsimp only
    rw [← h1]
    conv_rhs => rw [← List.filter_true (extremal ⟨n + 1, s⟩ pol)]
    refine filter_map_filterMap _ _ _ _ _ ?_
    intro c hc
    left
    refine ⟨rfl, ?_⟩
    obtain ⟨B, hB⟩ := prune_some hc
    refine ⟨B, hB, ?_⟩
    unfold prune at hB
    dsimp only at hB
    rw [Option.map_eq_some_iff] at hB
    obtain ⟨t, ht, rfl⟩ := hB
    simp only [OSet.vset]
    rw [pruneExtremalChannel_toSet ht]
    rfl

/-- The targets of a step in a form that is close to the code. -/
theorem targets_eq (c : CertStep) : c.targets =
    (match c.kind with
      | .huffman pol => (extremal c.set pol).filterMap fun ch => prune c.set pol ch
      | .successors => succs c.set).map OSet.vset := by
  unfold CertStep.targets
  cases c.kind with
  | huffman pol => exact (pruned_vset _ _).symm
  | successors => exact (succs_vset _).symm

theorem WitOK.shows {g : GenProof} {L : List (OSet × ℕ)} {cs : List CertStep} {T : OSet} {r : ℕ × Option PWitness}
    (h : WitOK L T r) {ref : Option CertRef} (hr : RefOK g cs r.2 ref) :
    ∀ x, ref = some x → ∃ d, cs[x.id]? = some d ∧ x.Shows d.set.vset T.vset ∧ (d.set, r.1) ∈ L := by
  rintro x rfl
  cases hw : r.2 with
  | none => rw [hw] at hr; exact hr.elim
  | some w =>
    rw [hw] at hr
    obtain ⟨h1, h2, h3⟩ := hr
    rw [Option.map_eq_some_iff] at h3
    obtain ⟨d, hd, hds⟩ := h3
    obtain ⟨s, π, g1, g2, g3, g4⟩ := h.wit w hw
    refine ⟨d, hd, ⟨s.toSet, π, ?_, ?_, ?_⟩, hds ▸ g2⟩
    · rw [hds, g1]; rfl
    · rw [h2, g3]; rfl
    · rw [h1]; exact g4

theorem forall₂_map_right_iff {α β γ : Type} {R : α → γ → Prop} {f : β → γ} {l : List α} {l' : List β} :
    List.Forall₂ R l (l'.map f) ↔ List.Forall₂ (fun a b => R a (f b)) l l' := by
  rw [List.forall₂_map_right_iff]

/-- References of a step and the sets they are about. -/
theorem EncInv.refs {g : GenProof} {L : List (OSet × ℕ)} (h : PRep g L) {cs : List CertStep} {st : Enc}
    (hi : EncInv g cs st) {i : ℕ} {c : CertStep} (hc : cs[i]? = some c) :
    (c.set, c.bound) ∈ L ∧ List.Forall₂ (fun ref T => ∀ x, ref = some x → x.id < i ∧ ∃ d, cs[x.id]? = some d ∧
      x.Shows d.set.vset T) c.refs c.targets := by
  obtain ⟨s, ws, h1, h2, h3, h4⟩ := hi.step i c hc
  obtain ⟨s', h2', hok⟩ := h.steps _ _ h1
  rw [h2] at h2'
  obtain rfl := Option.some.inj h2'
  refine ⟨h.out.sub _ (mapGet_mem h1), ?_⟩
  have key : ∀ (Ts : List OSet) (rs : List (ℕ × Option PWitness)) (refs : List (Option CertRef)),
      List.Forall₂ (fun T r => WitOK L T r) Ts rs → List.Forall₂ (RefOK g (cs.take i)) (rs.map Prod.snd) refs →
      List.Forall₂ (fun ref T => ∀ x, ref = some x → x.id < i ∧ ∃ d, cs[x.id]? = some d ∧
        x.Shows d.set.vset T) refs (Ts.map OSet.vset) := by
    intro Ts rs refs hT
    induction hT generalizing refs with
    | nil => intro hr; cases hr; exact List.Forall₂.nil
    | @cons T r Ts rs hw _ ih =>
      intro hr
      rw [List.map_cons] at hr
      cases hr with
      | cons hr1 hr2 =>
        refine List.Forall₂.cons ?_ (ih _ hr2)
        intro x hx
        obtain ⟨d, hd, hs, _⟩ := hw.shows hr1 x hx
        rw [List.getElem?_take] at hd
        split at hd
        · rename_i hlt
          exact ⟨hlt, d, hd, hs⟩
        · simp at hd
  rw [targets_eq]
  cases s with
  | trivial => simp [PStep.certKind] at h3
  | notSorted => simp [PStep.certKind] at h3
  | huffman pol ws' =>
    simp only [PStep.certKind, Option.some.injEq, Prod.mk.injEq] at h3
    obtain ⟨hk, rfl⟩ := h3
    obtain ⟨_, rs, g1, rfl, _⟩ := hok
    rw [← hk]
    refine key _ rs _ ?_ h4
    clear h4 h2 h2'
    rename_i hv
    clear hv
    dsimp only
    generalize extremal c.set pol = l at g1 ⊢
    induction g1 with
    | nil => exact List.Forall₂.nil
    | cons hd _ ih =>
      obtain ⟨T, hT, hw⟩ := hd
      rw [List.filterMap_cons]
      simp only [hT]
      exact List.Forall₂.cons hw ih
  | successors ws' =>
    simp only [PStep.certKind, Option.some.injEq, Prod.mk.injEq] at h3
    obtain ⟨hk, rfl⟩ := h3
    obtain ⟨_, rs, g1, rfl⟩ := hok
    rw [← hk]
    exact key _ rs _ (g1.imp fun _ _ h => h.1) h4

/-- The whole of `gen_proof` up to writing the file. -/
theorem genSteps_spec {fs : FS} {groups : List (ℕ × ℕ)} {sets : (g : ℕ × ℕ) → List (Bitmap g.1)}
    (h : LogDir fs groups sets) : ∃ m g N, load fs = some m ∧ GenProof.new m = some g ∧ GRep g (logged groups sets) ∧
      (m.map Sigma.fst).getLast? = some N ∧ N ≤ 11 ∧ (∃ q ∈ groups, q.1 = N) ∧ (∀ q ∈ groups, q.1 ≤ N) ∧
      ∀ g', g.proveAll = some g' → PRep g' (logged groups sets) ∧ g'.outputSets = g.outputSets ∧
        genSteps fs = (g'.encodeProof ⟨N, allValues N⟩ ⟨[], []⟩).map fun r => r.2.stepData := by
  obtain ⟨m, e1, h1⟩ := load_spec h
  obtain ⟨g, e2, h2, h3⟩ := new_spec h1
  have hne : m ≠ [] := by
    rintro rfl
    obtain ⟨q, hq⟩ := List.exists_mem_of_ne_nil _ h.nonempty
    obtain ⟨s, hs⟩ := List.exists_mem_of_ne_nil _ (h.sets_ne q hq)
    obtain ⟨e, he, _⟩ := h1.key (⟨q.1, s⟩, q.2) (List.mem_flatMap.2 ⟨q, hq, List.mem_map.2 ⟨s, hs, rfl⟩⟩)
    simp at he
  obtain ⟨e, he, hlast⟩ : ∃ e ∈ m, (m.map Sigma.fst).getLast? = some e.1 := by
    refine ⟨m.getLast hne, List.getLast_mem hne, ?_⟩
    rw [List.getLast?_map, List.getLast?_eq_some_getLast hne]
    rfl
  have hmax : ∀ k ∈ m.map Sigma.fst, k ≤ e.1 := by
    have hs := h1.sorted
    rw [List.getLast?_eq_some_iff] at hlast
    obtain ⟨ys, hys⟩ := hlast
    rw [hys, List.pairwise_append] at hs
    intro k hk
    rw [hys] at hk
    rcases List.mem_append.1 hk with hk | hk
    · exact (hs.2.2 k hk e.1 (by simp)).le
    · rw [List.mem_singleton] at hk; omega
  refine ⟨m, g, e.1, e1, e2, h2, hlast, (h1.rep e he).2.1, ?_, ?_, ?_⟩
  · -- every key comes from a group
    have : ∀ (gs : List (ℕ × ℕ)) (m0 m' : Indexes), (∀ q ∈ gs, q ∈ groups) → (∀ e ∈ m0, ∃ q ∈ groups, q.1 = e.1) →
        (gs.map groupName).foldlM (loadLine fs) m0 = some m' → ∀ e ∈ m', ∃ q ∈ groups, q.1 = e.1 := by
      intro gs
      induction gs with
      | nil => intro m0 m' _ h0 hf; cases hf; exact h0
      | cons q gs ih =>
        intro m0 m' hgs h0 hf
        rw [List.map_cons, List.foldlM_cons] at hf
        cases hl : loadLine fs m0 (groupName q) with
        | none => rw [hl] at hf; simp at hf
        | some m1 =>
          rw [hl] at hf
          refine ih m1 m' (fun q hq => hgs q (List.mem_cons_of_mem _ hq)) ?_ hf
          have hq := hgs q List.mem_cons_self
          unfold loadLine at hl
          rw [lineChannels_groupName (by have := (h.channels q hq).2
                                         have : (11 : ℕ) < 2 ^ 64 := by norm_num
                                         omega), lineBound_groupName (h.bound q hq)] at hl
          simp only [Option.bind_eq_bind, Option.bind_some] at hl
          rw [show withExtension (groupName q) extPbin = pbinName q from rfl, h.file q hq] at hl
          simp only [Option.bind_some] at hl
          split at hl
          · simp at hl
          · clear hf ih
            revert hl
            generalize (fun idx => List.foldlM (insertPacked q.1 q.2) idx
              (chunks (packedLen q.1) ((sets q).flatMap Bitmap.packed))) = f
            intro hl
            clear hlast hmax he e1 h1 hne
            induction m0 generalizing m1 with
            | nil =>
              rw [Indexes.modify] at hl
              cases hnw : OutputSetIndex.new q.1 with
              | none => rw [hnw] at hl; simp at hl
              | some idx =>
                rw [hnw] at hl
                simp only [Option.bind_eq_bind, Option.bind_some] at hl
                cases hfi : f idx with
                | none => rw [hfi] at hl; simp at hl
                | some idx' =>
                  rw [hfi] at hl
                  cases hl
                  intro e he
                  rw [List.mem_singleton.1 he]
                  exact ⟨q, hq, rfl⟩
            | cons e0 m0 ih =>
              obtain ⟨k, i0⟩ := e0
              rw [Indexes.modify] at hl
              split at hl
              · rename_i hk
                subst hk
                cases hfi : f i0 with
                | none => simp [hfi] at hl
                | some idx' =>
                  simp only [hfi, Option.bind_eq_bind, Option.bind_some, Option.some.injEq] at hl
                  subst hl
                  intro e he
                  rcases List.mem_cons.1 he with rfl | he
                  · exact ⟨q, hq, rfl⟩
                  · exact h0 e (List.mem_cons_of_mem _ he)
              · split at hl
                · cases hnw : OutputSetIndex.new q.1 with
                  | none => rw [hnw] at hl; simp at hl
                  | some idx =>
                    rw [hnw] at hl
                    simp only [Option.bind_eq_bind, Option.bind_some] at hl
                    cases hfi : f idx with
                    | none => rw [hfi] at hl; simp at hl
                    | some idx' =>
                      rw [hfi] at hl
                      cases hl
                      intro e he
                      rcases List.mem_cons.1 he with rfl | he
                      · exact ⟨q, hq, rfl⟩
                      · exact h0 e he
                · cases hmm : Indexes.modify q.1 f m0 with
                  | none => rw [hmm] at hl; simp at hl
                  | some m2 =>
                    rw [hmm] at hl
                    cases hl
                    intro e he
                    rcases List.mem_cons.1 he with rfl | he
                    · exact h0 _ List.mem_cons_self
                    · exact ih (fun e he => h0 e (List.mem_cons_of_mem _ he)) m2 hmm e he
    refine this groups [] m (fun _ h => h) (by simp) ?_ e he
    unfold load at e1
    obtain ⟨data, i1, i2⟩ := h.index
    rw [i1] at e1
    simp only [Option.bind_eq_bind, Option.bind_some] at e1
    rw [i2] at e1
    exact e1
  · intro q hq
    obtain ⟨s, hs⟩ := List.exists_mem_of_ne_nil _ (h.sets_ne q hq)
    obtain ⟨e', he', hn⟩ := h1.key (⟨q.1, s⟩, q.2) (List.mem_flatMap.2 ⟨q, hq, List.mem_map.2 ⟨s, hs, rfl⟩⟩)
    exact hmax q.1 (List.mem_map.2 ⟨e', he', hn⟩)
  · intro g' hg'
    obtain ⟨p1, p2⟩ := h2.proveAll hg'
    refine ⟨p1, p2, ?_⟩
    unfold genSteps
    rw [e1]
    simp only [Option.bind_eq_bind, Option.bind_some]
    rw [hlast]
    simp only [Option.bind_some]
    rw [e2]
    simp only [Option.bind_some]
    rw [hg']
    simp only [Option.bind_some]
    cases GenProof.encodeProof g' ⟨e.1, allValues e.1⟩ ⟨[], []⟩ <;> rfl

end ProofGen

end Sortnet
