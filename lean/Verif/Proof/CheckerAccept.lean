import Verif.Proof.CheckerComplete

/-! # Every step of a generated certificate is accepted -/

namespace Sortnet

namespace Checker

open Search ProofGen

/-- Logs for which the certificate is accepted. -/
structure LogGood (L : List (OSet × ℕ)) : Prop where
  functional : ∀ A b b', (A, b) ∈ L → (A, b') ∈ L → b = b'
  ok : ∀ A b, (A, b) ∈ L → OK A
  unsorted : ∀ A b, (A, b) ∈ L → b ≠ 0 → A.s.isSorted = false
  bound : ∀ A b, (A, b) ∈ L → b < 256

/-- A reference in the representation of the checker. -/
def refWitness (r : CertRef) : ProofWitness := { stepId := r.id, invert := r.invert, perm := r.perm.map fun (p : ℕ) => (p : ℤ) }

/-- A step in the representation of the checker. -/
structure Translated (d : CertStep) (s : ProofStep) : Prop where
  width : s.width = d.set.n
  lists : Lists s.vectList d.set.s.toSet
  bound : s.bound = d.bound
  huffman : ∀ pol, d.kind = .huffman pol → s.witnesses = .huffman pol (d.refs.map fun r => r.map refWitness)
  successors : d.kind = .successors → s.witnesses = .successor (d.refs.map fun r => r.map refWitness)

variable {L : List (OSet × ℕ)} (hL : LogGood L) {g : GenProof} (hp : PRep g L) {cs : List CertStep} {st : Enc}
  (hi : EncInv g cs st) (u : Undef) {steps : ℤ → ProofStep}
  (hst : ∀ (j : ℕ) (d : CertStep), cs[j]? = some d → Translated d (steps j))

include hL hp hi hst in
theorem getBound_ref {T : OSet} {r : ℕ × Option PWitness} {ref : Option CertRef} {i : ℕ} (hT : OK T) (hw : WitOK L T r)
    (hr : RefOK g (cs.take i) r.2 ref) {b : VectTrie} (hwid : VtWidth T.n b) (hsub : T.s.toSet ⊆ vtSet T.n b) :
    ∃ k, getBound u steps i (ref.map refWitness) T.n b = some k ∧ r.1 ≤ k := by
  cases ref with
  | none =>
    refine ⟨_, rfl, ?_⟩
    by_cases h0 : r.1 = 0
    · omega
    suffices hs : r.1 = 1 ∧ T.n + 1 < (vecs T.s.toSet).card by
      rw [if_pos (isUnsortedVt_of_card hsub hs.2)]
      omega
    cases h2 : r.2 with
    | none =>
      have := hw.fallback h2
      cases hs : T.s.isSorted
      · rw [hs] at this
        exact ⟨this, card_of_unsorted hT hs⟩
      · rw [hs] at this
        exact absurd this h0
    | some w =>
      rw [h2] at hr
      obtain ⟨s, hs1, hs2⟩ := hr
      obtain ⟨t, π, e1, e2, _, e4⟩ := hw.wit w h2
      obtain ⟨b0, hb0⟩ := hp.out.cover _ e2
      have hb0' := hp.out.sub _ hb0
      have hm := mapGet_of_nodup hp.out.nodup hb0
      obtain ⟨s', hs', hok⟩ := hp.steps _ _ hm
      rw [hs1] at hs'
      obtain rfl := Option.some.inj hs'
      have hbe : r.1 = b0 := hL.functional _ _ _ e2 hb0'
      cases s with
      | trivial => exact absurd (hbe.trans hok) h0
      | notSorted =>
        obtain ⟨k1, k2⟩ := hok
        refine ⟨hbe.trans k1, ?_⟩
        have hokt := hL.ok _ _ e2
        rw [e1] at hokt k2
        have hc := card_of_unsorted hokt k2
        dsimp only at hc
        refine lt_of_lt_of_le hc ?_
        have hc2 : (vecs (permSet π (if w.invert then complSet t.toSet else t.toSet))).card = (vecs t.toSet).card := by
          rw [vecs_permSet_card]; cases w.invert
          · rfl
          · exact vecs_complSet_card _
        rw [← hc2]
        refine Finset.card_le_card ?_
        intro x hx
        rw [mem_vecs] at hx ⊢
        exact e4 hx
      | huffman pol ws => simp [PStep.certKind] at hs2
      | successors ws => simp [PStep.certKind] at hs2
  | some x =>
    cases h2 : r.2 with
    | none => rw [h2] at hr; exact hr.elim
    | some w =>
      rw [h2] at hr
      obtain ⟨k1, k2, k3⟩ := hr
      obtain ⟨t, π, e1, e2, e3, e4⟩ := hw.wit w h2
      rw [Option.map_eq_some_iff] at k3
      obtain ⟨d, hd, hdt⟩ := k3
      rw [List.getElem?_take] at hd
      split at hd
      · rename_i hlt
        obtain ⟨s, ws, m1, _⟩ := hi.step _ _ hd
        have hdb : d.bound = r.1 := by
          have h1 := hp.out.sub _ (mapGet_mem m1)
          rw [hdt] at h1
          exact hL.functional _ _ _ h1 e2
        have tr := hst _ _ hd
        have hset : d.set = ⟨T.n, t⟩ := hdt.trans e1
        have hlists := tr.lists
        rw [hset] at hlists
        dsimp only at hlists
        refine ⟨_, getBound_some u steps i (refWitness x) (Int.natCast_nonneg _) (by simpa [refWitness] using hlt) π ?_
          t.toSet hlists (by rw [← k1] at e4; exact (e4.trans hsub)) hwid, ?_⟩
        · rw [← e3, ← k2]
          simp only [refWitness, List.map_map]
          conv_rhs => rw [← List.map_id x.perm]
          exact List.map_congr_left fun p _ => nat_natCast p
        · show r.1 ≤ nat (steps x.id).bound
          rw [tr.bound, nat_natCast, hdb]
      · simp at hd

include hL hp hi hst in
theorem checkStep_accepts {i : ℕ} {c : CertStep} (hc : cs[i]? = some c) : checkStep u steps i (steps i) = true := by
  obtain ⟨s, ws, h1, h2, h3, h4⟩ := hi.step i c hc
  obtain ⟨s', h2', hok⟩ := hp.steps _ _ h1
  rw [h2] at h2'
  obtain rfl := Option.some.inj h2'
  have hcL := hp.out.sub _ (mapGet_mem h1)
  have tr := hst i c hc
  have hOK := hL.ok _ _ hcL
  have hwidth : nat (steps i).width = c.set.n := by rw [tr.width, nat_natCast]
  have hbound : nat (steps i).bound = c.bound := by rw [tr.bound, nat_natCast]
  cases s with
  | trivial => simp [PStep.certKind] at h3
  | notSorted => simp [PStep.certKind] at h3
  | successors ws' =>
    simp only [PStep.certKind, Option.some.injEq, Prod.mk.injEq] at h3
    obtain ⟨hk, rfl⟩ := h3
    obtain ⟨hb0, rs, g1, rfl⟩ := hok
    have hwit := tr.successors hk.symm
    unfold checkStep checkSuccessors
    rw [hwit]
    simp only [Bool.and_eq_true, Bool.not_eq_true', decide_eq_false_iff_not, decide_eq_true_eq,
      List.all_eq_true, sizeList_eq, listAll2_iff]
    rw [hwidth, hbound]
    have hsc := succs_checker u c.set tr.lists
    have key : List.Forall₂ (fun b w => ∃ k, getBound u steps i w c.set.n b = some k ∧ c.bound ≤ k + 1)
        (((ocmpList c.set.n).filter fun d => !(isRedundantCmpVt u d (vtList (steps i).vectList))).map fun d =>
          vtList ((steps i).vectList.map (applyCmpList u d))) (c.refs.map fun r => r.map refWitness) := by
      rw [List.forall₂_map_right_iff]
      have hsuccOK : ∀ T ∈ succs c.set, OK T := by
        intro T hT
        obtain ⟨p, hp, he⟩ := List.mem_filterMap.1 hT
        exact successor_ok hOK (mem_pairs_ne hp) he
      generalize (((ocmpList c.set.n).filter fun d => !(isRedundantCmpVt u d (vtList (steps i).vectList))).map fun d =>
          vtList ((steps i).vectList.map (applyCmpList u d))) = bs at hsc ⊢
      generalize succs c.set = Ts at hsc g1 hsuccOK
      have h4' : List.Forall₂ (RefOK g (cs.take i)) (rs.map Prod.snd) c.refs := h4
      clear h4 h2 h2'
      revert h4'
      generalize c.refs = refs
      intro h4
      induction hsc generalizing rs refs with
      | nil =>
        cases g1
        cases h4
        exact List.Forall₂.nil
      | @cons b T bs Ts hbT _ ih =>
        cases g1 with
        | @cons _ r _ rs hr g1 =>
          rw [List.map_cons] at h4
          cases h4 with
          | @cons _ ref _ refs href h4 =>
            refine List.Forall₂.cons ?_ (ih rs g1 (fun T hT => hsuccOK T (List.mem_cons_of_mem _ hT)) refs h4)
            obtain ⟨hwid, t, rfl, ht⟩ := hbT
            obtain ⟨k, hk1, hk2⟩ := getBound_ref hL hp hi u hst (hsuccOK _ List.mem_cons_self) hr.1 href (b := b) hwid (by
              dsimp only
              rw [ht])
            exact ⟨k, hk1, by omega⟩
    refine ⟨hb0, ?_, ?_, tr.lists.length, ?_⟩
    · refine isUnsortedVt_of_card (X := c.set.s.toSet) ?_ (card_of_unsorted hOK (hL.unsorted _ _ hcL hb0))
      rw [← tr.lists.vset]
      rintro x ⟨l, hl, rfl⟩
      exact ⟨l, (isMemberVt_vtList _ _).2 hl, rfl⟩
    · have := key.length_eq
      rw [List.length_map] at this
      rw [this]
    · refine key.imp ?_
      rintro b w ⟨k, hk1, hk2⟩
      rw [hk1]
      simpa using hk2
  | huffman pol ws' =>
    simp only [PStep.certKind, Option.some.injEq, Prod.mk.injEq] at h3
    obtain ⟨hk, rfl⟩ := h3
    obtain ⟨hb0, rs, g1, rfl, v, hv, hbv⟩ := hok
    have hwit := tr.huffman pol hk.symm
    unfold checkStep checkHuffman
    rw [hwit]
    simp only [Bool.and_eq_true, Bool.not_eq_true', decide_eq_false_iff_not, decide_eq_true_eq,
      List.all_eq_true, sizeList_eq, List.isEmpty_eq_false_iff]
    rw [hwidth, hbound]
    have hne : rs ≠ [] := by
      rintro rfl
      rw [List.map_nil] at hv
      have : maxPlus1Huffman [] = some 0 := by
        rw [maxPlus1Huffman]
        rfl
      rw [this] at hv
      cases hv
      omega
    have hlen : (extremal c.set pol).length = rs.length := g1.length_eq
    have hlen2 : rs.length = c.refs.length := by
      have := h4.length_eq
      rwa [List.length_map] at this
    have hn0 : c.set.n ≠ 0 := by
      intro h0
      have : (extremal c.set pol).length = 0 := by
        unfold extremal
        rw [List.length_eq_zero_iff, List.filter_eq_nil_iff]
        intro a _
        exact absurd a.2 (by omega)
      rw [this] at hlen
      exact hne (List.length_eq_zero_iff.1 hlen.symm)
    have hex := extremal_checker c.set pol tr.lists
    rw [hex]
    have key : List.Forall₂ (fun o r => ∃ k, o = some k ∧ r ≤ k)
        (((((extremal c.set pol).map fun c : Fin c.set.n => (c : ℕ)).map fun d =>
          pruneExtremalVt pol d (vtList (steps i).vectList)).zip (c.refs.map fun r => r.map refWitness)).map fun p =>
            getBound u steps i p.2 (pred u c.set.n) p.1) (rs.map Prod.fst) := by
      have hpred : pred u c.set.n = c.set.n - 1 := by rw [pred, if_neg hn0]
      rw [hpred]
      have hlists := tr.lists
      have h4' : List.Forall₂ (RefOK g (cs.take i)) (rs.map Prod.snd) c.refs := h4
      clear h4 h2 h2' hlen hlen2 hne hv hex
      revert h4'
      generalize c.refs = refs
      intro h4
      generalize extremal c.set pol = ex at g1 ⊢
      induction g1 generalizing refs with
      | nil => exact List.Forall₂.nil
      | @cons ch r chs rs hr _ ih =>
        rw [List.map_cons] at h4
        cases h4 with
        | @cons _ ref _ refs href h4 =>
          obtain ⟨T, hT, hw⟩ := hr
          obtain ⟨p1, p2, p3⟩ := prune_checker hT hlists
          obtain ⟨k, hk1, hk2⟩ := getBound_ref hL hp hi u hst (prune_ok hOK hT) hw href p1 p3
          have hTn : c.set.n - 1 = T.n := by omega
          simp only [List.map_cons, List.zip_cons_cons]
          refine List.Forall₂.cons ⟨k, ?_, hk2⟩ ?_
          · rw [hTn]
            exact hk1
          · exact ih refs h4
    refine ⟨hn0, tr.lists.length, ?_, ?_, ?_, ?_⟩
    · intro h0
      have := congrArg List.length h0
      rw [List.length_map, ← hlen2] at this
      exact hne (List.length_eq_zero_iff.1 this)
    · rw [List.length_map, List.length_map]
      omega
    · intro o ho
      obtain ⟨r, _, k, rfl, _⟩ := forall₂_exists_right key ho
      rfl
    · refine hbv.trans ?_
      have hvals : ∀ x ∈ rs.map Prod.fst, x < 256 := by
        intro x hx
        obtain ⟨r, hr, rfl⟩ := List.mem_map.1 hx
        obtain ⟨ch, _, T, hT, hw⟩ := forall₂_mem_right g1 hr
        cases h2 : r.2 with
        | none =>
          have := hw.fallback h2
          split at this <;> omega
        | some w =>
          obtain ⟨_, _, _, e2, _⟩ := hw.wit w h2
          exact hL.bound _ _ e2
      have hne' : rs.map Prod.fst ≠ [] := by simpa using hne
      have hspec := maxPlus1Huffman_spec (rs.map Prod.fst) hne' hvals isPsumLog_clog
      rw [hv] at hspec
      have hclog : v = Nat.clog 2 (psum (rs.map Prod.fst)) := by
        split at hspec
        · exact Option.some.inj hspec
        · simp at hspec
      rw [hclog]
      have hle : List.Forall₂ (· ≤ ·) (rs.map Prod.fst) ((List.map (fun p => getBound u steps i p.2 (pred u c.set.n) p.1)
        ((((extremal c.set pol).map fun c : Fin c.set.n => (c : ℕ)).map fun d =>
          pruneExtremalVt pol d (vtList (steps i).vectList)).zip (c.refs.map fun r => r.map refWitness))).map (the u.nat)) := by
        rw [List.forall₂_map_right_iff]
        refine (key.imp ?_).flip
        rintro o r ⟨k, rfl, hk⟩
        exact hk
      refine IsPsumLog.mono (psum_le_psum hle) isPsumLog_clog (sucmaxValueBoundHuffman_spec u _ ?_)
      intro h0
      rw [h0] at hle
      exact hne' (List.forall₂_nil_right_iff.1 hle)

/-! ## Sizes -/

theorem length_pairs {n : ℕ} (h : n ≤ 11) : (pairs n).length ≤ 55 := by
  interval_cases n <;> decide +kernel

theorem targets_channels (c : CertStep) {T : VSet} (hT : T ∈ c.targets) : T.1 = match c.kind with
    | .huffman _ => c.set.n - 1
    | .successors => c.set.n := by
  obtain ⟨⟨n, s⟩, b, k, refs⟩ := c
  unfold CertStep.targets at hT
  cases k with
  | huffman pol =>
    dsimp only at hT ⊢
    cases n with
    | zero => simp [prunedSets] at hT
    | succ n =>
      unfold prunedSets at hT
      obtain ⟨c, _, rfl⟩ := List.mem_map.1 hT
      rfl
  | successors =>
    unfold successorSets at hT
    obtain ⟨c, _, rfl⟩ := List.mem_map.1 hT
    rfl

theorem targets_length (c : CertStep) (h : c.set.n ≤ 11) : c.targets.length ≤ 55 := by
  rw [targets_eq, List.length_map]
  cases c.kind with
  | huffman pol =>
    dsimp only
    refine (List.length_filterMap_le _ _).trans ?_
    have := length_extremal c.set pol
    omega
  | successors =>
    dsimp only
    exact (List.length_filterMap_le _ _).trans (length_pairs h)

include hp hi in
theorem cert_representable_of (hbd : ∀ A b, (A, b) ∈ L → A.n ≤ 11 ∧ b < 256) (hlen : cs.length < 2 ^ 32) {c : CertStep}
    (hc : c ∈ cs) : c.Representable ∧ c.bytes.length ≤ 2048 := by
  obtain ⟨i, hilt, rfl⟩ := List.getElem_of_mem hc
  have hci := List.getElem?_eq_getElem hilt
  generalize cs[i] = c at hci
  obtain ⟨h1, h2⟩ := hi.refs hp hci
  obtain ⟨hn, hb⟩ := hbd _ _ h1
  have hrefs : ∀ r, some r ∈ c.refs → r.perm.length = (match c.kind with
      | .huffman _ => c.set.n - 1
      | .successors => c.set.n) ∧ (∀ p ∈ r.perm, p < 256) ∧ r.id < 2 ^ 32 := by
    intro r hr
    obtain ⟨T, hT, hh⟩ := forall₂_exists_right h2 hr
    obtain ⟨k1, d, _, X, π, _, k3, _⟩ := hh r rfl
    have hTn := targets_channels c hT
    refine ⟨by rw [k3, List.length_map, List.length_finRange, hTn], ?_, by omega⟩
    intro p hp
    rw [k3] at hp
    obtain ⟨j, _, rfl⟩ := List.mem_map.1 hp
    have := (π j).2
    have hle : T.1 ≤ c.set.n := by
      rw [hTn]
      cases c.kind
      · exact Nat.sub_le _ _
      · exact le_refl _
    omega
  have hsum : ∀ refs : List (Option CertRef), (∀ r, some r ∈ refs → r.perm.length ≤ 11) →
      (refs.flatMap refBytes).length ≤ 16 * refs.length := by
    intro refs
    induction refs with
    | nil => intro _; simp
    | cons r refs ih =>
      intro h
      have ih := ih fun r hr => h r (List.mem_cons_of_mem _ hr)
      rw [List.flatMap_cons, List.length_append, List.length_cons]
      have : (refBytes r).length ≤ 16 := by
        cases r with
        | none => simp [refBytes]
        | some r =>
          have := h r List.mem_cons_self
          simp only [refBytes, CertRef.bytes, List.length_cons, List.length_append, List.length_map, Decode.leBytes_length]
          omega
      omega
  have hl : c.bytes.length ≤ 2048 := by
    have e1 := hsum c.refs (by
      intro r hr
      rw [(hrefs r hr).1]
      cases c.kind
      · dsimp only; omega
      · exact hn)
    have e2 : c.refs.length ≤ 55 := by rw [h2.length_eq]; exact targets_length c hn
    have e3 : packedLen c.set.n ≤ 256 := by
      have : 2 ^ c.set.n ≤ 2 ^ 11 := Nat.pow_le_pow_right (by omega) hn
      unfold packedLen
      omega
    rw [CertStep.bytes, List.length_cons, List.length_cons, List.length_append, List.length_cons, packed_length]
    omega
  exact ⟨⟨by omega, hb, hrefs, by omega⟩, hl⟩

include hL hp hi in
/-- The steps fit into the file format. -/
theorem cert_representable (hlen : cs.length < 2 ^ 32) {c : CertStep} (hc : c ∈ cs) :
    c.Representable ∧ c.bytes.length ≤ 2048 :=
  cert_representable_of hp hi (fun A b h => ⟨(hL.ok A b h).2, hL.bound A b h⟩) hlen hc

include hp hi in
theorem cert_file_length_of (hbd : ∀ A b, (A, b) ∈ L → A.n ≤ 11 ∧ b < 256) (hlen : cs.length < 2 ^ 32) : (writeProof (cs.map CertStep.bytes)).length < 2 ^ 63 := by
  have h1 : (cs.map CertStep.bytes).flatten.length ≤ 2048 * cs.length := by
    have key : ∀ l : List CertStep, (∀ c ∈ l, c.bytes.length ≤ 2048) → (l.map CertStep.bytes).flatten.length ≤ 2048 * l.length := by
      intro l
      induction l with
      | nil => intro _; simp
      | cons c l ih =>
        intro h
        have ih := ih fun c hc => h c (List.mem_cons_of_mem _ hc)
        have := h c List.mem_cons_self
        rw [List.map_cons, List.flatten_cons, List.length_append, List.length_cons]
        omega
    exact key cs fun c hc => (cert_representable_of hp hi hbd hlen hc).2
  rw [writeProof, List.length_append, List.length_append, Decode.offsetTable_length, le32_eq, Decode.leBytes_length,
    List.length_map]
  omega

include hL hp hi in
theorem cert_file_length (hlen : cs.length < 2 ^ 32) : (writeProof (cs.map CertStep.bytes)).length < 2 ^ 63 :=
  cert_file_length_of hp hi (fun A b h => ⟨(hL.ok A b h).2, hL.bound A b h⟩) hlen

/-- The decoded and translated step. -/
theorem Decoded.translated {c : CertStep} {p : Ref.ProofStep} (h : c.Decoded p) : Translated c (Decode.translateStep p) := by
  have hw : ∀ refs : List (Option CertRef), Decode.translateWitnessList (refs.map fun r => r.map fun r =>
      ({ stepId := r.id, invert := r.invert, perm := r.perm } : Ref.Witness)) = refs.map fun r => r.map refWitness := by
    intro refs
    unfold Decode.translateWitnessList
    rw [List.map_map]
    refine List.map_congr_left fun r _ => ?_
    cases r <;> rfl
  refine ⟨by rw [← h.channels]; rfl, h.mem, by rw [← h.bound]; rfl, ?_, ?_⟩
  · intro pol hk
    show Decode.translateWitnesses p.witnesses = _
    rw [h.witnesses, CertStep.witnesses, hk]
    exact congrArg _ (hw _)
  · intro hk
    show Decode.translateWitnesses p.witnesses = _
    rw [h.witnesses, CertStep.witnesses, hk]
    exact congrArg _ (hw _)

include hL hp hi in
theorem checkProofGetBound_accepts (cert : ProofCert) (hlen : cert.length = cs.length)
    (hst : ∀ (j : ℕ) (e : CertStep), cs[j]? = some e → Translated e (cert.step j)) {c : CertStep}
    (hc : cs.getLast? = some c) : checkProofGetBound u cert = some ((c.set.n : ℤ), (c.bound : ℤ)) := by
  have hne : 0 < cs.length := by
    cases cs with
    | nil => simp at hc
    | cons _ _ => simp
  have hcheck : checkProof u cert = true := by
    unfold checkProof
    rw [Bool.and_eq_true, decide_eq_true_eq, parRangeAll_iff, hlen, nat_natCast]
    refine ⟨Int.natCast_nonneg _, ?_⟩
    intro k _ hk
    exact checkStep_accepts hL hp hi u hst (List.getElem?_eq_getElem (by omega))
  unfold checkProofGetBound
  rw [hcheck, Bool.true_and, if_pos (by rw [decide_eq_true_eq, hlen]; omega)]
  dsimp only
  rw [hlen, show (cs.length : ℤ) - 1 = ((cs.length - 1 : ℕ) : ℤ) by omega]
  have := hst (cs.length - 1) c (by rw [← List.getLast?_eq_getElem?, hc])
  rw [this.width, this.bound]

theorem translateProofSteps_length (n : ℤ) (f : ℤ → Ref.ProofStep) : (Decode.translateProofSteps n f).length = n := rfl

theorem translateProofSteps_step (n : ℤ) (f : ℤ → Ref.ProofStep) (i : ℤ) :
    (Decode.translateProofSteps n f).step i = Decode.translateStep (f (Decode.wrap64 i)) := rfl

include hL hp hi in
/-- The verified checker accepts the certificate. -/
theorem mainVerified_accepts (hlen : cs.length < 2 ^ 32) (d : Decode.Undef) {c : CertStep} (hc : cs.getLast? = some c) :
    Decode.mainVerified d u (writeProof (cs.map CertStep.bytes)) = some ((c.set.n : ℤ), (c.bound : ℤ)) := by
  have hrep : ∀ c ∈ cs, c.Representable := fun c hc => (cert_representable hL hp hi hlen hc).1
  have hfile := cert_file_length hL hp hi hlen
  unfold Decode.mainVerified
  refine checkProofGetBound_accepts hL hp hi u _ ?_ ?_ hc
  · rw [translateProofSteps_length, Decode.stepCount_writeProof d (by simpa using hlen), List.length_map]
  · intro j e he
    obtain ⟨hlt, rfl⟩ := List.getElem?_eq_some_iff.1 he
    have h := hrep _ (List.getElem_mem hlt)
    rw [translateProofSteps_step, Decode.wrap64_nat (by omega), Decode.stepFn,
      Decode.stepData_writeProof d (by simpa using hlen) hfile j (by simpa using hlt) (by simpa using h.length),
      List.getElem_map]
    exact Decoded.translated (Decode.decodeProofStep_bytes d h)

end Checker

end Sortnet
