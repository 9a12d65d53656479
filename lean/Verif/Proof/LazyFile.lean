import Verif.Proof.LazyDefined
import Verif.Proof.ProofDecode
import Verif.Spec.Lazy

/-! # Files that are decoded without exceptions -/

namespace Sortnet.Lazy

attribute [local irreducible] Decode.wrap64 Decode.bit

theorem fullList_map {ws : L (List (L (Option Ref.Witness)))} {ws' : List (Option Ref.Witness)} (h : FullList ws)
    (ha : ApList ws ws') : ws = some (ws'.map some) := by
  obtain ⟨l, rfl, hl⟩ := h
  have := ha l rfl
  congr 1
  clear ha
  induction this with
  | nil => rfl
  | cons hx _ ih =>
    obtain ⟨y, rfl⟩ := hl _ List.mem_cons_self
    rw [List.map_cons, ← ih fun w hw => hl w (List.mem_cons_of_mem _ hw), hx y rfl]

theorem translateWitnessList_some (ws : List (Option Ref.Witness)) :
    translateWitnessList (some (ws.map some)) = some ((Decode.translateWitnessList ws).map some) := by
  simp [translateWitnessList, Decode.translateWitnessList]

theorem translateStep_full {s : L RefStep} {t : Ref.ProofStep} (h : FullStep s) (ha : ∀ s', s = some s' → ApRef s' t) :
    translateStep s = ofStep (Decode.translateStep t) := by
  obtain ⟨s', rfl, hf⟩ := h
  have ha := ha s' rfl
  have hw : translateWitnesses s'.witnesses = ofWitnesses (Decode.translateStep t).witnesses := by
    rcases ha.witnesses with ⟨pol, ws, ws', e1, e2, hws⟩ | ⟨ws, ws', e1, e2, hws⟩
    · rw [e1] at hf
      rw [e1, Decode.translateStep, e2, fullList_map hf hws]
      show StepWitnesses.huffman _ _ = StepWitnesses.huffman _ _
      rw [translateWitnessList_some]
    · rw [e1] at hf
      rw [e1, Decode.translateStep, e2, fullList_map hf hws]
      show StepWitnesses.successor _ = StepWitnesses.successor _
      rw [translateWitnessList_some]
  unfold translateStep
  simp only [Option.bind_eq_bind, Option.bind_some, hw]
  unfold ofStep
  congr 1
  · rw [ha.vectSet]; rfl
  · rw [ha.vectSet]; rfl
  · rw [ha.bound]; rfl

theorem asBoolVectList_length (s : Ref.VectSet) : ∀ l ∈ Ref.asBoolVectList s, l.length = s.channels := by
  intro l hl
  simp only [Ref.asBoolVectList, List.mem_map] at hl
  obtain ⟨v, _, rfl⟩ := hl
  simp

theorem readLE_def {k : ℕ} {bs : List UInt8} (h : k ≤ bs.length) (u : Decode.Undef) :
    readLE k bs = some (Decode.readLE u k bs) := by
  suffices hd : Def (readLE k bs) by
    obtain ⟨a, ha⟩ := hd
    rw [ha, ap_readLE u k bs a ha]
  unfold readLE
  refine Def.bind ?_ fun _ _ => def_some _
  have : ∀ l : List ℕ, (∀ i ∈ l, i < k) → Def (l.mapM fun i => do
      let b ← bs[i]?
      some (Decode.wrap64 (b.toNat * 2 ^ (8 * i)))) := by
    intro l hl
    induction l with
    | nil => exact def_some _
    | cons x l ih =>
      rw [List.mapM_cons]
      have hx : bs[x]? = some (bs[x]'(by have := hl x (by simp); omega)) := List.getElem?_eq_getElem _
      rw [hx]
      exact (ih fun y hy => hl y (by simp [hy])).bind fun _ _ => def_some _
  exact this _ fun i hi => List.mem_range.1 hi

theorem wrap64_lt (x : ℤ) : Decode.wrap64 x < 2 ^ 63 := by
  unfold Decode.wrap64
  have := Int.bmod_lt (x := x) (m := 2 ^ 64) (by norm_num)
  norm_num at this ⊢
  exact this

theorem readLE_lt {k : ℕ} {bs : List UInt8} {n : ℤ} (h : readLE (k + 1) bs = some n) : n < 2 ^ 63 := by
  have h := ap_readLE ⟨0, false, []⟩ (k + 1) bs n h
  rw [h, Decode.readLE_succ]
  exact wrap64_lt _

theorem mainVerified_full (u : Decode.Undef) (v : Checker.Undef) {bytes : List UInt8} {n : ℤ} (hn : readLE 4 bytes = some n)
    (h : ∀ i, 0 ≤ i → i < n → FullStep (stepFn bytes i)) :
    mainVerified bytes = some (Decode.mainVerified u v bytes) := by
  have hw : ∀ i, 0 ≤ i → i < n → Decode.wrap64 i = i := fun i h0 h1 =>
    Decode.wrap64_of_lt h0 (h1.trans (readLE_lt hn))
  have hn' : Decode.stepCount u bytes = n := by
    unfold Decode.stepCount Decode.read32LE
    exact (ap_readLE u 4 bytes n hn).symm
  refine checkProofGetBound_defined v _ (Decode.translateProofSteps (Decode.stepCount u bytes) (Decode.stepFn u bytes))
    (by rw [hn']; exact hn) ?_ ?_ (ap_cert u bytes).2
  · intro i h0 h1
    have h1 : i < n := by rw [← hn']; exact h1
    show translateStep (stepFn bytes (Decode.wrap64 i)) = _
    rw [hw i h0 h1]
    refine (translateStep_full (h i h0 h1) fun s hs => ap_stepFn u bytes i s hs).trans ?_
    show _ = ofStep (Decode.translateStep (Decode.stepFn u bytes (Decode.wrap64 i)))
    rw [hw i h0 h1]
  · intro i _ _ l hl
    have := asBoolVectList_length _ l hl
    rw [this]
    show _ = Int.toNat _
    exact (Int.toNat_natCast _).symm

/-! ## Written files -/

theorem decodeWitnesses_refs (n : ℕ) (refs : List (Option CertRef)) (h : ∀ r, some r ∈ refs → r.perm.length = n) :
    FullList (decodeWitnesses n (refs.flatMap refBytes)) := by
  induction refs with
  | nil => rw [List.flatMap_nil, decodeWitnesses]; exact ⟨[], rfl, by simp⟩
  | cons r refs ih =>
    obtain ⟨l, hl, hl'⟩ := ih fun r hr => h r (List.mem_cons_of_mem _ hr)
    rw [List.flatMap_cons]
    cases r with
    | none =>
      rw [refBytes, List.cons_append, List.nil_append, decodeWitnesses, if_neg (by decide), if_pos rfl, hl]
      exact ⟨_, rfl, by simpa using hl'⟩
    | some r =>
      have h1 := h r List.mem_cons_self
      have hb : UInt8.ofNat r.invert.toNat = 0 ∨ UInt8.ofNat r.invert.toNat = 1 := by
        cases r.invert <;> decide
      have e : ((r.perm.map UInt8.ofNat ++ leBytes 4 r.id) ++ refs.flatMap refBytes).drop n =
          leBytes 4 r.id ++ refs.flatMap refBytes := by
        rw [List.append_assoc, List.drop_append_of_le_length (by simp [h1]), List.drop_of_length_le (by simp [h1]),
          List.nil_append]
      rw [refBytes, CertRef.bytes, List.cons_append, decodeWitnesses, if_pos hb, e,
        List.drop_append_of_le_length (by rw [Decode.leBytes_length]), List.drop_of_length_le (by rw [Decode.leBytes_length]),
        List.nil_append, hl]
      refine ⟨_, rfl, ?_⟩
      intro w hw
      rcases List.mem_cons.1 hw with rfl | hw
      · rw [readLE_def (by rw [List.length_append, Decode.leBytes_length]; omega) ⟨0, false, []⟩]
        exact ⟨_, rfl⟩
      · exact hl' w hw

theorem decodeProofStep_bytes {c : CertStep} (h : c.Representable) : FullStep (decodeProofStep c.bytes) := by
  obtain ⟨hn, hb, hr, _⟩ := h
  have e0 : c.bytes[0]? = some (UInt8.ofNat c.set.n) := rfl
  have e1 : c.bytes[1]? = some (UInt8.ofNat c.bound) := rfl
  have hc : (UInt8.ofNat c.set.n).toNat = c.set.n := by rw [Decode.toNat_ofNat, Nat.mod_eq_of_lt (by omega)]
  have hp := packed_length c.set.s
  have e3 : Decode.drop (Decode.bit (c.set.n - 3) + 2) c.bytes = (match c.kind with
      | .huffman pol => UInt8.ofNat pol.toNat
      | .successors => 2) :: c.refs.flatMap refBytes := by
    rw [Decode.bit_packedLen hn, Decode.drop, show ((packedLen c.set.n : ℤ) + 2).toNat = packedLen c.set.n + 2 by omega]
    show (c.set.s.packed ++ _).drop _ = _
    rw [List.drop_append_of_le_length (by rw [hp]), List.drop_of_length_le (by rw [hp]), List.nil_append]
    cases c.kind <;> rfl
  unfold decodeProofStep
  simp only [e0, e1, hc, e3, Option.bind_eq_bind, Option.bind_some, List.getElem?_cons_zero]
  have hd : ∀ x : UInt8, Decode.drop 1 (x :: c.refs.flatMap refBytes) = c.refs.flatMap refBytes := fun _ => rfl
  rw [hd]
  cases hk : c.kind with
  | huffman pol =>
    have hl := decodeWitnesses_refs (c.set.n - 1) c.refs fun r hr' => by have := (hr r hr').1; rwa [hk] at this
    cases pol
    · simp only [show UInt8.ofNat false.toNat = 0 from rfl, if_true, Option.bind_some]
      exact ⟨_, rfl, hl⟩
    · simp only [show UInt8.ofNat true.toNat = 1 from rfl, show ¬ (1 : UInt8) = 0 by decide, if_false, if_true,
        Option.bind_some]
      exact ⟨_, rfl, hl⟩
  | successors =>
    have hl := decodeWitnesses_refs c.set.n c.refs fun r hr' => by have := (hr r hr').1; rwa [hk] at this
    simp only [show ¬ (2 : UInt8) = 0 by decide, show ¬ (2 : UInt8) = 1 by decide, if_false, if_true,
        Option.bind_some]
    exact ⟨_, rfl, hl⟩

open ProofGen

theorem stepData_writeProof {steps : List (List UInt8)} (h : steps.length < 2 ^ 32)
    (hl : (writeProof steps).length < 2 ^ 63) (i : ℕ) (hi : i < steps.length) (hs : steps[i].length < 2 ^ 32) :
    stepData (writeProof steps) i = some steps[i] := by
  suffices hd : Def (stepData (writeProof steps) i) by
    obtain ⟨d, hd⟩ := hd
    rw [hd, ap_stepData ⟨0, false, []⟩ _ _ d hd, Decode.stepData_writeProof _ h hl i hi hs]
  have hlen : (writeProof steps).length = 4 + 12 * steps.length + steps.flatten.length := by
    rw [writeProof, List.length_append, List.length_append, Decode.offsetTable_length, le32_eq, Decode.leBytes_length]
  have e : Decode.drop (Decode.wrap64 (4 + 12 * (i : ℤ))) (writeProof steps) = (writeProof steps).drop (4 + 12 * i) := by
    rw [show (4 + 12 * (i : ℤ)) = ((4 + 12 * i : ℕ) : ℤ) by push_cast; rfl, Decode.wrap64_nat (by omega), Decode.drop,
      Int.toNat_natCast]
  unfold stepData
  simp only [e]
  rw [readLE_def (k := 4) (by rw [Decode.drop, List.length_drop, List.length_drop]; show 4 ≤ _ - _ - 8; omega) ⟨0, false, []⟩,
    readLE_def (k := 8) (by rw [List.length_drop]; omega) ⟨0, false, []⟩]
  exact def_some _

theorem mainVerified_written (u : Decode.Undef) (v : Checker.Undef) {cs : List CertStep} (hc : ∀ c ∈ cs, c.Representable)
    (hn : cs.length < 2 ^ 32) (hl : (writeProof (cs.map CertStep.bytes)).length < 2 ^ 63) :
    mainVerified (writeProof (cs.map CertStep.bytes)) =
      some (Decode.mainVerified u v (writeProof (cs.map CertStep.bytes))) := by
  have hlen : 4 ≤ (writeProof (cs.map CertStep.bytes)).length := by
    rw [writeProof, List.length_append, List.length_append, le32_eq, Decode.leBytes_length]
    omega
  refine mainVerified_full u v (n := cs.length) ?_ fun i h0 h1 => ?_
  · rw [readLE_def hlen ⟨0, false, []⟩]
    have := Decode.stepCount_writeProof ⟨0, false, []⟩ (steps := cs.map CertStep.bytes) (by simpa using hn)
    rw [List.length_map] at this
    exact congrArg some this
  · lift i to ℕ using h0
    have hi : i < cs.length := by omega
    have hr := hc _ (List.getElem_mem hi)
    have := stepData_writeProof (steps := cs.map CertStep.bytes) (by simpa using hn) hl i (by simpa using hi)
      (by simpa using hr.length)
    unfold stepFn
    rw [this]
    simp only [List.getElem_map, Option.bind_eq_bind, Option.bind_some]
    exact decodeProofStep_bytes hr

end Sortnet.Lazy
