import Verif.Proof.RefDefined
import Verif.Proof.Accept

/-! # What `snocheck -v` accepts, `snocheck -r` accepts -/

namespace Sortnet.Lazy

open Ref (VectSet Witness Result Fail)

attribute [local irreducible] Decode.wrap64 Decode.bit

variable {α β γ : Type}

theorem listAll2_true {p : α → β → L Bool} {xs : List α} {ys : List β} (h : listAll2 p xs ys = some true) :
    ∀ y ∈ ys, ∃ x, p x y = some true := by
  induction xs generalizing ys with
  | nil =>
    cases ys with
    | nil => simp
    | cons y ys => simp [listAll2] at h
  | cons x xs ih =>
    cases ys with
    | nil => simp
    | cons y ys =>
      rw [listAll2] at h
      obtain ⟨h1, h2⟩ := and_true_left h
      intro y' hy
      rcases List.mem_cons.1 hy with rfl | hy
      · exact ⟨x, h1⟩
      · exact ih h2 y' hy

theorem of_zip {f : α × β → γ} {P : γ → Prop} {xs : List α} {ys : List β} (hl : xs.length = ys.length)
    (h : ∀ z ∈ (xs.zip ys).map f, P z) : ∀ y ∈ ys, ∃ x, P (f (x, y)) := by
  intro y hy
  obtain ⟨i, hi, rfl⟩ := List.getElem_of_mem hy
  refine ⟨xs[i], h _ (List.mem_map_of_mem ?_)⟩
  rw [List.mem_iff_getElem]
  exact ⟨i, by rw [List.length_zip]; omega, by rw [List.getElem_zip]⟩

theorem getBound_def {steps : ℤ → ProofStep} {limit : ℤ} {w : L (Option Checker.ProofWitness)} {width : L ℕ} {a : L Checker.VectTrie}
    {r : Option (L ℕ)} (h : getBound steps limit w width a = some r) : Def w := by
  cases w with
  | none => cases h
  | some w => exact ⟨w, rfl⟩

theorem fullList_translate {ws : L (List (L (Option Witness)))} {l : List (L (Option Checker.ProofWitness))}
    (h : translateWitnessList ws = some l) (hl : ∀ w ∈ l, Def w) : FullList ws := by
  unfold translateWitnessList at h
  rw [Option.bind_eq_bind, Option.bind_eq_some_iff] at h
  obtain ⟨l', rfl, h⟩ := h
  cases h
  refine ⟨l', rfl, fun w hw => ?_⟩
  obtain ⟨x, hx⟩ := hl _ (List.mem_map_of_mem hw)
  cases w with
  | none => cases hx
  | some w => exact ⟨w, rfl⟩

theorem verified_full {steps : ℤ → ProofStep} {limit : ℤ} {s : L RefStep} (h : checkStep steps limit (translateStep s) = some true) :
    FullStep s := by
  cases s with
  | none => cases h
  | some s =>
    refine ⟨s, rfl, ?_⟩
    cases hw : s.witnesses with
    | huffman pol ws =>
      have e : (translateStep (some s)).witnesses = some (.huffman pol (translateWitnessList ws)) := by
        simp [translateStep, hw, translateWitnesses]
      unfold checkStep at h
      rw [e] at h
      have h : checkHuffman steps limit (translateStep (some s)) = some true := h
      unfold checkHuffman at h
      rw [e] at h
      simp only [Option.bind_eq_bind, Option.bind_some] at h
      obtain ⟨-, h⟩ := and_true_left h
      obtain ⟨-, h⟩ := and_true_left h
      obtain ⟨-, h⟩ := and_true_left h
      obtain ⟨h1, h⟩ := and_true_left h
      obtain ⟨h2, -⟩ := and_true_left h
      rw [Option.bind_eq_some_iff] at h1 h2
      obtain ⟨ch, hch, h1⟩ := h1
      rw [Option.bind_eq_some_iff] at h1
      obtain ⟨l, hl, hsize⟩ := h1
      simp only [Option.some.injEq, decide_eq_true_eq, Checker.sizeList_eq] at hsize
      obtain ⟨bounds, hbounds, hall⟩ := h2
      rw [Option.bind_eq_some_iff] at hbounds
      obtain ⟨bs, hbs, hbounds⟩ := hbounds
      rw [Option.bind_eq_some_iff] at hbs hbounds
      obtain ⟨ch', hch', hbs⟩ := hbs
      obtain ⟨l', hl', hbounds⟩ := hbounds
      obtain rfl : l = l' := Option.some.inj (hl.symm.trans hl')
      obtain rfl : ch = ch' := Option.some.inj (hch.symm.trans hch')
      cases hbs
      cases hbounds
      refine fullList_translate hl fun w hw => ?_
      obtain ⟨y, hb⟩ := of_zip (by rw [List.length_map]; exact hsize) (all_true hall) w hw
      rw [Option.bind_eq_some_iff] at hb
      obtain ⟨r, hr, _⟩ := hb
      exact getBound_def hr
    | successors ws =>
      have e : (translateStep (some s)).witnesses = some (.successor (translateWitnessList ws)) := by
        simp [translateStep, hw, translateWitnesses]
      unfold checkStep at h
      rw [e] at h
      have h : checkSuccessors steps limit (translateStep (some s)) = some true := h
      unfold checkSuccessors at h
      rw [e] at h
      simp only [Option.bind_eq_bind, Option.bind_some] at h
      obtain ⟨-, h⟩ := and_true_left h
      obtain ⟨-, h⟩ := and_true_left h
      obtain ⟨-, h⟩ := and_true_left h
      obtain ⟨-, h⟩ := and_true_left h
      simp only [Option.bind_eq_some_iff] at h
      obtain ⟨bs, _, l, hl, hall⟩ := h
      refine fullList_translate hl fun w hw => ?_
      obtain ⟨x, hx⟩ := listAll2_true hall w hw
      rw [Option.bind_eq_some_iff] at hx
      obtain ⟨r, hr, _⟩ := hx
      exact getBound_def hr

theorem allIntervalNat_true {p : ℕ → L Bool} (i j : ℕ) (h : allIntervalNat p i j = some true) :
    ∀ k, i ≤ k → k < j → p k = some true := by
  fun_induction allIntervalNat p i j with
  | case1 i hij => intro k h1 h2; omega
  | case2 i hij ih =>
    obtain ⟨h1, h2⟩ := and_true_left h
    intro k h3 h4
    by_cases e : k = i
    · rw [e]; exact h1
    · exact ih h2 k (by omega) h4

theorem parRangeAll_true {p : ℕ → L Bool} (lo n : ℕ) (h : parRangeAll p lo n = some true) :
    ∀ k, lo ≤ k → k < lo + n → p k = some true := by
  fun_induction parRangeAll p lo n with
  | case1 lo n hn => exact allIntervalNat_true _ _ h
  | case2 lo n hn ih1 ih2 =>
    obtain ⟨h1, h2⟩ := and_true_left h
    intro k h3 h4
    by_cases hk : k < lo + n / 2
    · exact ih1 h1 k h3 hk
    · exact ih2 h2 k (by omega) (by omega)

/-- Every step of a file that is accepted by the verified checker is evaluated with all its parts. -/
theorem verified_steps {bytes : List UInt8} {w b : ℤ} (h : mainVerified bytes = some (some (w, b))) :
    ∃ n, readLE 4 bytes = some n ∧ 0 < n ∧ ∀ i, 0 ≤ i → i < n → FullStep (stepFn bytes i) := by
  unfold mainVerified at h
  rw [Option.bind_eq_bind, Option.bind_eq_some_iff] at h
  obtain ⟨r, hr, h⟩ := h
  unfold checkProofGetBound at hr
  rw [Option.bind_eq_bind, Option.bind_eq_some_iff] at hr
  obtain ⟨ok, hok, hr⟩ := hr
  cases ok with
  | false => cases hr; cases h
  | true =>
    obtain ⟨h1, h2⟩ := and_true_left hok
    rw [Option.bind_eq_bind, Option.bind_eq_some_iff] at h2
    obtain ⟨n, hn, hpos⟩ := h2
    simp only [Option.some.injEq, decide_eq_true_eq] at hpos
    have hn : readLE 4 bytes = some n := hn
    refine ⟨n, hn, hpos, fun i h0 hi => ?_⟩
    unfold checkProof at h1
    rw [Option.bind_eq_bind, Option.bind_eq_some_iff] at h1
    obtain ⟨n', hn', h1⟩ := h1
    obtain rfl : n = n' := Option.some.inj (hn.symm.trans hn')
    have h3 := parRangeAll_true _ _ (and_true_left h1).2 i.toNat (by omega) (by rw [Checker.nat_eq]; omega)
    have e : ((i.toNat : ℕ) : ℤ) = i := Int.toNat_of_nonneg h0
    rw [e] at h3
    have hw : Decode.wrap64 i = i := Decode.wrap64_of_lt h0 (hi.trans (readLE_lt hn))
    have h4 := verified_full (s := stepFn bytes (Decode.wrap64 i)) h3
    rwa [hw] at h4

theorem StepFollows_ok {steps : ℤ → Checker.ProofStep} {limit : ℤ} {s : Ref.ProofStep}
    (h : Accept.StepFollows steps limit (Decode.translateStep s)) :
    s.vectSet.vects ≠ [] ∧ (Ref.SetOk s.vectSet → Ref.StepOk s) := by
  have key : ∀ {n : ℕ} {A : Set (List Bool)} {w : Witness} {b : ℕ},
      Accept.Shows steps limit n A ((some w).map Decode.translateWitness) b → w.perm.Perm (List.range n) := by
    intro n A w b hs
    cases hs with
    | step _ h0 h1 perm sub =>
      simpa [Decode.translateWitness, Function.comp_def] using perm
  have hvl : s.vectSet.vects = [] → {v | v ∈ (Decode.translateStep s).vectList} = ∅ := by
    intro e
    ext v
    simp [Decode.translateStep, Ref.asBoolVectList, e]
  have hwd : (Decode.translateStep s).width.toNat = s.vectSet.channels := Int.toNat_natCast _
  obtain ⟨-, h⟩ := h
  cases hw : s.witnesses with
  | huffman pol ws =>
    have e : (Decode.translateStep s).witnesses = .huffman pol (Decode.translateWitnessList ws) := by
      simp [Decode.translateStep, hw, Decode.translateWitnesses]
    rw [e] at h
    obtain ⟨-, hne, bs, m, -, -, hlen, hall⟩ := h
    refine ⟨fun he => ?_, fun hset => ⟨hset, ?_⟩⟩
    · rw [hvl he] at hall
      have : Accept.extremalChannels (Decode.translateStep s).width.toNat pol ∅ = [] := by
        simp [Accept.extremalChannels]
      rw [this] at hall
      cases h' : Decode.translateWitnessList ws with
      | nil => exact hne h'
      | cons a l => rw [h'] at hall; cases hall
    · rw [hw]
      intro w hw'
      rw [hwd] at hall
      obtain ⟨i, hi, e⟩ := List.getElem_of_mem hw'
      have := hall.get (i := i) (by
        have := hall.length_eq
        rw [Decode.translateWitnessList, List.length_map] at this
        omega) (by rw [Decode.translateWitnessList, List.length_map]; exact hi)
      simp only [List.get_eq_getElem, Decode.translateWitnessList, List.getElem_map, e] at this
      exact key this
  | successors ws =>
    have e : (Decode.translateStep s).witnesses = .successor (Decode.translateWitnessList ws) := by
      simp [Decode.translateStep, hw, Decode.translateWitnesses]
    rw [e] at h
    obtain ⟨hb, hcard, hall⟩ := h
    refine ⟨fun he => ?_, fun hset => ⟨hset, ?_⟩⟩
    · rw [hvl he, Set.ncard_empty] at hcard
      omega
    · rw [hw]
      refine ⟨fun w hw' => ?_, ?_⟩
      · obtain ⟨i, hi, e⟩ := List.getElem_of_mem hw'
        have := hall.get (i := i) (by
          have := hall.length_eq
          rw [Decode.translateWitnessList, List.length_map] at this
          omega) (by rw [Decode.translateWitnessList, List.length_map]; exact hi)
        simp only [List.get_eq_getElem, Decode.translateWitnessList, List.getElem_map, e] at this
        obtain ⟨b, hb, _⟩ := this
        have := key hb
        rwa [hwd] at this
      · have : (0 : ℤ) < (s.bound : ℤ) := hb
        omega

/-- A file that the verified checker accepts is accepted by the reference checker, with the same answer. -/
theorem reference_of_verified {bytes : List UInt8} (hlen : bytes.length < 2 ^ 60)
    (hbits : ∀ n i s, readLE 4 bytes = some n → 0 ≤ i → i < n → stepFn bytes i = some s → s.vectSet.channels < 3 → CleanBits s)
    {w b : ℤ} (h : mainVerified bytes = some (some (w, b))) : mainReference bytes = .ok (w.toNat, b.toNat) := by
  obtain ⟨n, hn, hpos, hfull⟩ := verified_steps h
  rw [mainReference_full ⟨0, false, []⟩ hn (by omega) hfull]
  have h1 := ap_mainVerified ⟨0, false, []⟩ ⟨false, 0⟩ bytes _ h
  have hc : Decode.stepCount ⟨0, false, []⟩ bytes = n := by
    unfold Decode.stepCount Decode.read32LE
    exact (ap_readLE _ 4 bytes n hn).symm
  have hlt := readLE_lt hn
  have hnn : (n.toNat : ℤ) = n := Int.toNat_of_nonneg hpos.le
  unfold Decode.mainVerified at h1
  unfold Decode.mainReference
  rw [hc] at h1 ⊢
  have hcert := (Checker.checkProofGetBound_iff _ _ _ _).1 h1.symm
  have hwb : ((w.toNat : ℤ) = w) ∧ ((b.toNat : ℤ) = b) := by
    obtain ⟨-, -, h2, h3⟩ := hcert
    have key : ∀ t : Ref.ProofStep, 0 ≤ (Decode.translateStep t).width ∧ 0 ≤ (Decode.translateStep t).bound := fun t =>
      ⟨Int.natCast_nonneg _, Int.natCast_nonneg _⟩
    have := key (Decode.stepFn ⟨0, false, []⟩ bytes (Decode.wrap64 (n - 1)))
    exact ⟨Int.toNat_of_nonneg (h2 ▸ this.1), Int.toNat_of_nonneg (h3 ▸ this.2)⟩
  rw [Ref.checkProof_iff ⟨false, 0⟩ (by omega) (by omega), hnn, hwb.1, hwb.2]
  · exact h1.symm
  · intro i h0 hi
    have hf := hcert.2.1 i h0 (by show i < n; omega)
    have e : (Decode.translateProofSteps n (Decode.stepFn ⟨0, false, []⟩ bytes)).step i =
        Decode.translateStep (Decode.stepFn ⟨0, false, []⟩ bytes i) := by
      show Decode.translateStep (Decode.stepFn _ _ (Decode.wrap64 i)) = _
      rw [Decode.wrap64_of_lt h0 (by omega)]
    rw [e] at hf
    obtain ⟨hne, hok⟩ := StepFollows_ok hf
    apply hok
    obtain ⟨s, hs, _⟩ := hfull i h0 (by omega)
    have ha := ap_stepFn ⟨0, false, []⟩ bytes i s hs
    rw [← ha.vectSet] at hne ⊢
    exact setOk_of_file hlen hs hne (hbits n i s hn h0 (by omega) hs)

/-- Conversely, for well-formed files. -/
theorem verified_of_reference {bytes : List UInt8} (hlen : bytes.length < 2 ^ 60) {n : ℤ} (hn : readLE 4 bytes = some n)
    (hn0 : n ≠ 0)
    (hperm : ∀ i s, 0 ≤ i → i < n → stepFn bytes i = some s → GenuinePerms s)
    (hbits : ∀ i s, 0 ≤ i → i < n → stepFn bytes i = some s → s.vectSet.channels < 3 → CleanBits s)
    (hbound : ∀ i s ws, 0 ≤ i → i < n → stepFn bytes i = some s → s.witnesses = .successors ws → s.bound ≠ 0)
    {w b : ℕ} (h : mainReference bytes = .ok (w, b)) : mainVerified bytes = some (some ((w : ℤ), (b : ℤ))) := by
  have hpos : 0 ≤ n := by
    rw [ap_readLE ⟨0, false, []⟩ 4 bytes n hn]
    exact (Decode.readLE_range _ _ 4 (by norm_num)).1
  have hfull : ∀ i, 0 ≤ i → i < n → FullStep (stepFn bytes i) := fun i h0 hi => accepted_full h hn i h0 (by omega)
  have hc : Decode.stepCount ⟨0, false, []⟩ bytes = n := by
    unfold Decode.stepCount Decode.read32LE
    exact (ap_readLE _ 4 bytes n hn).symm
  have hlt := readLE_lt hn
  have hnn : (n.toNat : ℤ) = n := Int.toNat_of_nonneg hpos
  have hok := accepted_stepOk0 hlen hn hperm hbits h
  rw [mainVerified_full ⟨0, false, []⟩ ⟨false, 0⟩ hn hfull]
  rw [mainReference_full ⟨0, false, []⟩ hn hn0 hfull] at h
  unfold Decode.mainReference at h
  unfold Decode.mainVerified
  rw [hc] at h ⊢
  rw [Ref.checkProof_iff ⟨false, 0⟩ (by omega) (by omega), hnn] at h
  · rw [h]
  · intro i h0 hi
    have hi : i < n := by omega
    have hk := hok i h0 hi
    refine ⟨hk.set, ?_⟩
    have hp := hk.perms
    obtain ⟨s, hs, _⟩ := hfull i h0 hi
    have ha := ap_stepFn ⟨0, false, []⟩ bytes i s hs
    rcases ha.witnesses with ⟨pol, ws, ws', e1, e2, hws⟩ | ⟨ws, ws', e1, e2, hws⟩
    · rw [e2] at hp ⊢
      exact hp
    · rw [e2] at hp ⊢
      exact ⟨hp, by rw [← ha.bound]; exact hbound i s ws h0 hi hs e1⟩

theorem bytes_clean {c : CertStep} (h : c.Representable) {s : RefStep} (hs : decodeProofStep c.bytes = some s) : CleanBits s := by
  have hn := h.channels
  have e0 : c.bytes[0]? = some (UInt8.ofNat c.set.n) := rfl
  have hc : (UInt8.ofNat c.set.n).toNat = c.set.n := by rw [Decode.toNat_ofNat, Nat.mod_eq_of_lt (by omega)]
  have hp := packed_length c.set.s
  have e2 : Decode.take (Decode.bit (c.set.n - 3)) (Decode.drop 2 c.bytes) = c.set.s.packed := by
    rw [Decode.bit_packedLen hn, Decode.take, Int.toNat_natCast]
    show (c.set.s.packed ++ _).take _ = _
    rw [List.take_append_of_le_length (by rw [hp]), List.take_of_length_le (by rw [hp])]
  unfold decodeProofStep at hs
  simp only [e0, Option.bind_eq_bind, Option.bind_some, Option.bind_eq_some_iff, Option.some.injEq, hc, e2] at hs
  obtain ⟨b, _, k, _, w, _, rfl⟩ := hs
  intro v hv
  obtain ⟨x, _, rfl⟩ := ((Decode.fromBytes_packed c.set.s).2 v).1 hv
  show (BitVec.ofNat 64 x.toNat).toNat < 2 ^ c.set.n
  rw [BitVec.toNat_ofNat]
  exact lt_of_le_of_lt (Nat.mod_le _ _) x.isLt

open ProofGen

theorem written_count {cs : List CertStep} (hn : cs.length < 2 ^ 32) :
    readLE 4 (writeProof (cs.map CertStep.bytes)) = some (cs.length : ℤ) := by
  have hlen : 4 ≤ (writeProof (cs.map CertStep.bytes)).length := by
    rw [writeProof, List.length_append, List.length_append, le32_eq, Decode.leBytes_length]
    omega
  rw [readLE_def hlen ⟨0, false, []⟩]
  have := Decode.stepCount_writeProof ⟨0, false, []⟩ (steps := cs.map CertStep.bytes) (by simpa using hn)
  rw [List.length_map] at this
  exact congrArg some this

theorem written_stepFn {cs : List CertStep} (hc : ∀ c ∈ cs, c.Representable)
    (hn : cs.length < 2 ^ 32) (hl : (writeProof (cs.map CertStep.bytes)).length < 2 ^ 63) (i : ℕ) (hi : i < cs.length) :
    stepFn (writeProof (cs.map CertStep.bytes)) i = decodeProofStep cs[i].bytes := by
  have hr := hc _ (List.getElem_mem hi)
  have := stepData_writeProof (steps := cs.map CertStep.bytes) (by simpa using hn) hl i (by simpa using hi)
    (by simpa using hr.length)
  unfold stepFn
  rw [this]
  simp only [List.getElem_map, Option.bind_eq_bind, Option.bind_some]

theorem written_clean {cs : List CertStep} (hc : ∀ c ∈ cs, c.Representable)
    (hn : cs.length < 2 ^ 32) (hl : (writeProof (cs.map CertStep.bytes)).length < 2 ^ 63) (n i : ℤ) (s : RefStep)
    (h : readLE 4 (writeProof (cs.map CertStep.bytes)) = some n) (h0 : 0 ≤ i) (hi : i < n)
    (hs : stepFn (writeProof (cs.map CertStep.bytes)) i = some s) : CleanBits s := by
  rw [written_count hn, Option.some.injEq] at h
  lift i to ℕ using h0
  have hi : i < cs.length := by omega
  rw [written_stepFn hc hn hl i hi] at hs
  exact bytes_clean (hc _ (List.getElem_mem hi)) hs

end Sortnet.Lazy
