import Verif.Proof.SliceSubsume

/-! # `Subsume` with its vectors: guesses, filtering, moving and the search -/

namespace Sortnet.SliceSubsume

open Slice

variable {n : ℕ}

theorem range_free {st : Subsume.St n} (h : st.fixed ≤ n) :
    range st.fixed n = (Subsume.freeChannels st).map Fin.val := by
  unfold range Subsume.freeChannels
  have e : (List.finRange n).map Fin.val = List.range st.fixed ++ List.range' st.fixed (n - st.fixed) := by
    rw [List.map_coe_finRange_eq_range, List.range_eq_range', List.range_eq_range']
    have := List.range'_append (s := 0) (m := st.fixed) (n := n - st.fixed) (step := 1)
    simp only [Nat.zero_add, Nat.one_mul] at this
    rw [this]
    congr 1
    omega
  have e2 : ((List.finRange n).filter fun i : Fin n => decide (st.fixed ≤ i)).map Fin.val =
      ((List.finRange n).map Fin.val).filter fun i => decide (st.fixed ≤ i) := by
    rw [List.filter_map]; rfl
  rw [e2, e, List.filter_append, List.filter_eq_nil_iff.2, List.filter_eq_self.2, List.nil_append]
  · intro a ha
    rw [List.mem_range'_1] at ha
    simpa using ha.1
  · intro a ha
    rw [List.mem_range] at ha
    simpa using ha

/-! ## `select_guess` -/

theorem chooseSide_enc (hn : n ≤ 11) (st : Subsume.St n) (buffer : List ℕ) (side : Bool) (L : List (Fin n))
    (acc : ℕ × ℕ × ℕ) :
    chooseSide (enc st buffer) side (L.map Fin.val) acc = some (Subsume.minChoice acc (L.map fun channel =>
      (countOnes (st.matching side (st.perms side channel)), side.toNat, (st.perms side channel).val))) := by
  induction L generalizing acc with
  | nil => rfl
  | cons c L ih =>
    rw [List.map_cons, chooseSide, perm_enc]
    simp only [Option.bind_eq_bind, Option.bind_some]
    rw [mask_enc]
    simp only [Option.bind_some, countOnes16_eq hn]
    rw [ih]
    rfl

theorem chooseOther_enc (hn : n ≤ 11) (st : Subsume.St n) (buffer : List ℕ) (side : Bool) (L : List (Fin n))
    (acc : ℕ × ℕ × ℕ) :
    chooseOther (enc st buffer) side (L.map Fin.val) acc = some (Subsume.minChoice acc (L.map fun m =>
      (countOnes (st.matching (!side) m), 0, m.val))) := by
  induction L generalizing acc with
  | nil => rfl
  | cons c L ih =>
    rw [List.map_cons, chooseOther, mask_enc]
    simp only [Option.bind_eq_bind, Option.bind_some, countOnes16_eq hn]
    rw [ih]
    rfl

theorem toChannel_some {i : ℕ} {c : Fin n} (h : Subsume.toChannel n i = some c) : i = c.val := by
  unfold Subsume.toChannel at h
  split at h
  · cases h; rfl
  · simp at h

theorem selectGuess_enc (hn : n ≤ 11) {st : Subsume.St n} (hf : st.fixed ≤ n) (buffer : List ℕ) {g : Bool → Fin n}
    (h : Subsume.selectGuess st = some g) : selectGuess (enc st buffer) = some (nums g) := by
  unfold Subsume.selectGuess at h
  simp only [Option.bind_eq_bind, Option.bind_eq_some_iff] at h
  obtain ⟨c, hc, o, ho, h⟩ := h
  cases h
  have hr : range (enc st buffer).fixed (enc st buffer).channels = (Subsume.freeChannels st).map Fin.val := range_free hf
  unfold selectGuess
  rw [hr, chooseSide_enc hn]
  simp only [Option.bind_eq_bind, Option.bind_some]
  rw [chooseSide_enc hn]
  simp only [Option.bind_some]
  have e : Subsume.minChoice (Subsume.minChoice (maxChannels + 1, 0, 0) ((Subsume.freeChannels st).map fun channel =>
        (countOnes (st.matching false (st.perms false channel)), false.toNat, (st.perms false channel).val)))
      ((Subsume.freeChannels st).map fun channel =>
        (countOnes (st.matching true (st.perms true channel)), true.toNat, (st.perms true channel).val)) =
      Subsume.minChoice (maxChannels + 1, 0, 0) (Subsume.choices st) := by
    unfold Subsume.minChoice Subsume.choices
    simp only [List.flatMap_cons, List.flatMap_nil, List.append_nil, List.foldl_append]
  rw [e]
  have hc' := toChannel_some hc
  have ho' := toChannel_some ho
  rw [hc', mask_enc]
  simp only [Option.bind_some]
  rw [setBits16_eq hn, chooseOther_enc hn]
  simp only [Option.bind_some]
  rw [nums_pair]
  unfold Subsume.otherChoices at ho'
  rw [ho']

/-! ## `filter_matching` -/

theorem resize_length (l : List ℕ) (k : ℕ) : (resize l k).length = k := by
  unfold resize
  rw [List.length_append, List.length_take, List.length_replicate]
  omega

theorem fillSide_enc (hn : n ≤ 11) (s : Bitmap n) {fixed : ℕ} (L : List (Fin n)) (hL : ∀ c ∈ L, fixed ≤ c.val)
    (buffers : List (List ℕ)) (hb : buffers.length + L.length ≤ 11) (buffer : List ℕ)
    (hl : lowChannelsChannelAbstractionLen n fixed * L.length ≤ buffer.length) :
    ∃ rest, fillSide (ofBitmap s) fixed (lowChannelsChannelAbstractionLen n fixed) (L.map Fin.val) buffers buffer =
        some (buffers ++ L.map (fun c => buf (lowChannelsChannelAbstractionLen n fixed)
          (s.lowChannelsChannelAbstraction fixed c)), rest) ∧
      rest.length = buffer.length - lowChannelsChannelAbstractionLen n fixed * L.length := by
  induction L generalizing buffers buffer with
  | nil => exact ⟨buffer, by simp [fillSide], by simp⟩
  | cons c L ih =>
    rw [List.length_cons] at hl hb
    have h1 : lowChannelsChannelAbstractionLen n fixed ≤ buffer.length := by
      refine le_trans ?_ hl
      exact Nat.le_mul_of_pos_right _ (Nat.succ_pos _)
    rw [List.map_cons, fillSide, splitAt, if_pos h1]
    simp only [Option.bind_eq_bind, Option.bind_some]
    rw [lowChannelsChannelAbstraction_eq hn s c (hL c (by simp)) _ (by rw [List.length_take]; omega)]
    simp only [Option.bind_some, push]
    rw [if_pos (show buffers.length < capC by unfold capC; omega)]
    simp only [Option.bind_some]
    have h2 : lowChannelsChannelAbstractionLen n fixed * L.length ≤
        (buffer.drop (lowChannelsChannelAbstractionLen n fixed)).length := by
      rw [List.length_drop]
      rw [Nat.mul_succ] at hl
      omega
    obtain ⟨rest, e, hr⟩ := ih (fun c hc => hL c (by simp [hc])) (buffers ++ [_]) (by simp; omega) _ h2
    refine ⟨rest, ?_, ?_⟩
    · rw [e]
      simp
    · rw [hr, List.length_drop, List.length_cons, Nat.mul_succ]
      omega

theorem exceeds_eq (len : ℕ) (f g : ℕ → ℕ) :
    (((buf len f).zip (buf len g)).any fun p => decide (p.1 > p.2)) = Subsume.abstractionExceeds len f g := by
  unfold Subsume.abstractionExceeds buf
  rw [List.zip_map', List.any_map]
  rfl

theorem filterLoop_append (st0 : Subsume.St n) (l l' : List (Fin n × Fin n)) (st : Subsume.St n) :
    Subsume.filterLoop st0 (l ++ l') st = (Subsume.filterLoop st0 l st).bind fun r =>
      if r.1 then Subsume.filterLoop st0 l' r.2 else some (false, r.2) := by
  induction l generalizing st with
  | nil => simp [Subsume.filterLoop]
  | cons p l ih =>
    rw [List.cons_append, Subsume.filterLoop, Subsume.filterLoop]
    simp only [Option.bind_eq_bind, Option.bind_assoc]
    refine Option.bind_congr fun r _ => ?_
    split
    · exact ih _
    · simp

/-- The buffer of a channel. -/
def absBuf (st0 : Subsume.St n) (side : Bool) (c : Fin n) : List ℕ :=
  buf (lowChannelsChannelAbstractionLen n st0.fixed) ((st0.sets side).lowChannelsChannelAbstraction st0.fixed c)

theorem filterInner_enc (hn : n ≤ 11) (st0 : Subsume.St n) (lo : Fin n) (L : List (Fin n)) {st : Subsume.St n}
    (hp : st.perms = st0.perms) {r : Bool × Subsume.St n}
    (h : Subsume.filterLoop st0 (L.map fun hi => (lo, hi)) st = some r) :
    Good st r fun s => filterInner (st0.perms false lo) (absBuf st0 false lo)
      (L.map fun hi => (hi.val, absBuf st0 true hi)) s := by
  induction L generalizing st with
  | nil =>
    cases h
    exact ⟨rfl, le_rfl, rfl, rfl, fun b => rfl⟩
  | cons hi L ih =>
    rw [List.map_cons, Subsume.filterLoop] at h
    simp only [Option.bind_eq_bind, Option.bind_eq_some_iff] at h
    obtain ⟨r1, h1, h⟩ := h
    have key : ∀ b, filterInner (st0.perms false lo) (absBuf st0 false lo)
        ((hi :: L).map fun hi => (hi.val, absBuf st0 true hi)) (enc st b) =
        if Subsume.getMatching st (Subsume.pair false (st.perms false lo) (st.perms true hi)) then
          if Subsume.abstractionExceeds (lowChannelsChannelAbstractionLen n st0.fixed)
              ((st0.sets false).lowChannelsChannelAbstraction st0.fixed lo)
              ((st0.sets true).lowChannelsChannelAbstraction st0.fixed hi) then
            (removeMatching (enc st b) (nums (Subsume.pair false (st.perms false lo) (st.perms true hi)))).bind fun r =>
              if r.1 then filterInner (st0.perms false lo) (absBuf st0 false lo)
                (L.map fun hi => (hi.val, absBuf st0 true hi)) r.2 else some (false, r.2)
          else filterInner (st0.perms false lo) (absBuf st0 false lo)
            (L.map fun hi => (hi.val, absBuf st0 true hi)) (enc st b)
        else filterInner (st0.perms false lo) (absBuf st0 false lo)
          (L.map fun hi => (hi.val, absBuf st0 true hi)) (enc st b) := by
      intro b
      rw [List.map_cons, filterInner, perm_enc]
      simp only [Option.bind_eq_bind, Option.bind_some]
      have e : pair false (st0.perms false lo).val (st.perms true hi).val =
          nums (Subsume.pair false (st.perms false lo) (st.perms true hi)) := by rw [nums_pair, hp]
      rw [e, getMatching_enc hn]
      simp only [Option.bind_some]
      have e2 : (((absBuf st0 false lo).zip (absBuf st0 true hi)).any fun p => decide (p.1 > p.2)) = _ := exceeds_eq _ _ _
      rw [e2]
    unfold Subsume.filterStep at h1
    dsimp only at h1
    split at h1
    · next g1 =>
      split at h1
      · next g2 =>
        have k1 := removeMatching_enc hn h1
        have key' : ∀ b, filterInner (st0.perms false lo) (absBuf st0 false lo)
            ((hi :: L).map fun hi => (hi.val, absBuf st0 true hi)) (enc st b) =
            if r1.1 then filterInner (st0.perms false lo) (absBuf st0 false lo)
              (L.map fun hi => (hi.val, absBuf st0 true hi)) (enc r1.2 b) else some (false, enc r1.2 b) := by
          intro b
          have := k1.2.2.2.2 b
          beta_reduce at this
          rw [key, if_pos g1, if_pos g2, this]
          rfl
        split at h
        · next h2 =>
          refine k1.trans (ih (k1.2.2.2.1.trans hp) h) fun b _ => ?_
          beta_reduce
          rw [key', if_pos h2]
        · next h2 =>
          cases h
          refine ⟨k1.1, k1.2.1, k1.2.2.1, k1.2.2.2.1, fun b => ?_⟩
          beta_reduce
          rw [key', if_neg h2]
      · next g2 =>
        cases h1
        have k := ih hp h
        refine ⟨k.1, k.2.1, k.2.2.1, k.2.2.2.1, fun b => ?_⟩
        beta_reduce
        rw [key, if_pos g1, if_neg g2]
        exact k.2.2.2.2 b
    · next g1 =>
      cases h1
      have k := ih hp h
      refine ⟨k.1, k.2.1, k.2.2.1, k.2.2.2.1, fun b => ?_⟩
      beta_reduce
      rw [key, if_neg g1]
      exact k.2.2.2.2 b

theorem filterOuter_enc (hn : n ≤ 11) (st0 : Subsume.St n) (H L : List (Fin n)) {st : Subsume.St n}
    (hp : st.perms = st0.perms) {r : Bool × Subsume.St n}
    (h : Subsume.filterLoop st0 (L.flatMap fun lo => H.map fun hi => (lo, hi)) st = some r) :
    Good st r fun s => filterOuter (H.map fun hi => (hi.val, absBuf st0 true hi))
      (L.map fun lo => (lo.val, absBuf st0 false lo)) s := by
  induction L generalizing st with
  | nil =>
    cases h
    exact ⟨rfl, le_rfl, rfl, rfl, fun b => rfl⟩
  | cons lo L ih =>
    rw [List.flatMap_cons, filterLoop_append, Option.bind_eq_some_iff] at h
    obtain ⟨r1, h1, h⟩ := h
    have k1 := filterInner_enc hn st0 lo H hp h1
    have key : ∀ b, filterOuter (H.map fun hi => (hi.val, absBuf st0 true hi))
        ((lo :: L).map fun lo => (lo.val, absBuf st0 false lo)) (enc st b) =
        if r1.1 then filterOuter (H.map fun hi => (hi.val, absBuf st0 true hi))
          (L.map fun lo => (lo.val, absBuf st0 false lo)) (enc r1.2 b) else some (false, enc r1.2 b) := by
      intro b
      rw [List.map_cons, filterOuter, perm_enc]
      simp only [Option.bind_eq_bind, Option.bind_some]
      have := k1.2.2.2.2 b
      beta_reduce at this
      rw [hp, this]
      rfl
    split at h
    · next h2 =>
      refine k1.trans (ih (k1.2.2.2.1.trans hp) h) fun b _ => ?_
      beta_reduce
      rw [key, if_pos h2]
    · next h2 =>
      cases h
      refine ⟨k1.1, k1.2.1, k1.2.2.1, k1.2.2.2.1, fun b => ?_⟩
      beta_reduce
      rw [key, if_neg h2]

theorem free_length (st : Subsume.St n) (h : st.fixed ≤ n) : (Subsume.freeChannels st).length = n - st.fixed := by
  have := congrArg List.length (range_free h)
  simp only [range, List.length_range', List.length_map] at this
  exact this.symm

theorem filterMatching_enc (hn : n ≤ 11) {st : Subsume.St n} (hf : st.fixed ≤ n) {r : Bool × Subsume.St n}
    (h : Subsume.filterMatching st = some r) (buffer : List ℕ) :
    r.2.fixed = st.fixed ∧ st.undo.length ≤ r.2.undo.length ∧
    ∃ buffer', filterMatching (enc st buffer) = some (r.1, enc r.2 buffer') := by
  have k := filterOuter_enc hn st (Subsume.freeChannels st) (Subsume.freeChannels st) rfl h
  refine ⟨k.1, k.2.1, ?_⟩
  have hr : range (enc st buffer).fixed (enc st buffer).channels = (Subsume.freeChannels st).map Fin.val := range_free hf
  have hl := free_length st hf
  have hm : ∀ c ∈ Subsume.freeChannels st, st.fixed ≤ c.val := fun c hc => (Subsume.mem_freeChannels st c).1 hc
  have hs0 : ((enc st buffer).sets false).lowChannelsChannelAbstractionLen (enc st buffer).fixed =
      some (lowChannelsChannelAbstractionLen n st.fixed) := lowChannelsChannelAbstractionLen_eq _ hf
  unfold filterMatching
  rw [hs0]
  have hsub : sub (enc st buffer).channels (enc st buffer).fixed = some (n - st.fixed) := by
    change sub n st.fixed = _
    rw [sub, if_pos hf]
  rw [hsub]
  simp only [Option.bind_eq_bind, Option.bind_some]
  rw [hr]
  obtain ⟨rest0, e0, l0⟩ := fillSide_enc hn (st.sets false) (Subsume.freeChannels st) hm [] (by simp [hl]; omega)
    (resize (enc st buffer).buffer (lowChannelsChannelAbstractionLen n st.fixed * (n - st.fixed) * 2)) (by
      rw [resize_length, hl]; omega)
  obtain ⟨rest1, e1, _⟩ := fillSide_enc hn (st.sets true) (Subsume.freeChannels st) hm [] (by simp [hl]; omega)
    rest0 (by rw [l0, resize_length, hl]; omega)
  have e0' : fillSide ((enc st buffer).sets false) (enc st buffer).fixed (lowChannelsChannelAbstractionLen n st.fixed)
    ((Subsume.freeChannels st).map Fin.val) [] (resize (enc st buffer).buffer
      (lowChannelsChannelAbstractionLen n st.fixed * (n - st.fixed) * 2)) = _ := e0
  have e1' : fillSide ((enc st buffer).sets true) (enc st buffer).fixed (lowChannelsChannelAbstractionLen n st.fixed)
    ((Subsume.freeChannels st).map Fin.val) [] rest0 = _ := e1
  rw [e0']
  simp only [Option.bind_some]
  rw [e1']
  simp only [Option.bind_some, List.nil_append]
  rw [List.zip_map', List.zip_map']
  have k' := k.2.2.2.2 []
  beta_reduce at k'
  have k2 : filterOuter ((Subsume.freeChannels st).map fun c => (c.val, buf (lowChannelsChannelAbstractionLen n st.fixed)
        ((st.sets true).lowChannelsChannelAbstraction st.fixed c)))
      ((Subsume.freeChannels st).map fun c => (c.val, buf (lowChannelsChannelAbstractionLen n st.fixed)
        ((st.sets false).lowChannelsChannelAbstraction st.fixed c))) { enc st buffer with buffer := [] } = _ := k'
  rw [k2]
  exact ⟨_, rfl⟩

/-! ## `move_unique` -/

theorem position_enc (p : Fin n → Fin n) {c i : Fin n} (h : Subsume.position p c = some i) :
    position (vec fun i => (p i).val) c = some i.val := by
  unfold Subsume.position at h
  rw [List.head?_filter, List.find?_eq_some_iff_getElem] at h
  obtain ⟨hp, j, hj, e, hmin⟩ := h
  rw [List.getElem_finRange] at e
  have hji : j = i.val := by rw [← e]; rfl
  subst hji
  unfold position
  rw [List.findIdx?_eq_some_iff_getElem]
  refine ⟨by rw [vec_length]; exact i.isLt, ?_, ?_⟩
  · simp only [vec, List.getElem_map, List.getElem_finRange]
    simpa [Fin.ext_iff] using hp
  · intro j hj
    have := hmin j hj
    simp only [vec, List.getElem_map, List.getElem_finRange]
    simpa [Fin.ext_iff] using this

theorem moveLoop_enc (hn : n ≤ 11) (L : List (Fin n)) {moved : Bool} {st : Subsume.St n} (hf : st.fixed ≤ n)
    {r : Bool × Subsume.St n} (h : Subsume.moveLoop L moved st = some r) :
    r.2.fixed ≤ n ∧ st.undo.length ≤ r.2.undo.length ∧
    ∀ buffer, moveLoop (L.map Fin.val) moved (enc st buffer) = some (r.1, enc r.2 buffer) := by
  induction L generalizing moved st with
  | nil => cases h; exact ⟨hf, le_rfl, fun b => rfl⟩
  | cons lo L ih =>
    rw [Subsume.moveLoop] at h
    simp only [Option.bind_eq_bind, Option.bind_eq_some_iff] at h
    obtain ⟨r1, h1, h⟩ := h
    unfold Subsume.moveStep at h1
    simp only [Option.bind_eq_bind, Option.bind_eq_some_iff] at h1
    obtain ⟨u, hu, h1⟩ := h1
    have key : ∀ b, moveLoop ((lo :: L).map Fin.val) moved (enc st b) =
        if u then do
          let hi ← position ((enc st b).perms true) (trailingZeros16 (st.matching false (st.perms false lo)).toNat)
          let st1 := { enc st b with undo := .swap st.fixed (pair false lo hi) :: (enc st b).undo }
          let st2 ← swapSide st1 false st.fixed lo
          let st3 ← swapSide st2 true st2.fixed hi
          moveLoop (L.map Fin.val) true { st3 with fixed := st3.fixed + 1 }
        else moveLoop (L.map Fin.val) moved (enc st b) := by
      intro b
      rw [List.map_cons, moveLoop, perm_enc]
      simp only [Option.bind_eq_bind, Option.bind_some]
      rw [mask_enc]
      simp only [Option.bind_some, isUnique_eq, hu]
      rfl
    split at h1
    · next hu1 =>
      rw [Option.bind_eq_some_iff] at h1
      obtain ⟨c, hc, h1⟩ := h1
      rw [Option.bind_eq_some_iff] at h1
      obtain ⟨hi, hhi, h1⟩ := h1
      rw [Option.bind_eq_some_iff] at h1
      obtain ⟨target, ht, h1⟩ := h1
      cases h1
      have ht' := toChannel_some ht
      have k := ih (by change st.fixed + 1 ≤ n; have := target.isLt; omega) h
      refine ⟨k.1, le_trans (by simp) k.2.1, fun b => ?_⟩
      rw [key, if_pos hu1, trailingZeros16_eq hn hc]
      have e : position ((enc st b).perms true) c.val = some hi.val := position_enc _ hhi
      rw [e]
      simp only [Option.bind_eq_bind, Option.bind_some]
      rw [ht']
      have e1 : ({ enc st b with undo := .swap target.val (pair false lo hi) :: (enc st b).undo } : St) =
          enc { st with undo := .swap target (Subsume.pair false lo hi) :: st.undo } b := by
        rw [← nums_pair]; rfl
      rw [e1, swapSide_enc]
      simp only [Option.bind_some]
      have e2 : ∀ (st' : Subsume.St n), (enc st' b).fixed = st'.fixed := fun st' => rfl
      simp only [e2, ht']
      rw [swapSide_enc]
      simp only [Option.bind_some]
      rw [← k.2.2 b]
      congr 1
      have e3 : ∀ st' : Subsume.St n, ({ enc st' b with fixed := (enc st' b).fixed + 1 } : St) =
          enc { st' with fixed := st'.fixed + 1 } b := fun _ => rfl
      rw [e3]
      congr 1
      unfold Subsume.swapBoth
      congr 1
      · funext s
        cases s <;> simp [Function.update, Subsume.pair]
      · funext s
        cases s <;> simp [Function.update, Subsume.pair]
      · simp [ht']
    · next hu1 =>
      cases h1
      have k := ih hf h
      refine ⟨k.1, k.2.1, fun b => ?_⟩
      rw [key, if_neg hu1]
      exact k.2.2 b

theorem moveUnique_enc (hn : n ≤ 11) {st : Subsume.St n} (hf : st.fixed ≤ n)
    {r : Bool × Subsume.St n} (h : Subsume.moveUnique st = some r) :
    r.2.fixed ≤ n ∧ st.undo.length ≤ r.2.undo.length ∧
    ∀ buffer, moveUnique (enc st buffer) = some (r.1, enc r.2 buffer) := by
  have k := moveLoop_enc hn _ hf h
  refine ⟨k.1, k.2.1, fun b => ?_⟩
  rw [← k.2.2 b, ← range_free hf]
  rfl

/-! ## `search` -/

theorem resultPerm_enc (hn : n ≤ 11) (st : Subsume.St n) (buffer : List ℕ) :
    resultPerm (enc st buffer) = some (vec fun i => (Subsume.resultPerm st i).val) := by
  unfold resultPerm Subsume.resultPerm
  have e : collect capC (List.range (enc st buffer).channels) = vec (fun i : Fin n => (id i : Fin n).val) := range_vec hn
  have e2 : List.range (enc st buffer).channels = (List.finRange n).map Fin.val :=
    List.map_coe_finRange_eq_range.symm
  rw [e, e2]
  generalize (id : Fin n → Fin n) = f
  generalize List.finRange n = L
  induction L generalizing f with
  | nil => rfl
  | cons i L ih =>
    rw [List.map_cons, List.foldlM_cons, List.foldl_cons, perm_enc, perm_enc]
    simp only [Option.bind_eq_bind, Option.bind_some]
    rw [put_vec]
    simp only [Option.bind_some]
    rw [← ih]
    congr 2
    funext j
    simp only [Function.update_apply]
    split <;> rfl

theorem rollback_undo {st : Subsume.St n} {depth fixed : ℕ} (h : depth ≤ st.undo.length) :
    (Subsume.rollback st depth fixed).undo.length = depth := by
  unfold Subsume.rollback
  simp only [List.length_drop]
  omega

theorem undoAction_fixed (l : List (Subsume.Undo n)) (st : Subsume.St n) :
    (l.foldl Subsume.undoAction st).fixed = st.fixed := by
  induction l generalizing st with
  | nil => rfl
  | cons u l ih =>
    rw [List.foldl_cons, ih]
    cases u <;> rfl

theorem rollback_fixed (st : Subsume.St n) (depth fixed : ℕ) : (Subsume.rollback st depth fixed).fixed = fixed := by
  unfold Subsume.rollback
  simp only [undoAction_fixed]

/-- What the refinement says about a call of `search`. -/
def GoodSearch (st : Subsume.St n) (r : Option (Fin n → Fin n) × Subsume.St n)
    (f : St → Option (Option (List ℕ) × St)) : Prop :=
  st.fixed ≤ n → st.undo.length ≤ r.2.undo.length ∧ ∀ buffer, ∃ buffer',
    f (enc st buffer) = some (r.1.map fun p => vec fun i => (p i).val, enc r.2 buffer')

theorem search_enc (hn : n ≤ 11) :
    (∀ (st : Subsume.St n) r, Subsume.search st = some r → GoodSearch st r search) ∧
    (∀ (st : Subsume.St n) r, Subsume.branch st = some r → GoodSearch st r branch) ∧
    (∀ (st : Subsume.St n) guess r, Subsume.exclude st guess = some r →
      GoodSearch st r fun st => exclude st (nums guess)) := by
  refine Subsume.search.mutual_partial_correctness (fun st r => GoodSearch st r search)
    (fun st r => GoodSearch st r branch) (fun st guess r => GoodSearch st r fun st => exclude st (nums guess)) ?_ ?_ ?_
  · intro search' branch' ih1 ih2 st r hr hf
    have hfix : ∀ b, (enc st b).fixed = (enc st b).channels ↔ st.fixed = n := fun b => Iff.rfl
    have hsub : ∀ b, ((enc st b).sets false).subsumesUnpermuted ((enc st b).sets true) =
        (st.sets false).subsumesUnpermuted (st.sets true) := fun b => subsumesUnpermuted_eq _ _
    split at hr
    · next h0 =>
      split at hr
      · next h1 =>
        cases hr
        refine ⟨le_rfl, fun b => ⟨b, ?_⟩⟩
        rw [search, if_pos ((hfix b).2 h0), if_pos ((hsub b).trans h1), resultPerm_enc hn]
        rfl
      · next h1 =>
        cases hr
        refine ⟨le_rfl, fun b => ⟨b, ?_⟩⟩
        rw [search, if_pos ((hfix b).2 h0), if_neg (by rw [hsub]; exact h1)]
        rfl
    · next h0 =>
      simp only [Option.bind_eq_bind, Option.bind_eq_some_iff] at hr
      obtain ⟨f, hfm, hr⟩ := hr
      split at hr
      · next h1 =>
        rw [Option.bind_eq_some_iff] at hr
        obtain ⟨m, hm, hr⟩ := hr
        have kf := fun b => filterMatching_enc hn hf hfm b
        have km := moveUnique_enc hn (by rw [(kf []).1]; exact hf) hm
        have key : ∀ b, ∃ b', search (enc st b) = if m.1 then search (enc m.2 b') else branch (enc m.2 b') := by
          intro b
          obtain ⟨b', e⟩ := (kf b).2.2
          refine ⟨b', ?_⟩
          conv_lhs => rw [search, if_neg (by rw [hfix]; exact h0), e]
          simp only [Option.bind_eq_bind, Option.bind_some, if_pos h1, km.2.2 b']
        have kg : GoodSearch m.2 r (if m.1 then search else branch) := by
          split at hr
          · next h2 => rw [if_pos h2]; exact ih1 _ _ hr
          · next h2 => rw [if_neg h2]; exact ih2 _ _ hr
        have kg' := kg km.1
        refine ⟨(kf []).2.1.trans (km.2.1.trans kg'.1), fun b => ?_⟩
        obtain ⟨b', e⟩ := key b
        obtain ⟨b'', e'⟩ := kg'.2 b'
        refine ⟨b'', ?_⟩
        rw [e, ← e']
        split <;> rfl
      · next h1 =>
        cases hr
        refine ⟨(filterMatching_enc hn hf hfm []).2.1, fun b => ?_⟩
        obtain ⟨b', e⟩ := (filterMatching_enc hn hf hfm b).2.2
        refine ⟨b', ?_⟩
        rw [search, if_neg (by rw [hfix]; exact h0), e]
        simp only [Option.bind_eq_bind, Option.bind_some, if_neg h1]
        rfl
  · intro search' exclude' ih1 ih2 st r hr hf
    simp only [Option.bind_eq_bind, Option.bind_eq_some_iff] at hr
    obtain ⟨guess, hg, i, hi, hr⟩ := hr
    have kg := fun b => selectGuess_enc hn hf b hg
    have ki := isolateMatching_enc hn hi
    have hlen : ∀ b, (enc st b).undo.length = st.undo.length := fun b => by simp [enc]
    have key : ∀ b, branch (enc st b) = if i.1 then
          (moveUnique (enc i.2 b)).bind fun m => (search m.2).bind fun r =>
            (rollback r.2 st.undo.length st.fixed).bind fun st' =>
            match r.1 with
            | some p => some (some p, st')
            | none => exclude st' (nums guess)
        else (rollback (enc i.2 b) st.undo.length st.fixed).bind fun st' => exclude st' (nums guess) := by
      intro b
      have := ki.2.2.2.2 b
      beta_reduce at this
      rw [branch, kg b, hlen b]
      simp only [Option.bind_eq_bind, Option.bind_some, this]
      rfl
    split at hr
    · next h1 =>
      rw [Option.bind_eq_some_iff] at hr
      obtain ⟨m, hm, hr⟩ := hr
      rw [Option.bind_eq_some_iff] at hr
      obtain ⟨r1, hr1, hr⟩ := hr
      have km := moveUnique_enc hn (by rw [ki.1]; exact hf) hm
      have ks := ih1 _ _ hr1 km.1
      have hu : st.undo.length ≤ r1.2.undo.length := ki.2.1.trans (km.2.1.trans ks.1)
      have key' : ∀ b, ∃ b', branch (enc st b) =
          match r1.1 with
          | some p => some (some (vec fun i => (p i).val), enc (Subsume.rollback r1.2 st.undo.length st.fixed) b')
          | none => exclude (enc (Subsume.rollback r1.2 st.undo.length st.fixed) b') (nums guess) := by
        intro b
        obtain ⟨b', e⟩ := ks.2 b
        refine ⟨b', ?_⟩
        rw [key, if_pos h1, km.2.2 b]
        simp only [Option.bind_some, e]
        rw [rollback_enc hn _ hu]
        simp only [Option.bind_some]
        cases r1.1 <;> rfl
      cases hr1' : r1.1 with
      | some p =>
        rw [hr1'] at hr
        cases hr
        refine ⟨by rw [rollback_undo hu], fun b => ?_⟩
        obtain ⟨b', e⟩ := key' b
        refine ⟨b', ?_⟩
        rw [e, hr1']
        rfl
      | none =>
        rw [hr1'] at hr
        have ke := ih2 _ _ _ hr (by rw [rollback_fixed]; exact hf)
        refine ⟨by rw [← rollback_undo (fixed := st.fixed) hu]; exact ke.1, fun b => ?_⟩
        obtain ⟨b', e⟩ := key' b
        obtain ⟨b'', e'⟩ := ke.2 b'
        refine ⟨b'', ?_⟩
        rw [e, hr1']
        exact e'
    · next h1 =>
      have ke := ih2 _ _ _ hr (by rw [rollback_fixed]; exact hf)
      refine ⟨by rw [← rollback_undo (fixed := st.fixed) ki.2.1]; exact ke.1, fun b => ?_⟩
      obtain ⟨b'', e'⟩ := ke.2 b
      refine ⟨b'', ?_⟩
      rw [key, if_neg h1, rollback_enc hn _ ki.2.1]
      exact e'
  · intro search' ih st guess r hr hf
    simp only [Option.bind_eq_bind, Option.bind_eq_some_iff] at hr
    obtain ⟨r1, h1, hr⟩ := hr
    have k1 := removeMatching_enc hn h1
    have key : ∀ b, exclude (enc st b) (nums guess) =
        if r1.1 then (moveUnique (enc r1.2 b)).bind fun m => search m.2 else some (none, enc r1.2 b) := by
      intro b
      have := k1.2.2.2.2 b
      beta_reduce at this
      rw [exclude, this]
      rfl
    split at hr
    · next h2 =>
      rw [Option.bind_eq_some_iff] at hr
      obtain ⟨m, hm, hr⟩ := hr
      have km := moveUnique_enc hn (by rw [k1.1]; exact hf) hm
      have ks := ih _ _ hr km.1
      refine ⟨k1.2.1.trans (km.2.1.trans ks.1), fun b => ?_⟩
      obtain ⟨b', e⟩ := ks.2 b
      refine ⟨b', ?_⟩
      beta_reduce
      rw [key, if_pos h2, km.2.2 b]
      exact e
    · next h2 =>
      cases hr
      refine ⟨k1.2.1, fun b => ⟨b, ?_⟩⟩
      beta_reduce
      rw [key, if_neg h2]
      rfl

theorem new_enc (hn : n ≤ 11) (s t : Bitmap n) : new (ofBitmap s) (ofBitmap t) = some (enc (Subsume.new s t) []) := by
  unfold new
  have e : shl16 (ofBitmap s).channels = some (2 ^ n) := by
    change shl16 n = _
    rw [shl16, if_pos (by omega), Nat.one_shiftLeft]
  rw [if_neg (by simp [ofBitmap])]
  simp only [e, Option.bind_eq_bind, Option.bind_some]
  have e2 : sub (2 ^ n) 1 = some (2 ^ n - 1) := if_pos Nat.one_le_two_pow
  rw [e2]
  simp only [Option.bind_some, Option.some.injEq]
  have e3 : collect capC (List.range (ofBitmap s).channels) = _ := range_vec hn
  have e4 : collect capC (List.replicate (ofBitmap s).channels (2 ^ n - 1)) = _ := replicate_vec hn _
  rw [e3, e4]
  unfold enc Subsume.new
  congr 1
  funext side
  cases side <;> rfl

/-- The search with vectors returns what the search of `Model/Subsume.lean` returns. -/
theorem subsumesPermuted_eq (hn : n ≤ 11) (s t : Bitmap n) :
    subsumesPermuted (ofBitmap s) (ofBitmap t) =
      (s.subsumesPermuted t).map fun r => r.map fun p => vec fun i => (p i).val := by
  obtain ⟨r, hr, _⟩ := subsumesPermuted_spec (show n ≤ maxChannels from hn) s t
  rw [hr]
  unfold Bitmap.subsumesPermuted at hr
  rw [if_pos (show n ≤ maxChannels from hn), Option.map_eq_some_iff] at hr
  obtain ⟨q, hq, rfl⟩ := hr
  have k := (search_enc hn).1 _ _ hq (by simp [Subsume.new])
  obtain ⟨b', e⟩ := k.2 []
  unfold subsumesPermuted
  rw [new_enc hn]
  simp only [Option.bind_eq_bind, Option.bind_some, e]
  rfl

end Sortnet.SliceSubsume
