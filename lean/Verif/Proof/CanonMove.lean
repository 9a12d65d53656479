import Verif.Proof.CanonStep

/-!
# Fixing channels: `move_singleton` and `individualize`
-/

namespace Sortnet.Canon

open Subsume (setBits trailingZeros isUnique swapPerm mem_setBits ne_zero_iff isUnique_some trailingZeros_some
  swapPerm_eq eq_bit_iff)

variable {n : ℕ}

theorem movePart_eq {s fx : Fin n} {p : BitVec n} (h : ¬ In s p) :
    movePart s fx p = permIdx (Equiv.swap s fx) p := by
  have hp : ((p &&& bit fx) != 0#n) = vecOf p fx := by
    rw [Bool.eq_iff_iff, bne_iff_ne, ne_zero_iff]
    constructor
    · rintro ⟨i, hi⟩
      rw [vecOf_and, vecOf_bit, Bool.and_eq_true, decide_eq_true_eq] at hi
      obtain ⟨h1, rfl⟩ := hi; exact h1
    · intro h; exact ⟨fx, by simp [h]⟩
  have hs : vecOf p s = false := by unfold In at h; simpa using h
  apply vec_ext
  intro i
  unfold movePart
  dsimp only
  rw [hp, vecOf_permIdx, Function.comp_apply, vecOf_or, vecOf_and, vecOf_not, vecOf_bit]
  by_cases h1 : i = s
  · subst h1
    rw [Equiv.swap_apply_left, hs]
    cases hx : vecOf p fx <;> simp
  · by_cases h2 : i = fx
    · subst h2
      rw [Equiv.swap_apply_right, hs]
      cases hx : vecOf p i <;> simp [h1]
    · rw [Equiv.swap_apply_of_ne_of_ne h1 h2]
      cases hx : vecOf p fx <;> simp [h1, h2]

/-- What remains of the last part. -/
def rest (keep : Bool) (m : BitVec n) (src : Fin n) (id : ℕ) : List (BitVec n × ℕ) :=
  if keep then [(m &&& ~~~ bit src, id)] else []

/-- `c'` is obtained from `c` by fixing channel `src` of the last part. -/
structure StepAt (f : ℕ) (keep : Bool) (src fx : Fin n) (P : List (BitVec n × ℕ)) (m : BitVec n) (id : ℕ)
    (c c' : Cand n) : Prop where
  fxv : fx.val = f
  last : c.partition = P ++ [(m, id)]
  mem : In src m
  kept : if keep then m ≠ bit src else m = bit src
  bitmap : c'.bitmap = c.bitmap.swapChannels src fx
  perm : c'.perm = swapPerm c.perm src fx
  invert : c'.invert = c.invert
  fp : c'.fingerprint = c.fingerprint
  partition : c'.partition = (P ++ rest keep m src id).map fun p => (movePart src fx p.1, p.2)

theorem in_remove (m : BitVec n) (s i : Fin n) : In i (m &&& ~~~ bit s) ↔ In i m ∧ i ≠ s := by
  unfold In
  rw [vecOf_and, vecOf_not, vecOf_bit]
  simp

theorem partOK_remove {S : Set (Fin n)} {P : List (BitVec n × ℕ)} {m : BitVec n} {id : ℕ} {src : Fin n}
    {keep : Bool} (h : PartOK S (P ++ [(m, id)])) (hs : In src m)
    (hk : if keep then m ≠ bit src else m = bit src) :
    PartOK (S \ {src}) (P ++ rest keep m src id) ∧ ∀ p ∈ P ++ rest keep m src id, ¬ In src p.1 := by
  obtain ⟨hd1, _, hd2⟩ := List.pairwise_append.1 h.disj
  have hP : ∀ p ∈ P, ¬ In src p.1 := fun p hp hi => hd2 p hp (m, id) (by simp) src hi hs
  cases keep with
  | false =>
    simp only [Bool.false_eq_true, if_false] at hk
    simp only [rest, Bool.false_eq_true, if_false, List.append_nil]
    refine ⟨⟨?_, hd1, fun p hp => h.nonempty p (by simp [hp])⟩, hP⟩
    intro i
    rw [Set.mem_sdiff, h.cover, Set.mem_singleton_iff]
    constructor
    · rintro ⟨⟨p, hp, hi⟩, hne⟩
      rcases List.mem_append.1 hp with hp | hp
      · exact ⟨p, hp, hi⟩
      · rw [List.mem_singleton] at hp
        subst hp
        dsimp only at hi
        rw [hk] at hi
        unfold In at hi
        rw [vecOf_bit, decide_eq_true_eq] at hi
        exact absurd hi hne
    · rintro ⟨p, hp, hi⟩
      exact ⟨⟨p, by simp [hp], hi⟩, by rintro rfl; exact hP p hp hi⟩
  | true =>
    simp only [if_true] at hk
    simp only [rest, if_true]
    refine ⟨⟨?_, ?_, ?_⟩, ?_⟩
    · intro i
      rw [Set.mem_sdiff, h.cover, Set.mem_singleton_iff]
      constructor
      · rintro ⟨⟨p, hp, hi⟩, hne⟩
        rcases List.mem_append.1 hp with hp | hp
        · exact ⟨p, by simp [hp], hi⟩
        · rw [List.mem_singleton] at hp
          subst hp
          exact ⟨(m &&& ~~~ bit src, id), by simp, (in_remove m src i).2 ⟨hi, hne⟩⟩
      · rintro ⟨p, hp, hi⟩
        rcases List.mem_append.1 hp with hq | hp
        · exact ⟨⟨p, by simp [hq], hi⟩, by rintro rfl; exact hP p hq hi⟩
        · rw [List.mem_singleton] at hp
          subst hp
          rw [in_remove] at hi
          exact ⟨⟨(m, id), by simp, hi.1⟩, hi.2⟩
    · refine List.pairwise_append.2 ⟨hd1, by simp, ?_⟩
      intro p hp q hq i hi hi'
      rw [List.mem_singleton] at hq
      subst hq
      rw [in_remove] at hi'
      exact hd2 p hp (m, id) (by simp) i hi hi'.1
    · intro p hp
      rcases List.mem_append.1 hp with hp | hp
      · exact h.nonempty p (by simp [hp])
      · rw [List.mem_singleton] at hp
        subst hp
        have hne : ∃ i, In i m := ⟨src, hs⟩
        have := mt (eq_bit_iff hne src).2 hk
        push Not at this
        obtain ⟨i, hi, hii⟩ := this
        exact ⟨i, (in_remove m src i).2 ⟨hi, hii⟩⟩
    · intro p hp
      rcases List.mem_append.1 hp with hp | hp
      · exact hP p hp
      · rw [List.mem_singleton] at hp
        subst hp
        intro hi
        exact ((in_remove m src src).1 hi).2 rfl

theorem PartOK.permPart {S : Set (Fin n)} {P : List (BitVec n × ℕ)} (h : PartOK S P) (τ : Equiv.Perm (Fin n)) :
    PartOK {i | τ i ∈ S} (permPart τ P) where
  cover := fun i => by
    rw [Set.mem_ofPred_eq, h.cover]
    constructor
    · rintro ⟨p, hp, hi⟩
      exact ⟨(permIdx τ p.1, p.2), List.mem_map.2 ⟨p, hp, rfl⟩, (in_permIdx τ _ _).2 hi⟩
    · rintro ⟨q, hq, hi⟩
      obtain ⟨p, hp, rfl⟩ := List.mem_map.1 hq
      exact ⟨p, hp, (in_permIdx τ _ _).1 hi⟩
  disj := by
    unfold Canon.permPart
    rw [List.pairwise_map]
    refine h.disj.imp ?_
    intro p q hpq i hi hi'
    exact hpq (τ i) ((in_permIdx τ _ _).1 hi) ((in_permIdx τ _ _).1 hi')
  nonempty := by
    intro q hq
    obtain ⟨p, hp, rfl⟩ := List.mem_map.1 hq
    obtain ⟨i, hi⟩ := h.nonempty p hp
    exact ⟨τ.symm i, (in_permIdx τ _ _).2 (by simpa using hi)⟩

section StepAt

variable {s : Bitmap n} {inv : Bool} {f u : ℕ} {keep : Bool} {src fx : Fin n} {P : List (BitVec n × ℕ)}
  {m : BitVec n} {id : ℕ} {c c' : Cand n}

theorem StepAt.src_mem (h : StepAt f keep src fx P m id c c') (hc : CInv s inv f u c) :
    f ≤ src.val ∧ src.val < u :=
  (hc.part.cover src).2 ⟨(m, id), by rw [h.last]; simp, h.mem⟩

theorem StepAt.fx_mem (h : StepAt f keep src fx P m id c c') (hc : CInv s inv f u c) :
    f ≤ fx.val ∧ fx.val < u := by
  have := h.src_mem hc
  have := h.fxv
  omega

theorem StepAt.partition' (h : StepAt f keep src fx P m id c c') (hc : CInv s inv f u c) :
    c'.partition = permPart (Equiv.swap src fx) (P ++ rest keep m src id) := by
  rw [h.partition]
  unfold permPart
  apply List.map_congr_left
  intro p hp
  have hpart := hc.part
  rw [h.last] at hpart
  rw [movePart_eq ((partOK_remove hpart h.mem h.kept).2 p hp)]

theorem StepAt.cinv (h : StepAt f keep src fx P m id c c') (hc : CInv s inv f u c) : CInv s inv (f + 1) u c' where
  tracks := by
    obtain ⟨π, h1, h2⟩ := hc.tracks
    refine ⟨π * Equiv.swap src fx, ?_, ?_⟩
    · rw [h.perm, swapPerm_eq, h1]; rfl
    · rw [h.invert, h.bitmap]
      exact h2.trans (BIso_swap _ _ _)
  noinv := by rw [h.invert]; exact hc.noinv
  part := by
    have hpart := hc.part
    rw [h.last] at hpart
    rw [h.partition' hc]
    have hsw := Adm.swap (h.src_mem hc) (h.fx_mem hc)
    have hfx := h.fxv
    have hS : {i | Equiv.swap src fx i ∈ Window n f u \ {src}} = Window n (f + 1) u := by
      ext i
      rw [Set.mem_ofPred_eq, Set.mem_sdiff, Set.mem_singleton_iff]
      have e : Equiv.swap src fx i = src ↔ i = fx := by
        constructor
        · intro e
          have := congrArg (Equiv.swap src fx) e
          simpa using this
        · rintro rfl; simp
      rw [e]
      have hw : Equiv.swap src fx i ∈ Window n f u ↔ i ∈ Window n f u := by
        unfold Window
        rw [Set.mem_ofPred_eq, Set.mem_ofPred_eq, ← hsw.used i]
        constructor
        · rintro ⟨h1, h2⟩
          refine ⟨?_, h2⟩
          by_contra hlt
          rw [hsw.low i (by omega)] at h1
          omega
        · rintro ⟨h1, h2⟩
          refine ⟨?_, h2⟩
          by_contra hlt
          have := hsw.low (Equiv.swap src fx i) (by omega)
          rw [Equiv.swap_apply_self] at this
          rw [← this] at hlt
          omega
      rw [hw]
      unfold Window
      rw [Set.mem_ofPred_eq, Set.mem_ofPred_eq]
      constructor
      · rintro ⟨⟨h1, h2⟩, h3⟩
        refine ⟨?_, h2⟩
        rcases Nat.lt_or_eq_of_le h1 with h | h
        · omega
        · exact absurd (Fin.ext (by omega)) h3
      · rintro ⟨h1, h2⟩
        exact ⟨⟨by omega, h2⟩, by rintro rfl; omega⟩
    rw [← hS]
    exact (partOK_remove hpart h.mem h.kept).1.permPart _
  tail := by
    intro i hi
    rw [h.bitmap, (BIso_swap _ _ _).isChannelUnconstrained]
    have := h.src_mem hc
    have := h.fx_mem hc
    rw [Equiv.swap_apply_of_ne_of_ne (by rintro rfl; omega) (by rintro rfl; omega)]
    exact hc.tail i hi
  fpne := by rw [h.fp]; exact hc.fpne

end StepAt

theorem permPart_append (τ : Equiv.Perm (Fin n)) (P Q : List (BitVec n × ℕ)) :
    permPart τ (P ++ Q) = permPart τ P ++ permPart τ Q := List.map_append

theorem permPart_permPart (σ τ : Equiv.Perm (Fin n)) (P : List (BitVec n × ℕ)) :
    permPart σ (permPart τ P) = permPart (τ * σ) P := by
  unfold permPart
  rw [List.map_map]
  apply List.map_congr_left
  intro p _
  simp [permIdx_permIdx]

theorem rest_perm (τ : Equiv.Perm (Fin n)) (keep : Bool) (m : BitVec n) (s : Fin n) (id : ℕ) :
    rest keep (permIdx τ m) s id = permPart τ (rest keep m (τ s) id) := by
  cases keep with
  | false => rfl
  | true =>
    simp only [rest, if_true, permPart, List.map_cons, List.map_nil]
    rw [permIdx_and, permIdx_not, permIdx_bit]

section two

variable {sA sB : Bitmap n} {inv : Bool} {f u : ℕ} {keep : Bool} {srcA srcB fxA fxB : Fin n}
  {PA PB : List (BitVec n × ℕ)} {mA mB : BitVec n} {idA idB : ℕ} {a a' b b' : Cand n}

theorem StepAt.good (hA : StepAt f keep srcA fxA PA mA idA a a') (hB : StepAt f keep srcB fxB PB mB idB b b')
    (ha : CInv sA inv f u a) (hb : CInv sB inv f u b) (hg : Good f u a b) : Good (f + 1) u a' b' := by
  intro τ' hτ' hiso
  have hfx : fxA = fxB := Fin.ext (by rw [hA.fxv, hB.fxv])
  subst hfx
  rw [hA.bitmap, hB.bitmap] at hiso
  have h1 : BIso (Equiv.swap srcA fxA * τ' * Equiv.swap srcB fxA) a.bitmap b.bitmap := by
    have := (BIso_swap b.bitmap srcB fxA).symm
    rw [Equiv.swap_inv] at this
    exact ((BIso_swap a.bitmap srcA fxA).trans hiso).trans this
  have hadm : Adm f u (Equiv.swap srcA fxA * τ' * Equiv.swap srcB fxA) :=
    ((Adm.swap (hA.src_mem ha) (hA.fx_mem ha)).mul (hτ'.mono (by omega))).mul
      (Adm.swap (hB.src_mem hb) (hB.fx_mem hb))
  have hp := hg _ hadm h1
  set τ := Equiv.swap srcA fxA * τ' * Equiv.swap srcB fxA with hτdef
  have hτs : τ srcB = srcA := by
    rw [hτdef]
    simp only [Equiv.Perm.mul_apply, Equiv.swap_apply_left]
    rw [hτ'.low fxA (by rw [hA.fxv]; omega), Equiv.swap_apply_right]
  rw [hA.last, hB.last, permPart_append] at hp
  obtain ⟨hp1, hp2⟩ := List.append_inj' hp (by simp [permPart])
  simp only [permPart, List.map_cons, List.map_nil, List.cons.injEq, Prod.mk.injEq, and_true] at hp2
  rw [hA.partition' ha, hB.partition' hb, permPart_permPart, hp1, hp2.1, hp2.2, rest_perm, hτs,
    ← permPart_append, permPart_permPart]
  congr 1
  rw [hτdef, mul_assoc, Equiv.swap_mul_self, mul_one]

theorem StepAt.rel (hA : StepAt f keep srcA fxA PA mA idA a a') (ha : CInv sA inv f u a)
    (hb : CInv sB inv f u b) (hg : Good f u a b) (hr : R f u a b) :
    ∃ srcB PB mB idB, b.partition = PB ++ [(mB, idB)] ∧ In srcB mB ∧
      ∀ b', StepAt f keep srcB fxA PB mB idB b b' → R (f + 1) u a' b' := by
  obtain ⟨τ, hτ, hiso⟩ := hr
  have hp := hg τ hτ hiso
  rw [hA.last, permPart_append] at hp
  refine ⟨τ.symm srcA, permPart τ PA, permIdx τ mA, idA, hp, ?_, ?_⟩
  · rw [in_permIdx]; simpa using hA.mem
  · intro b' hB
    refine ⟨Equiv.swap srcA fxA * τ * Equiv.swap (τ.symm srcA) fxA, ⟨?_, ?_⟩, ?_⟩
    · intro i hi
      simp only [Equiv.Perm.mul_apply]
      by_cases hif : i = fxA
      · subst hif
        simp
      · have hlt : i.val < f := by
          have : i.val ≠ fxA.val := fun e => hif (Fin.ext e)
          rw [hA.fxv] at this
          omega
        have h1 := hB.src_mem hb
        have h2 := hA.src_mem ha
        rw [Equiv.swap_apply_of_ne_of_ne (by rintro rfl; omega) hif, hτ.low i hlt,
          Equiv.swap_apply_of_ne_of_ne (by rintro rfl; omega) hif]
    · exact ((((Adm.swap (hA.src_mem ha) (hA.fx_mem ha)).mul hτ).mul
        (Adm.swap (hB.src_mem hb) (hB.fx_mem hb)))).used
    · rw [hA.bitmap, hB.bitmap]
      have := (BIso_swap a.bitmap srcA fxA).symm
      rw [Equiv.swap_inv] at this
      exact (this.trans hiso).trans (BIso_swap _ _ _)

end two

/-- `L'` is obtained from `L` by fixing one channel of the last part in every possible way. -/
structure StepSpec (f : ℕ) (keep : Bool) (fx : Fin n) (L L' : List (Cand n)) : Prop where
  sound : ∀ c' ∈ L', ∃ c ∈ L, ∃ src P m id, StepAt f keep src fx P m id c c'
  complete : ∀ c ∈ L, ∀ P m id src, c.partition = P ++ [(m, id)] → In src m →
    ∃ c' ∈ L', StepAt f keep src fx P m id c c'
  ne : L ≠ [] → L' ≠ []

theorem StepSpec.half {sA sB : Bitmap n} {inv : Bool} {f u : ℕ} {keep : Bool} {fx : Fin n}
    {LA LB LA' LB' : List (Cand n)} (h : Pair sA sB inv f u LA LB)
    (hA : StepSpec f keep fx LA LA') (hB : StepSpec f keep fx LB LB') : Half (f + 1) u LA' LB' := by
  intro a' ha'
  obtain ⟨a, ha, src, P, m, id, hst⟩ := hA.sound a' ha'
  obtain ⟨b, hb, hr⟩ := h.half a ha
  obtain ⟨srcB, PB, mB, idB, e, hin, hR⟩ := hst.rel (h.invA a ha) (h.invB b hb)
    (h.good a (by simp [ha]) b (by simp [hb])) hr
  obtain ⟨b', hb', hst'⟩ := hB.complete b hb PB mB idB srcB e hin
  exact ⟨b', hb', hR b' hst'⟩

theorem StepSpec.pair {sA sB : Bitmap n} {inv : Bool} {f u : ℕ} {keep : Bool} {fx : Fin n}
    {LA LB LA' LB' : List (Cand n)} (h : Pair sA sB inv f u LA LB)
    (hA : StepSpec f keep fx LA LA') (hB : StepSpec f keep fx LB LB') : Pair sA sB inv (f + 1) u LA' LB' where
  neA := hA.ne h.neA
  neB := hB.ne h.neB
  invA := by
    intro c' hc'
    obtain ⟨c, hc, _, _, _, _, hst⟩ := hA.sound c' hc'
    exact hst.cinv (h.invA c hc)
  invB := by
    intro c' hc'
    obtain ⟨c, hc, _, _, _, _, hst⟩ := hB.sound c' hc'
    exact hst.cinv (h.invB c hc)
  good := by
    have key : ∀ c' ∈ LA' ++ LB', ∃ c ∈ LA ++ LB, (∃ s, CInv s inv f u c) ∧ ∃ src P m id,
        StepAt f keep src fx P m id c c' := by
      intro c' hc'
      rcases List.mem_append.1 hc' with hc' | hc'
      · obtain ⟨c, hc, src, P, m, id, hst⟩ := hA.sound c' hc'
        exact ⟨c, by simp [hc], ⟨sA, h.invA c hc⟩, src, P, m, id, hst⟩
      · obtain ⟨c, hc, src, P, m, id, hst⟩ := hB.sound c' hc'
        exact ⟨c, by simp [hc], ⟨sB, h.invB c hc⟩, src, P, m, id, hst⟩
    intro a' ha' b' hb'
    obtain ⟨a, ha, ⟨_, ia⟩, _, _, _, _, sa⟩ := key a' ha'
    obtain ⟨b, hb, ⟨_, ib⟩, _, _, _, _, sb⟩ := key b' hb'
    exact sa.good sb ia ib (h.good a ha b hb)
  half := StepSpec.half h hA hB
  half' := StepSpec.half h.symm hB hA

/-! ### `move_singleton` -/

theorem isUnique_bit (i : Fin n) : isUnique (bit i) = some true := by
  obtain ⟨b, hb, hb'⟩ := isUnique_some (m := bit i) ⟨i, by simp⟩
  rw [hb, hb'.2 ⟨i, rfl⟩]

theorem singletonCount_cons {P : List (BitVec n × ℕ)} {p : BitVec n × ℕ} (hp : ∃ i, In i p.1) {j : ℕ}
    (hj : singletonCount P = some j) :
    ((∃ i, p.1 = bit i) → singletonCount (p :: P) = some (j + 1)) ∧
      ((¬ ∃ i, p.1 = bit i) → singletonCount (p :: P) = some 0) := by
  obtain ⟨b, hb, hb'⟩ := isUnique_some hp
  constructor
  · intro h
    have : b = true := hb'.2 h
    subst this
    rw [singletonCount]
    simp [hb, hj]
  · intro h
    have : b = false := by
      cases b with
      | false => rfl
      | true => exact absurd (hb'.1 rfl) h
    subst this
    rw [singletonCount]
    simp [hb]

theorem singletonCount_concat {P : List (BitVec n × ℕ)} {p : BitVec n × ℕ} {k : ℕ} (hp : ∃ i, In i p.1) :
    (singletonCount (P ++ [p]).reverse = some (k + 1) ↔
      (∃ i, p.1 = bit i) ∧ singletonCount P.reverse = some k) ∧
    (singletonCount (P ++ [p]).reverse = some 0 ↔ ¬ ∃ i, p.1 = bit i) ∨
      singletonCount P.reverse = none := by
  rw [List.reverse_append, List.reverse_singleton, List.singleton_append]
  cases hs : singletonCount P.reverse with
  | none => exact Or.inr rfl
  | some j =>
    left
    obtain ⟨h1, h2⟩ := singletonCount_cons hp hs
    by_cases h : ∃ i, p.1 = bit i
    · rw [h1 h]; simp [h]
    · rw [h2 h]; simp [h]

/-- The last part when singletons remain. -/
theorem last_of_count {S : Set (Fin n)} {Q : List (BitVec n × ℕ)} (h : PartOK S Q) {k : ℕ}
    (hk : singletonCount Q.reverse = some (k + 1)) :
    ∃ P src id, Q = P ++ [(bit src, id)] ∧ singletonCount P.reverse = some k := by
  rcases List.eq_nil_or_concat' Q with rfl | ⟨P, p, rfl⟩
  · simp [singletonCount] at hk
  · rcases singletonCount_concat (P := P) (k := k) (h.nonempty p (by simp)) with h1 | h1
    · obtain ⟨⟨i, hi⟩, h2⟩ := h1.1.1 hk
      obtain ⟨m, id⟩ := p
      simp only at hi
      exact ⟨P, i, id, by rw [hi], h2⟩
    · obtain ⟨j, hj⟩ := singletonCount_some (P := P.reverse) (fun q hq => h.nonempty q (by
        simp only [List.mem_reverse] at hq; simp [hq]))
      rw [hj] at h1
      simp at h1

/-- The last part when no singletons remain. -/
theorem last_of_count_zero {S : Set (Fin n)} {P : List (BitVec n × ℕ)} {p : BitVec n × ℕ}
    (h : PartOK S (P ++ [p])) (hk : singletonCount (P ++ [p]).reverse = some 0) : ¬ ∃ i, p.1 = bit i := by
  rcases singletonCount_concat (P := P) (k := 0) (h.nonempty p (by simp)) with h1 | h1
  · exact h1.2.1 hk
  · obtain ⟨j, hj⟩ := singletonCount_some (P := P.reverse) (fun q hq => h.nonempty q (by
      simp only [List.mem_reverse] at hq; simp [hq]))
    rw [hj] at h1
    simp at h1

theorem swapPerm_self (p : Fin n → Fin n) (a : Fin n) : swapPerm p a a = p := by
  rw [swapPerm_eq]; simp

theorem trailingZeros_bit (i : Fin n) : trailingZeros (bit i) = some i := by
  obtain ⟨j, hj, hj'⟩ := trailingZeros_some (m := bit i) ⟨i, by simp⟩
  rw [vecOf_bit, decide_eq_true_eq] at hj'
  rw [hj, hj']

theorem moveTo_spec {s : Bitmap n} {inv : Bool} {f u : ℕ} {c : Cand n} {fx src : Fin n} (hfx : fx.val = f)
    (hc : CInv s inv f u c) {P : List (BitVec n × ℕ)} {id : ℕ} (hP : c.partition = P ++ [(bit src, id)]) :
    ∃ c', moveTo f src c = some c' ∧ StepAt f false src fx P (bit src) id c c' := by
  have hpart := hc.part
  rw [hP] at hpart
  have hno := (partOK_remove (keep := false) hpart (show In src (bit src) by simp [In]) (by simp)).2
  simp only [rest, Bool.false_eq_true, if_false, List.append_nil] at hno
  have hd : c.partition.dropLast = P := by rw [hP]; simp
  unfold moveTo
  dsimp only
  by_cases h : src.val = f
  · have hsf : src = fx := Fin.ext (by omega)
    rw [if_neg (by simpa using h)]
    refine ⟨_, rfl, ⟨hfx, hP, by simp [In], by simp, ?_, ?_, rfl, rfl, ?_⟩⟩
    · rw [hsf]
      unfold Bitmap.swapChannels
      rw [if_pos rfl]
    · rw [hsf, swapPerm_self]
    · simp only [rest, Bool.false_eq_true, if_false, List.append_nil]
      rw [hd]
      conv_lhs => rw [← List.map_id P]
      apply List.map_congr_left
      intro p hp
      rw [movePart_eq (hno p hp), hsf, Equiv.swap_self]
      have : permIdx (Equiv.refl (Fin n)) p.1 = p.1 := permIdx_one p.1
      simp [this]
  · rw [if_pos h]
    have : channel? n f = some fx := by
      unfold channel?
      rw [dif_pos (by rw [← hfx]; exact fx.isLt)]
      congr 1
      exact Fin.ext hfx.symm
    simp only [this, Option.bind_eq_bind, Option.bind_some]
    refine ⟨_, rfl, ⟨hfx, hP, by simp [In], by simp, rfl, rfl, rfl, rfl, ?_⟩⟩
    simp only [rest, Bool.false_eq_true, if_false, List.append_nil]
    rw [hd]

theorem StepAt.count {f : ℕ} {src fx : Fin n} {P : List (BitVec n × ℕ)} {m : BitVec n} {id : ℕ}
    {c c' : Cand n} {s : Bitmap n} {inv : Bool} {u : ℕ} (h : StepAt f false src fx P m id c c')
    (hc : CInv s inv f u c) : singletonCount c'.partition.reverse = singletonCount P.reverse := by
  rw [h.partition' hc]
  simp only [rest, Bool.false_eq_true, if_false, List.append_nil]
  have hpart := hc.part
  rw [h.last] at hpart
  rw [show (permPart (Equiv.swap src fx) P).reverse = permPart (Equiv.swap src fx) P.reverse from
    by unfold permPart; rw [List.map_reverse]]
  apply singletonCount_perm
  intro p hp
  exact hpart.nonempty p (by simp only [List.mem_reverse] at hp; simp [hp])

theorem moveLoop_spec {s : Bitmap n} {inv : Bool} {f u k : ℕ} {fx : Fin n} (hfx : fx.val = f)
    (L : List (Cand n)) (hc : ∀ c ∈ L, CInv s inv f u c)
    (hk : ∀ c ∈ L, singletonCount c.partition.reverse = some (k + 1)) :
    ∃ L', moveLoop f L = some (L', true) ∧ StepSpec f false fx L L' ∧
      ∀ c ∈ L', singletonCount c.partition.reverse = some k := by
  induction L with
  | nil => exact ⟨[], rfl, ⟨by simp, by simp, fun h => h⟩, by simp⟩
  | cons c L ih =>
    obtain ⟨L', hL', hs, hk'⟩ := ih (fun c h => hc c (by simp [h])) (fun c h => hk c (by simp [h]))
    have hcc := hc c (by simp)
    obtain ⟨P, src, id, hP, hcnt⟩ := last_of_count hcc.part (hk c (by simp))
    obtain ⟨c', hc', hst⟩ := moveTo_spec hfx hcc hP
    refine ⟨c' :: L', ?_, ⟨?_, ?_, by simp⟩, ?_⟩
    · unfold moveLoop
      have hgl : c.partition.getLast? = some (bit src, id) := by rw [hP]; simp
      rw [hgl]
      simp only [isUnique_bit, Option.bind_eq_bind, Option.bind_some, if_true, trailingZeros_bit, hc', hL']
    · intro d' hd'
      rcases List.mem_cons.1 hd' with rfl | hd'
      · exact ⟨c, by simp, src, P, _, id, hst⟩
      · obtain ⟨d, hd, h⟩ := hs.sound d' hd'
        exact ⟨d, by simp [hd], h⟩
    · intro d hd Q m id' src' hQ hin
      rcases List.mem_cons.1 hd with rfl | hd
      · rw [hP] at hQ
        obtain ⟨e1, e2⟩ := List.append_inj' hQ (by simp)
        simp only [List.cons.injEq, Prod.mk.injEq, and_true] at e2
        obtain ⟨e2, e3⟩ := e2
        subst e1 e2 e3
        have : src' = src := by simpa [In] using hin
        subst this
        exact ⟨c', by simp, hst⟩
      · obtain ⟨d', hd', h⟩ := hs.complete d hd Q m id' src' hQ hin
        exact ⟨d', by simp [hd'], h⟩
    · intro d' hd'
      rcases List.mem_cons.1 hd' with rfl | hd'
      · rw [hst.count hcc, hcnt]
      · exact hk' d' hd'

theorem moveLoop_zero {s : Bitmap n} {inv : Bool} {f u : ℕ}
    (L : List (Cand n)) (hne : L ≠ []) (hc : ∀ c ∈ L, CInv s inv f u c)
    (hk : ∀ c ∈ L, singletonCount c.partition.reverse = some 0) :
    moveLoop f L = some (L, false) := by
  cases L with
  | nil => exact absurd rfl hne
  | cons c L =>
    unfold moveLoop
    rcases List.eq_nil_or_concat' c.partition with h | ⟨P, p, h⟩
    · rw [h]; rfl
    · have hgl : c.partition.getLast? = some p := by rw [h]; simp
      have hpart := (hc c (by simp)).part
      have hcnt := hk c (by simp)
      rw [h] at hpart hcnt
      have hno := last_of_count_zero hpart hcnt
      obtain ⟨b, hb, hb'⟩ := isUnique_some (hpart.nonempty p (by simp))
      have : b = false := by
        cases b with
        | false => rfl
        | true => exact absurd (hb'.1 rfl) hno
      subst this
      rw [hgl]
      simp [hb]

/-- The loop of `move_singleton`, for both runs. -/
theorem moveSingletons_pair {sA sB : Bitmap n} {inv : Bool} (k : ℕ) (stA stB : St n) (b : Bool)
    (hf : stA.fixed = stB.fixed) (hu : stA.used = stB.used) (hun : stA.used ≤ n) (hfu : stA.fixed ≤ stA.used)
    (h : Pair sA sB inv stA.fixed stA.used stA.layer stB.layer)
    (hk : ∀ c ∈ stA.layer ++ stB.layer, singletonCount c.partition.reverse = some k) :
    stA.fixed + k ≤ stA.used ∧ ∃ LA LB, moveSingletons stA b = some ({ stA with layer := LA, fixed := stA.fixed + k }, b || decide (0 < k)) ∧
      moveSingletons stB b = some ({ stB with layer := LB, fixed := stB.fixed + k }, b || decide (0 < k)) ∧
      Pair sA sB inv (stA.fixed + k) stA.used LA LB ∧
      ∀ c ∈ LA ++ LB, singletonCount c.partition.reverse = some 0 := by
  induction k generalizing stA stB b with
  | zero =>
    refine ⟨hfu, stA.layer, stB.layer, ?_, ?_, h, hk⟩
    · rw [moveSingletons, moveSingleton, moveLoop_zero stA.layer h.neA h.invA (fun c hc => hk c (by simp [hc]))]
      simp
    · rw [moveSingletons, moveSingleton, moveLoop_zero (f := stB.fixed) (u := stA.used) stB.layer h.neB
        (by rw [← hf]; exact h.invB) (fun c hc => hk c (by simp [hc]))]
      simp
  | succ k ih =>
    have hlt : stA.fixed < stA.used := by
      obtain ⟨c, hc⟩ := List.exists_mem_of_ne_nil _ h.neA
      have hpart := (h.invA c hc).part
      obtain ⟨P, src, id, e, _⟩ := last_of_count hpart (hk c (by simp [hc]))
      have := (hpart.cover src).2 ⟨(bit src, id), by rw [e]; simp, by simp [In]⟩
      exact lt_of_le_of_lt this.1 this.2
    let fx : Fin n := ⟨stA.fixed, by omega⟩
    obtain ⟨LA, eA, sA', kA⟩ := moveLoop_spec (fx := fx) rfl stA.layer h.invA (fun c hc => hk c (by simp [hc]))
    obtain ⟨LB, eB, sB', kB⟩ := moveLoop_spec (fx := fx) rfl stB.layer h.invB (fun c hc => hk c (by simp [hc]))
    have hpair := StepSpec.pair h sA' sB'
    obtain ⟨hle, LA', LB', e1, e2, hp', hk'⟩ := ih { stA with layer := LA, fixed := stA.fixed + 1 }
      { stB with layer := LB, fixed := stB.fixed + 1 } true (by simp [hf]) hu hun hlt hpair
      (by
        intro c hc
        rcases List.mem_append.1 hc with hc | hc
        · exact kA c hc
        · exact kB c hc)
    refine ⟨by simp only at hle; omega, LA', LB', ?_, ?_, ?_, hk'⟩
    · rw [moveSingletons, moveSingleton, eA]
      simp only [Option.bind_eq_bind, Option.bind_some, if_true]
      rw [e1]
      simp
      omega
    · rw [moveSingletons, moveSingleton, ← hf, eB]
      simp only [Option.bind_eq_bind, Option.bind_some, if_true]
      rw [hf, e2]
      simp
      omega
    · rw [show stA.fixed + (k + 1) = stA.fixed + 1 + k by omega]; exact hp'

/-! ### `individualize` -/

theorem setBits_nodup (m : BitVec n) : (setBits m).Nodup := (List.nodup_finRange n).filter _

/-- All the candidates that are considered. -/
def expand (fx : Fin n) (L : List (Cand n)) : List (Cand n) :=
  L.flatMap fun c => match c.partition.getLast? with
    | none => []
    | some last => (setBits last.1).map fun src => individual c (c.bitmap.swapChannels src fx) src fx last

/-- Selecting the maxima one by one. -/
def select (φ : Cand n → ℕ) (ist : IndState n) (c : Cand n) : IndState n :=
  if φ c > ist.maxFingerprint then { maxFingerprint := φ c, nextLayer := [c] }
  else if φ c < ist.maxFingerprint then ist
  else { ist with nextLayer := ist.nextLayer ++ [c] }

theorem individualizeLoop_eq (hash : List ℕ → ℕ) (fx : Fin n) (L : List (Cand n)) (ist : IndState n)
    (h : ∀ c ∈ L, c.partition ≠ []) :
    individualizeLoop hash fx L ist = some ((expand fx L).foldl (select (lowFp hash (fx.val + 1))) ist) := by
  induction L generalizing ist with
  | nil => rfl
  | cons c L ih =>
    unfold individualizeLoop
    cases hl : c.partition.getLast? with
    | none => exact absurd (List.getLast?_eq_none_iff.1 hl) (h c (by simp))
    | some last =>
      simp only [Option.bind_eq_bind, Option.bind_some]
      rw [ih _ (fun c hc => h c (by simp [hc]))]
      have e : expand fx (c :: L) = ((setBits last.1).map fun src =>
          individual c (c.bitmap.swapChannels src fx) src fx last) ++ expand fx L := by
        unfold expand
        rw [List.flatMap_cons, hl]
      rw [e, List.foldl_append, List.foldl_map]
      congr 2

theorem select_spec (φ : Cand n → ℕ) (E : List (Cand n)) (ist : IndState n) :
    let r := E.foldl (select φ) ist
    (∀ c ∈ E, φ c ≤ r.maxFingerprint) ∧ ist.maxFingerprint ≤ r.maxFingerprint ∧
    (∀ c, c ∈ r.nextLayer ↔
      (c ∈ E ∧ φ c = r.maxFingerprint) ∨ (c ∈ ist.nextLayer ∧ ist.maxFingerprint = r.maxFingerprint)) ∧
    (r.maxFingerprint = ist.maxFingerprint ∨ ∃ c ∈ E, φ c = r.maxFingerprint) := by
  induction E generalizing ist with
  | nil => simp
  | cons c E ih =>
    dsimp only at ih ⊢
    rw [List.foldl_cons]
    obtain ⟨h1, h2, h3, h4⟩ := ih (select φ ist c)
    set r := E.foldl (select φ) (select φ ist c) with hr
    clear_value r
    unfold select at h2 h3 h4
    split_ifs at h2 h3 h4 with hgt hlt
    · dsimp only at h2 h3 h4
      refine ⟨?_, by omega, ?_, ?_⟩
      · intro d hd
        rcases List.mem_cons.1 hd with rfl | hd
        · exact h2
        · exact h1 d hd
      · intro d
        rw [h3, List.mem_singleton, List.mem_cons]
        constructor
        · rintro (⟨h, e⟩ | ⟨h, e⟩)
          · exact Or.inl ⟨Or.inr h, e⟩
          · subst h; exact Or.inl ⟨Or.inl rfl, e⟩
        · rintro (⟨h | h, e⟩ | ⟨h, e⟩)
          · subst h; exact Or.inr ⟨rfl, e⟩
          · exact Or.inl ⟨h, e⟩
          · omega
      · rcases h4 with h4 | ⟨d, hd, e⟩
        · exact Or.inr ⟨c, by simp, h4.symm⟩
        · exact Or.inr ⟨d, by simp [hd], e⟩
    · refine ⟨?_, h2, ?_, ?_⟩
      · intro d hd
        rcases List.mem_cons.1 hd with rfl | hd
        · omega
        · exact h1 d hd
      · intro d
        rw [h3, List.mem_cons]
        constructor
        · rintro (⟨h, e⟩ | h)
          · exact Or.inl ⟨Or.inr h, e⟩
          · exact Or.inr h
        · rintro (⟨h | h, e⟩ | h)
          · subst h; omega
          · exact Or.inl ⟨h, e⟩
          · exact Or.inr h
      · rcases h4 with h4 | ⟨d, hd, e⟩
        · exact Or.inl h4
        · exact Or.inr ⟨d, by simp [hd], e⟩
    · dsimp only at h2 h3 h4
      have he : φ c = ist.maxFingerprint := by omega
      refine ⟨?_, h2, ?_, ?_⟩
      · intro d hd
        rcases List.mem_cons.1 hd with rfl | hd
        · omega
        · exact h1 d hd
      · intro d
        rw [h3, List.mem_append, List.mem_singleton, List.mem_cons]
        constructor
        · rintro (⟨h, e⟩ | ⟨h | h, e⟩)
          · exact Or.inl ⟨Or.inr h, e⟩
          · exact Or.inr ⟨h, e⟩
          · subst h; exact Or.inl ⟨Or.inl rfl, by omega⟩
        · rintro (⟨h | h, e⟩ | ⟨h, e⟩)
          · subst h; exact Or.inr ⟨Or.inr rfl, by omega⟩
          · exact Or.inl ⟨h, e⟩
          · exact Or.inr ⟨Or.inl h, e⟩
      · rcases h4 with h4 | ⟨d, hd, e⟩
        · exact Or.inl h4
        · exact Or.inr ⟨d, by simp [hd], e⟩

theorem individual_stepAt {f : ℕ} {fx src : Fin n} (hfx : fx.val = f) {c : Cand n}
    {P : List (BitVec n × ℕ)} {m : BitVec n} {id : ℕ} (hP : c.partition = P ++ [(m, id)]) (hin : In src m)
    (hne : ¬ ∃ i, m = bit i) :
    StepAt f true src fx P m id c (individual c (c.bitmap.swapChannels src fx) src fx (m, id)) where
  fxv := hfx
  last := hP
  mem := hin
  kept := by simp only [if_true]; exact fun h => hne ⟨src, h⟩
  bitmap := rfl
  perm := rfl
  invert := rfl
  fp := rfl
  partition := by
    simp only [individual, rest, if_true]
    rw [hP]
    simp

theorem expand_spec {s : Bitmap n} {inv : Bool} {f u : ℕ} {fx : Fin n} (hfx : fx.val = f) (hfu : f < u)
    (L : List (Cand n)) (hc : ∀ c ∈ L, CInv s inv f u c)
    (hk : ∀ c ∈ L, singletonCount c.partition.reverse = some 0) :
    (∀ c ∈ L, c.partition ≠ []) ∧ StepSpec f true fx L (expand fx L) := by
  have hne : ∀ c ∈ L, c.partition ≠ [] := by
    intro c hcL h
    have := ((hc c hcL).part.cover fx).1 ⟨hfx.ge, by omega⟩
    rw [h] at this
    simp at this
  have hlast : ∀ c ∈ L, ∀ P p, c.partition = P ++ [p] → ¬ ∃ i, p.1 = bit i := by
    intro c hcL P p e
    have hpart := (hc c hcL).part
    have hcnt := hk c hcL
    rw [e] at hpart hcnt
    exact last_of_count_zero hpart hcnt
  refine ⟨hne, ⟨?_, ?_, ?_⟩⟩
  · intro c' hc'
    unfold expand at hc'
    rw [List.mem_flatMap] at hc'
    obtain ⟨c, hcL, hc'⟩ := hc'
    rcases List.eq_nil_or_concat' c.partition with h | ⟨P, p, h⟩
    · exact absurd h (hne c hcL)
    · have hgl : c.partition.getLast? = some p := by rw [h]; simp
      rw [hgl] at hc'
      simp only [List.mem_map] at hc'
      obtain ⟨src, hsrc, rfl⟩ := hc'
      obtain ⟨m, id⟩ := p
      exact ⟨c, hcL, src, P, m, id, individual_stepAt hfx h ((mem_setBits m src).1 hsrc) (hlast c hcL P _ h)⟩
  · intro c hcL P m id src h hin
    refine ⟨_, ?_, individual_stepAt hfx h hin (hlast c hcL P _ h)⟩
    unfold expand
    rw [List.mem_flatMap]
    refine ⟨c, hcL, ?_⟩
    have hgl : c.partition.getLast? = some (m, id) := by rw [h]; simp
    rw [hgl]
    exact List.mem_map.2 ⟨src, (mem_setBits m src).2 hin, rfl⟩
  · intro hL
    obtain ⟨c, hcL⟩ := List.exists_mem_of_ne_nil _ hL
    rcases List.eq_nil_or_concat' c.partition with h | ⟨P, p, h⟩
    · exact absurd h (hne c hcL)
    · have hgl : c.partition.getLast? = some p := by rw [h]; simp
      obtain ⟨i, hi⟩ := (hc c hcL).part.nonempty p (by rw [h]; simp)
      apply List.ne_nil_of_mem (a := individual c (c.bitmap.swapChannels i fx) i fx p)
      unfold expand
      rw [List.mem_flatMap]
      refine ⟨c, hcL, ?_⟩
      rw [hgl]
      exact List.mem_map.2 ⟨i, (mem_setBits _ i).2 hi, rfl⟩

theorem individualize_spec (hash : List ℕ → ℕ) {st : St n} {fx : Fin n} (hfx : fx.val = st.fixed)
    (hne : ∀ c ∈ st.layer, c.partition ≠ []) (hE : expand fx st.layer ≠ []) :
    ∃ L', individualize hash st = some { st with layer := L', fixed := st.fixed + 1 } ∧
      PruneSpec (lowFp hash (st.fixed + 1)) (expand fx st.layer) L' := by
  have hch : channel? n st.fixed = some fx := by
    unfold channel?
    rw [dif_pos (by rw [← hfx]; exact fx.isLt)]
    congr 1
    exact Fin.ext hfx.symm
  refine ⟨((expand fx st.layer).foldl (select (lowFp hash (fx.val + 1)))
    { maxFingerprint := 0, nextLayer := [] }).nextLayer, ?_, ?_⟩
  · unfold individualize
    simp only [hch, Option.bind_eq_bind, Option.bind_some]
    rw [individualizeLoop_eq hash fx st.layer _ hne]
    rfl
  · obtain ⟨h1, _, h3, h4⟩ := select_spec (lowFp hash (fx.val + 1)) (expand fx st.layer)
      { maxFingerprint := 0, nextLayer := [] }
    rw [hfx] at h1 h3 h4 ⊢
    refine ⟨_, h1, ?_, ?_, ?_⟩
    · rcases h4 with h4 | h4
      · obtain ⟨c, hc⟩ := List.exists_mem_of_ne_nil _ hE
        refine ⟨c, hc, ?_⟩
        have := h1 c hc
        rw [h4] at this ⊢
        simpa using this
      · exact h4
    · intro c' hc'
      rw [h3] at hc'
      rcases hc' with ⟨hc', e⟩ | ⟨hc', _⟩
      · exact ⟨c', hc', Same.refl _, e⟩
      · simp at hc'
    · intro c hc e
      exact ⟨c, (h3 c).2 (Or.inl ⟨hc, e⟩), rfl⟩

theorem lowFp_respects (hash : List ℕ → ℕ) {f u : ℕ} {a b : Cand n} (h : R f u a b) :
    lowFp hash f a = lowFp hash f b := by
  obtain ⟨τ, hτ, hiso⟩ := h
  exact (hiso.lowChannelsFingerprint f hτ.low hash).symm

end Sortnet.Canon
