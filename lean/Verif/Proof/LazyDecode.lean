import Verif.Proof.LazyApprox

/-! # The lazy decoder -/

namespace Sortnet.Lazy

variable {α β : Type}

attribute [local irreducible] Decode.wrap64 Decode.bit

theorem ap_index (u : Decode.Undef) (bs : List UInt8) (i : ℕ) : Ap bs[i]? (Decode.index u bs i) := by
  intro a h
  rw [Decode.index, List.getD_eq_getElem?_getD, h]
  rfl

theorem ap_mapM {f : α → L β} {g : α → β} (xs : List α) (h : ∀ x ∈ xs, Ap (f x) (g x)) : Ap (xs.mapM f) (xs.map g) := by
  induction xs with
  | nil => exact ap_some _
  | cons x xs ih =>
    rw [List.mapM_cons]
    exact (h x (by simp)).bind ((ih fun y hy => h y (by simp [hy])).bind (ap_some _))

theorem ap_readLE (u : Decode.Undef) (len : ℕ) (bs : List UInt8) : Ap (readLE len bs) (Decode.readLE u len bs) := by
  unfold readLE Decode.readLE
  exact (ap_mapM (g := fun i => Decode.wrap64 ((Decode.index u bs i).toNat * 2 ^ (8 * i))) (List.range len)
    fun i _ => (ap_index u bs i).map fun b => Decode.wrap64 (b.toNat * 2 ^ (8 * i))).map
      fun xs => xs.foldl (fun a b => Decode.wrap64 (a + b)) 0

theorem ap_decodeWitnesses (u : Decode.Undef) (channels : ℕ) (bs : List UInt8) :
    ApList (decodeWitnesses channels bs) (Decode.decodeWitnesses u channels bs) := by
  fun_induction Decode.decodeWitnesses u channels bs with
  | case1 => intro l h; rw [decodeWitnesses] at h; cases h; exact .nil
  | case2 b tail hb ih =>
    intro l h
    rw [decodeWitnesses, if_pos hb, Option.bind_eq_bind, Option.bind_eq_some_iff] at h
    obtain ⟨rest, hrest, h⟩ := h
    simp only [Option.some.injEq] at h
    subst h
    exact .cons ((ap_readLE u 4 _).bind (ap_some _)) (ih rest hrest)
  | case3 tail hb ih =>
    intro l h
    rw [decodeWitnesses, if_neg hb, if_pos rfl, Option.bind_eq_bind, Option.bind_eq_some_iff] at h
    obtain ⟨rest, hrest, h⟩ := h
    simp only [Option.some.injEq] at h
    subst h
    exact .cons (ap_some _) (ih rest hrest)
  | case4 b tail hb hb2 =>
    intro l h
    rw [decodeWitnesses, if_neg hb, if_neg hb2] at h
    cases h

/-- The parts of a decoded step that can be evaluated are those of the other step. -/
structure ApRef (s : RefStep) (t : Ref.ProofStep) : Prop where
  vectSet : s.vectSet = t.vectSet
  bound : s.bound = t.bound
  witnesses : (∃ pol ws ws', s.witnesses = .huffman pol ws ∧ t.witnesses = .huffman pol ws' ∧ ApList ws ws') ∨
    ∃ ws ws', s.witnesses = .successors ws ∧ t.witnesses = .successors ws' ∧ ApList ws ws'

theorem ap_decodeProofStep (u : Decode.Undef) (bs : List UInt8) (s : RefStep) (h : decodeProofStep bs = some s) :
    ApRef s (Decode.decodeProofStep u bs) := by
  unfold decodeProofStep at h
  simp only [Option.bind_eq_bind, Option.bind_eq_some_iff] at h
  obtain ⟨c, hc, b, hb, k, hk, w, hw, h⟩ := h
  obtain rfl := ap_index u _ _ _ hc
  obtain rfl := ap_index u _ _ _ hb
  simp only [Option.some.injEq] at h
  subst h
  have hk' := ap_index u _ _ _ hk
  unfold Decode.decodeProofStep
  refine ⟨rfl, rfl, ?_⟩
  simp only
  rw [← hk']
  split_ifs at hw with h0 h1 h2
  · cases hw
    rw [if_pos h0]
    exact .inl ⟨_, _, _, rfl, rfl, ap_decodeWitnesses u _ _⟩
  · cases hw
    rw [if_neg h0, if_pos h1]
    exact .inl ⟨_, _, _, rfl, rfl, ap_decodeWitnesses u _ _⟩
  · cases hw
    rw [if_neg h0, if_neg h1, if_pos h2]
    exact .inr ⟨_, _, rfl, rfl, ap_decodeWitnesses u _ _⟩

theorem ap_stepData (u : Decode.Undef) (bs : List UInt8) (i : ℤ) : Ap (stepData bs i) (Decode.stepData u bs i) := by
  unfold stepData Decode.stepData Decode.read32LE Decode.read64LE
  exact (ap_readLE u 4 _).bind ((ap_readLE u 8 _).bind (ap_some _))

theorem ap_stepFn (u : Decode.Undef) (bs : List UInt8) (i : ℤ) (s : RefStep) (h : stepFn bs i = some s) :
    ApRef s (Decode.stepFn u bs i) := by
  unfold stepFn at h
  rw [Option.bind_eq_bind, Option.bind_eq_some_iff] at h
  obtain ⟨d, hd, h⟩ := h
  rw [ap_stepData u bs i d hd] at h
  exact ap_decodeProofStep u _ s h

theorem ap_translateWitnessList {ws : L (List (L (Option Ref.Witness)))} {ws' : List (Option Ref.Witness)}
    (h : ApList ws ws') : ApList (translateWitnessList ws) (Decode.translateWitnessList ws') := by
  intro l hl
  unfold translateWitnessList at hl
  rw [Option.bind_eq_bind, Option.bind_eq_some_iff] at hl
  obtain ⟨l', hl', hl⟩ := hl
  simp only [Option.some.injEq] at hl
  rw [← hl, Decode.translateWitnessList, List.forall₂_map_left_iff, List.forall₂_map_right_iff]
  exact (h l' hl').imp fun x y hxy => hxy.bind (ap_some _)

theorem ap_translateStep {s : L RefStep} {t : Ref.ProofStep} (h : ∀ s', s = some s' → ApRef s' t) :
    ApStep (translateStep s) (Decode.translateStep t) := by
  have key : ∀ {β : Type} (f : RefStep → L β) (z : β), (∀ s', s = some s' → Ap (f s') z) → Ap (s >>= f) z := by
    intro β f z hf b hb
    rw [Option.bind_eq_bind, Option.bind_eq_some_iff] at hb
    obtain ⟨s', hs', hb⟩ := hb
    exact hf s' hs' b hb
  refine ⟨key _ _ fun s' hs' => ?_, key _ _ fun s' hs' => ?_, key _ _ fun s' hs' => ?_, fun w hw => ?_⟩
  · rw [(h s' hs').vectSet]; exact ap_some _
  · rw [(h s' hs').vectSet]; exact ap_some _
  · rw [(h s' hs').bound]; exact ap_some _
  · unfold translateStep at hw
    simp only [Option.bind_eq_bind, Option.bind_eq_some_iff, Option.some.injEq] at hw
    obtain ⟨s', hs', rfl⟩ := hw
    rcases (h s' hs').witnesses with ⟨pol, ws, ws', e1, e2, hws⟩ | ⟨ws, ws', e1, e2, hws⟩
    · rw [e1]
      exact .inl ⟨_, _, _, rfl, by rw [Decode.translateStep, e2]; rfl, ap_translateWitnessList hws⟩
    · rw [e1]
      exact .inr ⟨_, _, rfl, by rw [Decode.translateStep, e2]; rfl, ap_translateWitnessList hws⟩

theorem ap_cert (u : Decode.Undef) (bs : List UInt8) :
    ApCert (translateProofSteps (readLE 4 bs) (stepFn bs))
      (Decode.translateProofSteps (Decode.stepCount u bs) (Decode.stepFn u bs)) :=
  ⟨by unfold Decode.stepCount Decode.read32LE; exact ap_readLE u 4 bs,
    fun i => ap_translateStep fun s hs => ap_stepFn u bs _ s hs⟩

theorem ap_mainVerified (u : Decode.Undef) (v : Checker.Undef) (bs : List UInt8) :
    Ap (mainVerified bs) (Decode.mainVerified u v bs) := ap_checkProofGetBound v (ap_cert u bs)

end Sortnet.Lazy
