import Verif.Proof.RefFile

/-! # `snocheck -r` on files whose steps can be decoded -/

namespace Sortnet.Lazy

open Ref (VectSet Witness Result Fail)

attribute [local irreducible] Decode.wrap64 Decode.bit

variable {α β γ : Type}

/-- The steps are the same, and can be evaluated with all their parts. -/
def ExSteps (s : RefSteps) (t : Ref.ProofSteps) : Prop := ∀ i,
  (∃ a b, s i = .ok a ∧ t i = .ok b ∧ ApRef a b ∧ FullStep (some a)) ∨ s i = .error .left ∧ t i = .error .left

theorem ExSteps.bind {s : RefSteps} {t : Ref.ProofSteps} (h : ExSteps s t) (i : ℤ) {f : RefStep → Result β}
    {g : Ref.ProofStep → Result β} (hf : ∀ a b, ApRef a b → FullStep (some a) → f a = g b) : (s i >>= f) = (t i >>= g) := by
  rcases h i with ⟨a, b, e1, e2, hab, hfull⟩ | ⟨e1, e2⟩
  · rw [e1, e2]
    exact hf a b hab hfull
  · rw [e1, e2]
    rfl

theorem ex_refGetBound {s : RefSteps} {t : Ref.ProofSteps} (h : ExSteps s t) (w : Option Witness) (vs : VectSet) :
    refGetBound s (some w) vs = Ref.getBound t w vs := by
  cases w with
  | none => rfl
  | some w =>
    show (s w.stepId >>= _) = (t w.stepId >>= _)
    refine h.bind _ fun a b hab _ => ?_
    rw [hab.vectSet, hab.bound]

theorem ex_traverse {f : γ × L α → Result β} {g : γ × α → Result β} (h : ∀ c a, f (c, some a) = g (c, a)) (xs : List γ)
    (ys : List α) : Ref.traverse f (xs.zip (ys.map some)) = Ref.traverse g (xs.zip ys) := by
  induction xs generalizing ys with
  | nil => rfl
  | cons x xs ih =>
    cases ys with
    | nil => rfl
    | cons y ys =>
      rw [List.map_cons, List.zip_cons_cons, List.zip_cons_cons, Ref.traverse, Ref.traverse, h, ih]

theorem ex_refCheckHuffman {s : RefSteps} {t : Ref.ProofSteps} (h : ExSteps s t) {a : RefStep} {b : Ref.ProofStep}
    (hab : ApRef a b) (pol : Bool) (ws : List (Option Witness)) :
    refCheckHuffman s a pol (some (ws.map some)) = Ref.checkHuffman t b pol ws := by
  unfold refCheckHuffman Ref.checkHuffman
  simp only [hab.vectSet, hab.bound]
  show (do
    Ref.check (_ == (ws.map some).length)
    let bounds ← Ref.traverse _ _
    _) = _
  rw [List.length_map, ex_traverse (g := fun cw => Ref.getBound t cw.2 (Ref.pruneExtremal pol cw.1 b.vectSet))
    fun c w => ex_refGetBound h w _]
  rfl

theorem ex_refCheckSuccessors {s : RefSteps} {t : Ref.ProofSteps} (h : ExSteps s t) {a : RefStep} {b : Ref.ProofStep}
    (hab : ApRef a b) (ws : List (Option Witness)) :
    refCheckSuccessors s a (some (ws.map some)) = Ref.checkSuccessors t b ws := by
  unfold refCheckSuccessors Ref.checkSuccessors
  simp only [hab.vectSet, hab.bound]
  show (do
    Ref.check _
    Ref.check (_ == (ws.map some).length)
    let _ ← Ref.traverse _ _
    _) = _
  rw [List.length_map, ex_traverse (g := Ref.checkSuccessor t b.bound) fun c w => by
    unfold refCheckSuccessor Ref.checkSuccessor
    rw [ex_refGetBound h w _]]

theorem ex_refCheckStep {s : RefSteps} {t : Ref.ProofSteps} (h : ExSteps s t) (i : ℤ) :
    refCheckStep s i = Ref.checkStep t i := by
  unfold refCheckStep Ref.checkStep
  refine h.bind i fun a b hab hfull => ?_
  have h' : ExSteps (fun j => do Ref.check (decide (j < i)); s j) (fun j => do Ref.check (decide (j < i)); t j) := by
    intro j
    by_cases hj : j < i
    · simp only [hj, decide_true, Ref.check, if_true]
      exact h j
    · simp only [hj, decide_false, Ref.check]
      exact .inr ⟨rfl, rfl⟩
  obtain ⟨a', e, hf⟩ := hfull
  obtain rfl := Option.some.inj e
  rcases hab.witnesses with ⟨pol, ws, ws', e1, e2, hws⟩ | ⟨ws, ws', e1, e2, hws⟩
  · rw [e1] at hf
    rw [e1, e2, fullList_map hf hws]
    exact ex_refCheckHuffman h' hab pol ws'
  · rw [e1] at hf
    rw [e1, e2, fullList_map hf hws]
    exact ex_refCheckSuccessors h' hab ws'

theorem mainReference_full (u : Decode.Undef) {bytes : List UInt8} {n : ℤ} (hn : readLE 4 bytes = some n) (hn0 : n ≠ 0)
    (h : ∀ i, 0 ≤ i → i < n → FullStep (stepFn bytes i)) : mainReference bytes = Decode.mainReference u bytes := by
  unfold mainReference Decode.mainReference
  have hcount : Decode.stepCount u bytes = n := by
    unfold Decode.stepCount Decode.read32LE
    exact (ap_readLE u 4 bytes n hn).symm
  have hpos : 0 ≤ n := by
    rw [ap_readLE u 4 bytes n hn]
    exact (Decode.readLE_range u bytes 4 (by norm_num)).1
  rw [hn, hcount]
  show refCheckProof n.toNat (stepFn bytes) = _
  unfold refCheckProof Ref.checkProof
  dsimp only
  have hsteps : ExSteps (fun i => if 0 ≤ i ∧ i < (n.toNat : ℤ) then demand (stepFn bytes i) else .error .left)
      (fun i => if 0 ≤ i ∧ i < (n.toNat : ℤ) then .ok (Decode.stepFn u bytes i) else .error .left) := by
    intro i
    by_cases hc : 0 ≤ i ∧ i < (n.toNat : ℤ)
    · simp only [if_pos hc]
      have hf := h i hc.1 (by omega)
      obtain ⟨a, e, _⟩ := id hf
      rw [e] at hf ⊢
      exact .inl ⟨a, _, rfl, rfl, ap_stepFn u bytes i a e, hf⟩
    · exact .inr ⟨if_neg hc, if_neg hc⟩
  rw [funext (ex_refCheckStep hsteps)]
  generalize Ref.parCheckRange _ 0 n.toNat = x
  cases x with
  | error e => rfl
  | ok _ =>
    dsimp only
    obtain ⟨a, e, _⟩ := h (n.toNat - 1) (by omega) (by omega)
    have := ap_stepFn u bytes _ a e
    rw [e, ← this.vectSet, ← this.bound]
    rfl

theorem mainReference_written (u : Decode.Undef) {cs : List CertStep} (hc : ∀ c ∈ cs, c.Representable) (hne : cs ≠ [])
    (hn : cs.length < 2 ^ 32) (hl : (ProofGen.writeProof (cs.map CertStep.bytes)).length < 2 ^ 63) :
    mainReference (ProofGen.writeProof (cs.map CertStep.bytes)) =
      Decode.mainReference u (ProofGen.writeProof (cs.map CertStep.bytes)) := by
  have hlen : 4 ≤ (ProofGen.writeProof (cs.map CertStep.bytes)).length := by
    rw [ProofGen.writeProof, List.length_append, List.length_append, ProofGen.le32_eq, Decode.leBytes_length]
    omega
  have := List.length_pos_iff.2 hne
  refine mainReference_full u (n := cs.length) ?_ (by omega) fun i h0 h1 => ?_
  · rw [readLE_def hlen ⟨0, false, []⟩]
    have := Decode.stepCount_writeProof ⟨0, false, []⟩ (steps := cs.map CertStep.bytes) (by simpa using hn)
    rw [List.length_map] at this
    exact congrArg some this
  · lift i to ℕ using h0
    have hi : i < cs.length := by omega
    have hr := hc _ (List.getElem_mem hi)
    have := stepData_writeProof (steps := cs.map CertStep.bytes) (by simpa using hn) hl i (by simpa using hi)
      (by simpa using hr.length)
    unfold stepFn
    rw [this]
    simp only [List.getElem_map, Option.bind_eq_bind, Option.bind_some]
    exact decodeProofStep_bytes hr

end Sortnet.Lazy
