import Verif.Model.LazyRef
import Verif.Proof.LazyFile

/-! # `snocheck -r` with exceptions and without -/

namespace Sortnet.Lazy

open Ref (VectSet Witness Result Fail)

attribute [local irreducible] Decode.wrap64 Decode.bit

/-- If `x` is not an exception, it is `y`. -/
def ApR {α : Type} (x y : Result α) : Prop := x ≠ .error .crash → x = y

variable {α β γ : Type}

theorem apR_crash (y : Result α) : ApR (.error .crash) y := fun h => absurd rfl h

theorem apR_refl (x : Result α) : ApR x x := fun _ => rfl

theorem ApR.bind {x y : Result α} {f g : α → Result β} (h : ApR x y) (hf : ∀ a, x = .ok a → ApR (f a) (g a)) :
    ApR (x >>= f) (y >>= g) := by
  cases x with
  | error e =>
    cases e with
    | crash => exact apR_crash _
    | left =>
      have := h (by simp)
      rw [← this]
      exact apR_refl _
  | ok a =>
    have := h (by simp)
    rw [← this]
    exact hf a rfl

theorem apR_demand {x : L α} {y : α} (h : Ap x y) : ApR (demand x) (.ok y) := by
  cases x with
  | none => exact apR_crash _
  | some a =>
    rw [h a rfl]
    exact apR_refl _

/-- The part of a step that can be evaluated, and where to find it. -/
def ApSteps (s : RefSteps) (t : Ref.ProofSteps) : Prop := ∀ i, s i ≠ .error .crash →
  (∃ a b, s i = .ok a ∧ t i = .ok b ∧ ApRef a b) ∨ s i = .error .left ∧ t i = .error .left

theorem ApSteps.bind {s : RefSteps} {t : Ref.ProofSteps} (h : ApSteps s t) (i : ℤ) {f : RefStep → Result β}
    {g : Ref.ProofStep → Result β} (hf : ∀ a b, ApRef a b → ApR (f a) (g b)) : ApR (s i >>= f) (t i >>= g) := by
  by_cases hc : s i = .error .crash
  · rw [hc]
    exact apR_crash _
  · rcases h i hc with ⟨a, b, e1, e2, hab⟩ | ⟨e1, e2⟩
    · rw [e1, e2]
      exact hf a b hab
    · rw [e1, e2]
      exact apR_refl _

theorem ap_refGetBound {s : RefSteps} {t : Ref.ProofSteps} (h : ApSteps s t) {w : L (Option Witness)} {w' : Option Witness}
    (hw : Ap w w') (vs : VectSet) : ApR (refGetBound s w vs) (Ref.getBound t w' vs) := by
  cases w with
  | none => exact apR_crash _
  | some w =>
    obtain rfl := hw w rfl
    cases w with
    | none => exact apR_refl _
    | some w =>
      show ApR (s w.stepId >>= _) (t w.stepId >>= _)
      refine h.bind _ fun a b hab => ?_
      rw [hab.vectSet, hab.bound]
      exact apR_refl _

theorem ap_traverse {f : α → Result γ} {g : β → Result γ} {xs : List α} {ys : List β}
    (h : List.Forall₂ (fun x y => ApR (f x) (g y)) xs ys) : ApR (Ref.traverse f xs) (Ref.traverse g ys) := by
  induction h with
  | nil => exact apR_refl _
  | @cons x y xs ys hx _ ih =>
    have key : ∀ {α : Type} (f : α → Result γ) (x : α) (xs : List α), Ref.traverse f (x :: xs) =
        (f x >>= fun z => Ref.traverse f xs >>= fun zs => .ok (z :: zs)) := by
      intro α f x xs
      rw [Ref.traverse]
      cases f x with
      | error e => rfl
      | ok z => cases Ref.traverse f xs <;> rfl
    rw [key, key]
    exact hx.bind fun z _ => ih.bind fun zs _ => apR_refl _

theorem forall₂_zip_right {R : β → γ → Prop} (xs : List α) {ys : List β} {zs : List γ} (h : List.Forall₂ R ys zs) :
    List.Forall₂ (fun p q => p.1 = q.1 ∧ R p.2 q.2) (xs.zip ys) (xs.zip zs) := by
  induction h generalizing xs with
  | nil => simp
  | cons h _ ih =>
    cases xs with
    | nil => simp
    | cons x xs => exact .cons ⟨rfl, h⟩ (ih xs)

theorem ApList.demand {ws : L (List (L (Option Witness)))} {ws' : List (Option Witness)} (h : ApList ws ws')
    {f : List (L (Option Witness)) → Result β} {y : Result β} (hf : ∀ l, List.Forall₂ Ap l ws' → ApR (f l) y) :
    ApR (demand ws >>= f) y := by
  cases ws with
  | none => exact apR_crash _
  | some l => exact hf l (h l rfl)

theorem ap_refCheckHuffman {s : RefSteps} {t : Ref.ProofSteps} (h : ApSteps s t) {a : RefStep} {b : Ref.ProofStep}
    (hab : ApRef a b) (pol : Bool) {ws : L (List (L (Option Witness)))} {ws' : List (Option Witness)} (hw : ApList ws ws') :
    ApR (refCheckHuffman s a pol ws) (Ref.checkHuffman t b pol ws') := by
  unfold refCheckHuffman Ref.checkHuffman
  simp only [hab.vectSet, hab.bound]
  refine hw.demand fun l hl => ?_
  rw [hl.length_eq]
  refine (apR_refl _).bind fun _ _ => ApR.bind (ap_traverse ?_) fun _ _ => apR_refl _
  refine (forall₂_zip_right _ hl).imp fun p q ⟨e, hpq⟩ => ?_
  rw [e]
  exact ap_refGetBound h hpq _

theorem ap_refCheckSuccessors {s : RefSteps} {t : Ref.ProofSteps} (h : ApSteps s t) {a : RefStep} {b : Ref.ProofStep}
    (hab : ApRef a b) {ws : L (List (L (Option Witness)))} {ws' : List (Option Witness)} (hw : ApList ws ws') :
    ApR (refCheckSuccessors s a ws) (Ref.checkSuccessors t b ws') := by
  unfold refCheckSuccessors Ref.checkSuccessors
  simp only [hab.vectSet, hab.bound]
  refine (apR_refl _).bind fun _ _ => hw.demand fun l hl => ?_
  rw [hl.length_eq]
  refine (apR_refl _).bind fun _ _ => ApR.bind (ap_traverse ?_) fun _ _ => apR_refl _
  refine (forall₂_zip_right _ hl).imp fun p q ⟨e, hpq⟩ => ?_
  unfold refCheckSuccessor Ref.checkSuccessor
  rw [e]
  exact (ap_refGetBound h hpq _).bind fun _ _ => apR_refl _

theorem ap_refCheckStep {s : RefSteps} {t : Ref.ProofSteps} (h : ApSteps s t) (i : ℤ) :
    ApR (refCheckStep s i) (Ref.checkStep t i) := by
  unfold refCheckStep Ref.checkStep
  refine h.bind i fun a b hab => ?_
  have h' : ApSteps (fun j => do Ref.check (decide (j < i)); s j) (fun j => do Ref.check (decide (j < i)); t j) := by
    intro j
    by_cases hj : j < i
    · simp only [hj, decide_true, Ref.check, if_true]
      exact h j
    · simp only [hj, decide_false, Ref.check]
      intro _
      exact .inr ⟨rfl, rfl⟩
  rcases hab.witnesses with ⟨pol, ws, ws', e1, e2, hws⟩ | ⟨ws, ws', e1, e2, hws⟩
  · rw [e1, e2]
    exact ap_refCheckHuffman h' hab pol hws
  · rw [e1, e2]
    exact ap_refCheckSuccessors h' hab hws

theorem ap_checkList {f g : ℤ → Result Unit} (h : ∀ i, ApR (f i) (g i)) (low : ℤ) (len : ℕ) :
    ApR (Ref.checkList f low len) (Ref.checkList g low len) := by
  induction len generalizing low with
  | zero => exact apR_refl _
  | succ n ih =>
    have key : ∀ f : ℤ → Result Unit, Ref.checkList f low (n + 1) = (f low >>= fun _ => Ref.checkList f (low + 1) n) := by
      intro f
      rw [Ref.checkList]
      cases f low <;> rfl
    rw [key, key]
    exact (h low).bind fun _ _ => ih _

theorem ap_parCheckRange {f g : ℤ → Result Unit} (h : ∀ i, ApR (f i) (g i)) (low : ℤ) (len : ℕ) :
    ApR (Ref.parCheckRange f low len) (Ref.parCheckRange g low len) := by
  induction len using Nat.strong_induction_on generalizing low with
  | _ len ih =>
    rw [Ref.parCheckRange.eq_def f, Ref.parCheckRange.eq_def g]
    by_cases hl : len < 1000
    · rw [if_pos hl, if_pos hl]
      exact ap_checkList h low len
    · rw [if_neg hl, if_neg hl]
      dsimp only
      have ha := ih ((low + (low + len)) / 2 - low).toNat (by omega) low
      have hb := ih (low + len - (low + (low + len)) / 2).toNat (by omega) ((low + (low + len)) / 2)
      have key := ha.bind (f := fun _ => _) (g := fun _ => _) fun _ _ => hb
      revert key
      generalize Ref.parCheckRange f low _ = x
      generalize Ref.parCheckRange g low _ = y
      intro key
      cases x <;> cases y <;> exact key

theorem ap_mainReference (u : Decode.Undef) (bytes : List UInt8) : ApR (mainReference bytes) (Decode.mainReference u bytes) := by
  unfold mainReference Decode.mainReference
  have hcount : Ap (readLE 4 bytes) (Decode.stepCount u bytes) := by
    unfold Decode.stepCount Decode.read32LE
    exact ap_readLE u 4 bytes
  cases hr : readLE 4 bytes with
  | none => exact apR_crash _
  | some n =>
    rw [← hcount n hr]
    show ApR (refCheckProof n.toNat (stepFn bytes)) _
    unfold refCheckProof Ref.checkProof
    dsimp only
    have hsteps : ApSteps (fun i => if 0 ≤ i ∧ i < (n.toNat : ℤ) then demand (stepFn bytes i) else .error .left)
        (fun i => if 0 ≤ i ∧ i < (n.toNat : ℤ) then .ok (Decode.stepFn u bytes i) else .error .left) := by
      intro i hi
      by_cases hc : 0 ≤ i ∧ i < (n.toNat : ℤ)
      · simp only [if_pos hc] at hi ⊢
        cases hs : stepFn bytes i with
        | none => rw [hs] at hi; exact absurd rfl hi
        | some a => exact .inl ⟨a, _, rfl, rfl, ap_stepFn u bytes i a hs⟩
      · exact .inr ⟨if_neg hc, if_neg hc⟩
    have hlast : ApR (demand (stepFn bytes (n.toNat - 1)) >>= fun lastStep =>
          (.ok (lastStep.vectSet.channels, lastStep.bound) : Result (ℕ × ℕ)))
        (.ok ((Decode.stepFn u bytes (n.toNat - 1)).vectSet.channels, (Decode.stepFn u bytes (n.toNat - 1)).bound)) := by
      cases hs : stepFn bytes (n.toNat - 1) with
      | none => exact apR_crash _
      | some a =>
        have := ap_stepFn u bytes _ a hs
        rw [← this.vectSet, ← this.bound]
        exact apR_refl _
    have key := (ap_parCheckRange (fun i => ap_refCheckStep hsteps i) 0 n.toNat).bind (f := fun _ => _) (g := fun _ => _)
      fun _ _ => hlast
    revert key
    generalize Ref.parCheckRange _ 0 n.toNat = x
    generalize Ref.parCheckRange (Ref.checkStep _) 0 n.toNat = y
    intro key
    cases x <;> cases y <;> exact key

end Sortnet.Lazy
