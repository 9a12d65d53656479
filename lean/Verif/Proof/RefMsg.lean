import Verif.Model.RefMsg
import Verif.Spec.RefStep
import Verif.Proof.RefFile

/-! The messages of `snocheck -r`. -/

namespace Sortnet.RefMsg

open Ref (VectSet Witness Result Fail)
open Lazy (L RefStep)
open Files (Str str)
open RefSpec

/-! ## Without the texts -/

/-- Without the text. -/
def forget {α : Type} : MResult α → Result α
  | .ok a => .ok a
  | .error none => .error .crash
  | .error (some _) => .error .left

variable {α β : Type}

theorem forget_bind (x : MResult α) (f : α → MResult β) : forget (x >>= f) = forget x >>= fun a => forget (f a) := by
  rcases x with (_ | e) | a <;> rfl

theorem forget_check (m : String) (c : Bool) : forget (check m c) = Ref.check c := by cases c <;> rfl

theorem forget_demand (x : L α) : forget (demand x) = Lazy.demand x := by cases x <;> rfl

theorem forget_pure (a : α) : forget (pure a : MResult α) = pure a := rfl

theorem forget_subsumes (a b : VectSet) : forget (subsumes a b) = Ref.subsumes a b := by
  unfold subsumes Ref.subsumes; split_ifs <;> rfl

theorem forget_traverse {f : α → MResult β} {g : α → Result β} (h : ∀ x, forget (f x) = g x) (l : List α) :
    forget (traverse f l) = Ref.traverse g l := by
  induction l with
  | nil => rfl
  | cons x l ih =>
    rw [traverse, forget_bind, Ref.traverse, h]
    rcases g x with e | y
    · rfl
    · show forget _ = _
      rw [forget_bind, ih]
      rcases Ref.traverse g l with e | ys <;> rfl

theorem forget_getBound {steps : Steps} {steps' : Lazy.RefSteps} (h : ∀ i, forget (steps i) = steps' i) (w : L (Option Witness))
    (vs : VectSet) : forget (getBound steps w vs) = Lazy.refGetBound steps' w vs := by
  unfold getBound Lazy.refGetBound
  match w with
  | none => rfl
  | some none =>
    show forget (if _ then _ else _) = if _ then _ else _
    split_ifs <;> rfl
  | some (some v) =>
    show forget (steps v.stepId >>= _) = steps' v.stepId >>= _
    simp only [forget_bind, h, forget_subsumes, forget_check, forget_pure]

theorem forget_checkHuffman {steps : Steps} {steps' : Lazy.RefSteps} (h : ∀ i, forget (steps i) = steps' i) (s : RefStep)
    (pol : Bool) (ws : L (List (L (Option Witness)))) :
    forget (checkHuffman steps s pol ws) = Lazy.refCheckHuffman steps' s pol ws := by
  unfold checkHuffman Lazy.refCheckHuffman
  simp only [forget_bind, forget_demand, forget_check,
    forget_traverse fun (cw : ℕ × L (Option Witness)) => forget_getBound h cw.2 (Ref.pruneExtremal pol cw.1 s.vectSet)]
  congr 1; funext ws'
  congr 1; funext _
  congr 1; funext bs
  rcases huffmanBound bs with _ | h
  · rfl
  · exact forget_check _ _

theorem forget_checkSuccessors {steps : Steps} {steps' : Lazy.RefSteps} (h : ∀ i, forget (steps i) = steps' i) (s : RefStep)
    (ws : L (List (L (Option Witness)))) : forget (checkSuccessors steps s ws) = Lazy.refCheckSuccessors steps' s ws := by
  have h1 : ∀ sw, forget (checkSuccessor steps s.bound sw) = Lazy.refCheckSuccessor steps' s.bound sw := by
    intro sw
    unfold checkSuccessor Lazy.refCheckSuccessor
    simp only [forget_bind, forget_getBound h, forget_check]
  unfold checkSuccessors Lazy.refCheckSuccessors
  simp only [forget_bind, forget_demand, forget_check, forget_traverse h1, forget_pure]

theorem forget_checkStep {steps : Steps} {steps' : Lazy.RefSteps} (h : ∀ i, forget (steps i) = steps' i) (k : ℤ) :
    forget (checkStep steps k) = Lazy.refCheckStep steps' k := by
  unfold checkStep Lazy.refCheckStep
  rw [forget_bind, h]
  congr 1; funext s
  have h1 : ∀ i, forget (do check "witness step id out of bounds" (decide (i < k)); steps i : MResult RefStep) =
      (do Ref.check (decide (i < k)); steps' i) := by
    intro i
    rw [forget_bind, forget_check, h]
  rcases hw : s.witnesses with ⟨pol, ws⟩ | ws
  · exact forget_checkHuffman h1 s pol ws
  · exact forget_checkSuccessors h1 s ws

theorem forget_checkStep' {steps : Steps} {steps' : Lazy.RefSteps} (h : ∀ i, forget (steps i) = steps' i) (k : ℤ) :
    forget (checkStep' steps k) = Lazy.refCheckStep steps' k := by
  rw [← forget_checkStep h]
  unfold checkStep'
  rcases checkStep steps k with (_ | e) | a <;> rfl

theorem forget_checkList {f : ℤ → MResult Unit} {g : ℤ → Result Unit} (h : ∀ i, forget (f i) = g i) (low : ℤ) (n : ℕ) :
    forget (checkList f low n) = Ref.checkList g low n := by
  induction n generalizing low with
  | zero => rfl
  | succ n ih =>
    rw [checkList, forget_bind, Ref.checkList, h]
    rcases g low with e | _
    · rfl
    · exact ih _

theorem forget_parCheckRange {f : ℤ → MResult Unit} {g : ℤ → Result Unit} (h : ∀ i, forget (f i) = g i) (low : ℤ) (n : ℕ) :
    forget (parCheckRange f low n) = Ref.parCheckRange g low n := by
  induction n using Nat.strong_induction_on generalizing low with
  | _ n ih =>
    rw [parCheckRange, Ref.parCheckRange]
    split_ifs with hn
    · exact forget_checkList h low n
    · dsimp only
      rw [forget_bind, ih _ (by omega), ih _ (by omega)]
      generalize Ref.parCheckRange g low _ = x
      rcases x with e | _ <;> rfl

/-- The model without texts. -/
theorem forget_mainReference (bytes : List UInt8) : forget (mainReference bytes) = Lazy.mainReference bytes := by
  unfold mainReference Lazy.mainReference
  rw [forget_bind, forget_demand]
  congr 1; funext n
  unfold checkProof Lazy.refCheckProof
  dsimp only
  rw [forget_bind, forget_parCheckRange fun k => forget_checkStep' (steps' := fun n' => if 0 ≤ n' ∧ n' < n.toNat then
    Lazy.demand (Lazy.stepFn bytes n') else .error .left) (fun i => by split_ifs; exact forget_demand _; rfl) k]
  generalize Ref.parCheckRange _ _ _ = x
  rcases x with e | _
  · rfl
  · show forget _ = _
    rw [forget_bind, forget_demand]
    rfl

/-! ## Right steps -/

theorem bind_ok {x : MResult α} {f : α → MResult β} {b : β} : x >>= f = .ok b ↔ ∃ a, x = .ok a ∧ f a = .ok b := by
  rcases x with e | a
  · constructor
    · intro h; cases h
    · rintro ⟨_, h, _⟩; cases h
  · constructor
    · intro h; exact ⟨a, rfl, h⟩
    · rintro ⟨_, h, h'⟩; cases h; exact h'

theorem bind_error {x : MResult α} {f : α → MResult β} {e : Option Str} :
    x >>= f = .error e ↔ x = .error e ∨ ∃ a, x = .ok a ∧ f a = .error e := by
  rcases x with e' | a
  · exact ⟨fun h => by cases h; exact .inl rfl, fun h => by
      rcases h with h | ⟨a, h, _⟩
      · cases h; rfl
      · cases h⟩
  · exact ⟨fun h => .inr ⟨a, rfl, h⟩, fun h => by
      rcases h with h | ⟨a', h, h'⟩
      · cases h
      · cases h; exact h'⟩

theorem check_ok {m : String} {c : Bool} : check m c = .ok () ↔ c = true := by
  unfold check; split_ifs with h
  · simp [h]
  · exact ⟨fun h => (by cases h), fun h' => absurd h' h⟩

theorem check_error {m : String} {c : Bool} {e : Option Str} : check m c = .error e ↔ c = false ∧ e = some (str m.toList) := by
  cases c with
  | true => simp [check]
  | false => simp [check, eq_comm]

theorem demand_ok {x : L α} {a : α} : demand x = .ok a ↔ x = some a := by cases x <;> simp [demand]

theorem demand_error {x : L α} {m : Str} : demand x ≠ .error (some m) := by cases x <;> simp [demand]

theorem traverse_ok {f : α → MResult β} {l : List α} {ys : List β} :
    traverse f l = .ok ys ↔ List.Forall₂ (fun x y => f x = .ok y) l ys := by
  induction l generalizing ys with
  | nil =>
    constructor
    · intro h; cases h; exact .nil
    · intro h; cases h; rfl
  | cons x l ih =>
    rw [traverse, bind_ok]
    constructor
    · rintro ⟨y, h1, h2⟩
      obtain ⟨zs, h3, h4⟩ := bind_ok.1 h2
      cases h4
      exact .cons h1 (ih.1 h3)
    · intro h
      cases h with
      | cons h1 h2 => exact ⟨_, h1, bind_ok.2 ⟨_, ih.2 h2, rfl⟩⟩

theorem traverse_error {f : α → MResult β} {l : List α} {e : Option Str} (h : traverse f l = .error e) :
    ∃ x ∈ l, f x = .error e := by
  induction l with
  | nil => cases h
  | cons x l ih =>
    rw [traverse] at h
    rcases bind_error.1 h with h | ⟨y, -, h⟩
    · exact ⟨x, by simp, h⟩
    · rcases bind_error.1 h with h | ⟨_, -, h⟩
      · obtain ⟨z, hz, h⟩ := ih h
        exact ⟨z, by simp [hz], h⟩
      · cases h

/-- `steps`, `Check.hs:31-32`. -/
def stepsOf (count : ℕ) (stepOf : ℤ → L RefStep) : Steps := fun n =>
  if 0 ≤ n ∧ n < count then demand (stepOf n) else .error (some (str "step id out of bounds".toList))

/-- `steps'`, `Check.hs:54-56`. -/
def earlier (count : ℕ) (stepOf : ℤ → L RefStep) (k : ℤ) : Steps := fun i => do
  check "witness step id out of bounds" (decide (i < k))
  stepsOf count stepOf i

variable {count : ℕ} {stepOf : ℤ → L RefStep} {k : ℤ}

theorem earlier_eq (hk : k < count) (i : ℕ) : earlier count stepOf k i =
    if (i : ℤ) < k then demand (stepOf i) else .error (some (str "witness step id out of bounds".toList)) := by
  unfold earlier
  split_ifs with h
  · have : check "witness step id out of bounds" (decide ((i : ℤ) < k)) = .ok () := check_ok.2 (by simpa using h)
    rw [this]
    show stepsOf count stepOf i = _
    unfold stepsOf
    rw [if_pos ⟨by omega, by omega⟩]
  · have : check "witness step id out of bounds" (decide ((i : ℤ) < k)) =
        .error (some (str "witness step id out of bounds".toList)) := check_error.2 ⟨by simpa using h, rfl⟩
    rw [this]; rfl

theorem subset_iff (a b : List (BitVec 64)) : Ref.isSubsetOf a b = true ↔ ∀ x ∈ a, x ∈ b := by
  simp [Ref.isSubsetOf]

theorem moved_channels (v : Witness) (t : RefStep) : (moved v t).channels = t.vectSet.channels := by
  unfold moved
  split_ifs <;> rfl

theorem getBound_some (steps : Steps) (v : Witness) (vs : VectSet) : getBound steps (some (some v)) vs = (do
    let t ← steps v.stepId
    let s ← subsumes (moved v t) vs
    check "witness does not subsume target" s
    return t.bound) := rfl

theorem getBound_ok (hk : k < count) {w : L (Option Witness)} {vs : VectSet} {b : ℕ} :
    getBound (earlier count stepOf k) w vs = .ok b ↔ Gives stepOf k vs w b := by
  match w with
  | none =>
    constructor
    · intro h; cases h
    · rintro (⟨h, _⟩ | ⟨_, _, h, _⟩) <;> cases h
  | some none =>
    have e : getBound (earlier count stepOf k) (some none) vs = .ok (if vs.vects.length ≤ 1 + vs.channels then 0 else 1) := by
      show (if Ref.size vs ≤ 1 + vs.channels then .ok 0 else .ok 1 : MResult ℕ) = _
      unfold Ref.size
      split_ifs <;> rfl
    rw [e]
    constructor
    · intro h; cases h; exact .inl ⟨rfl, rfl⟩
    · rintro (⟨_, h⟩ | ⟨_, _, h, _⟩)
      · rw [h]
      · cases h
  | some (some v) =>
    rw [getBound_some, bind_ok]
    simp only [earlier_eq hk]
    constructor
    · rintro ⟨t, h1, h2⟩
      split_ifs at h1 with hv
      rw [demand_ok] at h1
      obtain ⟨s, h3, h4⟩ := bind_ok.1 h2
      obtain ⟨_, h5, h6⟩ := bind_ok.1 h4
      rw [check_ok] at h5
      subst h5
      have h6 : t.bound = b := Except.ok.inj h6
      subst h6
      unfold subsumes at h3
      split_ifs at h3 with hc
      have h7 := Except.ok.inj h3
      rw [moved_channels] at hc
      exact .inr ⟨v, t, rfl, hv, h1, hc, (subset_iff _ _).1 h7, rfl⟩
    · rintro (⟨h, _⟩ | ⟨v', t, h, hv, ht, hc, hs, rfl⟩)
      · cases h
      · cases h
        refine ⟨t, by rw [if_pos hv, demand_ok, ht], ?_⟩
        have : subsumes (moved v t) vs = .ok true := by
          unfold subsumes
          rw [if_pos (by rw [moved_channels, hc]), (subset_iff _ _).2 hs]
        rw [this]; rfl

theorem getBound_error (hk : k < count) {w : L (Option Witness)} {vs : VectSet} {m : Str}
    (h : getBound (earlier count stepOf k) w vs = .error (some m)) : ∃ v, w = some (some v) ∧
      ((m = str "witness step id out of bounds".toList ∧ k ≤ v.stepId) ∨
       (m = str "witness does not subsume target".toList ∧ ∃ t, stepOf v.stepId = some t ∧
         ∃ x ∈ (moved v t).vects, x ∉ vs.vects)) := by
  match w with
  | none => cases h
  | some none =>
    have h : (if Ref.size vs ≤ 1 + vs.channels then .ok 0 else .ok 1 : MResult ℕ) = .error (some m) := h
    split_ifs at h
  | some (some v) =>
    refine ⟨v, rfl, ?_⟩
    rw [getBound_some, earlier_eq hk] at h
    split_ifs at h with hv
    · right
      rcases bind_error.1 h with h2 | ⟨t, h1, h2⟩
      · exact absurd h2 demand_error
      · rw [demand_ok] at h1
        rcases bind_error.1 h2 with h3 | ⟨s, h3, h4⟩
        · unfold subsumes at h3
          split_ifs at h3
          cases h3
        · rcases bind_error.1 h4 with h5 | ⟨_, _, h5⟩
          · obtain ⟨hs, hm⟩ := check_error.1 h5
            subst hs
            unfold subsumes at h3
            split_ifs at h3
            have h6 := Except.ok.inj h3
            have hn : ¬ ∀ x ∈ (moved v t).vects, x ∈ vs.vects := by
              rw [← subset_iff, h6]; simp
            push Not at hn
            exact ⟨Option.some.inj hm, t, h1, hn⟩
          · cases h5
    · left
      cases h
      exact ⟨rfl, by omega⟩

theorem checkStep_some {s : RefStep} (h0 : 0 ≤ k) (hk : k < count) (hs : stepOf k = some s) :
    checkStep (stepsOf count stepOf) k = match s.witnesses with
      | .huffman pol ws => checkHuffman (earlier count stepOf k) s pol ws
      | .successors ws => checkSuccessors (earlier count stepOf k) s ws := by
  unfold checkStep
  have : stepsOf count stepOf k = .ok s := by
    unfold stepsOf
    rw [if_pos ⟨h0, hk⟩, hs]; rfl
  rw [this]; rfl

theorem checkStep_none (h0 : 0 ≤ k) (hk : k < count) (hs : stepOf k = none) : checkStep (stepsOf count stepOf) k = .error none := by
  unfold checkStep
  have : stepsOf count stepOf k = .error none := by
    unfold stepsOf
    rw [if_pos ⟨h0, hk⟩, hs]; rfl
  rw [this]; rfl

theorem bounds_iff (hk : k < count) {ts : List VectSet} {l : List (L (Option Witness))} {bs : List ℕ} :
    List.Forall₂ (fun tw b => getBound (earlier count stepOf k) tw.2 tw.1 = .ok b) (ts.zip l) bs ↔
      List.Forall₂ (fun tw b => Gives stepOf k tw.1 tw.2 b) (ts.zip l) bs := by
  simp only [getBound_ok hk]

theorem traverse_prune (steps : Steps) (pol : Bool) (vs : VectSet) (cs : List ℕ) (l : List (L (Option Witness))) :
    traverse (fun cw => getBound steps cw.2 (Ref.pruneExtremal pol cw.1 vs)) (cs.zip l) =
      traverse (fun tw => getBound steps tw.2 tw.1) ((cs.map fun c => Ref.pruneExtremal pol c vs).zip l) := by
  induction cs generalizing l with
  | nil => rfl
  | cons c cs ih =>
    cases l with
    | nil => rfl
    | cons w l => simp only [List.zip_cons_cons, List.map_cons, traverse, ih]

theorem checkHuffman_ok (hk : k < count) {s : RefStep} {pol : Bool} {ws : L (List (L (Option Witness)))}
    (hs : s.witnesses = .huffman pol ws) :
    checkHuffman (earlier count stepOf k) s pol ws = .ok () ↔ ∃ l bs, ws = some l ∧ (targets s).length = l.length ∧
      List.Forall₂ (fun tw b => Gives stepOf k tw.1 tw.2 b) ((targets s).zip l) bs ∧
      ∃ h, huffmanBound bs = some h ∧ s.bound ≤ h := by
  have ht : targets s = (Ref.extremalChannels pol s.vectSet).map fun c => Ref.pruneExtremal pol c s.vectSet := by
    unfold targets; rw [hs]
  unfold checkHuffman
  simp only [traverse_prune, bind_ok, demand_ok, traverse_ok, bounds_iff hk]
  rw [ht]
  simp only [List.length_map]
  constructor
  · rintro ⟨l, rfl, _, h1, bs, h2, h3⟩
    rw [check_ok] at h1
    refine ⟨l, bs, rfl, by simpa using h1, h2, ?_⟩
    rcases hb : huffmanBound bs with _ | h
    · rw [hb] at h3; cases h3
    · rw [hb] at h3
      exact ⟨h, rfl, by simpa using check_ok.1 h3⟩
  · rintro ⟨l, bs, rfl, h1, h2, h, h3, h4⟩
    refine ⟨l, rfl, (), check_ok.2 (by simpa using h1), bs, h2, ?_⟩
    rw [h3]
    exact check_ok.2 (by simpa using h4)

theorem checkSuccessors_ok (hk : k < count) {s : RefStep} {ws : L (List (L (Option Witness)))}
    (hs : s.witnesses = .successors ws) :
    checkSuccessors (earlier count stepOf k) s ws = .ok () ↔ ∃ l bs, ws = some l ∧ (targets s).length = l.length ∧
      List.Forall₂ (fun tw b => Gives stepOf k tw.1 tw.2 b) ((targets s).zip l) bs ∧
      1 + s.vectSet.channels < s.vectSet.vects.length ∧ ∀ b ∈ bs, s.bound ≤ b + 1 := by
  have ht : targets s = Ref.successors s.vectSet := by unfold targets; rw [hs]
  unfold checkSuccessors
  simp only [bind_ok, demand_ok]
  rw [ht]
  constructor
  · rintro ⟨_, h0, l, rfl, _, h1, us, h2, -⟩
    rw [check_ok] at h0 h1
    rw [traverse_ok] at h2
    have h3 : ∃ bs : List ℕ, List.Forall₂ (fun tw b => Gives stepOf k tw.1 tw.2 b) ((Ref.successors s.vectSet).zip l) bs ∧
        ∀ b ∈ bs, s.bound ≤ b + 1 := by
      generalize (Ref.successors s.vectSet).zip l = z at h2
      induction h2 with
      | nil => exact ⟨[], .nil, by simp⟩
      | cons h _ ih =>
        obtain ⟨bs, h4, h5⟩ := ih
        obtain ⟨b, h6, h7⟩ := bind_ok.1 h
        refine ⟨b :: bs, .cons ((getBound_ok hk).1 h6) h4, ?_⟩
        have := check_ok.1 h7
        simp only [decide_eq_true_eq] at this
        simpa [this] using h5
    obtain ⟨bs, h3, h4⟩ := h3
    exact ⟨l, bs, rfl, by simpa using h1, h3, of_decide_eq_true h0, h4⟩
  · rintro ⟨l, bs, rfl, h1, h2, h3, h4⟩
    refine ⟨(), check_ok.2 (decide_eq_true h3), l, rfl, (), check_ok.2 (by simpa using h1), bs.map fun _ => (), ?_, rfl⟩
    rw [traverse_ok]
    generalize (Ref.successors s.vectSet).zip l = z at h2
    clear h1
    induction h2 with
    | nil => exact .nil
    | cons h _ ih =>
      refine .cons (bind_ok.2 ⟨_, (getBound_ok hk).2 h, check_ok.2 (by simpa using h4 _ (by simp))⟩) (ih ?_)
      intro b hb
      exact h4 b (by simp [hb])

theorem checkStep_ok (h0 : 0 ≤ k) (hk : k < count) : checkStep (stepsOf count stepOf) k = .ok () ↔ RightStep stepOf k := by
  rcases hs : stepOf k with _ | s
  · rw [checkStep_none h0 hk hs]
    constructor
    · intro h; cases h
    · rintro ⟨s, _, _, h, _⟩; rw [hs] at h; cases h
  · rw [checkStep_some h0 hk hs]
    unfold RightStep
    rw [hs]
    rcases hw : s.witnesses with ⟨pol, ws⟩ | ws
    · dsimp only
      rw [checkHuffman_ok hk hw]
      have e : witnesses s = ws := by unfold witnesses; rw [hw]
      constructor
      · rintro ⟨l, bs, h1, h2⟩; exact ⟨s, l, bs, rfl, e.trans h1, by rw [hw]; exact h2⟩
      · rintro ⟨s', l, bs, h1, h2, h3⟩
        cases h1
        rw [hw] at h3
        exact ⟨l, bs, e.symm.trans h2, h3⟩
    · dsimp only
      rw [checkSuccessors_ok hk hw]
      have e : witnesses s = ws := by unfold witnesses; rw [hw]
      constructor
      · rintro ⟨l, bs, h1, h2⟩; exact ⟨s, l, bs, rfl, e.trans h1, by rw [hw]; exact h2⟩
      · rintro ⟨s', l, bs, h1, h2, h3⟩
        cases h1
        rw [hw] at h3
        exact ⟨l, bs, e.symm.trans h2, h3⟩

/-! ## Wrong steps -/

theorem says_getBound (hk : k < count) {s : RefStep} {l : List (L (Option Witness))} (hl : witnesses s = some l)
    {tw : VectSet × L (Option Witness)} (ht : tw ∈ (targets s).zip l) {m : Str}
    (h : getBound (earlier count stepOf k) tw.2 tw.1 = .error (some m)) : ∃ text, m = str text.toList ∧ Says stepOf k s text := by
  obtain ⟨t, w⟩ := tw
  obtain ⟨v, hv, h'⟩ := getBound_error hk h
  dsimp only at hv
  subst hv
  rcases h' with ⟨hm, h1⟩ | ⟨hm, t', h1, x, hx, hn⟩
  · exact ⟨_, hm, .later hl (List.of_mem_zip ht).2 h1⟩
  · exact ⟨_, hm, .notSubset hl ht h1 x hx hn⟩

theorem checkStep_error (h0 : 0 ≤ k) (hk : k < count) {m : Str} (h : checkStep (stepsOf count stepOf) k = .error (some m)) :
    ∃ s text, stepOf k = some s ∧ m = str text.toList ∧ Says stepOf k s text := by
  rcases hs : stepOf k with _ | s
  · rw [checkStep_none h0 hk hs] at h; cases h
  · rw [checkStep_some h0 hk hs] at h
    refine ⟨s, ?_⟩
    suffices ∃ text, m = str text.toList ∧ Says stepOf k s text by
      obtain ⟨text, h⟩ := this; exact ⟨text, rfl, h⟩
    rcases hw : s.witnesses with ⟨pol, ws⟩ | ws
    · rw [hw] at h
      dsimp only at h
      have ht : targets s = (Ref.extremalChannels pol s.vectSet).map fun c => Ref.pruneExtremal pol c s.vectSet := by
        unfold targets; rw [hw]
      unfold checkHuffman at h
      simp only [traverse_prune] at h
      rw [← ht] at h
      rcases bind_error.1 h with g1 | ⟨l, h1, g1⟩
      · exact absurd g1 demand_error
      rw [demand_ok] at h1
      subst h1
      have hl : witnesses s = some l := by unfold witnesses; rw [hw]
      rcases bind_error.1 g1 with g2 | ⟨_, h2, g2⟩
      · obtain ⟨h3, hm⟩ := check_error.1 g2
        refine ⟨_, Option.some.inj hm, .huffmanCount hw ?_⟩
        rw [ht]
        simpa using h3
      rcases bind_error.1 g2 with g3 | ⟨bs, h3, g3⟩
      · obtain ⟨tw, htw, h4⟩ := traverse_error g3
        exact says_getBound hk hl htw h4
      · rw [traverse_ok, bounds_iff hk] at h3
        rcases hb : huffmanBound bs with _ | h'
        · rw [hb] at g3; cases g3
        · rw [hb] at g3
          obtain ⟨h4, hm⟩ := check_error.1 g3
          exact ⟨_, Option.some.inj hm, .huffmanBound hw h3 hb (by simpa using h4)⟩
    · rw [hw] at h
      dsimp only at h
      have ht : targets s = Ref.successors s.vectSet := by unfold targets; rw [hw]
      unfold checkSuccessors at h
      dsimp only at h
      rw [← ht] at h
      rcases bind_error.1 h with g1 | ⟨_, _, g1⟩
      · obtain ⟨h2, hm⟩ := check_error.1 g1
        exact ⟨_, Option.some.inj hm, .sorted hw (not_lt.1 (of_decide_eq_false h2))⟩
      rcases bind_error.1 g1 with g2 | ⟨l, h1, g2⟩
      · exact absurd g2 demand_error
      rw [demand_ok] at h1
      subst h1
      have hl : witnesses s = some l := by unfold witnesses; rw [hw]
      rcases bind_error.1 g2 with g3 | ⟨_, h2, g3⟩
      · obtain ⟨h3, hm⟩ := check_error.1 g3
        exact ⟨_, Option.some.inj hm, .successorCount hw (by simpa using h3)⟩
      rcases bind_error.1 g3 with g4 | ⟨_, _, g4⟩
      · obtain ⟨tw, htw, g5⟩ := traverse_error g4
        rcases bind_error.1 g5 with g6 | ⟨b, hb, g6⟩
        · exact says_getBound hk hl htw g6
        · obtain ⟨h3, hm⟩ := check_error.1 g6
          exact ⟨_, Option.some.inj hm, .successorBound hw htw ((getBound_ok hk).1 hb) (by simpa using h3)⟩
      · cases g4

/-! ## All steps -/

theorem checkStep'_ok {steps : Steps} : checkStep' steps k = .ok () ↔ checkStep steps k = .ok () := by
  unfold checkStep'
  rcases checkStep steps k with (_ | e) | a <;> simp

theorem checkStep'_error {steps : Steps} {m : Str} : checkStep' steps k = .error (some m) ↔ ∃ e, checkStep steps k = .error (some e) ∧
    m = str ['s', 't', 'e', 'p', ' '] ++ Snocheck.showInt k ++ str [':', ' '] ++ e := by
  unfold checkStep'
  rcases checkStep steps k with (_ | e) | a
  · simp
  · simp [eq_comm]
  · simp

/-- The range is checked up to the first step that is not right. -/
theorem parCheckRange_first (f : ℤ → MResult Unit) (low : ℤ) (n : ℕ) :
    (parCheckRange f low n = .ok () ∧ ∀ i, low ≤ i → i < low + n → f i = .ok ()) ∨
    ∃ i e, low ≤ i ∧ i < low + n ∧ parCheckRange f low n = .error e ∧ f i = .error e ∧ ∀ j, low ≤ j → j < i → f j = .ok () := by
  induction n using Nat.strong_induction_on generalizing low with
  | _ n ih =>
    rw [parCheckRange]
    split_ifs with hn
    · clear ih hn
      induction n generalizing low with
      | zero => left; exact ⟨rfl, fun i h h' => by omega⟩
      | succ n ih =>
        rw [checkList]
        rcases hf : f low with e | _
        · right
          exact ⟨low, e, le_rfl, by push_cast; omega, rfl, hf, fun j h h' => by omega⟩
        · rcases ih (low + 1) with ⟨h1, h2⟩ | ⟨i, e, h1, h2, h3, h4, h5⟩
          · left
            refine ⟨h1, fun i hi hi' => ?_⟩
            by_cases he : i = low
            · rw [he, hf]
            · exact h2 i (by omega) (by push_cast at hi'; omega)
          · right
            refine ⟨i, e, by omega, by push_cast; omega, h3, h4, fun j hj hj' => ?_⟩
            by_cases he : j = low
            · rw [he, hf]
            · exact h5 j (by omega) hj'
    · dsimp only
      rcases ih ((low + (low + n)) / 2 - low).toNat (by omega) low with ⟨h1, h2⟩ | ⟨i, e, h1, h2, h3, h4, h5⟩
      · rw [h1]
        rcases ih (low + n - (low + (low + n)) / 2).toNat (by omega) ((low + (low + n)) / 2) with ⟨h3, h4⟩ | ⟨i, e, h3, h4, h5, h6, h7⟩
        · left
          refine ⟨h3, fun i hi hi' => ?_⟩
          by_cases he : i < (low + (low + n)) / 2
          · exact h2 i hi (by omega)
          · exact h4 i (by omega) (by omega)
        · right
          refine ⟨i, e, by omega, by omega, h5, h6, fun j hj hj' => ?_⟩
          by_cases he : j < (low + (low + n)) / 2
          · exact h2 j hj (by omega)
          · exact h7 j (by omega) hj'
      · right
        rw [h3]
        exact ⟨i, e, h1, by omega, rfl, h4, h5⟩

/-- What happens for a file with a header: every step is right, or there is a first one that is not. -/
theorem checkProof_cases (count : ℕ) (stepOf : ℤ → L RefStep) :
    ((∀ i : ℤ, 0 ≤ i → i < count → RightStep stepOf i) ∧ checkProof count stepOf = (do
      let lastStep ← demand (stepOf (count - 1))
      return (lastStep.vectSet.channels, lastStep.bound))) ∨
    ∃ k : ℤ, 0 ≤ k ∧ k < count ∧ (∀ i, 0 ≤ i → i < k → RightStep stepOf i) ∧ ¬ RightStep stepOf k ∧
      (checkProof count stepOf = .error none ∨ ∃ s text, stepOf k = some s ∧ Says stepOf k s text ∧
        checkProof count stepOf =
          .error (some (str ['s', 't', 'e', 'p', ' '] ++ Snocheck.showInt k ++ str [':', ' '] ++ str text.toList))) := by
  have e : checkProof count stepOf = (do
      parCheckRange (checkStep' (stepsOf count stepOf)) 0 count
      let lastStep ← demand (stepOf (count - 1))
      return (lastStep.vectSet.channels, lastStep.bound)) := rfl
  rcases parCheckRange_first (checkStep' (stepsOf count stepOf)) 0 count with ⟨h1, h2⟩ | ⟨k, er, h1, h2, h3, h4, h5⟩
  · left
    refine ⟨fun i h0 hi => (checkStep_ok h0 hi).1 (checkStep'_ok.1 (h2 i h0 (by omega))), ?_⟩
    rw [e, h1]; rfl
  · right
    have hk : k < count := by omega
    refine ⟨k, h1, hk, fun i h0 hi => (checkStep_ok h0 (by omega)).1 (checkStep'_ok.1 (h5 i h0 hi)), ?_, ?_⟩
    · intro h
      rw [checkStep'_ok.2 ((checkStep_ok h1 hk).2 h)] at h4
      cases h4
    · rcases er with _ | m
      · left; rw [e, h3]; rfl
      · right
        obtain ⟨m', h6, rfl⟩ := checkStep'_error.1 h4
        obtain ⟨s, text, h7, rfl, h8⟩ := checkStep_error h1 hk h6
        exact ⟨s, text, h7, h8, by rw [e, h3]; rfl⟩

theorem readLE_nonneg {bytes : List UInt8} {n : ℤ} (h : Lazy.readLE 4 bytes = some n) : 0 ≤ n := by
  have := Lazy.ap_readLE ⟨0, false, []⟩ 4 bytes n h
  rw [this]
  exact (Decode.readLE_range _ _ _ (by omega)).1

theorem says_text {s : RefStep} {text : String} (h : Says stepOf k s text) : text ∈
    ["wrong number of huffman witnesses", "set might already be sorted", "wrong number of successor witnesses",
     "witness step id out of bounds", "witness does not subsume target", "huffman bound too low", "successor bound too low"] := by
  cases h <;> simp

end Sortnet.RefMsg
