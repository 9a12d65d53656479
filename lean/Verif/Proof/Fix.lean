import Verif.Model.Fix
import Verif.Spec.OldCert
import Verif.Proof.ProofLoad
import Verif.Proof.ProofEncode

/-!
# Proofs about the conversion of old certificates
-/

namespace Sortnet

namespace Fix

open Search Files ProofGen

/-! ## Numbers -/

theorem leBytes_length (m x : ℕ) : (leBytes m x).length = m := by
  induction m generalizing x with
  | zero => rfl
  | succ m ih => rw [leBytes, List.length_cons, ih]

theorem leBytes_mod (k x : ℕ) : leBytes k (x % 256 ^ k) = leBytes k x := by
  induction k generalizing x with
  | zero => rfl
  | succ k ih =>
    rw [leBytes, leBytes]
    have h1 : UInt8.ofNat (x % 256 ^ (k + 1)) = UInt8.ofNat x := by
      apply UInt8.toNat_inj.1
      simp only [UInt8.toNat_ofNat']
      exact Nat.mod_mod_of_dvd _ (by rw [pow_succ]; exact Dvd.intro_left (256 ^ k) rfl)
    have h2 : x % 256 ^ (k + 1) / 256 = x / 256 % 256 ^ k := by
      rw [pow_succ', Nat.mod_mul_right_div_self]
    rw [h1, h2, ih]

theorem leBytes_congr {k x y : ℕ} (h : x % 256 ^ k = y % 256 ^ k) : leBytes k x = leBytes k y := by
  rw [← leBytes_mod k x, h, leBytes_mod]

theorem foldr_leBytes (k x : ℕ) : (leBytes k x).foldr (fun b y => b.toNat + 256 * y) 0 = x % 256 ^ k := by
  induction k generalizing x with
  | zero => simp [leBytes, Nat.mod_one]
  | succ k ih =>
    rw [leBytes, List.foldr_cons, ih, UInt8.toNat_ofNat', show 2 ^ 8 = 256 from rfl, pow_succ' 256 k, Nat.mod_mul]

theorem readLE_leBytes (k x : ℕ) (r : List UInt8) : readLE k (leBytes k x ++ r) = some (x % 256 ^ k, r) := by
  unfold readLE
  have h := leBytes_length k x
  rw [if_neg (by rw [List.length_append, h]; omega), List.take_left' h, List.drop_left' h, foldr_leBytes]

/-! ## The table -/

theorem fixTable_spec (step off : ℕ) {old new : List (List UInt8)}
    (h : List.Forall₂ (fun o n : List UInt8 => n.length = o.length + 1) old new) (hl : ∀ o ∈ old, o.length < 2 ^ 32)
    (data : List UInt8) :
    fixTable step old.length (offsetTable off old ++ data) =
      some (old.map List.length, offsetTable (off + step) new, data) := by
  induction h generalizing step off with
  | nil => rfl
  | @cons o n old new ho _ ih =>
    rw [List.length_cons, fixTable, offsetTable, le64_eq, le32_eq, List.append_assoc, List.append_assoc, readLE_leBytes]
    simp only [Option.bind_eq_bind, Option.bind_some]
    rw [readLE_leBytes]
    simp only [Option.bind_some]
    rw [ih _ _ fun o' h' => hl o' (List.mem_cons_of_mem _ h')]
    simp only [Option.bind_some]
    have hlo := hl o List.mem_cons_self
    rw [Nat.mod_eq_of_lt (by norm_num; norm_num at hlo; exact hlo), offsetTable, ← ho, le64_eq, le32_eq, le64_eq,
      List.map_cons]
    rw [leBytes_congr (k := 8) (x := off % 256 ^ 8 + step) (y := off + step) (by rw [Nat.mod_add_mod]),
      show off + o.length + (step + 1) = off + step + n.length by omega]

/-! ## The log -/

theorem get_mem {m : Sets} {k : ℕ × List UInt8} {v : ℕ} (h : m.get k = some v) : (k, v) ∈ m := by
  unfold Sets.get at h
  obtain ⟨e, he, rfl⟩ := Option.map_eq_some_iff.1 h
  have h1 := List.find?_some he
  have h2 := List.mem_of_find?_eq_some he
  rw [decide_eq_true_eq] at h1
  rw [← h1]
  exact h2

theorem get_of_mem {m : Sets} {k : ℕ × List UInt8} {v : ℕ} (h : (k, v) ∈ m) : ∃ w, m.get k = some w := by
  unfold Sets.get
  cases e : m.find? fun e => decide (e.1 = k) with
  | some w => exact ⟨_, rfl⟩
  | none =>
    have := List.find?_eq_none.1 e _ h
    simp at this

/-- The map has the sets of a log. -/
def Loaded (m : Sets) (L : List (OSet × ℕ)) : Prop :=
  ∀ e, e ∈ m ↔ ∃ p ∈ L, e = ((p.1.n, p.1.s.packed), p.2)

theorem foldl_insert (n b : ℕ) (l : List (List UInt8)) (m : Sets) (e : (ℕ × List UInt8) × ℕ) :
    e ∈ l.foldl (fun m packed => ((n, packed), b) :: m) m ↔ e ∈ m ∨ ∃ p ∈ l, e = ((n, p), b) := by
  induction l generalizing m with
  | nil => simp
  | cons p l ih =>
    rw [List.foldl_cons, ih, List.mem_cons]
    simp only [List.mem_cons, exists_eq_or_imp]
    tauto

theorem loadLine_spec {fs : FS} {g : ℕ × ℕ} {sets : List (Bitmap g.1)} (hn : g.1 ≤ 11) (hb : g.2 < 256)
    (hne : sets ≠ []) (hf : fs (pbinName g) = some (sets.flatMap Bitmap.packed)) {m : Sets} {L : List (OSet × ℕ)}
    (h : Loaded m L) :
    ∃ m', Fix.loadLine fs m (groupName g) = some m' ∧ Loaded m' (L ++ sets.map fun s => (⟨g.1, s⟩, g.2)) := by
  unfold Fix.loadLine
  rw [lineChannels_groupName (by have : (11 : ℕ) < 2 ^ 64 := by norm_num
                                 omega), lineBound_groupName hb]
  simp only [Option.bind_eq_bind, Option.bind_some]
  rw [show withExtension (groupName g) extPbin = pbinName g from rfl, hf]
  simp only [Option.bind_some]
  have hd : sets.flatMap Bitmap.packed ≠ [] := by
    intro hd
    obtain ⟨s, hs⟩ := List.exists_mem_of_ne_nil _ hne
    have hp := packed_length s
    have h0 := List.flatMap_eq_nil_iff.1 hd s hs
    rw [h0] at hp
    have := Nat.one_le_two_pow (n := g.1)
    simp only [List.length_nil, packedLen] at hp
    omega
  rw [if_neg hd, chunks_sets]
  refine ⟨_, rfl, ?_⟩
  intro e
  rw [foldl_insert, h e]
  constructor
  · rintro (⟨p, hp, rfl⟩ | ⟨p, hp, rfl⟩)
    · exact ⟨p, List.mem_append_left _ hp, rfl⟩
    · obtain ⟨s, hs, rfl⟩ := List.mem_map.1 hp
      exact ⟨(⟨g.1, s⟩, g.2), List.mem_append_right _ (List.mem_map.2 ⟨s, hs, rfl⟩), rfl⟩
  · rintro ⟨p, hp, rfl⟩
    rcases List.mem_append.1 hp with hp | hp
    · exact Or.inl ⟨p, hp, rfl⟩
    · obtain ⟨s, hs, rfl⟩ := List.mem_map.1 hp
      exact Or.inr ⟨_, List.mem_map.2 ⟨s, hs, rfl⟩, rfl⟩

theorem load_spec {fs : FS} {groups : List (ℕ × ℕ)} {sets : (g : ℕ × ℕ) → List (Bitmap g.1)} (h : LogDir fs groups sets) :
    ∃ m, Fix.load fs = some m ∧ Loaded m (logged groups sets) := by
  have key : ∀ (gs : List (ℕ × ℕ)) (m : Sets) (L : List (OSet × ℕ)), (∀ g ∈ gs, g ∈ groups) → Loaded m L →
      ∃ m', (gs.map groupName).foldlM (Fix.loadLine fs) m = some m' ∧ Loaded m' (L ++ logged gs sets) := by
    intro gs
    induction gs with
    | nil => intro m L _ hm; exact ⟨m, rfl, by simpa [logged] using hm⟩
    | cons g gs ih =>
      intro m L hgs hm
      have hg := hgs g List.mem_cons_self
      obtain ⟨m1, e1, h1⟩ := loadLine_spec (h.channels g hg).2 (h.bound g hg) (h.sets_ne g hg) (h.file g hg) hm
      obtain ⟨m2, e2, h2⟩ := ih m1 _ (fun g' hg' => hgs g' (List.mem_cons_of_mem _ hg')) h1
      refine ⟨m2, ?_, ?_⟩
      · rw [List.map_cons, List.foldlM_cons, e1]; exact e2
      · unfold logged at h2 ⊢
        rw [List.flatMap_cons, ← List.append_assoc]; exact h2
  obtain ⟨m, e, hm⟩ := key groups [] [] (fun _ h => h) (by intro e; simp)
  refine ⟨m, ?_, by simpa using hm⟩
  unfold Fix.load
  obtain ⟨data, h1, h2⟩ := h.index
  rw [h1]
  simp only [Option.bind_eq_bind, Option.bind_some]
  rw [h2]
  exact e

theorem Loaded.mem {m : Sets} {L : List (OSet × ℕ)} (h : Loaded m L) (A : OSet) (b : ℕ) :
    ((A.n, A.s.packed), b) ∈ m ↔ (A, b) ∈ L := by
  rw [h]
  constructor
  · rintro ⟨⟨⟨n, s⟩, c⟩, hp, e⟩
    obtain ⟨n', s'⟩ := A
    simp only [Prod.mk.injEq] at e
    obtain ⟨⟨rfl, e⟩, rfl⟩ := e
    rw [packed_injective e]
    exact hp
  · intro hp
    exact ⟨_, hp, rfl⟩

/-- What the lookup of a set gives. -/
theorem Loaded.get {m : Sets} {L : List (OSet × ℕ)} (h : Loaded m L)
    (hfun : ∀ A b b', (A, b) ∈ L → (A, b') ∈ L → b = b') (A : OSet) (b : ℕ) :
    m.get (A.n, A.s.packed) = some b ↔ (A, b) ∈ L := by
  constructor
  · intro hg
    exact (h.mem A b).1 (get_mem hg)
  · intro hL
    obtain ⟨w, hw⟩ := get_of_mem ((h.mem A b).2 hL)
    rw [hw, hfun A w b ((h.mem A w).1 (get_mem hw)) hL]

/-! ## The steps -/

theorem fixStep_spec (m : Sets) (s : OldStep) (hn : s.set.n < 256) (data : List UInt8) :
    fixStep m (s.bytes ++ data) s.bytes.length =
      (m.get (s.set.n, s.set.s.packed)).map fun b => (s.withBound b, data) := by
  unfold fixStep
  rw [List.take_left' rfl, List.drop_left' rfl]
  unfold OldStep.bytes
  dsimp only
  have hc : (UInt8.ofNat s.set.n).toNat = s.set.n := by rw [UInt8.toNat_ofNat']; omega
  have hp := packed_length s.set.s
  rw [hc, if_neg (by rw [List.length_append, hp]; omega), List.take_left' hp]
  cases m.get (s.set.n, s.set.s.packed) <;> rfl

theorem fixSteps_spec (m : Sets) {ss : List (OldStep × ℕ)} (hn : ∀ s ∈ ss, s.1.set.n < 256)
    (hb : ∀ s ∈ ss, m.get (s.1.set.n, s.1.set.s.packed) = some s.2) (data : List UInt8) :
    fixSteps m ((ss.map fun s => s.1.bytes).map List.length) ((ss.map fun s => s.1.bytes).flatten ++ data) =
      some (ss.map fun s => s.1.withBound s.2).flatten := by
  induction ss with
  | nil => rfl
  | cons s ss ih =>
    rw [List.map_cons, List.map_cons, List.flatten_cons, List.append_assoc, fixSteps,
      fixStep_spec _ _ (hn s List.mem_cons_self), hb s List.mem_cons_self]
    simp only [Option.bind_eq_bind, Option.bind_some, Option.map_some]
    rw [ih (fun s hs => hn s (List.mem_cons_of_mem _ hs)) fun s hs => hb s (List.mem_cons_of_mem _ hs)]
    rfl

theorem fixSteps_none (m : Sets) {ss : List OldStep} (hn : ∀ s ∈ ss, s.set.n < 256)
    {s : OldStep} (hs : s ∈ ss) (hb : m.get (s.set.n, s.set.s.packed) = none) (data : List UInt8) :
    fixSteps m ((ss.map OldStep.bytes).map List.length) ((ss.map OldStep.bytes).flatten ++ data) = none := by
  induction ss with
  | nil => simp at hs
  | cons s' ss ih =>
    rw [List.map_cons, List.map_cons, List.flatten_cons, List.append_assoc, fixSteps,
      fixStep_spec _ _ (hn s' List.mem_cons_self)]
    cases h : m.get (s'.set.n, s'.set.s.packed) with
    | none => rfl
    | some b =>
      simp only [Option.bind_eq_bind, Option.bind_some, Option.map_some]
      rcases List.mem_cons.1 hs with rfl | hs
      · rw [hb] at h; simp at h
      · rw [ih (fun s hs => hn s (List.mem_cons_of_mem _ hs)) hs]
        rfl

/-! ## Everything -/

theorem oldBytes_length (s : OldStep) (b : ℕ) : (s.withBound b).length = s.bytes.length + 1 := by
  simp [OldStep.withBound, OldStep.bytes]

theorem oldName_ne : oldName ≠ proofName := by decide

theorem fixProof_spec {fs : FS} {groups : List (ℕ × ℕ)} {sets : (g : ℕ × ℕ) → List (Bitmap g.1)} (h : LogDir fs groups sets)
    (hfun : ∀ A b b', (A, b) ∈ logged groups sets → (A, b') ∈ logged groups sets → b = b')
    {ss : List (OldStep × ℕ)} (hn : ∀ s ∈ ss, s.1.set.n < 256) (hl : ∀ s ∈ ss, s.1.bytes.length < 2 ^ 32)
    (hc : ss.length < 2 ^ 32) (hL : ∀ s ∈ ss, (s.1.set, s.2) ∈ logged groups sets) {trailing : List UInt8}
    (hold : fs oldName = some (writeProof (ss.map fun s => s.1.bytes) ++ trailing)) (hnew : fs proofName = none) :
    fixProof fs = some ((fs.create proofName).append proofName (writeProof (ss.map fun s => s.1.withBound s.2))) := by
  obtain ⟨m, em, hm⟩ := load_spec h
  unfold fixProof
  rw [em, hold, hnew]
  simp only [Option.bind_eq_bind, Option.bind_some, Option.isSome_none, Bool.false_eq_true, if_false]
  have hF : List.Forall₂ (fun o n : List UInt8 => n.length = o.length + 1) (ss.map fun s => s.1.bytes)
      (ss.map fun s => s.1.withBound s.2) := by
    rw [List.forall₂_map_left_iff, List.forall₂_map_right_iff, List.forall₂_same]
    exact fun s _ => oldBytes_length s.1 s.2
  unfold writeProof
  rw [le32_eq, le32_eq, List.append_assoc, List.append_assoc, readLE_leBytes]
  simp only [Option.bind_some]
  rw [Nat.mod_eq_of_lt (by rw [List.length_map]; norm_num; norm_num at hc; exact hc), fixTable_spec 0 _ hF (by
    intro o ho
    obtain ⟨s, hs, rfl⟩ := List.mem_map.1 ho
    exact hl s hs)]
  simp only [Option.bind_some]
  rw [fixSteps_spec m hn fun s hs => (hm.get hfun _ _).2 (hL s hs)]
  simp only [Option.bind_some, List.length_map, Nat.add_zero, List.append_assoc, le32_eq]

theorem fixProof_missing {fs : FS} {groups : List (ℕ × ℕ)} {sets : (g : ℕ × ℕ) → List (Bitmap g.1)}
    (h : LogDir fs groups sets) {ss : List OldStep} (hn : ∀ s ∈ ss, s.set.n < 256) (hl : ∀ s ∈ ss, s.bytes.length < 2 ^ 32)
    (hc : ss.length < 2 ^ 32) {s : OldStep} (hs : s ∈ ss) (hL : ∀ b, (s.set, b) ∉ logged groups sets)
    {trailing : List UInt8} (hold : fs oldName = some (writeProof (ss.map OldStep.bytes) ++ trailing)) :
    fixProof fs = none := by
  obtain ⟨m, em, hm⟩ := load_spec h
  unfold fixProof
  rw [em, hold]
  simp only [Option.bind_eq_bind, Option.bind_some]
  split
  · rfl
  have hF : List.Forall₂ (fun o n : List UInt8 => n.length = o.length + 1) (ss.map OldStep.bytes)
      (ss.map fun s => s.withBound 0) := by
    rw [List.forall₂_map_left_iff, List.forall₂_map_right_iff, List.forall₂_same]
    exact fun s _ => oldBytes_length s 0
  unfold writeProof
  rw [le32_eq, List.append_assoc, List.append_assoc, readLE_leBytes]
  simp only [Option.bind_some]
  rw [Nat.mod_eq_of_lt (by rw [List.length_map]; norm_num; norm_num at hc; exact hc), fixTable_spec 0 _ hF (by
    intro o ho
    obtain ⟨s, hs, rfl⟩ := List.mem_map.1 ho
    exact hl s hs)]
  simp only [Option.bind_some]
  rw [fixSteps_none m hn hs (by
    cases e : m.get (s.set.n, s.set.s.packed) with
    | none => rfl
    | some b => exact absurd ((hm.mem _ _).1 (get_mem e)) (hL b))]
  rfl

end Fix

end Sortnet
