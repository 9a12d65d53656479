import Verif.Proof.CanonPart
import Mathlib.Data.List.Lex

/-!
# The steps of the canonicalization respect isomorphisms between candidates

Two runs of the algorithm on equivalent inputs are compared in lockstep.
-/

namespace Sortnet.Canon

open Subsume (setBits trailingZeros isUnique swapPerm mem_setBits ne_zero_iff isUnique_some trailingZeros_some
  swapPerm_eq)

variable {n : ℕ}

/-- A relabelling that keeps the fixed channels and the unconstrained channels at the end. -/
structure Adm (f u : ℕ) (τ : Equiv.Perm (Fin n)) : Prop where
  low : ∀ i : Fin n, i.val < f → τ i = i
  used : ∀ i : Fin n, i.val < u ↔ (τ i).val < u

theorem Adm.one (f u : ℕ) : Adm (n := n) f u 1 := ⟨fun _ _ => rfl, fun _ => Iff.rfl⟩

theorem Adm.inv {f u : ℕ} {τ : Equiv.Perm (Fin n)} (h : Adm f u τ) : Adm f u τ⁻¹ where
  low := fun i hi => by
    have := h.low i hi
    rw [Equiv.Perm.inv_eq_iff_eq]; exact this.symm
  used := fun i => by
    have := h.used (τ⁻¹ i)
    rw [show τ (τ⁻¹ i) = i from τ.apply_symm_apply i] at this
    exact this.symm

theorem Adm.mul {f u : ℕ} {τ σ : Equiv.Perm (Fin n)} (h : Adm f u τ) (h' : Adm f u σ) : Adm f u (τ * σ) where
  low := fun i hi => by rw [Equiv.Perm.mul_apply, h'.low i hi, h.low i hi]
  used := fun i => by rw [Equiv.Perm.mul_apply, h'.used i, h.used]

theorem Adm.mono {f g u : ℕ} {τ : Equiv.Perm (Fin n)} (h : Adm g u τ) (hfg : f ≤ g) : Adm f u τ :=
  ⟨fun i hi => h.low i (by omega), h.used⟩

theorem Adm.swap {f u : ℕ} {a b : Fin n} (ha : f ≤ a.val ∧ a.val < u) (hb : f ≤ b.val ∧ b.val < u) :
    Adm f u (Equiv.swap a b) where
  low := fun i hi => Equiv.swap_apply_of_ne_of_ne (by rintro rfl; omega) (by rintro rfl; omega)
  used := fun i => by
    rw [Equiv.swap_apply_def]
    split_ifs with h1 h2
    · subst h1; omega
    · subst h2; omega
    · rfl

/-- The channels that are used but not yet fixed. -/
def Window (n f u : ℕ) : Set (Fin n) := {i | f ≤ i.val ∧ i.val < u}

/-- Isomorphic candidates. -/
def R (f u : ℕ) (a b : Cand n) : Prop := ∃ τ, Adm f u τ ∧ BIso τ a.bitmap b.bitmap

/-- Every isomorphism between the bitmaps respects the partitions. -/
def Good (f u : ℕ) (a b : Cand n) : Prop :=
  ∀ τ, Adm f u τ → BIso τ a.bitmap b.bitmap → b.partition = permPart τ a.partition

theorem R.symm {f u : ℕ} {a b : Cand n} (h : R f u a b) : R f u b a := by
  obtain ⟨τ, h1, h2⟩ := h
  exact ⟨τ⁻¹, h1.inv, h2.symm⟩

/-- What is known about a candidate for the input `s`. -/
structure CInv (s : Bitmap n) (inv : Bool) (f u : ℕ) (c : Cand n) : Prop where
  tracks : ∃ π : Equiv.Perm (Fin n), c.perm = π ∧ BIso π (if c.invert then s.invert else s) c.bitmap
  noinv : c.invert = true → inv = true
  part : PartOK (Window n f u) c.partition
  tail : ∀ i : Fin n, u ≤ i.val → c.bitmap.isChannelUnconstrained i = true
  fpne : c.fingerprint ≠ []

def Half (f u : ℕ) (LA LB : List (Cand n)) : Prop := ∀ a ∈ LA, ∃ b ∈ LB, R f u a b

/-- The relation between the layers of the two runs. -/
structure Pair (sA sB : Bitmap n) (inv : Bool) (f u : ℕ) (LA LB : List (Cand n)) : Prop where
  neA : LA ≠ []
  neB : LB ≠ []
  invA : ∀ c ∈ LA, CInv sA inv f u c
  invB : ∀ c ∈ LB, CInv sB inv f u c
  good : ∀ a ∈ LA ++ LB, ∀ b ∈ LA ++ LB, Good f u a b
  half : Half f u LA LB
  half' : Half f u LB LA

theorem Pair.symm {sA sB : Bitmap n} {inv : Bool} {f u : ℕ} {LA LB : List (Cand n)}
    (h : Pair sA sB inv f u LA LB) : Pair sB sA inv f u LB LA where
  neA := h.neB
  neB := h.neA
  invA := h.invB
  invB := h.invA
  good := fun a ha b hb => h.good a (by simpa [or_comm] using ha) b (by simpa [or_comm] using hb)
  half := h.half'
  half' := h.half

/-! ## Selecting candidates -/

/-- Candidates that only differ in their fingerprints. -/
structure Same (c c' : Cand n) : Prop where
  bitmap : c'.bitmap = c.bitmap
  partition : c'.partition = c.partition
  perm : c'.perm = c.perm
  invert : c'.invert = c.invert
  fp : c.fingerprint ≠ [] → c'.fingerprint ≠ []

theorem Same.refl (c : Cand n) : Same c c := ⟨rfl, rfl, rfl, rfl, id⟩

theorem CInv.same {s : Bitmap n} {inv : Bool} {f u : ℕ} {c c' : Cand n} (h : CInv s inv f u c)
    (hs : Same c c') : CInv s inv f u c' where
  tracks := by rw [hs.perm, hs.invert, hs.bitmap]; exact h.tracks
  noinv := by rw [hs.invert]; exact h.noinv
  part := by rw [hs.partition]; exact h.part
  tail := by rw [hs.bitmap]; exact h.tail
  fpne := hs.fp h.fpne

/-- `L'` consists of the candidates of `L` with maximal `φ`, one for every bitmap. -/
def PruneSpec {β : Type} [LinearOrder β] (φ : Cand n → β) (L L' : List (Cand n)) : Prop :=
  ∃ m, (∀ c ∈ L, φ c ≤ m) ∧ (∃ c ∈ L, φ c = m) ∧ (∀ c' ∈ L', ∃ c ∈ L, Same c c' ∧ φ c = m) ∧
    ∀ c ∈ L, φ c = m → ∃ c' ∈ L', c'.bitmap = c.bitmap

theorem PruneSpec.half {β : Type} [LinearOrder β] {φ : Cand n → β} {f u : ℕ} {LA LB LA' LB' : List (Cand n)}
    (hφ : ∀ a ∈ LA, ∀ b ∈ LB, R f u a b → φ a = φ b) (h : Half f u LA LB) (h' : Half f u LB LA)
    (hA : PruneSpec φ LA LA') (hB : PruneSpec φ LB LB') : Half f u LA' LB' := by
  obtain ⟨mA, hA1, ⟨a0, ha0, ea0⟩, hA3, hA4⟩ := hA
  obtain ⟨mB, hB1, ⟨b0, hb0, eb0⟩, hB3, hB4⟩ := hB
  have hm : mA = mB := by
    apply le_antisymm
    · obtain ⟨b, hb, hr⟩ := h a0 ha0
      rw [← ea0, hφ a0 ha0 b hb hr]; exact hB1 b hb
    · obtain ⟨a, ha, hr⟩ := h' b0 hb0
      rw [← eb0, ← hφ a ha b0 hb0 hr.symm]; exact hA1 a ha
  intro a' ha'
  obtain ⟨a, ha, hs, hm'⟩ := hA3 a' ha'
  obtain ⟨b, hb, τ, hτ, hr⟩ := h a ha
  have : φ b = mB := by rw [← hφ a ha b hb ⟨τ, hτ, hr⟩, hm', hm]
  obtain ⟨b', hb', e⟩ := hB4 b hb this
  exact ⟨b', hb', τ, hτ, by rw [hs.bitmap, e]; exact hr⟩

theorem PruneSpec.pair {β : Type} [LinearOrder β] {φ : Cand n → β} {sA sB : Bitmap n} {inv : Bool}
    {f u : ℕ} {LA LB LA' LB' : List (Cand n)}
    (hφ : ∀ a ∈ LA, ∀ b ∈ LB, R f u a b → φ a = φ b) (h : Pair sA sB inv f u LA LB)
    (hA : PruneSpec φ LA LA') (hB : PruneSpec φ LB LB') : Pair sA sB inv f u LA' LB' := by
  have sub : ∀ c' ∈ LA' ++ LB', ∃ c ∈ LA ++ LB, Same c c' := by
    intro c' hc'
    rcases List.mem_append.1 hc' with hc' | hc'
    · obtain ⟨_, _, _, h3, _⟩ := hA
      obtain ⟨c, hc, hs, _⟩ := h3 c' hc'
      exact ⟨c, by simp [hc], hs⟩
    · obtain ⟨_, _, _, h3, _⟩ := hB
      obtain ⟨c, hc, hs, _⟩ := h3 c' hc'
      exact ⟨c, by simp [hc], hs⟩
  constructor
  · obtain ⟨m, _, ⟨a0, ha0, ea0⟩, _, h4⟩ := hA
    obtain ⟨c', hc', _⟩ := h4 a0 ha0 ea0
    exact List.ne_nil_of_mem hc'
  · obtain ⟨m, _, ⟨a0, ha0, ea0⟩, _, h4⟩ := hB
    obtain ⟨c', hc', _⟩ := h4 a0 ha0 ea0
    exact List.ne_nil_of_mem hc'
  · intro c' hc'
    obtain ⟨_, _, _, h3, _⟩ := hA
    obtain ⟨c, hc, hs, _⟩ := h3 c' hc'
    exact (h.invA c hc).same hs
  · intro c' hc'
    obtain ⟨_, _, _, h3, _⟩ := hB
    obtain ⟨c, hc, hs, _⟩ := h3 c' hc'
    exact (h.invB c hc).same hs
  · intro a' ha' b' hb' τ hτ hb
    obtain ⟨a, ha, hsa⟩ := sub a' ha'
    obtain ⟨b, hb2, hsb⟩ := sub b' hb'
    rw [hsa.partition, hsb.partition]
    rw [hsa.bitmap, hsb.bitmap] at hb
    exact h.good a ha b hb2 τ hτ hb
  · exact hA.half hφ h.half h.half' hB
  · exact hB.half (fun b hb a ha hr => (hφ a ha b hb hr.symm).symm) h.half' h.half hA

/-! ### `prune_using_fingerprints` -/

theorem foldl_max_list (cs : List (Cand n)) (b : List ℕ) :
    (∀ c ∈ cs, c.score ≤ cs.foldl (fun best d => if best < d.score then d.score else best) b) ∧
    b ≤ cs.foldl (fun best d => if best < d.score then d.score else best) b ∧
    (cs.foldl (fun best d => if best < d.score then d.score else best) b = b ∨
      ∃ c ∈ cs, c.score = cs.foldl (fun best d => if best < d.score then d.score else best) b) := by
  induction cs generalizing b with
  | nil => exact ⟨by simp, le_rfl, Or.inl rfl⟩
  | cons c cs ih =>
    rw [List.foldl_cons]
    obtain ⟨h1, h2, h3⟩ := ih (if b < c.score then c.score else b)
    have hb : b ≤ (if b < c.score then c.score else b) := by split_ifs with h; exacts [h.le, le_rfl]
    have hc : c.score ≤ (if b < c.score then c.score else b) := by
      split_ifs with h; exacts [le_rfl, not_lt.1 h]
    refine ⟨?_, hb.trans h2, ?_⟩
    · intro d hd
      rcases List.mem_cons.1 hd with rfl | hd
      · exact hc.trans h2
      · exact h1 d hd
    · rcases h3 with h3 | ⟨d, hd, e⟩
      · rw [h3]
        split_ifs with h
        · exact Or.inr ⟨c, by simp, rfl⟩
        · exact Or.inl rfl
      · exact Or.inr ⟨d, by simp [hd], e⟩

theorem bestScore_spec {L : List (Cand n)} (h : L ≠ []) :
    ∃ m, bestScore L = some m ∧ (∀ c ∈ L, c.score ≤ m) ∧ ∃ c ∈ L, c.score = m := by
  cases L with
  | nil => exact absurd rfl h
  | cons c cs =>
    obtain ⟨h1, h2, h3⟩ := foldl_max_list cs c.score
    refine ⟨_, rfl, ?_, ?_⟩
    · intro d hd
      rcases List.mem_cons.1 hd with rfl | hd
      · exact h2
      · exact h1 d hd
    · rcases h3 with h3 | ⟨d, hd, e⟩
      · exact ⟨c, by simp, h3.symm⟩
      · exact ⟨d, by simp [hd], e⟩

theorem pruneUsingFingerprints_spec {st : St n} (h : st.layer ≠ []) :
    ∃ L', pruneUsingFingerprints st = some { st with layer := L' } ∧
      PruneSpec Cand.score st.layer L' ∧ (∃ m, ∀ c ∈ L', c.score = m) ∧ ∀ c ∈ L', c ∈ st.layer := by
  obtain ⟨m, hm, h1, c0, hc0, e0⟩ := bestScore_spec h
  refine ⟨st.layer.filter fun c => c.score = m, ?_, ⟨m, h1, ⟨c0, hc0, e0⟩, ?_, ?_⟩, ⟨m, ?_⟩, ?_⟩
  · unfold pruneUsingFingerprints
    simp only [hm, Option.bind_eq_bind, Option.bind_some]
  · intro c' hc'
    rw [List.mem_filter, decide_eq_true_eq] at hc'
    exact ⟨c', hc'.1, Same.refl _, hc'.2⟩
  · intro c hc e
    exact ⟨c, List.mem_filter.2 ⟨hc, decide_eq_true e⟩, rfl⟩
  · intro c hc
    rw [List.mem_filter, decide_eq_true_eq] at hc
    exact hc.2
  · intro c hc
    exact (List.mem_filter.1 hc).1

/-! ### `prune` -/

theorem toList_injective {a b : Bitmap n} (h : a.toList = b.toList) : a = b := by
  funext x
  unfold Bitmap.toList at h
  exact List.map_inj_left.1 h x (mem_indices x)

theorem foldl_min_bitmap (cs : List (Cand n)) (b : Cand n) :
    let r := cs.foldl (fun best d => if d.bitmap.toList < best.bitmap.toList then d else best) b
    (∀ c ∈ cs, r.bitmap.toList ≤ c.bitmap.toList) ∧ r.bitmap.toList ≤ b.bitmap.toList ∧ (r = b ∨ r ∈ cs) := by
  induction cs generalizing b with
  | nil => exact ⟨by simp, le_rfl, Or.inl rfl⟩
  | cons c cs ih =>
    dsimp only at ih ⊢
    rw [List.foldl_cons]
    obtain ⟨h1, h2, h3⟩ := ih (if c.bitmap.toList < b.bitmap.toList then c else b)
    have hb : (if c.bitmap.toList < b.bitmap.toList then c else b).bitmap.toList ≤ b.bitmap.toList := by
      split_ifs with h; exacts [h.le, le_rfl]
    have hc : (if c.bitmap.toList < b.bitmap.toList then c else b).bitmap.toList ≤ c.bitmap.toList := by
      split_ifs with h; exacts [le_rfl, not_lt.1 h]
    refine ⟨?_, h2.trans hb, ?_⟩
    · intro d hd
      rcases List.mem_cons.1 hd with rfl | hd
      · exact h2.trans hc
      · exact h1 d hd
    · rcases h3 with h3 | h3
      · rw [h3]
        split_ifs with h
        · exact Or.inr (by simp)
        · exact Or.inl rfl
      · exact Or.inr (by simp [h3])

theorem minBitmap_spec {L : List (Cand n)} (h : L ≠ []) :
    ∃ c, minBitmap L = some c ∧ c ∈ L ∧ ∀ d ∈ L, c.bitmap.toList ≤ d.bitmap.toList := by
  cases L with
  | nil => exact absurd rfl h
  | cons c cs =>
    obtain ⟨h1, h2, h3⟩ := foldl_min_bitmap cs c
    refine ⟨_, rfl, ?_, ?_⟩
    · rcases h3 with h3 | h3
      · rw [h3]; simp
      · exact List.mem_cons_of_mem _ h3
    · intro d hd
      rcases List.mem_cons.1 hd with rfl | hd
      · exact h2
      · exact h1 d hd

theorem dedupLoop_spec (cs : List (Cand n)) (r : Cand n) :
    (∀ c ∈ dedupLoop r cs, c = r ∨ c ∈ cs) ∧
    (∀ c, c = r ∨ c ∈ cs → ∃ d ∈ dedupLoop r cs, d.bitmap = c.bitmap) := by
  induction cs generalizing r with
  | nil => simp [dedupLoop]
  | cons c cs ih =>
    unfold dedupLoop
    split_ifs with h
    · obtain ⟨h1, h2⟩ := ih r
      refine ⟨?_, ?_⟩
      · intro d hd
        rcases h1 d hd with h | h
        · exact Or.inl h
        · exact Or.inr (by simp [h])
      · intro d hd
        rcases hd with rfl | hd
        · exact h2 d (Or.inl rfl)
        · rcases List.mem_cons.1 hd with rfl | hd
          · obtain ⟨e, he, he'⟩ := h2 r (Or.inl rfl)
            exact ⟨e, he, by rw [he', toList_injective h]⟩
          · exact h2 d (Or.inr hd)
    · obtain ⟨h1, h2⟩ := ih c
      refine ⟨?_, ?_⟩
      · intro d hd
        rcases List.mem_cons.1 hd with rfl | hd
        · exact Or.inl rfl
        · rcases h1 d hd with h | h
          · exact Or.inr (by simp [h])
          · exact Or.inr (by simp [h])
      · intro d hd
        rcases hd with rfl | hd
        · exact ⟨d, by simp, rfl⟩
        · obtain ⟨e, he, he'⟩ := h2 d (List.mem_cons.1 hd)
          exact ⟨e, by simp [he], he'⟩

theorem dedup_spec (L : List (Cand n)) :
    (∀ c ∈ dedup L, c ∈ L) ∧ (∀ c ∈ L, ∃ d ∈ dedup L, d.bitmap = c.bitmap) := by
  cases L with
  | nil => simp [dedup]
  | cons c cs =>
    obtain ⟨h1, h2⟩ := dedupLoop_spec cs c
    exact ⟨fun d hd => List.mem_cons.2 (h1 d hd), fun d hd => h2 d (List.mem_cons.1 hd)⟩

theorem foldl_max_nat {α : Type} (cs : List (α × ℕ)) (b : ℕ) :
    (∀ c ∈ cs, c.2 ≤ cs.foldl (fun m p => max m p.2) b) ∧ b ≤ cs.foldl (fun m p => max m p.2) b ∧
    (cs.foldl (fun m p => max m p.2) b = b ∨ ∃ c ∈ cs, c.2 = cs.foldl (fun m p => max m p.2) b) := by
  induction cs generalizing b with
  | nil => exact ⟨by simp, le_rfl, Or.inl rfl⟩
  | cons c cs ih =>
    rw [List.foldl_cons]
    obtain ⟨h1, h2, h3⟩ := ih (max b c.2)
    refine ⟨?_, (le_max_left _ _).trans h2, ?_⟩
    · intro d hd
      rcases List.mem_cons.1 hd with rfl | hd
      · exact (le_max_right _ _).trans h2
      · exact h1 d hd
    · rcases h3 with h3 | ⟨d, hd, e⟩
      · rw [h3]
        rcases max_choice b c.2 with h | h
        · exact Or.inl h
        · exact Or.inr ⟨c, by simp, h.symm⟩
      · exact Or.inr ⟨d, by simp [hd], e⟩

/-- A list that is mapped by an `Option`-valued function that is defined on all elements. -/
theorem mapM_some {α β : Type} {g : α → Option β} {L : List α} (h : ∀ c ∈ L, ∃ d, g c = some d) :
    ∃ L', L.mapM g = some L' ∧ (∀ d ∈ L', ∃ c ∈ L, g c = some d) ∧ (∀ c ∈ L, ∃ d ∈ L', g c = some d) := by
  induction L with
  | nil => exact ⟨[], rfl, by simp, by simp⟩
  | cons c L ih =>
    obtain ⟨d, hd⟩ := h c (by simp)
    obtain ⟨L', hL', h1, h2⟩ := ih fun x hx => h x (by simp [hx])
    refine ⟨d :: L', by simp [List.mapM_cons, hd, hL'], ?_, ?_⟩
    · intro x hx
      rcases List.mem_cons.1 hx with rfl | hx
      · exact ⟨c, by simp, hd⟩
      · obtain ⟨y, hy, e⟩ := h1 x hx
        exact ⟨y, by simp [hy], e⟩
    · intro x hx
      rcases List.mem_cons.1 hx with rfl | hx
      · exact ⟨d, by simp, hd⟩
      · obtain ⟨y, hy, e⟩ := h2 x hx
        exact ⟨y, by simp [hy], e⟩

/-- The quantity that `prune` maximises. -/
def lowFp (hash : List ℕ → ℕ) (f : ℕ) (c : Cand n) : ℕ := c.bitmap.lowChannelsFingerprint hash f

theorem pruneSpec_single {β : Type} [LinearOrder β] (φ : Cand n → β) {L : List (Cand n)} (h : L.length = 1) :
    PruneSpec φ L L := by
  obtain ⟨c, rfl⟩ := List.length_eq_one_iff.1 h
  refine ⟨φ c, by simp, ⟨c, by simp, rfl⟩, ?_, ?_⟩
  · intro c' hc'
    rw [List.mem_singleton] at hc'
    subst hc'
    exact ⟨c', by simp, Same.refl _, rfl⟩
  · intro c' hc' _
    exact ⟨c', hc', rfl⟩

theorem mem_sortBitmap {L : List (Cand n)} {c : Cand n} : c ∈ L.insertionSort bitmapLe ↔ c ∈ L :=
  (List.perm_insertionSort bitmapLe L).mem_iff

theorem dedup_pruneSpec {L : List (Cand n)} (hne : L ≠ []) :
    PruneSpec (fun _ => (0 : ℕ)) L (dedup (L.insertionSort bitmapLe)) := by
  obtain ⟨h1, h2⟩ := dedup_spec (L.insertionSort bitmapLe)
  obtain ⟨c0, hc0⟩ := List.exists_mem_of_ne_nil _ hne
  refine ⟨0, by simp, ⟨c0, hc0, rfl⟩, ?_, ?_⟩
  · intro c' hc'
    exact ⟨c', mem_sortBitmap.1 (h1 c' hc'), Same.refl _, rfl⟩
  · intro c hc _
    exact h2 c (mem_sortBitmap.2 hc)

/-- `prune(recompute)` while channels remain to be fixed. -/
theorem prune_spec (hash : List ℕ → ℕ) {st : St n} (hne : st.layer ≠ []) (hfu : st.fixed ≠ st.used)
    (hfp : ∀ c ∈ st.layer, c.fingerprint ≠ []) :
    (∃ L', prune hash true st = some { st with layer := L' } ∧
      PruneSpec (lowFp hash st.fixed) st.layer L') ∧
    (∃ L', prune hash false st = some { st with layer := L' } ∧
      PruneSpec (fun _ => (0 : ℕ)) st.layer L') := by
  by_cases h1 : st.layer.length = 1
  · refine ⟨⟨st.layer, ?_, pruneSpec_single _ h1⟩, ⟨st.layer, ?_, pruneSpec_single _ h1⟩⟩
    · unfold prune; rw [if_pos h1]
    · unfold prune; rw [if_pos h1]
  obtain ⟨d1, d2⟩ := dedup_spec (st.layer.insertionSort bitmapLe)
  have d1' : ∀ c ∈ dedup (st.layer.insertionSort bitmapLe), c ∈ st.layer :=
    fun c hc => mem_sortBitmap.1 (d1 c hc)
  have d2' : ∀ c ∈ st.layer, ∃ d ∈ dedup (st.layer.insertionSort bitmapLe), d.bitmap = c.bitmap :=
    fun c hc => d2 c (mem_sortBitmap.2 hc)
  refine ⟨?_, ⟨dedup (st.layer.insertionSort bitmapLe), ?_, dedup_pruneSpec hne⟩⟩
  · by_cases h2 : (dedup (st.layer.insertionSort bitmapLe)).length = 1
    · refine ⟨dedup (st.layer.insertionSort bitmapLe), ?_, ?_⟩
      · unfold prune; rw [if_neg h1, if_neg hfu]
        dsimp only
        rw [if_pos (by simp [h2])]
      · obtain ⟨c0, hc0⟩ := List.length_eq_one_iff.1 h2
        rw [hc0] at d1' d2' ⊢
        have hb : ∀ c ∈ st.layer, c.bitmap = c0.bitmap := by
          intro c hc
          obtain ⟨d, hd, e⟩ := d2' c hc
          rw [List.mem_singleton] at hd
          rw [← e, hd]
        have hc0m := d1' c0 (by simp)
        refine ⟨lowFp hash st.fixed c0, ?_, ⟨c0, hc0m, rfl⟩, ?_, ?_⟩
        · intro c hc
          unfold lowFp
          rw [hb c hc]
        · intro c' hc'
          rw [List.mem_singleton] at hc'
          subst hc'
          exact ⟨c', hc0m, Same.refl _, rfl⟩
        · intro c hc _
          exact ⟨c0, by simp, (hb c hc).symm⟩
    · have hrec : ∀ c ∈ dedup (st.layer.insertionSort bitmapLe), ∃ d, recompute hash st.fixed c = some d := by
        intro c hc
        unfold recompute
        cases hf : c.fingerprint with
        | nil => exact absurd hf (hfp c (d1' c hc))
        | cons a as => exact ⟨_, rfl⟩
      obtain ⟨cs, hcs, m1, m2⟩ := mapM_some hrec
      have hr : ∀ (c : Cand n) (d : Cand n × ℕ), recompute hash st.fixed c = some d → Same c d.1 ∧ d.2 = lowFp hash st.fixed c := by
        intro c d h
        unfold recompute at h
        cases hf : c.fingerprint with
        | nil => rw [hf] at h; simp at h
        | cons a as =>
          rw [hf] at h
          simp only [Option.some.injEq] at h
          subst h
          exact ⟨⟨rfl, rfl, rfl, rfl, by simp⟩, rfl⟩
      refine ⟨(cs.filter fun p => p.2 = cs.foldl (fun m p => max m p.2) 0).map (·.1), ?_, ?_⟩
      · unfold prune; rw [if_neg h1, if_neg hfu]
        dsimp only
        rw [if_neg (by simp [h2])]
        simp only [hcs, Option.bind_eq_bind, Option.bind_some]
      · obtain ⟨x1, x2, x3⟩ := foldl_max_nat cs 0
        have hne' : ∃ c ∈ dedup (st.layer.insertionSort bitmapLe), True := by
          obtain ⟨c0, hc0⟩ := List.exists_mem_of_ne_nil _ hne
          obtain ⟨d, hd, _⟩ := d2' c0 hc0
          exact ⟨d, hd, trivial⟩
        refine ⟨cs.foldl (fun m p => max m p.2) 0, ?_, ?_, ?_, ?_⟩
        · intro c hc
          obtain ⟨d, hd, e⟩ := d2' c hc
          obtain ⟨d', hd', e'⟩ := m2 d hd
          have := x1 d' hd'
          rw [(hr _ _ e').2] at this
          unfold lowFp at this ⊢
          rwa [e] at this
        · obtain ⟨c0, hc0, _⟩ := hne'
          rcases x3 with x3 | ⟨d, hd, e⟩
          · obtain ⟨d', hd', e'⟩ := m2 c0 hc0
            have := x1 d' hd'
            rw [(hr _ _ e').2, x3] at this
            exact ⟨c0, d1' c0 hc0, by rw [x3]; omega⟩
          · obtain ⟨c, hc, e'⟩ := m1 d hd
            exact ⟨c, d1' c hc, by rw [← e, (hr _ _ e').2]⟩
        · intro c' hc'
          rw [List.mem_map] at hc'
          obtain ⟨p, hp, rfl⟩ := hc'
          rw [List.mem_filter, decide_eq_true_eq] at hp
          obtain ⟨c, hc, e'⟩ := m1 p hp.1
          exact ⟨c, d1' c hc, (hr _ _ e').1, by rw [← (hr _ _ e').2, hp.2]⟩
        · intro c hc e
          obtain ⟨d, hd, ed⟩ := d2' c hc
          obtain ⟨p, hp, e'⟩ := m2 d hd
          refine ⟨p.1, List.mem_map.2 ⟨p, List.mem_filter.2 ⟨hp, decide_eq_true ?_⟩, rfl⟩, ?_⟩
          · rw [(hr _ _ e').2, ← e]
            unfold lowFp; rw [ed]
          · rw [(hr _ _ e').1.bitmap, ed]
  · unfold prune; rw [if_neg h1, if_neg hfu]
    dsimp only
    rw [if_pos (by simp)]

/-- `prune` when all channels are fixed. -/
theorem prune_final_spec (hash : List ℕ → ℕ) {st : St n} (hne : st.layer ≠ []) (hfu : st.fixed = st.used)
    (b : Bool) :
    ∃ c, prune hash b st = some { st with layer := [c] } ∧ c ∈ st.layer ∧
      ∀ d ∈ st.layer, c.bitmap.toList ≤ d.bitmap.toList := by
  by_cases h1 : st.layer.length = 1
  · obtain ⟨c, hc⟩ := List.length_eq_one_iff.1 h1
    refine ⟨c, ?_, by simp [hc], ?_⟩
    · unfold prune; rw [if_pos h1, ← hc]
    · intro d hd; rw [hc, List.mem_singleton] at hd; rw [hd]
  · obtain ⟨c, hc, hm, hle⟩ := minBitmap_spec hne
    refine ⟨c, ?_, hm, hle⟩
    unfold prune; rw [if_neg h1, if_pos hfu]
    simp only [hc, Option.bind_eq_bind, Option.bind_some]

end Sortnet.Canon
