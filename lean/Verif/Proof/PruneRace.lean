import Verif.Spec.PruneRace
import Verif.Proof.PruneCmd

/-!
# Several processes prune the same file
-/

namespace Sortnet

namespace Files

open Relation

theorem splice_lt {l now : List UInt8} {off k : ℕ} (hk : k < off) (hl : k < l.length) :
    (Disk.splice l off now)[k]? = l[k]? := by
  unfold Disk.splice
  rw [List.append_assoc, List.append_assoc, List.getElem?_append_left (by rw [List.length_take]; omega),
    List.getElem?_take_of_lt hk]

theorem splice_prefix_length (l : List UInt8) (off : ℕ) : (l.take off ++ List.replicate (off - l.length) 0).length = off := by
  rw [List.length_append, List.length_take, List.length_replicate]
  omega

theorem splice_mid {l now : List UInt8} {off k : ℕ} (h1 : off ≤ k) (h2 : k < off + now.length) :
    (Disk.splice l off now)[k]? = now[k - off]? := by
  unfold Disk.splice
  rw [List.append_assoc _ now, List.getElem?_append_right (by rw [splice_prefix_length]; exact h1), splice_prefix_length,
    List.getElem?_append_left (by omega)]

theorem splice_ge {l now : List UInt8} {off k : ℕ} (h : off + now.length ≤ k) : (Disk.splice l off now)[k]? = l[k]? := by
  unfold Disk.splice
  rw [List.append_assoc _ now, List.getElem?_append_right (by rw [splice_prefix_length]; omega), splice_prefix_length,
    List.getElem?_append_right (by omega), List.getElem?_drop]
  congr 1
  omega

theorem splice_length (l now : List UInt8) (off : ℕ) :
    (Disk.splice l off now).length = max (off + now.length) l.length := by
  unfold Disk.splice
  rw [List.length_append, List.length_append, splice_prefix_length, List.length_drop]
  omega

variable {ι : Type} [DecidableEq ι] {n : ℕ} {name : Str} {data out : List UInt8} {j0 : ℕ}

/-- Every byte of the file is right or will be written by a process. -/
def Good (out : List UInt8) (d : Disk) (p : ι → RaceProc) (j : ℕ) : Prop :=
  (d.ino j).length ≤ out.length ∧ ∀ k, k < out.length → (d.ino j)[k]? = out[k]? ∨
    ∃ i off rest, p i = .writing j off rest ∧ off ≤ k

structure RaceInv (name : Str) (data out : List UInt8) (j0 : ℕ) (d : Disk) (p : ι → RaceProc) : Prop where
  input : d.dir name = some j0 ∧ d.ino j0 = data
  valid : ∀ x j, d.dir x = some j → j < d.next
  tmp : d.dir (withExtension name extTmp) ≠ some j0
  writer : ∀ i j off rest, p i = .writing j off rest → out.drop off = rest ∧ off ≤ out.length ∧ j ≠ j0 ∧ j < d.next
  exist : ∀ i j off rest, p i = .writing j off rest →
    (d.dir (withExtension name extTmp)).isSome ∨ (d.dir (withExtension name extPbin)).isSome
  good : ∀ i j off rest, p i = .writing j off rest → ∀ j', d.dir (withExtension name extTmp) = some j' → Good out d p j'
  pbin : ∀ j, d.dir (withExtension name extPbin) = some j → Good out d p j
  ended : ∀ i, p i = .done ∨ p i = .panicked → (d.dir (withExtension name extPbin)).isSome
  first : (d.dir (withExtension name extPbin)).isSome → ∃ i, p i = .done

/-- A process that has written everything is not needed any more. -/
theorem Good.finish {d : Disk} {p : ι → RaceProc} {j : ℕ} (h : Good out d p j) {i : ι} {q : RaceProc}
    (hi : ∀ j off rest, p i = .writing j off rest → out.length ≤ off) : Good out d (Function.update p i q) j := by
  refine ⟨h.1, fun k hk => ?_⟩
  rcases h.2 k hk with hc | ⟨i', off, rest, h1, h2⟩
  · exact Or.inl hc
  · have hne : i' ≠ i := by
      rintro rfl
      have := hi _ _ _ h1
      omega
    exact Or.inr ⟨i', off, rest, by rw [Function.update_of_ne hne]; exact h1, h2⟩

/-- Other files. -/
theorem Good.congr {d d' : Disk} {p p' : ι → RaceProc} {j : ℕ} (h : Good out d p j) (hd : d'.ino j = d.ino j)
    (hp : ∀ i off rest, p i = .writing j off rest → p' i = .writing j off rest) : Good out d' p' j := by
  refine ⟨by rw [hd]; exact h.1, fun k hk => ?_⟩
  rw [hd]
  rcases h.2 k hk with hc | ⟨i', off, rest, h1, h2⟩
  · exact Or.inl hc
  · exact Or.inr ⟨i', off, rest, hp _ _ _ h1, h2⟩

theorem Good.write {d : Disk} {p : ι → RaceProc} {i : ι} {j off : ℕ} {now rest : List UInt8}
    (hp : p i = .writing j off (now ++ rest)) (hw : out.drop off = now ++ rest) (hoff : off ≤ out.length) {j' : ℕ}
    (h : Good out d p j') : Good out (d.write j off now) (Function.update p i (.writing j (off + now.length) rest)) j' := by
  by_cases hj : j' = j
  · subst hj
    have hlen : off + now.length ≤ out.length := by
      have := congrArg List.length hw
      rw [List.length_drop, List.length_append] at this
      omega
    have he : (d.write j' off now).ino j' = Disk.splice (d.ino j') off now := Function.update_self ..
    have hother : ∀ i' off' rest', p i' = .writing j' off' rest' → i' ≠ i →
        Function.update p i (.writing j' (off + now.length) rest) i' = .writing j' off' rest' := fun i' off' rest' h hne => by
      rw [Function.update_of_ne hne]
      exact h
    refine ⟨?_, fun k hk => ?_⟩
    · rw [he, splice_length]
      have := h.1
      omega
    · rw [he]
      by_cases h1 : k < off
      · rcases h.2 k hk with hc | ⟨i', off', rest', e1, e2⟩
        · by_cases hl : k < (d.ino j').length
          · exact Or.inl (by rw [splice_lt h1 hl]; exact hc)
          · rw [List.getElem?_eq_none (by omega), List.getElem?_eq_getElem hk] at hc
            simp at hc
        · have hne : i' ≠ i := by
            rintro rfl
            rw [hp] at e1
            cases e1
            omega
          exact Or.inr ⟨i', off', rest', hother _ _ _ e1 hne, e2⟩
      · by_cases h2 : k < off + now.length
        · left
          rw [splice_mid (by omega) h2]
          have : out[k]? = (out.drop off)[k - off]? := by
            rw [List.getElem?_drop]
            congr 1
            omega
          rw [this, hw, List.getElem?_append_left (by omega)]
        · rw [splice_ge (by omega)]
          rcases h.2 k hk with hc | ⟨i', off', rest', e1, e2⟩
          · exact Or.inl hc
          · by_cases hne : i' = i
            · subst hne
              exact Or.inr ⟨i', _, _, Function.update_self .., by omega⟩
            · exact Or.inr ⟨i', off', rest', hother _ _ _ e1 hne, e2⟩
  · refine h.congr (Function.update_of_ne hj _ _) fun i' off' rest' h => ?_
    have hne : i' ≠ i := by
      rintro rfl
      rw [hp] at h
      cases h
      exact hj rfl
    rw [Function.update_of_ne hne]
    exact h

theorem RaceInv.step (hname : name ≠ withExtension name extTmp) (hname' : name ≠ withExtension name extPbin)
    (hout : pruneData n data = some out) (hne : data ≠ []) {d d' : Disk}
    {p : ι → RaceProc} {i : ι} {q : RaceProc} (h : RaceInv name data out j0 d p) (hs : RaceStep n name (d, p i) (d', q)) :
    RaceInv name data out j0 d' (Function.update p i q) := by
  have hread : d.read name = some data := by
    unfold Disk.read
    rw [h.input.1, Option.map_some, h.input.2]
  have hpt : withExtension name extPbin ≠ withExtension name extTmp := ext_ne name name
  have hdone : p i ≠ .done := by
    intro hc
    rw [hc] at hs
    cases hs
  have hkeep : ∀ q, (∃ i, p i = .done) → ∃ i', Function.update p i q i' = .done := by
    rintro q ⟨i', hc⟩
    have hi : i' ≠ i := by
      rintro rfl
      exact hdone hc
    exact ⟨i', by rw [Function.update_of_ne hi]; exact hc⟩
  -- processes that do not write
  have hidle : ∀ {q : RaceProc}, (∀ j off rest, p i ≠ .writing j off rest) → (∀ j off rest, q ≠ .writing j off rest) →
      (q = .done ∨ q = .panicked → (d.dir (withExtension name extPbin)).isSome) →
      RaceInv name data out j0 d (Function.update p i q) := by
    intro q hp hq he
    have hw : ∀ i' j off rest, Function.update p i q i' = .writing j off rest → p i' = .writing j off rest := by
      intro i' j off rest hc
      by_cases hi : i' = i
      · subst hi
        rw [Function.update_self] at hc
        exact absurd hc (hq _ _ _)
      · rwa [Function.update_of_ne hi] at hc
    refine ⟨h.input, h.valid, h.tmp, fun i' j off rest hc => h.writer i' j off rest (hw _ _ _ _ hc),
      fun i' j off rest hc => h.exist i' j off rest (hw _ _ _ _ hc),
      fun i' j off rest hc j' hj => (h.good i' j off rest (hw _ _ _ _ hc) j' hj).finish fun j off rest hc => absurd hc (hp _ _ _),
      fun j hj => (h.pbin j hj).finish fun j off rest hc => absurd hc (hp _ _ _), fun i' hc => ?_, fun hc => hkeep _ (h.first hc)⟩
    by_cases hi : i' = i
    · subst hi
      rw [Function.update_self] at hc
      exact he hc
    · rw [Function.update_of_ne hi] at hc
      exact h.ended i' hc
  generalize hpi : p i = r at hs
  cases hs with
  | noInput hc =>
    rw [hread] at hc
    rcases hc with hc | hc
    · simp at hc
    · exact absurd (Option.some.inj hc) hne
  | skip _ _ hp => exact hidle (by simp [hpi]) (by simp) fun _ => hp
  | check _ _ hp => exact hidle (by simp [hpi]) (by simp) (by simp)
  | @create _ data' o hd ho =>
    rw [hread] at hd
    obtain rfl := Option.some.inj hd
    rw [hout] at ho
    obtain rfl := Option.some.inj ho
    have hpw : ∀ j off rest, p i ≠ .writing j off rest := by simp [hpi]
    -- the file that is created
    obtain ⟨j1, hj1, hj0, hn, hdir, hino, hnext⟩ : ∃ j1, (d.create (withExtension name extTmp)).2 = j1 ∧ j1 ≠ j0 ∧
        j1 < (d.create (withExtension name extTmp)).1.next ∧
        (d.create (withExtension name extTmp)).1.dir = Function.update d.dir (withExtension name extTmp) (some j1) ∧
        (d.create (withExtension name extTmp)).1.ino = Function.update d.ino j1 [] ∧
        d.next ≤ (d.create (withExtension name extTmp)).1.next := by
      unfold Disk.create
      cases hc : d.dir (withExtension name extTmp) with
      | none =>
        refine ⟨d.next, rfl, ?_, by simp, rfl, rfl, by simp⟩
        have := h.valid _ _ h.input.1
        omega
      | some j =>
        refine ⟨j, rfl, fun e => h.tmp (by rw [hc, e]), h.valid _ _ hc, ?_, rfl, le_rfl⟩
        dsimp only
        rw [← hc, Function.update_eq_self]
    generalize d.create (withExtension name extTmp) = c at *
    obtain ⟨d', j1'⟩ := c
    dsimp only at *
    subst hj1
    have hw : ∀ i' j off rest, Function.update p i (.writing j1' 0 out) i' = .writing j off rest →
        i' = i ∧ j = j1' ∧ off = 0 ∧ rest = out ∨ p i' = .writing j off rest := by
      intro i' j off rest hc
      by_cases hi : i' = i
      · subst hi
        rw [Function.update_self] at hc
        cases hc
        exact Or.inl ⟨rfl, rfl, rfl, rfl⟩
      · rw [Function.update_of_ne hi] at hc
        exact Or.inr hc
    have hgood1 : Good out d' (Function.update p i (.writing j1' 0 out)) j1' := by
      refine ⟨?_, fun k _ => Or.inr ⟨i, 0, out, Function.update_self .., Nat.zero_le _⟩⟩
      rw [hino, Function.update_self]
      exact Nat.zero_le _
    have hgood : ∀ j, Good out d p j → Good out d' (Function.update p i (.writing j1' 0 out)) j := by
      intro j hg
      by_cases hj : j = j1'
      · rw [hj]
        exact hgood1
      · refine hg.congr (by rw [hino, Function.update_of_ne hj]) fun i' off rest hc => ?_
        have : i' ≠ i := by
          rintro rfl
          exact hpw _ _ _ hc
        rw [Function.update_of_ne this]
        exact hc
    have hpb : d'.dir (withExtension name extPbin) = d.dir (withExtension name extPbin) := by
      rw [hdir, Function.update_of_ne hpt]
    have htm : d'.dir (withExtension name extTmp) = some j1' := by
      rw [hdir, Function.update_self]
    refine ⟨⟨?_, ?_⟩, fun x j hx => ?_, ?_, fun i' j off rest hc => ?_, fun _ _ _ _ _ => Or.inl (by rw [htm]; rfl),
      fun _ _ _ _ _ j' hj' => ?_, fun j hj => hgood j (h.pbin j (by rwa [hpb] at hj)), fun i' hc => ?_,
      fun hc => hkeep _ (h.first (by rwa [hpb] at hc))⟩
    · rw [hdir, Function.update_of_ne hname]
      exact h.input.1
    · rw [hino, Function.update_of_ne hj0.symm]
      exact h.input.2
    · by_cases hx' : x = withExtension name extTmp
      · rw [hx', htm] at hx
        cases hx
        exact hn
      · rw [hdir, Function.update_of_ne hx'] at hx
        have := h.valid _ _ hx
        omega
    · rw [htm]
      simpa using hj0
    · rcases hw _ _ _ _ hc with ⟨_, rfl, rfl, rfl⟩ | hc
      · exact ⟨rfl, Nat.zero_le _, hj0, hn⟩
      · obtain ⟨a, b, c, e⟩ := h.writer _ _ _ _ hc
        exact ⟨a, b, c, by omega⟩
    · rw [htm] at hj'
      cases hj'
      exact hgood1
    · rw [hpb]
      by_cases hi : i' = i
      · subst hi
        simp at hc
      · rw [Function.update_of_ne hi] at hc
        exact h.ended i' hc
  | panicLate hd ho =>
    rw [hread] at hd
    obtain rfl := Option.some.inj hd
    rw [hout] at ho
    simp at ho
  | @write _ j off now rest hnow =>
    obtain ⟨w1, w2, w3, w4⟩ := h.writer i _ _ _ hpi
    have hlen : off + now.length ≤ out.length := by
      have := congrArg List.length w1
      rw [List.length_drop, List.length_append] at this
      omega
    have hw : ∀ i' j' off' rest', Function.update p i (.writing j (off + now.length) rest) i' = .writing j' off' rest' →
        i' = i ∧ j' = j ∧ off' = off + now.length ∧ rest' = rest ∨ p i' = .writing j' off' rest' := by
      intro i' j' off' rest' hc
      by_cases hi : i' = i
      · subst hi
        rw [Function.update_self] at hc
        cases hc
        exact Or.inl ⟨rfl, rfl, rfl, rfl⟩
      · rw [Function.update_of_ne hi] at hc
        exact Or.inr hc
    refine ⟨⟨h.input.1, ?_⟩, h.valid, h.tmp, fun i' j' off' rest' hc => ?_, fun _ _ _ _ _ => h.exist i _ _ _ hpi,
      fun _ _ _ _ _ j' hj' => (h.good i _ _ _ hpi j' hj').write hpi w1 w2, fun j' hj' => (h.pbin j' hj').write hpi w1 w2,
      fun i' hc => ?_, fun hc => hkeep _ (h.first hc)⟩
    · exact (Function.update_of_ne w3.symm _ _).trans h.input.2
    · rcases hw _ _ _ _ hc with ⟨_, rfl, rfl, rfl⟩ | hc
      · refine ⟨?_, hlen, w3, w4⟩
        rw [← List.drop_drop, w1, List.drop_left]
      · exact h.writer _ _ _ _ hc
    · by_cases hi : i' = i
      · subst hi
        simp at hc
      · rw [Function.update_of_ne hi] at hc
        exact h.ended i' hc
  | @rename _ _ j off hr =>
    obtain ⟨w1, w2, w3, w4⟩ := h.writer i _ _ _ hpi
    have hoff : ∀ j off rest, p i = .writing j off rest → out.length ≤ off := by
      intro j' off' rest' hc
      rw [hpi] at hc
      cases hc
      have := congrArg List.length w1
      rw [List.length_drop, List.length_nil] at this
      omega
    have hw : ∀ i' j off rest, Function.update p i .done i' = .writing j off rest → p i' = .writing j off rest := by
      intro i' j off rest hc
      by_cases hi : i' = i
      · subst hi
        simp at hc
      · rwa [Function.update_of_ne hi] at hc
    unfold Disk.rename at hr
    obtain ⟨j1, hj1, rfl⟩ := Option.map_eq_some_iff.1 hr
    have hgood : ∀ j, Good out d p j → Good out { d with
        dir := Function.update (Function.update d.dir (withExtension name extPbin) (some j1)) (withExtension name extTmp) none }
        (Function.update p i .done) j := fun j hg => (hg.finish hoff).congr rfl fun _ _ _ h => h
    have hpb : Function.update (Function.update d.dir (withExtension name extPbin) (some j1)) (withExtension name extTmp) none
        (withExtension name extPbin) = some j1 := by
      rw [Function.update_of_ne hpt, Function.update_self]
    refine ⟨⟨?_, h.input.2⟩, fun x j hx => ?_, ?_, fun i' j off rest hc => h.writer _ _ _ _ (hw _ _ _ _ hc),
      fun _ _ _ _ _ => Or.inr ?_, fun _ _ _ _ _ j' hj' => ?_, fun j' hj' => ?_, fun _ _ => ?_,
      fun _ => ⟨i, Function.update_self ..⟩⟩
    · dsimp only
      rw [Function.update_of_ne hname, Function.update_of_ne hname']
      exact h.input.1
    · dsimp only at hx
      by_cases h1 : x = withExtension name extTmp
      · rw [h1, Function.update_self] at hx
        simp at hx
      · rw [Function.update_of_ne h1] at hx
        by_cases h2 : x = withExtension name extPbin
        · rw [h2, Function.update_self] at hx
          cases hx
          exact h.valid _ _ hj1
        · rw [Function.update_of_ne h2] at hx
          exact h.valid _ _ hx
    · dsimp only
      rw [Function.update_self]
      simp
    · dsimp only
      rw [hpb]
      rfl
    · dsimp only at hj'
      rw [Function.update_self] at hj'
      simp at hj'
    · dsimp only at hj'
      rw [hpb] at hj'
      cases hj'
      exact hgood _ (h.good i _ _ _ hpi _ hj1)
    · dsimp only
      rw [hpb]
      rfl
  | @renamePanic _ j off hr =>
    obtain ⟨w1, w2, w3, w4⟩ := h.writer i _ _ _ hpi
    have hoff : ∀ j off rest, p i = .writing j off rest → out.length ≤ off := by
      intro j' off' rest' hc
      rw [hpi] at hc
      cases hc
      have := congrArg List.length w1
      rw [List.length_drop, List.length_nil] at this
      omega
    have hw : ∀ i' j off rest, Function.update p i .panicked i' = .writing j off rest → p i' = .writing j off rest := by
      intro i' j off rest hc
      by_cases hi : i' = i
      · subst hi
        simp at hc
      · rwa [Function.update_of_ne hi] at hc
    have hno : d.dir (withExtension name extTmp) = none := by
      unfold Disk.rename at hr
      simpa using hr
    have hpb : (d.dir (withExtension name extPbin)).isSome := by
      rcases h.exist i _ _ _ hpi with hc | hc
      · rw [hno] at hc
        simp at hc
      · exact hc
    exact ⟨h.input, h.valid, h.tmp, fun i' j off rest hc => h.writer _ _ _ _ (hw _ _ _ _ hc), fun _ _ _ _ _ => Or.inr hpb,
      fun i' j off rest hc j' hj' => (h.good _ _ _ _ (hw _ _ _ _ hc) j' hj').finish hoff,
      fun j' hj' => (h.pbin j' hj').finish hoff, fun _ _ => hpb, fun hc => hkeep _ (h.first hc)⟩

theorem RaceDir.ext' {d0 : Disk} (h0 : RaceDir d0 n name data out) : name ≠ withExtension name extPbin := by
  intro h
  have := h0.input
  unfold Disk.read at this
  rw [h, h0.pbin] at this
  simp at this

theorem RaceDir.ne {d0 : Disk} (h0 : RaceDir d0 n name data out) : data ≠ [] := by
  rintro rfl
  have := h0.output
  unfold pruneData at this
  simp at this

theorem raceInv_of_reach {d0 : Disk} (h0 : RaceDir d0 n name data out) {s : Disk × (ι → RaceProc)}
    (h : ReflTransGen (PruneRace n name) (d0, fun _ => .stopped) s) :
    ∃ j0, RaceInv name data out j0 s.1 s.2 := by
  obtain ⟨j0, hj, hd⟩ := Option.map_eq_some_iff.1 h0.input
  refine ⟨j0, ?_⟩
  induction h with
  | refl =>
    refine ⟨⟨hj, hd⟩, h0.valid, fun hc => h0.link (hc.trans hj.symm), by simp, by simp, by simp, fun j hc => ?_, by simp,
      fun hc => ?_⟩
    · rw [h0.pbin] at hc
      simp at hc
    · rw [h0.pbin] at hc
      simp at hc
  | tail _ hs ih =>
    cases hs with
    | step hs => exact ih.step h0.ext h0.ext' h0.output h0.ne hs

theorem RaceInv.read {d : Disk} {p : ι → RaceProc} (h : RaceInv name data out j0 d p) : d.read name = some data := by
  unfold Disk.read
  rw [h.input.1, Option.map_some, h.input.2]

/-- `File::create` makes an empty file. -/
theorem create_spec (d : Disk) (x : Str) : (d.create x).1.dir x = some (d.create x).2 ∧
    (d.create x).1.ino (d.create x).2 = [] := by
  unfold Disk.create
  cases h : d.dir x with
  | none => exact ⟨Function.update_self .., Function.update_self ..⟩
  | some j => exact ⟨h, Function.update_self ..⟩

/-- A process can get to its end. -/
theorem RaceInv.finish (hout : pruneData n data = some out) (hne : data ≠ []) {d : Disk} {p : ι → RaceProc}
    (h : RaceInv name data out j0 d p) (i : ι) :
    ∃ d' q, (q = .done ∨ q = .panicked) ∧ ReflTransGen (PruneRace n name) (d, p) (d', Function.update p i q) := by
  have hlast : ∀ (d : Disk) (p : ι → RaceProc) j off, p i = .writing j off [] →
      ∃ d' q, (q = .done ∨ q = .panicked) ∧ ReflTransGen (PruneRace n name) (d, p) (d', Function.update p i q) := by
    intro d p j off hp
    cases hr : d.rename (withExtension name extTmp) (withExtension name extPbin) with
    | none => exact ⟨d, .panicked, Or.inr rfl, .single (.step (by rw [hp]; exact .renamePanic hr))⟩
    | some d' => exact ⟨d', .done, Or.inl rfl, .single (.step (by rw [hp]; exact .rename hr))⟩
  have hwrite : ∀ (d : Disk) (p : ι → RaceProc) j off rest, p i = .writing j off rest →
      ∃ d' q, (q = .done ∨ q = .panicked) ∧ ReflTransGen (PruneRace n name) (d, p) (d', Function.update p i q) := by
    intro d p j off rest hp
    by_cases hr : rest = []
    · subst hr
      exact hlast d p j off hp
    · obtain ⟨d', q, hq, h2⟩ := hlast (d.write j off rest) (Function.update p i (.writing j (off + rest.length) [])) j
        (off + rest.length) (Function.update_self ..)
      rw [Function.update_idem] at h2
      refine ⟨d', q, hq, .head (.step ?_) h2⟩
      rw [hp]
      have := RaceStep.write (n := n) (name := name) (d := d) (j := j) (off := off) (rest := []) hr
      rwa [List.append_nil] at this
  have hcheck : ∀ (p : ι → RaceProc), p i = .checked →
      ∃ d' q, (q = .done ∨ q = .panicked) ∧ ReflTransGen (PruneRace n name) (d, p) (d', Function.update p i q) := by
    intro p hp
    obtain ⟨d', q, hq, h2⟩ := hwrite (d.create (withExtension name extTmp)).1
      (Function.update p i (.writing (d.create (withExtension name extTmp)).2 0 out)) _ _ _ (Function.update_self ..)
    rw [Function.update_idem] at h2
    refine ⟨d', q, hq, .head (.step ?_) h2⟩
    rw [hp]
    exact .create h.read hout
  cases hp : p i with
  | stopped =>
    cases hc : d.dir (withExtension name extPbin) with
    | none =>
      obtain ⟨d', q, hq, h2⟩ := hcheck (Function.update p i .checked) (Function.update_self ..)
      rw [Function.update_idem] at h2
      refine ⟨d', q, hq, .head (.step ?_) h2⟩
      rw [hp]
      exact .check h.read hne hc
    | some j =>
      refine ⟨d, .done, Or.inl rfl, .single (.step ?_)⟩
      rw [hp]
      exact .skip h.read hne (by rw [hc]; rfl)
  | checked => exact hcheck p hp
  | writing j off rest => exact hwrite d p j off rest hp
  | done => exact ⟨d, .done, Or.inl rfl, by rw [← hp, Function.update_eq_self]⟩
  | panicked => exact ⟨d, .panicked, Or.inr rfl, by rw [← hp, Function.update_eq_self]⟩

end Files

end Sortnet
