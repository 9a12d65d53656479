import Verif.Proof.CanonMove

/-!
# `initialize_partitions` and `refine`
-/

namespace Sortnet.Canon

open Subsume (setBits trailingZeros isUnique swapPerm mem_setBits)

variable {n : ℕ}

/-- The relation between the layers after the scores have been computed. -/
structure Scored (sA sB : Bitmap n) (inv : Bool) (f u : ℕ) (LA LB : List (Cand n)) : Prop where
  pair : Pair sA sB inv f u LA LB
  count : ∀ c ∈ LA ++ LB, singletonCount c.partition.reverse = some c.partitionScore.1
  score : ∀ a ∈ LA, ∀ b ∈ LB, R f u a b → a.score = b.score

/-- What a function on candidates has to satisfy on the candidates of one run. -/
def MapOK (s : Bitmap n) (inv : Bool) (f u : ℕ) (g : Cand n → Option (Cand n)) (c : Cand n) : Prop :=
  ∃ c', g c = some c' ∧ CInv s inv f u c' ∧ c'.bitmap = c.bitmap ∧
    singletonCount c'.partition.reverse = some c'.partitionScore.1

/-- What a function on candidates has to satisfy on isomorphic candidates. -/
def MapEq (f u : ℕ) (g : Cand n → Option (Cand n)) (a b : Cand n) : Prop :=
  ∀ τ, Adm f u τ → BIso τ a.bitmap b.bitmap → ∀ a', g a = some a' →
    ∃ b', g b = some b' ∧ b'.partition = permPart τ a'.partition ∧ b'.score = a'.score

theorem map_scored {sA sB : Bitmap n} {inv : Bool} {f u : ℕ} {LA LB : List (Cand n)}
    (g : Cand n → Option (Cand n)) (neA : LA ≠ []) (neB : LB ≠ [])
    (okA : ∀ c ∈ LA, MapOK sA inv f u g c) (okB : ∀ c ∈ LB, MapOK sB inv f u g c)
    (heq : ∀ a ∈ LA ++ LB, ∀ b ∈ LA ++ LB, MapEq f u g a b)
    (half : Half f u LA LB) (half' : Half f u LB LA) :
    ∃ LA' LB', LA.mapM g = some LA' ∧ LB.mapM g = some LB' ∧ Scored sA sB inv f u LA' LB' := by
  obtain ⟨LA', eA, a1, a2⟩ := mapM_some (g := g) (L := LA) (fun c hc => (okA c hc).imp fun _ h => h.1)
  obtain ⟨LB', eB, b1, b2⟩ := mapM_some (g := g) (L := LB) (fun c hc => (okB c hc).imp fun _ h => h.1)
  have kA : ∀ c' ∈ LA', ∃ c ∈ LA, g c = some c' ∧ CInv sA inv f u c' ∧ c'.bitmap = c.bitmap ∧
      singletonCount c'.partition.reverse = some c'.partitionScore.1 := by
    intro c' hc'
    obtain ⟨c, hc, e⟩ := a1 c' hc'
    obtain ⟨c'', e', h⟩ := okA c hc
    rw [e] at e'
    obtain rfl := Option.some.inj e'
    exact ⟨c, hc, e, h⟩
  have kB : ∀ c' ∈ LB', ∃ c ∈ LB, g c = some c' ∧ CInv sB inv f u c' ∧ c'.bitmap = c.bitmap ∧
      singletonCount c'.partition.reverse = some c'.partitionScore.1 := by
    intro c' hc'
    obtain ⟨c, hc, e⟩ := b1 c' hc'
    obtain ⟨c'', e', h⟩ := okB c hc
    rw [e] at e'
    obtain rfl := Option.some.inj e'
    exact ⟨c, hc, e, h⟩
  have kAB : ∀ c' ∈ LA' ++ LB', ∃ c ∈ LA ++ LB, g c = some c' ∧ c'.bitmap = c.bitmap ∧
      singletonCount c'.partition.reverse = some c'.partitionScore.1 := by
    intro c' hc'
    rcases List.mem_append.1 hc' with hc' | hc'
    · obtain ⟨c, hc, e, _, h⟩ := kA c' hc'
      exact ⟨c, by simp [hc], e, h⟩
    · obtain ⟨c, hc, e, _, h⟩ := kB c' hc'
      exact ⟨c, by simp [hc], e, h⟩
  have key : ∀ a' ∈ LA' ++ LB', ∀ b' ∈ LA' ++ LB', ∀ τ, Adm f u τ → BIso τ a'.bitmap b'.bitmap →
      b'.partition = permPart τ a'.partition ∧ b'.score = a'.score := by
    intro a' ha' b' hb' τ hτ hiso
    obtain ⟨a, ha, ea, hab, _⟩ := kAB a' ha'
    obtain ⟨b, hb, eb, hbb, _⟩ := kAB b' hb'
    rw [hab, hbb] at hiso
    obtain ⟨b'', e, h⟩ := heq a ha b hb τ hτ hiso a' ea
    rw [eb] at e
    obtain rfl := Option.some.inj e
    exact h
  refine ⟨LA', LB', eA, eB, ⟨⟨?_, ?_, ?_, ?_, ?_, ?_, ?_⟩, ?_, ?_⟩⟩
  · obtain ⟨c, hc⟩ := List.exists_mem_of_ne_nil _ neA
    obtain ⟨d, hd, _⟩ := a2 c hc
    exact List.ne_nil_of_mem hd
  · obtain ⟨c, hc⟩ := List.exists_mem_of_ne_nil _ neB
    obtain ⟨d, hd, _⟩ := b2 c hc
    exact List.ne_nil_of_mem hd
  · intro c' hc'
    obtain ⟨_, _, _, h, _⟩ := kA c' hc'
    exact h
  · intro c' hc'
    obtain ⟨_, _, _, h, _⟩ := kB c' hc'
    exact h
  · intro a' ha' b' hb' τ hτ hiso
    exact (key a' ha' b' hb' τ hτ hiso).1
  · intro a' ha'
    obtain ⟨a, ha, ea, _, hab, _⟩ := kA a' ha'
    obtain ⟨b, hb, τ, hτ, hiso⟩ := half a ha
    obtain ⟨b', hb', eb'⟩ := b2 b hb
    obtain ⟨b'', e'', _, hbb, _⟩ := okB b hb
    rw [eb'] at e''
    obtain rfl := Option.some.inj e''
    exact ⟨b', hb', τ, hτ, by rw [hab, hbb]; exact hiso⟩
  · intro a' ha'
    obtain ⟨a, ha, ea, _, hab, _⟩ := kB a' ha'
    obtain ⟨b, hb, τ, hτ, hiso⟩ := half' a ha
    obtain ⟨b', hb', eb'⟩ := a2 b hb
    obtain ⟨b'', e'', _, hbb, _⟩ := okA b hb
    rw [eb'] at e''
    obtain rfl := Option.some.inj e''
    exact ⟨b', hb', τ, hτ, by rw [hab, hbb]; exact hiso⟩
  · intro c hc
    obtain ⟨_, _, _, _, h⟩ := kAB c hc
    exact h
  · rintro a ha b hb ⟨τ, hτ, hiso⟩
    exact (key a (by simp [ha]) b (by simp [hb]) τ hτ hiso).2.symm

/-! ### `refine` -/

theorem refineParts_ok (fp : Fin n → ℕ) (P : List (BitVec n × ℕ)) (hd : P.Pairwise Disj)
    (hne : ∀ p ∈ P, ∃ i, In i p.1) (id : ℕ) :
    ∃ parts fps, refineParts fp P id = some (parts, fps) ∧ PartOK {i | ∃ p ∈ P, In i p.1} parts ∧
      parts.map (·.2) = List.range' id parts.length ∧ (P ≠ [] → parts ≠ [] ∧ fps ≠ []) := by
  induction P generalizing id with
  | nil => exact ⟨[], [], rfl, ⟨by simp, by simp, by simp⟩, by simp, by simp⟩
  | cons p P ih =>
    obtain ⟨i0, hi0⟩ := hne p (by simp)
    have hsb : setBits p.1 ≠ [] := List.ne_nil_of_mem ((mem_setBits p.1 i0).2 hi0)
    obtain ⟨parts, fps, last, e, hok, hid, hlast, hlen⟩ := split_ok fp hsb (setBits_nodup p.1) id
    rw [List.pairwise_cons] at hd
    obtain ⟨parts', fps', e', hok', hid', _⟩ := ih hd.2 (fun q hq => hne q (by simp [hq])) (last + 1)
    refine ⟨parts ++ parts', fps ++ fps', ?_, ⟨?_, ?_, ?_⟩, ?_, ?_⟩
    · unfold refineParts
      simp only [e, Option.bind_eq_bind, Option.bind_some, e']
    · intro i
      have h1 := hok.cover i
      have h2 := hok'.cover i
      rw [Set.mem_ofPred_eq] at h1 h2 ⊢
      rw [mem_setBits] at h1
      simp only [List.mem_cons, List.mem_append, exists_eq_or_imp, or_and_right, exists_or]
      rw [← h2, ← h1, exists_eq_left]
    · refine List.pairwise_append.2 ⟨hok.disj, hok'.disj, ?_⟩
      intro a ha b hb i hia hib
      have h1 : In i p.1 := (mem_setBits p.1 i).1 ((hok.cover i).2 ⟨a, ha, hia⟩)
      obtain ⟨q, hq, hiq⟩ := (hok'.cover i).2 ⟨b, hb, hib⟩
      exact hd.1 q hq i h1 hiq
    · intro q hq
      rcases List.mem_append.1 hq with hq | hq
      · exact hok.nonempty q hq
      · exact hok'.nonempty q hq
    · rw [List.map_append, hid, hid', List.length_append, hlast, List.range'_append_1]
    · intro _
      constructor
      · intro h
        rw [List.append_eq_nil_iff] at h
        have := (hok.cover i0).1 ((mem_setBits p.1 i0).2 hi0)
        rw [h.1] at this
        simp at this
      · intro h
        rw [List.append_eq_nil_iff] at h
        rw [h.1] at hlen
        exact hsb (List.length_eq_zero_iff.1 hlen.symm)

theorem refineParts_equiv (τ : Equiv.Perm (Fin n)) (fpA fpB : Fin n → ℕ) (hfp : ∀ c, fpB c = fpA (τ c))
    (P : List (BitVec n × ℕ)) (hne : ∀ p ∈ P, ∃ i, In i p.1) (id : ℕ) {r : List (BitVec n × ℕ) × List ℕ}
    (hr : refineParts fpA P id = some r) :
    refineParts fpB (permPart τ P) id = some (permPart τ r.1, r.2) := by
  induction P generalizing id r with
  | nil =>
    obtain rfl := Option.some.inj hr
    rfl
  | cons p P ih =>
    obtain ⟨i0, hi0⟩ := hne p (by simp)
    have hsb : setBits p.1 ≠ [] := List.ne_nil_of_mem ((mem_setBits p.1 i0).2 hi0)
    unfold refineParts at hr
    simp only [Option.bind_eq_bind, Option.bind_eq_some_iff] at hr
    obtain ⟨r1, h1, r2, h2, h3⟩ := hr
    obtain rfl := Option.some.inj h3
    have e1 := split_equiv τ fpA fpB hfp hsb (setBits_nodup p.1) (setBits_nodup (permIdx τ p.1))
      (fun c => by rw [mem_setBits, mem_setBits]; exact in_permIdx τ _ _) id h1
    have e2 := ih (fun q hq => hne q (by simp [hq])) _ h2
    change refineParts fpB ((permIdx τ p.1, p.2) :: permPart τ P) id = _
    unfold refineParts
    simp only [e1, Option.bind_eq_bind, Option.bind_some, e2]
    rw [permPart_append]

theorem nodup_of_range {P : List (BitVec n × ℕ)} {id : ℕ} (h : P.map (·.2) = List.range' id P.length) :
    (P.map (·.2)).Nodup := by rw [h]; exact List.nodup_range'

theorem window_parts_ne {f u : ℕ} {P : List (BitVec n × ℕ)} (h : PartOK (Window n f u) P) (hfu : f < u)
    (hun : u ≤ n) : P ≠ [] := by
  rintro rfl
  have := (h.cover ⟨f, by omega⟩).1 ⟨Nat.le_refl _, hfu⟩
  simp at this

theorem refineCand_ok (hash : List ℕ → ℕ) {s : Bitmap n} {inv : Bool} {f u : ℕ} (hfu : f < u) (hun : u ≤ n)
    {c : Cand n} (h : CInv s inv f u c) : MapOK s inv f u (refineCand hash f) c := by
  obtain ⟨parts, fps, e, hok, hid, hne⟩ := refineParts_ok
    (c.bitmap.lowChannelsChannelFingerprint hash f) c.partition h.part.disj h.part.nonempty 0
  obtain ⟨hne1, hne2⟩ := hne (window_parts_ne h.part hfu hun)
  have hS : {i | ∃ p ∈ c.partition, In i p.1} = Window n f u := by
    ext i; exact (h.part.cover i).symm
  rw [hS] at hok
  obtain ⟨c', e', hp, hb, hpm, hi, hf, _, hcount⟩ := sortPartition_ok
    (c := { c with partition := parts, fingerprint := fps }) hok hne1
  refine ⟨c', ?_, ⟨?_, ?_, hp, ?_, ?_⟩, hb, hcount⟩
  · unfold refineCand
    simp only [e, Option.bind_eq_bind, Option.bind_some, e']
  · rw [hb, hi, hpm]; exact h.tracks
  · rw [hi]; exact h.noinv
  · rw [hb]; exact h.tail
  · rw [hf]; exact hne2

theorem refineCand_eq (hash : List ℕ → ℕ) {s : Bitmap n} {inv : Bool} {f u : ℕ} (hfu : f < u) (hun : u ≤ n)
    {a b : Cand n} (h : CInv s inv f u a) (hg : Good f u a b) : MapEq f u (refineCand hash f) a b := by
  intro τ hτ hiso a' ha'
  obtain ⟨parts, fps, e, hok, hid, hne⟩ := refineParts_ok
    (a.bitmap.lowChannelsChannelFingerprint hash f) a.partition h.part.disj h.part.nonempty 0
  have e' := refineParts_equiv τ _ (b.bitmap.lowChannelsChannelFingerprint hash f)
    (fun c => hiso.lowChannelsChannelFingerprint f hτ.low hash c) a.partition h.part.nonempty 0 e
  unfold refineCand at ha' ⊢
  rw [hg τ hτ hiso]
  simp only [e, e', Option.bind_eq_bind, Option.bind_some] at ha' ⊢
  exact sortPartition_equiv τ (a := { a with partition := parts, fingerprint := fps }) hok
    (nodup_of_range hid) rfl rfl ha'

theorem refine_spec (hash : List ℕ → ℕ) {sA sB : Bitmap n} {inv : Bool} {stA stB : St n}
    (hf : stA.fixed = stB.fixed) (hfu : stA.fixed < stA.used) (hun : stA.used ≤ n)
    (h : Pair sA sB inv stA.fixed stA.used stA.layer stB.layer) :
    ∃ LA LB, refine hash stA = some { stA with layer := LA } ∧ refine hash stB = some { stB with layer := LB } ∧
      Scored sA sB inv stA.fixed stA.used LA LB := by
  obtain ⟨LA, LB, e1, e2, hs⟩ := map_scored (refineCand hash stA.fixed) h.neA h.neB
    (fun c hc => refineCand_ok hash hfu hun (h.invA c hc))
    (fun c hc => refineCand_ok hash hfu hun (h.invB c hc))
    (fun a ha b hb => by
      rcases List.mem_append.1 ha with ha' | ha'
      · exact refineCand_eq hash hfu hun (h.invA a ha') (h.good a ha b hb)
      · exact refineCand_eq hash hfu hun (h.invB a ha') (h.good a ha b hb)) h.half h.half'
  refine ⟨LA, LB, ?_, ?_, hs⟩
  · unfold refine
    simp only [e1, Option.bind_eq_bind, Option.bind_some]
  · unfold refine
    rw [← hf]
    simp only [e2, Option.bind_eq_bind, Option.bind_some]

/-! ### `initialize_partitions` -/

/-- What is known about a candidate before the partitions are initialized. -/
structure Pre (s : Bitmap n) (inv : Bool) (u : ℕ) (c : Cand n) : Prop where
  tracks : ∃ π : Equiv.Perm (Fin n), c.perm = π ∧ BIso π (if c.invert then s.invert else s) c.bitmap
  noinv : c.invert = true → inv = true
  tail : ∀ i : Fin n, c.bitmap.isChannelUnconstrained i = true ↔ u ≤ i.val
  part : c.partition = []
  fp : c.fingerprint = []

/-- The channels that are used. -/
def usedChannels (n u : ℕ) : List (Fin n) := (List.finRange n).filter fun ch => ch.val < u

theorem mem_usedChannels {u : ℕ} {i : Fin n} : i ∈ usedChannels n u ↔ i.val < u := by
  unfold usedChannels
  rw [List.mem_filter, decide_eq_true_eq]
  simp

theorem usedChannels_nodup (n u : ℕ) : (usedChannels n u).Nodup := (List.nodup_finRange n).filter _

theorem usedChannels_ne {u : ℕ} (h0 : 0 < u) (hun : u ≤ n) : usedChannels n u ≠ [] :=
  List.ne_nil_of_mem (a := ⟨0, by omega⟩) (mem_usedChannels.2 h0)

theorem initCand_ok {s : Bitmap n} {inv : Bool} {u : ℕ} (h0 : 0 < u) (hun : u ≤ n)
    {c : Cand n} (h : Pre s inv u c) : MapOK s inv 0 u (initCand u) c := by
  obtain ⟨parts, fps, last, e, hok, hid, _, hlen⟩ := split_ok c.bitmap.channelFingerprint
    (usedChannels_ne h0 hun) (usedChannels_nodup n u) 0
  have hS : {i | i ∈ usedChannels n u} = Window n 0 u := by
    ext i
    rw [Set.mem_ofPred_eq, mem_usedChannels]
    unfold Window
    simp
  rw [hS] at hok
  obtain ⟨c', e', hp, hb, hpm, hi, hf, _, hcount⟩ := sortPartition_ok
    (c := { c with partition := parts, fingerprint := fps }) hok (window_parts_ne hok h0 hun)
  refine ⟨c', ?_, ⟨?_, ?_, hp, ?_, ?_⟩, hb, hcount⟩
  · unfold initCand
    change (split c.bitmap.channelFingerprint (usedChannels n u) 0).bind _ = _
    rw [e, Option.bind_some, h.part, h.fp]
    exact e'
  · rw [hb, hi, hpm]; exact h.tracks
  · rw [hi]; exact h.noinv
  · rw [hb]; exact fun i hi => (h.tail i).2 hi
  · rw [hf]
    intro hnil
    dsimp only at hnil
    rw [hnil] at hlen
    exact usedChannels_ne h0 hun (List.length_eq_zero_iff.1 hlen.symm)

theorem initCand_eq {s s' : Bitmap n} {inv : Bool} {u : ℕ} (h0 : 0 < u) (hun : u ≤ n)
    {a b : Cand n} (h : Pre s inv u a) (h' : Pre s' inv u b) : MapEq 0 u (initCand u) a b := by
  intro τ hτ hiso a' ha'
  obtain ⟨parts, fps, last, e, hok, hid, _, _⟩ := split_ok a.bitmap.channelFingerprint
    (usedChannels_ne h0 hun) (usedChannels_nodup n u) 0
  have e' := split_equiv τ _ b.bitmap.channelFingerprint (fun c => hiso.channelFingerprint c)
    (usedChannels_ne h0 hun) (usedChannels_nodup n u) (usedChannels_nodup n u)
    (fun c => by rw [mem_usedChannels, mem_usedChannels]; exact hτ.used c) 0 e
  unfold initCand at ha' ⊢
  change (split a.bitmap.channelFingerprint (usedChannels n u) 0).bind _ = _ at ha'
  change ∃ b', (split b.bitmap.channelFingerprint (usedChannels n u) 0).bind _ = _ ∧ _
  rw [e, Option.bind_some, h.part, h.fp] at ha'
  rw [e', Option.bind_some, h'.part, h'.fp]
  exact sortPartition_equiv τ (a := { a with partition := parts, fingerprint := fps }) hok
    (nodup_of_range hid) rfl rfl ha'

theorem initializePartitions_spec {sA sB : Bitmap n} {inv : Bool} {stA stB : St n}
    (hu : stA.used = stB.used) (h0 : 0 < stA.used) (hun : stA.used ≤ n) (neA : stA.layer ≠ [])
    (neB : stB.layer ≠ []) (hA : ∀ c ∈ stA.layer, Pre sA inv stA.used c)
    (hB : ∀ c ∈ stB.layer, Pre sB inv stA.used c)
    (half : Half 0 stA.used stA.layer stB.layer) (half' : Half 0 stA.used stB.layer stA.layer) :
    ∃ LA LB, initializePartitions stA = some { stA with layer := LA } ∧
      initializePartitions stB = some { stB with layer := LB } ∧
      Scored sA sB inv 0 stA.used LA LB := by
  obtain ⟨LA, LB, e1, e2, hs⟩ := map_scored (initCand stA.used) neA neB
    (fun c hc => initCand_ok h0 hun (hA c hc))
    (fun c hc => initCand_ok h0 hun (hB c hc))
    (fun a ha b hb => by
      rcases List.mem_append.1 ha with ha' | ha' <;> rcases List.mem_append.1 hb with hb' | hb'
      · exact initCand_eq h0 hun (hA a ha') (hA b hb')
      · exact initCand_eq h0 hun (hA a ha') (hB b hb')
      · exact initCand_eq h0 hun (hB a ha') (hA b hb')
      · exact initCand_eq h0 hun (hB a ha') (hB b hb')) half half'
  refine ⟨LA, LB, ?_, ?_, hs⟩
  · unfold initializePartitions
    simp only [e1, Option.bind_eq_bind, Option.bind_some]
  · unfold initializePartitions
    rw [← hu]
    simp only [e2, Option.bind_eq_bind, Option.bind_some]

end Sortnet.Canon
