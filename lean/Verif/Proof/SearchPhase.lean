import Verif.Proof.SearchRoot
import Verif.Props.C57

/-!
# The Huffman rule comes first

The search looks at the successors of the initial set only after the Huffman rule cannot improve the bound of the initial set.
Until then no other set on as many channels is in the state map.
-/

namespace Sortnet

namespace Search

variable {α β : Type} {hash : List ℕ → ℕ} {A : OSet}

/-- The sets on fewer channels. -/
def Smaller (A B : OSet) : Prop := B.n < A.n

theorem canon_n {T C : OSet} (h : canon hash T = some C) : C.n = T.n := by
  unfold canon at h
  rw [Option.map_eq_some_iff] at h
  obtain ⟨_, _, rfl⟩ := h
  rfl

theorem prune_n {B T : OSet} {pol : Bool} {c : Fin B.n} (h : prune B pol c = some T) : T.n < B.n := by
  obtain ⟨n, s⟩ := B
  cases n with
  | zero => exact c.elim0
  | succ n =>
    unfold prune at h
    dsimp only at h
    rw [Option.map_eq_some_iff] at h
    obtain ⟨t, ht, rfl⟩ := h
    exact Nat.lt_succ_self n

theorem low_smaller (hash : List ℕ → ℕ) (A : OSet) : Low hash A (Smaller A) false := by
  refine ⟨?_, ?_, ?_, ?_, by simp⟩
  · rintro B h rfl
    exact lt_irrefl _ h
  · intro B T C i j hB hj hT hC
    obtain ⟨e, _⟩ := successor_toSet (ne_of_gt hj) hT
    show C.n < A.n
    rw [canon_n hC, e]
    exact hB
  · intro B T C pol c hB hT hC
    show C.n < A.n
    rw [canon_n hC]
    exact (prune_n hT).trans hB
  · intro T C pol c hT hC
    show C.n < A.n
    rw [canon_n hC]
    exact prune_n hT

/-- The bound is more than `H`, or final. -/
def Past (H : ℕ) (s : State) : Prop := H < s.lo ∨ s.lo = s.hi

/-- The program points of the loop over the successors of `A`. -/
def PC.Looping (A : OSet) (s : State) : PC → Prop
  | .edgesLoop _ B st _ => B = A ∧ st = s
  | .nextLoop _ _ _ _ (.edges _ B st) => B = A ∧ st = s
  | _ => False

/-- How programs of this loop end. -/
def Looped (A : OSet) (H : ℕ) (s : State) (e : Exit) : Prop :=
  Past H s ∨ H ≤ s.lo ∧ ∃ pc, e = .goto pc ∧ pc.Looping A s

theorem in_true (E : Edges) : E.In fun _ => True := fun _ _ => True.intro

theorem codeEdgesLower_looped {H : ℕ} (level : ℕ) {s : State} (hH : H ≤ s.lo) (E : Edges) :
    Track A (fun _ => True) (Looped A H) s (codeEdgesLower level A s E) := by
  unfold codeEdgesLower
  refine Track.option fun m _ => ?_
  dsimp only
  split
  · rename_i hgt
    intro v hv
    refine ⟨rfl, Or.inl (Or.inl ?_)⟩
    dsimp only
    omega
  · exact Or.inr ⟨hH, _, rfl, rfl, rfl⟩

theorem code_looped {H : ℕ} {s : State} (hH : H ≤ s.lo) (pc : PC) (h : pc.Looping A s) :
    Track A (fun _ => True) (Looped A H) s (code hash pc) := by
  cases pc with
  | edgesLoop level B st E =>
    obtain ⟨rfl, rfl⟩ := h
    rw [code]
    refine Track.option fun _ _ => ?_
    dsimp only
    split
    · refine ⟨rfl, ?_⟩
      split
      · rename_i he
        exact Or.inl (Or.inr he)
      · exact codeEdgesLower_looped level (by exact hH) _
    · exact codeEdgesLower_looped level hH _
  | nextLoop level order E block r =>
    cases r with
    | huffman l B st ids uh => exact absurd h id
    | edges l B st =>
      obtain ⟨rfl, rfl⟩ := h
      rw [code]
      refine (pollLoop_track E.active (in_true E) false 0).bind ?_
      rintro s' p ⟨rfl, _⟩
      refine Track.bind (R := Still s' fun _ => True) ?_ ?_
      · unfold Prog.assert
        split
        · exact ⟨rfl, True.intro⟩
        · exact True.intro
      · rintro s'' _ ⟨rfl, _⟩
        have hs : ∀ E : Edges, Track B (fun _ => True) (Looped B H) s'' (codeSpawn level order E (.edges l B s'')) := by
          intro E
          refine (spawnLoop_track level order _ 0 (E := { targets := E.targets, active := E.sorted order })
            (in_true _) true).bind ?_
          rintro s' q ⟨rfl, _⟩
          exact Or.inr ⟨hH, _, rfl, rfl, rfl⟩
        dsimp only
        split
        · exact Or.inr ⟨hH, _, rfl, rfl, rfl⟩
        · split
          · exact hs _
          · exact hs _
  | _ => exact absurd h id

/-- The main task is in the loop over the successors of `A`. -/
def Status.Loop (A : OSet) (H : ℕ) (s : State) : Status → Prop
  | .run p _ _ => Track A (fun _ => True) (Looped A H) s p
  | .sleep p _ _ => Track A (fun _ => True) (Looped A H) s p
  | .wait _ _ p _ _ => Track A (fun _ => True) (Looped A H) s p
  | .unwind _ _ _ => False
  | .done _ => False
  | _ => True

/-- The bound is more than `H`, or final, or the main task is in the loop over the successors of `A`. -/
def Global.Late (A : OSet) (H : ℕ) (G : Global) : Prop :=
  Past H (G.store.get A) ∨ ∀ t, G.tasks 0 = some t → t.status.Loop A H (G.store.get A)

theorem loop_update {H : ℕ} {f : ℕ → Option Task} {s : State} (h : ∀ t, f 0 = some t → t.status.Loop A H s) {i : ℕ} {t' : Task}
    (ht : i = 0 → t'.status.Loop A H s) : ∀ t, Function.update f i (some t') 0 = some t → t.status.Loop A H s := by
  intro t hj
  by_cases e : i = 0
  · subst e
    rw [Function.update_self] at hj
    cases hj
    exact ht rfl
  · rw [Function.update_of_ne (Ne.symm e)] at hj
    exact h t hj

theorem loop_release {H : ℕ} {G : Global} {s : State} (h : ∀ t, G.tasks 0 = some t → t.status.Loop A H s) (r : Res) :
    ∀ t, (G.release r).tasks 0 = some t → t.status.Loop A H s := by
  cases r with
  | lock B tok => exact h
  | handle hd =>
    intro t hj
    unfold Global.release Global.cancel at hj
    dsimp only at hj
    by_cases e : 0 = hd.tid
    · rw [← e, Function.update_self] at hj
      cases hG : G.tasks 0 with
      | none => rw [hG] at hj; simp at hj
      | some t0 =>
        rw [hG] at hj
        cases hj
        exact h t0 hG
    · rw [Function.update_of_ne e] at hj
      exact h t hj

theorem Past.evolves {H : ℕ} {σ σ' : Store} (hA : OK A) (hi : SInv hash σ') (he : Evolves σ σ') (h : Past H (σ.get A)) :
    Past H (σ'.get A) := by
  obtain ⟨h1, h2, _⟩ := he A
  have h3 := (hi.known hA).lo_le hi hA
  rcases h with h | h
  · exact Or.inl (by omega)
  · exact Or.inr (by omega)

theorem Global.Late.act {H i : ℕ} {G G' : Global} (hA : OK A) (hown : G.OwnRoot A (Below A) true) (h0 : ∃ t, G.tasks 0 = some t)
    (hi : SInv hash G'.store) (he : Evolves G.store G'.store) (h : G.Late A H) (ha : Act hash i G G') : G'.Late A H := by
  rcases h with h | h
  · exact Or.inl (h.evolves hA hi he)
  by_cases hpast : Past H (G.store.get A)
  · exact Or.inl (hpast.evolves hA hi he)
  have hst : ∀ {i : ℕ} {t : Task} {s : Status}, (i = 0 → s.Loop A H (G.store.get A)) → (G.setStatus i t s).Late A H :=
    fun h' => Or.inr (loop_update h h')
  have hat : ∀ {t : Task} {s : Status}, G.tasks i = some t → t.status = s → i = 0 → s.Loop A H (G.store.get A) := by
    rintro t s ht rfl rfl
    exact h t ht
  have hret : ∀ {t : Task} {x : Exit} {owned : List Res} {stack : List Frame}, G.tasks i = some t →
      t.status = .run (.ret x) owned stack → i = 0 → H ≤ (G.store.get A).lo ∧ ∃ pc, x = .goto pc ∧ pc.Looping A (G.store.get A) := by
    intro t x owned stack ht e hi0
    exact Or.resolve_left (hat ht e hi0) hpast
  cases ha with
  | @get t B k owned stack ht e => exact hst fun h0 => hat ht e h0 _ fun eB => by rw [eB]
  | @set t B v k owned stack ht e hm =>
    by_cases hi0 : i = 0
    · obtain ⟨rfl, h1⟩ := hat ht e hi0
      right
      intro u hu
      show u.status.Loop B H ((G.store.set B v).get B)
      rw [get_set_self]
      subst hi0
      simp only [Global.setStatus, Function.update_self, Option.some.injEq] at hu
      subst hu
      exact h1
    · have hB : Below A B := by
        have := (hown _ _ ht).2 hi0
        rw [e] at this
        exact this.1.1
      right
      intro u hu
      show u.status.Loop A H ((G.store.set B v).get A)
      rw [get_set_ne _ hB.ne.symm v]
      exact loop_update h (t' := { t with status := .run k owned stack }) (fun h => absurd h hi0) u hu
  | setPanic ht e hm => exact hst fun _ => True.intro
  | @lockFree t B k owned stack ht e hm hl => exact Or.inr (loop_update h fun h0 => hat ht e h0 true)
  | @lockBusy t B k owned stack token ht e hm hl => exact hst fun h0 => hat ht e h0 false
  | lockPanic ht e hm => exact hst fun _ => True.intro
  | lockWake ht e hl => exact hst fun h0 => by have := hat ht e h0; exact this
  | @spawn t level prev B k owned stack j ht e hj =>
    have hj0 : j ≠ 0 := by
      rintro rfl
      obtain ⟨t0, ht0⟩ := h0
      rw [hj] at ht0
      cases ht0
    refine Or.inr (loop_update (loop_update h ?_) fun h => absurd h hj0)
    exact fun h0 => (hat ht e h0).2 ⟨j, B, prev⟩
  | @addPending t prio hd k owned stack c ht e hc hne =>
    refine Or.inr (loop_update (loop_update h ?_) fun h0 => by have := h c (h0 ▸ hc); exact this)
    exact fun h0 => by have := hat ht e h0; exact this
  | @schedule t hd k owned stack c ht e hc hne =>
    refine Or.inr (loop_update (loop_update h ?_) fun h0 => by have := h c (h0 ▸ hc); exact this)
    exact fun h0 => by have := hat ht e h0; exact this
  | @isScheduled t hd k owned stack c ht e hc => exact hst fun h0 => hat ht e h0 _
  | @pollReady t hd k owned stack c v ht e hc hd' hne =>
    refine Or.inr (loop_update (loop_update h ?_) fun _ => True.intro)
    exact fun h0 => hat ht e h0 (some v)
  | @pollPending t hd k owned stack c ht e hc h1 h2 h3 => exact hst fun h0 => hat ht e h0 _
  | pollPanic ht e hc h1 h2 => exact hst fun _ => True.intro
  | @dropHandle t hd k owned stack ht e =>
    refine Or.inr (loop_release (G := G.setStatus i t _) ?_ _)
    exact loop_update h fun h0 => by have := hat ht e h0; exact this
  | @pending t k owned stack ht e => exact hst fun h0 => by have := hat ht e h0; exact this
  | wake ht e hsch => exact hst fun h0 => by have := hat ht e h0; exact this
  | worker ht hq => exact Or.inr (loop_update h fun h0 => by have := h _ (h0 ▸ ht); exact this)
  | panic ht e => exact hst fun _ => True.intro
  | @goto t pc owned stack ht e =>
    refine hst fun h0 => ?_
    obtain ⟨h1, pc', e', h2⟩ := hret ht e h0
    cases e'
    exact code_looped h1 pc h2
  | @call t pc k owned stack ht e =>
    refine hst fun h0 => ?_
    obtain ⟨h1, pc', e', h2⟩ := hret ht e h0
    cases e'
  | @ret t v owned stack ht e =>
    refine hst fun h0 => ?_
    obtain ⟨h1, pc', e', h2⟩ := hret ht e h0
    cases e'
  | @unwind t v r owned stack ht e hr hrec =>
    refine Or.inr ?_
    rw [release_store]
    refine loop_release (G := G.setStatus i t _) ?_ _
    exact loop_update h fun h0 => absurd (hat ht e h0) id
  | unwindPanic ht e hr hrec => exact hst fun _ => True.intro
  | @«return» t v f stack ht e => exact hst fun h0 => absurd (hat ht e h0) id
  | finish ht e => exact hst fun h0 => absurd (hat ht e h0) id
  | dropSleep ht e hc => exact hst fun _ => True.intro
  | dropWait ht e hc => exact hst fun _ => True.intro
  | drop ht e hr hrec =>
    refine Or.inr ?_
    rw [release_store]
    refine loop_release (G := G.setStatus i _ _) ?_ _
    exact loop_update h fun h0 => True.intro
  | dropPanic ht e hr hrec => exact hst fun _ => True.intro

/-- Until the main task looks at the successors of `A`, only `A` and sets on fewer channels are stored. -/
def Global.Early (A : OSet) (G : Global) : Prop :=
  G.OwnRoot A (Smaller A) false ∧ ∀ B v, G.store B = some v → B = A ∨ Smaller A B

/-- What is stored was stored before, or is the state of `A`, or of a set with `P`. -/
theorem Global.OwnRoot.stored {P : OSet → Prop} {md : Bool} {i : ℕ} {G G' : Global} (h : G.OwnRoot A P md) (ha : Act hash i G G') {B : OSet}
    {v : State} (hv : G'.store B = some v) : (∃ w, G.store B = some w) ∨ B = A ∨ P B := by
  cases ha with
  | @set t C w k owned stack ht e hm =>
    by_cases hB : B = C
    · subst hB
      right
      have h' : Task.Runs A P md i (G.store.get A) (.set B w k) stack := by have := h _ _ ht; rw [e] at this; exact this
      by_cases hi : i = 0
      · rcases h'.1 hi with h | h
        · exact Or.inl h.1.1
        · exact Or.inr h.1.1
      · exact Or.inr (h'.2 hi).1.1
    · left
      have : (G.store.set C w) B = some v := hv
      simp only [Store.set, hB, if_false] at this
      exact ⟨v, this⟩
  | _ => exact Or.inl ⟨v, by first | exact hv | (rw [release_store] at hv; exact hv)⟩

/-- The Huffman rule gives `H` for `A`: the search has two phases. -/
theorem Reach.phase {limit : Option ℕ} (hA : OK A) {G : Global} (h : Reach hash limit A G) {pol : Bool} {H : ℕ} (hH : HuffLB A pol H) :
    G.Early A ∨ G.Late A H := by
  induction h with
  | init =>
    left
    refine ⟨?_, fun B v hv => by cases hv⟩
    intro i t ht
    unfold Search.init at ht
    dsimp only at ht
    split at ht
    · rename_i hi
      cases ht
      exact ⟨fun _ => Or.inl ⟨code_track (low_smaller hash A) _ ⟨rfl, Or.inr id⟩, by intro f hf; cases hf⟩, fun h => absurd hi h⟩
    · simp at ht
  | @step G G' hr hs ih =>
    obtain ⟨β, hG, _⟩ := GInv.reach hA hr
    obtain ⟨t0, ht0, _⟩ := hG.main
    have hev := hG.evolves hs
    obtain ⟨i, ha⟩ := hs
    obtain ⟨β', hG', _⟩ := hG.act ha
    have late : G.Late A H → G'.Late A H := fun h =>
      h.act hA (hr.ownRoot hA) ⟨t0, ht0⟩ hG'.sinv hev ha
    rcases ih with h | h
    · by_cases hgo : ∃ t pc owned stack, G.tasks 0 = some t ∧ t.status = .run (.ret (.goto pc)) owned stack ∧ pc.edgesOf A
      · right
        apply late
        right
        obtain ⟨t, pc, owned, stack, ht, e, hpc⟩ := hgo
        intro u hu
        rw [ht] at hu
        cases hu
        have h1 := (h.1 0 t ht).1 rfl
        have h2 := hG.task 0 t ht
        rw [e] at h1 h2 ⊢
        obtain ⟨K, c, b, s, ⟨_, hwp, _⟩, _⟩ := h2
        have hx := (hwp _ (Rely.refl _ _) hG.sinv).2
        cases pc with
        | edgesLoop level B st E =>
          obtain rfl : B = A := hpc
          have htop : HuffTop B st.lo := hx.2.2.2.2.2.2
          rcases h1 with ⟨⟨_, rfl, _⟩, _⟩ | ⟨h1, _⟩
          · exact Or.inr ⟨htop pol H hH, _, rfl, rfl, rfl⟩
          · exact absurd rfl ((low_smaller hash B).ne B h1.1)
        | _ => exact absurd hpc id
      · left
        refine ⟨h.1.act (low_smaller hash A) ⟨t0, ht0⟩ (Or.inr fun t pc owned stack h1 h2 h3 =>
          hgo ⟨t, pc, owned, stack, h1, h2, h3⟩) ha, ?_⟩
        intro B v hv
        rcases h.1.stored ha hv with ⟨w, hw⟩ | h'
        · exact h.2 B w hw
        · exact h'
    · exact Or.inr (late h)

end Search

open Search

variable {hash : List ℕ → ℕ}

/-- The Huffman rule for the set of all vectors. -/
theorem huffLB_allValues {n q : ℕ} (hn : n + 1 ≤ 11) (hq : LowerSizeBound n q) :
    HuffLB ⟨n + 1, allValues (n + 1)⟩ false (q + Nat.clog 2 (n + 1)) := by
  have hq35 : q ≤ 35 := by
    have hok : OK ⟨n, allValues n⟩ := ⟨by dsimp only; rw [toSet_allValues]; exact chained_univ, by dsimp only; omega⟩
    have h1 := default_ub hok
    have h2 := default_hi_le ⟨n, allValues n⟩ hok.2
    dsimp only at h1
    rw [toSet_allValues] at h1
    have := (LB_univ_iff.2 hq).le_UB h1
    omega
  have hall : extremal ⟨n + 1, allValues (n + 1)⟩ false = List.finRange (n + 1) := by
    unfold extremal
    rw [List.filter_eq_self]
    intro c _
    rw [channelIsExtremal_iff, toSet_allValues]
    exact Set.mem_univ _
  have hne : List.replicate (n + 1) q ≠ [] := by simp
  have hb : ∀ b ∈ List.replicate (n + 1) q, b ≤ 35 := by
    intro b hb
    rw [List.mem_replicate] at hb
    omega
  obtain ⟨w, hw, _⟩ := huffman_some (bs := List.replicate (n + 1) q) (by simpa using hn) hb
  have ew := C57_huffman n q (by omega) w hw
  subst ew
  refine ⟨List.replicate (n + 1) q, ?_, fun b h => by have := hb b h; omega, hw⟩
  rw [hall]
  have key : ∀ l : List (Fin (n + 1)), List.Forall₂ (fun c b => ∃ B, prune ⟨n + 1, allValues (n + 1)⟩ false c = some B ∧
      LB B.s.toSet b) l (List.replicate l.length q) := by
    intro l
    induction l with
    | nil => exact .nil
    | cons c l ih =>
      refine .cons ?_ ih
      have hc : c ∈ extremal ⟨n + 1, allValues (n + 1)⟩ false := by rw [hall]; exact List.mem_finRange c
      obtain ⟨B, hB⟩ := prune_some hc
      refine ⟨B, hB, ?_⟩
      unfold prune at hB
      dsimp only at hB
      rw [Option.map_eq_some_iff] at hB
      obtain ⟨t, ht, rfl⟩ := hB
      have hu : t.toSet = Set.univ := by
        rw [pruneExtremalChannel_toSet ht, toSet_allValues]
        refine Set.eq_univ_of_forall fun y => ⟨c.insertNth true y, ?_, ?_⟩
        · refine reachIn_univ _ _ ?_
          intro i
          by_cases e : i = c
          · subst e; simp
          · simp [extremalVec, e]
        · funext i
          simp [removeChannel]
      dsimp only
      rw [hu]
      exact LB_univ_iff.2 hq
  simpa using key (List.finRange (n + 1))

/-- When a search for all vectors has returned a bound that is not final and not more than the Huffman rule gives, no other set on
as many channels is in the state map. -/
theorem early_alone {limit : Option ℕ} {n q : ℕ} (hn : n + 1 ≤ 11) (hq : LowerSizeBound n q) {G : Global}
    (h : Run hash limit ⟨n + 1, allValues (n + 1)⟩ G) {r : ℕ} (hr : Returned G r) (hle : r ≤ q + Nat.clog 2 (n + 1)) :
    UB (Set.univ : Set (Fin (n + 1) → Bool)) r ∨
      ∀ A v, G.store A = some v → A.n = n + 1 → A = ⟨n + 1, allValues (n + 1)⟩ := by
  have h0 : Chained (⟨n + 1, allValues (n + 1)⟩ : OSet).s.toSet := by dsimp only; rw [toSet_allValues]; exact chained_univ
  obtain ⟨A, hA, hok, β, hG, _⟩ := h.inv h0 hn
  obtain ⟨A', hA', hreach⟩ := h
  obtain rfl := canon_allValues hn hA
  obtain rfl := canon_allValues hn hA'
  obtain ⟨t, v, ht, e, rfl⟩ := hr
  have hv : v = G.store.get ⟨n + 1, allValues (n + 1)⟩ := by
    have := hreach.ownRoot hok 0 t ht
    rw [e] at this
    exact this.1 rfl
  rcases hreach.phase hok (huffLB_allValues hn hq) with hE | hL | hL
  · right
    intro B w hw hBn
    rcases hE.2 B w hw with h | h
    · exact h
    · exact absurd hBn (ne_of_lt h)
  · rw [← hv] at hL
    rcases hL with hL | hL
    · omega
    · left
      have := hG.sinv.ub _ hok
      rw [← hv, ← hL] at this
      dsimp only at this
      rw [toSet_allValues] at this
      exact this
  · have := hL t ht
    rw [e] at this
    exact absurd this id

end Sortnet
