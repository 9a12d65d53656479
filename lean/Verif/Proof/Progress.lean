import Verif.Model.Progress
import Verif.Proof.SearchPhase
import Verif.Proof.SearchExec

/-!
# The lines logged by the search

Between two lines the main task is in one call of `improve` for the initial set.  This call ends when the lower bound of the
initial set has grown or the bounds coincide.
-/

namespace Sortnet

namespace Search

variable {α β : Type} {hash : List ℕ → ℕ} {A : OSet} {limit : Option ℕ} {H : ℕ} {b s : State}

/-- The main task in its outermost function. -/
def PC.Outer (limit : Option ℕ) (A : OSet) (s : State) : PC → Prop
  | .start l B => l = limit ∧ B = A
  | .main l B st => l = limit ∧ B = A ∧ st = s
  | _ => False

/-- The main task in `improve`, called by its outermost function when the lower bound was `H`. -/
def PC.Imp (A : OSet) (H : ℕ) (s : State) : PC → Prop
  | .improve _ prev B => B = A ∧ prev = s
  | .locked _ prev B => B = A ∧ prev = s
  | .pruned _ B st C _ => B = A ∧ st = s ∧ Below A C
  | .afterHuffman _ B st new => B = A ∧ new = s ∧ H ≤ st.lo
  | .edgesLoop _ B st E => B = A ∧ st = s ∧ E.In (Below A)
  | .nextLoop _ _ E _ (.edges _ B st) => B = A ∧ st = s ∧ E.In (Below A)
  | _ => False

/-- The main task in `improve_huffman`, called by this `improve`. -/
def PC.Huff (A : OSet) (s : State) : PC → Prop
  | .huffman _ B => B = A
  | .huffLoop _ B st E _ _ => B = A ∧ st = s ∧ E.In (Below A)
  | .nextLoop _ _ E _ (.huffman _ B st _ _) => B = A ∧ st = s ∧ E.In (Below A)
  | _ => False

def Exit.Outer (limit : Option ℕ) (A : OSet) (b s : State) (e : Exit) : Prop :=
  s = b ∧ match e with
    | .done v => v = s ∧ Stops limit v
    | .goto pc => pc.Outer limit A s
    | .call pc k => ¬ Stops limit s ∧ pc.Imp A s.lo s ∧ ∀ s', (k s').Outer limit A s'

def Exit.Imp (A : OSet) (H : ℕ) (s : State) : Exit → Prop
  | .done v => v = s ∧ Past H s
  | .goto pc => pc.Imp A H s
  | .call pc k => pc.Huff A s ∧ (∀ s', (k s').Imp A H s') ∨ pc.In (Below A) ∧ ∀ v, (k v).Imp A H s

def Exit.Huff (A : OSet) (s : State) : Exit → Prop
  | .done v => v = s
  | .goto pc => pc.Huff A s
  | .call _ _ => False

/-- A program that stores nothing. -/
abbrev Reads (p : Prog Exit) : Prop := Sets (fun _ => False) (fun _ => True) p

theorem code_reads (pc : PC) (h : pc.Outer limit A b) : Reads (code hash pc) := by
  cases pc with
  | start l B => exact fun _ => True.intro
  | main l B st =>
    rw [code]
    split
    · exact True.intro
    · exact True.intro
  | _ => exact absurd h id

theorem code_outer (pc : PC) (h : pc.Outer limit A b) : Track A (Below A) (Exit.Outer limit A b) b (code hash pc) := by
  cases pc with
  | start l B =>
    obtain ⟨rfl, rfl⟩ := h
    exact fun r hr => ⟨rfl, rfl, rfl, hr rfl⟩
  | main l B st =>
    obtain ⟨rfl, rfl, rfl⟩ := h
    rw [code]
    split
    · rename_i hs
      exact ⟨rfl, rfl, hs⟩
    · rename_i hs
      exact ⟨rfl, hs, ⟨rfl, rfl⟩, fun _ => ⟨rfl, rfl, rfl⟩⟩
  | _ => exact absurd h id

theorem below_low (hash : List ℕ → ℕ) (A : OSet) : Low hash A (Below A) true := low_below hash A true

theorem codeEdges_imp (level : ℕ) (s : State) : Track A (Below A) (Exit.Imp A H) s (codeEdges hash level A s) := by
  refine (buildEdges_track (below_low hash A) (pairs A.n) ?_ (E := Edges.empty) (by intro _ t ht; simp [Edges.empty] at ht)).bind ?_
  · intro p hp
    unfold pairs at hp
    simp only [List.mem_flatMap, List.mem_map, List.mem_filter, decide_eq_true_eq] at hp
    obtain ⟨i, _, j, ⟨_, hj⟩, rfl⟩ := hp
    exact hj
  · rintro s' E ⟨rfl, hE⟩
    exact ⟨rfl, rfl, hE rfl⟩

theorem codeHuffman_imp (level : ℕ) (hH : H ≤ s.lo) : Track A (Below A) (Exit.Imp A H) s (codeHuffman hash level A s) := by
  unfold codeHuffman
  split
  · exact Or.inl ⟨rfl, fun _ => ⟨rfl, rfl, hH⟩⟩
  · exact codeEdges_imp level s

theorem codeShortcut_imp (level : ℕ) (s : State) (pol : Bool) {p : Prog Exit}
    (h : Track A (Below A) (Exit.Imp A H) s p) : Track A (Below A) (Exit.Imp A H) s (codeShortcut hash level A s pol p) := by
  unfold codeShortcut
  split
  · refine Track.option fun T hT => Track.option fun C hC => ?_
    intro v _
    exact ⟨rfl, rfl, below_prune hT hC⟩
  · exact h

theorem codePrunedLower_imp (level : ℕ) {B : OSet} (hB : Below A B) (hH : H ≤ s.lo) (ps : State) :
    Track A (Below A) (Exit.Imp A H) s (codePrunedLower level A s B ps) := by
  unfold codePrunedLower
  split
  · rename_i h
    exact ⟨rfl, rfl, Or.inl (lt_of_le_of_lt hH h)⟩
  · exact Or.inr ⟨hB, fun _ => ⟨rfl, rfl, hB⟩⟩

theorem codeEdgesLower_imp (level : ℕ) (hH : H ≤ s.lo) {E : Edges} (hE : E.In (Below A)) :
    Track A (Below A) (Exit.Imp A H) s (codeEdgesLower level A s E) := by
  unfold codeEdgesLower
  refine Track.option fun m _ => ?_
  dsimp only
  split
  · rename_i h
    intro v hv
    exact ⟨rfl, rfl, Or.inl (lt_of_le_of_lt hH h)⟩
  · exact ⟨rfl, rfl, hE⟩

/-- The common part of the two loops. -/
theorem nextLoop_track {Q : State → Exit → Prop} (level : ℕ) (order : Option ℕ) {E : Edges} (hE : E.In (Below A)) (block : Bool)
    (r : Ret) (h1 : ∀ E : Edges, E.In (Below A) → Q s (.goto (r.resume E)))
    (h2 : ∀ (E : Edges) (b : Bool), E.In (Below A) → Q s (.goto (.nextLoop level order E b r))) :
    Track A (Below A) Q s (code hash (.nextLoop level order E block r)) := by
  rw [code]
  refine (pollLoop_track E.active hE false 0).bind ?_
  rintro s' p ⟨rfl, hp⟩
  refine Track.bind (R := Still s' fun _ => True) ?_ ?_
  · unfold Prog.assert
    split
    · exact ⟨rfl, True.intro⟩
    · exact True.intro
  · rintro s'' _ ⟨rfl, _⟩
    have hs : ∀ E : Edges, E.In (Below A) → Track A (Below A) Q s'' (codeSpawn level order E r) := by
      intro E hE
      refine (spawnLoop_track level order _ 0 (E := { targets := E.targets, active := E.sorted order }) hE true).bind ?_
      rintro s' q ⟨rfl, hq⟩
      exact h2 _ _ hq
    dsimp only
    split
    · exact h1 _ hp
    · split
      · exact hs _ hp
      · exact hs _ hp

theorem code_imp (hH : H ≤ s.lo) (pc : PC) (h : pc.Imp A H s) : Track A (Below A) (Exit.Imp A H) s (code hash pc) := by
  cases pc with
  | improve level prev B =>
    obtain ⟨rfl, rfl⟩ := h
    rw [code, bind_get]
    intro v hv
    obtain rfl := hv rfl
    dsimp only
    split
    · rename_i hne
      exact absurd rfl hne
    · split
      · rename_i he
        exact ⟨rfl, Or.inr he⟩
      · intro b
        cases b
        · exact ⟨rfl, rfl⟩
        · exact ⟨rfl, rfl⟩
  | locked level prev B =>
    obtain ⟨rfl, rfl⟩ := h
    rw [code, bind_get]
    intro v hv
    obtain rfl := hv rfl
    dsimp only
    split
    · rename_i hne
      exact absurd rfl hne
    · split
      · rename_i he
        exact ⟨rfl, Or.inr he⟩
      · exact codeShortcut_imp level v false (codeShortcut_imp level v true (codeHuffman_imp level hH))
  | pruned level B st C ps =>
    obtain ⟨rfl, rfl, hC⟩ := h
    rw [code]
    split
    · refine ⟨rfl, ?_⟩
      split
      · rename_i he
        exact ⟨rfl, Or.inr he⟩
      · exact codePrunedLower_imp level hC (by exact hH) _
    · exact codePrunedLower_imp level hC hH _
  | afterHuffman level B st new =>
    obtain ⟨rfl, rfl, hst⟩ := h
    rw [code]
    split
    · rename_i hgt
      exact ⟨rfl, Or.inl (lt_of_le_of_lt hst hgt)⟩
    · exact codeEdges_imp level new
  | edgesLoop level B st E =>
    obtain ⟨rfl, rfl, hE⟩ := h
    rw [code]
    refine Track.option fun _ _ => ?_
    dsimp only
    split
    · refine ⟨rfl, ?_⟩
      split
      · rename_i he
        exact ⟨rfl, Or.inr he⟩
      · exact codeEdgesLower_imp level (by exact hH) hE
    · exact codeEdgesLower_imp level hH hE
  | nextLoop level order E block r =>
    cases r with
    | huffman l B st ids uh => exact absurd h id
    | edges l B st =>
      obtain ⟨rfl, rfl, hE⟩ := h
      exact nextLoop_track level order hE block _ (fun _ h => ⟨rfl, rfl, h⟩) fun _ _ h => ⟨rfl, rfl, h⟩
  | _ => exact absurd h id

theorem code_huff (pc : PC) (h : pc.Huff A s) : Track A (Below A) (Exit.Huff A) s (code hash pc) := by
  cases pc with
  | huffman level B =>
    obtain rfl : B = A := h
    rw [code, bind_get]
    intro v hv
    obtain rfl := hv rfl
    dsimp only
    split
    · exact rfl
    · refine (buildPruned_track (below_low hash B) false _ (E := Edges.empty) (by intro t ht; simp [Edges.empty] at ht)).bind ?_
      rintro s' q0 ⟨rfl, h0⟩
      refine (buildPruned_track (below_low hash B) true _ h0).bind ?_
      rintro s' q1 ⟨rfl, h1⟩
      exact ⟨rfl, rfl, h1⟩
  | huffLoop level B st E ids uh =>
    obtain ⟨rfl, rfl, hE⟩ := h
    rw [code]
    split
    · refine (huffPol_track false ids st hE uh).bind ?_
      rintro s' q0 ⟨rfl, h0⟩
      split
      · exact rfl
      · refine (huffPol_track true ids _ h0 _).bind ?_
        rintro s' q1 ⟨rfl, h1⟩
        split
        · exact rfl
        · unfold codeHuffRest
          dsimp only
          split
          · exact ⟨rfl, rfl, rfl, h1⟩
          · exact ⟨rfl, rfl, h1⟩
    · exact rfl
  | nextLoop level order E block r =>
    cases r with
    | edges l B st => exact absurd h id
    | huffman l B st ids uh =>
      obtain ⟨rfl, rfl, hE⟩ := h
      exact nextLoop_track level order hE block _ (fun _ h => ⟨rfl, rfl, h⟩) fun _ _ h => ⟨rfl, rfl, h⟩
  | _ => exact absurd h id

/-- The outermost function waits for a call. -/
def OuterFrame (limit : Option ℕ) (A : OSet) (b : State) (f : Frame) : Prop :=
  ¬ Stops limit b ∧ ∀ s', (f.k s').Outer limit A s'

/-- A call made by `improve` for a set below `A`, with the callers between them. -/
def LowFrames (limit : Option ℕ) (A : OSet) (b s : State) (stack : List Frame) : Prop :=
  ∃ low g f, stack = low ++ [g, f] ∧ (∀ x ∈ low, ∀ v, (x.k v).In (Below A)) ∧ (∀ v, (g.k v).Imp A b.lo s) ∧ OuterFrame limit A b f

/-- `improve` waits for `improve_huffman`. -/
def HuffFrames (limit : Option ℕ) (A : OSet) (b : State) (stack : List Frame) : Prop :=
  ∃ g f, stack = [g, f] ∧ (∀ s', (g.k s').Imp A b.lo s') ∧ OuterFrame limit A b f

/-- Where the main task can be, when `b` is the state on the last line. -/
def Where (limit : Option ℕ) (A : OSet) (b s : State) (p : Prog Exit) (stack : List Frame) : Prop :=
  stack = [] ∧ s = b ∧ Reads p ∧ Track A (Below A) (Exit.Outer limit A b) s p ∨
  (∃ f, stack = [f] ∧ OuterFrame limit A b f ∧ Track A (Below A) (Exit.Imp A b.lo) s p) ∨
  HuffFrames limit A b stack ∧ Track A (Below A) (Exit.Huff A) s p ∨
  LowFrames limit A b s stack ∧ Sets (Below A) (Exit.In (Below A)) p

def Status.Where (limit : Option ℕ) (A : OSet) (b s : State) : Status → Prop
  | .run p _ stack => Search.Where limit A b s p stack
  | .sleep p _ stack => Search.Where limit A b s p stack
  | .wait _ _ p _ stack => Search.Where limit A b s p stack
  | .unwind v _ stack => stack = [] ∧ s = b ∧ v = s ∧ Stops limit v ∨ (∃ f, stack = [f] ∧ OuterFrame limit A b f ∧ v = s ∧ Past b.lo s) ∨
      HuffFrames limit A b stack ∧ v = s ∨ LowFrames limit A b s stack
  | .done v => s = b ∧ v = s ∧ Stops limit v
  | _ => True

/-- The same for the state of the search. -/
def Global.Where (limit : Option ℕ) (A : OSet) (b : State) (G : Global) : Prop :=
  b.lo ≤ (G.store.get A).lo ∧ (G.store.get A).hi ≤ b.hi ∧ ∀ t, G.tasks 0 = some t → t.status.Where limit A b (G.store.get A)

theorem Where.map {p p' : Prog Exit} {stack : List Frame} (h : Where limit A b s p stack)
    (h1 : ∀ Q : State → Exit → Prop, Track A (Below A) Q s p → Track A (Below A) Q s p')
    (h2 : ∀ (P : OSet → Prop) (Q : Exit → Prop), Sets P Q p → Sets P Q p') : Where limit A b s p' stack := by
  rcases h with ⟨e, eb, hr, h⟩ | ⟨f, e, hf, h⟩ | ⟨hs, h⟩ | ⟨hs, h⟩
  · exact Or.inl ⟨e, eb, h2 _ _ hr, h1 _ h⟩
  · exact Or.inr (Or.inl ⟨f, e, hf, h1 _ h⟩)
  · exact Or.inr (Or.inr (Or.inl ⟨hs, h1 _ h⟩))
  · exact Or.inr (Or.inr (Or.inr ⟨hs, h2 _ _ h⟩))

theorem where_update {f : ℕ → Option Task} (h : ∀ t, f 0 = some t → t.status.Where limit A b s) {i : ℕ} {t' : Task}
    (ht : i = 0 → t'.status.Where limit A b s) : ∀ t, Function.update f i (some t') 0 = some t → t.status.Where limit A b s := by
  intro t hj
  by_cases e : i = 0
  · subst e
    rw [Function.update_self] at hj
    cases hj
    exact ht rfl
  · rw [Function.update_of_ne (Ne.symm e)] at hj
    exact h t hj

theorem where_release {G : Global} (h : ∀ t, G.tasks 0 = some t → t.status.Where limit A b s) (r : Res) :
    ∀ t, (G.release r).tasks 0 = some t → t.status.Where limit A b s := by
  cases r with
  | lock B tok => exact h
  | handle hd =>
    intro t hj
    unfold Global.release Global.cancel at hj
    dsimp only at hj
    by_cases e : 0 = hd.tid
    · rw [← e, Function.update_self] at hj
      cases hG : G.tasks 0 with
      | none => rw [hG] at hj; simp at hj
      | some t0 =>
        rw [hG] at hj
        cases hj
        exact h t0 hG
    · rw [Function.update_of_ne e] at hj
      exact h t hj

theorem low_code_below {pc : PC} (h : pc.In (Below A)) : Sets (Below A) (Exit.In (Below A)) (code hash pc) :=
  low_code (below_low hash A) h

theorem Global.Where.act {i : ℕ} {G G' : Global} (hown : G.OwnRoot A (Below A) true) (h0 : ∃ t, G.tasks 0 = some t)
    (he : Evolves G.store G'.store) (h : G.Where limit A b) (hq : lines G G' = [])
    (ha : Act hash i G G') : G'.Where limit A b := by
  obtain ⟨hlo, hhi, h⟩ := h
  refine ⟨hlo.trans (he A).1, (he A).2.1.trans hhi, ?_⟩
  clear he
  have hst : ∀ {i : ℕ} {t : Task} {s : Status}, (i = 0 → s.Where limit A b (G.store.get A)) →
      ∀ u, (G.setStatus i t s).tasks 0 = some u → u.status.Where limit A b ((G.setStatus i t s).store.get A) :=
    fun h' => where_update h h'
  have hat : ∀ {t : Task} {s : Status}, G.tasks i = some t → t.status = s → i = 0 → s.Where limit A b (G.store.get A) := by
    rintro t s ht rfl rfl
    exact h t ht
  cases ha with
  | @get t B k owned stack ht e =>
    exact hst fun h0 => Search.Where.map (hat ht e h0) (fun Q h => h _ fun eB => by rw [eB]) fun _ _ h => h _
  | @set t B v k owned stack ht e hm =>
    by_cases hB : Below A B
    · intro u hu
      show u.status.Where limit A b ((G.store.set B v).get A)
      rw [get_set_ne _ hB.ne.symm v]
      exact where_update h (t' := { t with status := .run k owned stack })
        (fun h0 => Search.Where.map (hat ht e h0) (fun Q h => absurd h.1 hB.ne) fun _ _ h => h.2) u hu
    · by_cases hi0 : i = 0
      · have hw := hat ht e hi0
        subst hi0
        intro u hu
        simp only [Global.setStatus, Function.update_self, Option.some.injEq] at hu
        subst hu
        rcases hw with ⟨e1, eb, hr, h1⟩ | ⟨f, e1, hf, h1⟩ | ⟨hs, h1⟩ | ⟨hs, h1⟩
        · exact absurd hr.1 id
        · obtain ⟨rfl, h1⟩ := h1
          show Search.Where limit B b ((G.store.set B v).get B) k stack
          rw [get_set_self]
          exact Or.inr (Or.inl ⟨f, e1, hf, h1⟩)
        · obtain ⟨rfl, h1⟩ := h1
          show Search.Where limit B b ((G.store.set B v).get B) k stack
          rw [get_set_self]
          exact Or.inr (Or.inr (Or.inl ⟨hs, h1⟩))
        · exact absurd h1.1 hB
      · have := (hown _ _ ht).2 hi0
        rw [e] at this
        exact absurd this.1.1 hB
  | setPanic ht e hm => exact hst fun _ => True.intro
  | @lockFree t B k owned stack ht e hm hl =>
    exact where_update h fun h0 => Search.Where.map (p' := k true) (hat ht e h0) (fun Q h => h _) fun _ _ h => h _
  | @lockBusy t B k owned stack token ht e hm hl =>
    exact hst fun h0 => Search.Where.map (p' := k false) (hat ht e h0) (fun Q h => h _) fun _ _ h => h _
  | lockPanic ht e hm => exact hst fun _ => True.intro
  | lockWake ht e hl => exact hst fun h0 => by have := hat ht e h0; exact this
  | @spawn t level prev B k owned stack j ht e hj =>
    have hj0 : j ≠ 0 := by
      rintro rfl
      obtain ⟨t0, ht0⟩ := h0
      rw [hj] at ht0
      cases ht0
    refine where_update (where_update h ?_) fun h => absurd h hj0
    exact fun h0 => Search.Where.map (p' := k ⟨j, B, prev⟩) (hat ht e h0) (fun Q h => h.2 _) fun _ _ h => h.2 _
  | @addPending t prio hd k owned stack c ht e hc hne =>
    refine where_update (where_update h ?_) fun h0 => by have := h c (h0 ▸ hc); exact this
    exact fun h0 => Search.Where.map (p' := k) (hat ht e h0) (fun Q h => h) fun _ _ h => h
  | @schedule t hd k owned stack c ht e hc hne =>
    refine where_update (where_update h ?_) fun h0 => by have := h c (h0 ▸ hc); exact this
    exact fun h0 => Search.Where.map (p' := k) (hat ht e h0) (fun Q h => h) fun _ _ h => h
  | @isScheduled t hd k owned stack c ht e hc =>
    exact hst fun h0 => Search.Where.map (p' := k c.scheduled) (hat ht e h0) (fun Q h => h _) fun _ _ h => h _
  | @pollReady t hd k owned stack c v ht e hc hd' hne =>
    refine where_update (where_update h ?_) fun _ => True.intro
    exact fun h0 => Search.Where.map (p' := k (some v)) (hat ht e h0) (fun Q h => h _) fun _ _ h => h _
  | @pollPending t hd k owned stack c ht e hc h1 h2 h3 =>
    exact hst fun h0 => Search.Where.map (p' := k none) (hat ht e h0) (fun Q h => h _) fun _ _ h => h _
  | pollPanic ht e hc h1 h2 => exact hst fun _ => True.intro
  | @dropHandle t hd k owned stack ht e =>
    rw [release_store]
    refine where_release (G := G.setStatus i t _) ?_ _
    exact where_update h fun h0 => Search.Where.map (p' := k) (hat ht e h0) (fun Q h => h) fun _ _ h => h
  | @pending t k owned stack ht e =>
    exact hst fun h0 => Search.Where.map (p' := k) (hat ht e h0) (fun Q h => h) fun _ _ h => h
  | wake ht e hsch => exact hst fun h0 => by have := hat ht e h0; exact this
  | worker ht hq => exact where_update h fun h0 => by have := h _ (h0 ▸ ht); exact this
  | panic ht e => exact hst fun _ => True.intro
  | @goto t pc owned stack ht e =>
    refine hst fun h0 => ?_
    rcases hat ht e h0 with ⟨e1, eb, hr, h1⟩ | ⟨f, e1, hf, h1⟩ | ⟨hs, h1⟩ | ⟨hs, h1⟩
    · have h2 : pc.Outer limit A (G.store.get A) := h1.2
      refine Or.inl ⟨e1, eb, code_reads pc h2, ?_⟩
      rw [eb] at h2 ⊢
      exact code_outer pc h2
    · exact Or.inr (Or.inl ⟨f, e1, hf, code_imp hlo pc h1⟩)
    · exact Or.inr (Or.inr (Or.inl ⟨hs, code_huff pc h1⟩))
    · exact Or.inr (Or.inr (Or.inr ⟨hs, low_code_below h1⟩))
  | @call t pc k owned stack ht e =>
    refine hst fun h0 => ?_
    rcases hat ht e h0 with ⟨e1, eb, hr, h1⟩ | ⟨f, e1, hf, h1⟩ | ⟨hs, h1⟩ | ⟨hs, h1⟩
    · obtain ⟨_, h2, h3, h4⟩ := h1
      rw [eb] at h2 h3
      refine Or.inr (Or.inl ⟨⟨owned, k⟩, by rw [e1], ⟨h2, h4⟩, ?_⟩)
      rw [eb]
      exact code_imp (Nat.le_refl _) pc h3
    · rcases h1 with ⟨h1, h2⟩ | ⟨h1, h2⟩
      · exact Or.inr (Or.inr (Or.inl ⟨⟨_, f, by rw [e1], h2, hf⟩, code_huff pc h1⟩))
      · exact Or.inr (Or.inr (Or.inr ⟨⟨[], _, f, by rw [e1]; rfl, by simp, h2, hf⟩, low_code_below h1⟩))
    · exact absurd h1 id
    · obtain ⟨low, g, f, e1, h2, h3, h4⟩ := hs
      refine Or.inr (Or.inr (Or.inr ⟨⟨⟨owned, k⟩ :: low, g, f, by rw [e1]; rfl, ?_, h3, h4⟩, low_code_below h1.1⟩))
      intro x hx
      rcases List.mem_cons.1 hx with rfl | hx
      · exact h1.2
      · exact h2 x hx
  | @ret t v owned stack ht e =>
    refine hst fun h0 => ?_
    rcases hat ht e h0 with ⟨e1, eb, hr, h1⟩ | ⟨f, e1, hf, h1⟩ | ⟨hs, h1⟩ | ⟨hs, h1⟩
    · exact Or.inl ⟨e1, eb, h1.2⟩
    · exact Or.inr (Or.inl ⟨f, e1, hf, h1⟩)
    · exact Or.inr (Or.inr (Or.inl ⟨hs, h1⟩))
    · exact Or.inr (Or.inr (Or.inr hs))
  | @unwind t v r owned stack ht e hr hrec =>
    rw [release_store]
    refine where_release (G := G.setStatus i t _) ?_ _
    exact where_update h fun h0 => by have := hat ht e h0; exact this
  | unwindPanic ht e hr hrec => exact hst fun _ => True.intro
  | @«return» t v f stack ht e =>
    refine hst fun h0 => ?_
    rcases hat ht e h0 with ⟨e1, _⟩ | ⟨f', e1, hf, h1⟩ | ⟨⟨g, f', e1, hg, hf⟩, rfl⟩ | ⟨low, g, f', e1, h2, h3, h4⟩
    · cases e1
    · cases e1
      subst h0
      simp [lines, ht, e, Global.setStatus] at hq
    · cases e1
      exact Or.inr (Or.inl ⟨f', rfl, hf, code_imp hlo _ (hg _)⟩)
    · cases low with
      | nil =>
        cases e1
        exact Or.inr (Or.inl ⟨f', rfl, h4, code_imp hlo _ (h3 _)⟩)
      | cons x low =>
        cases e1
        exact Or.inr (Or.inr (Or.inr ⟨⟨low, g, f', rfl, fun y hy => h2 y (List.mem_cons_of_mem _ hy), h3, h4⟩,
          low_code_below (h2 f List.mem_cons_self v)⟩))
  | finish ht e =>
    refine hst fun h0 => ?_
    rcases hat ht e h0 with ⟨_, h⟩ | ⟨f', e1, _⟩ | ⟨⟨g, f', e1, _⟩, _⟩ | ⟨low, g, f', e1, _⟩
    · exact h
    · cases e1
    · cases e1
    · simp at e1
  | dropSleep ht e hc => exact hst fun _ => True.intro
  | dropWait ht e hc => exact hst fun _ => True.intro
  | drop ht e hr hrec =>
    rw [release_store]
    refine where_release (G := G.setStatus i _ _) ?_ _
    exact where_update h fun h0 => True.intro
  | dropPanic ht e hr hrec => exact hst fun _ => True.intro

theorem status_update {S : Status} {f : ℕ → Option Task} (h : ∀ t, f 0 = some t → t.status = S) {i : ℕ} {t' : Task}
    (ht : i = 0 → t'.status = S) : ∀ t, Function.update f i (some t') 0 = some t → t.status = S := by
  intro t hj
  by_cases e : i = 0
  · subst e
    rw [Function.update_self] at hj
    cases hj
    exact ht rfl
  · rw [Function.update_of_ne (Ne.symm e)] at hj
    exact h t hj

theorem status_release {S : Status} {G : Global} (h : ∀ t, G.tasks 0 = some t → t.status = S) (r : Res) :
    ∀ t, (G.release r).tasks 0 = some t → t.status = S := by
  cases r with
  | lock B tok => exact h
  | handle hd =>
    intro t hj
    unfold Global.release Global.cancel at hj
    dsimp only at hj
    by_cases e : 0 = hd.tid
    · rw [← e, Function.update_self] at hj
      cases hG : G.tasks 0 with
      | none => rw [hG] at hj; simp at hj
      | some t0 =>
        rw [hG] at hj
        cases hj
        exact h t0 hG
    · rw [Function.update_of_ne e] at hj
      exact h t hj

/-- The other tasks do not change the status of the main task while it runs. -/
theorem status_act {S : Status} {i : ℕ} {G G' : Global} (h0 : ∃ t, G.tasks 0 = some t) (hS : ∀ t, G.tasks 0 = some t → t.status = S)
    (hd : ∀ v, S ≠ .done v) (hi : i ≠ 0) (ha : Act hash i G G') : ∀ t, G'.tasks 0 = some t → t.status = S := by
  have one : ∀ {t : Task} {s : Status}, ∀ u, (G.setStatus i t s).tasks 0 = some u → u.status = S :=
    fun {t s} => status_update hS fun h => absurd h hi
  cases ha with
  | @spawn t level prev B k owned stack j ht e hj =>
    refine status_update (status_update hS fun h => absurd h hi) ?_
    rintro rfl
    obtain ⟨t0, ht0⟩ := h0
    rw [hj] at ht0
    cases ht0
  | addPending ht e hc hne => exact status_update (status_update hS fun h => absurd h hi) fun h0 => by have := hS _ (h0 ▸ hc); exact this
  | schedule ht e hc hne => exact status_update (status_update hS fun h => absurd h hi) fun h0 => by have := hS _ (h0 ▸ hc); exact this
  | pollReady ht e hc hc' hne =>
    refine status_update (status_update hS fun h => absurd h hi) fun h0 => ?_
    have := hS _ (h0 ▸ hc)
    rw [hc'] at this
    exact absurd this.symm (hd _)
  | dropHandle ht e => exact status_release one _
  | unwind ht e hr hrec => exact status_release one _
  | drop ht e hr hrec => exact status_release one _
  | worker ht hq => exact status_update hS fun h => absurd h hi
  | _ => exact one

theorem lines_ne {G G' : Global} (h : lines G G' ≠ []) : ∃ t u v f p o s, G.tasks 0 = some t ∧ G'.tasks 0 = some u ∧
    t.status = .unwind v [] [f] ∧ u.status = .run p o s ∧ lines G G' = [v] := by
  unfold lines at h ⊢
  split at h
  · rename_i v f p o s h1 h2
    rw [Option.map_eq_some_iff] at h1 h2
    obtain ⟨t, ht, e⟩ := h1
    obtain ⟨u, hu, e'⟩ := h2
    refine ⟨t, u, v, f, p, o, s, ht, hu, e, e', ?_⟩
    simp
  · exact absurd rfl h

/-- A line is logged exactly when the main task continues its outermost function. -/
theorem act_lines {i : ℕ} {G G' : Global} (ha : Act hash i G G') (h : lines G G' ≠ []) :
    ∃ t v f, G.tasks 0 = some t ∧ t.status = .unwind v [] [f] ∧ lines G G' = [v] ∧
      G' = G.setStatus 0 t (.run (code hash (f.k v)) f.owned []) := by
  obtain ⟨t, u, v, f, p, o, s, ht, hu, e, e', hl⟩ := lines_ne h
  refine ⟨t, v, f, ht, e, hl, ?_⟩
  have hS : ∀ t, G.tasks 0 = some t → t.status = .unwind v [] [f] := by
    intro t' ht'
    rw [ht] at ht'
    cases ht'
    exact e
  by_cases hi : i = 0
  · subst hi
    have hne : u.status ≠ .unwind v [] [f] := by rw [e']; simp
    cases ha with
    | @«return» t' v' f' stack ht' e1 =>
      rw [ht] at ht'
      cases ht'
      rw [e] at e1
      cases e1
      rfl
    | @worker t' ht' hq =>
      exact absurd (status_update (i := 0) (t' := { t' with scheduled := true }) hS (fun _ => (by have := hS _ ht'; exact this)) u hu) hne
    | unwind ht' e1 hr =>
      have := hS _ ht'
      rw [e1] at this
      cases this
      cases hr
    | unwindPanic ht' e1 hr =>
      have := hS _ ht'
      rw [e1] at this
      cases this
      cases hr
    | _ ht' e1 =>
      have := hS _ ht'
      rw [e1] at this
      cases this
  · have := status_act ⟨t, ht⟩ hS (by simp) hi ha u hu
    rw [e'] at this
    cases this

theorem Logged.reach {L : List State} {G : Global} (h : Logged hash limit A L G) : Reach hash limit A G := by
  induction h with
  | init => exact .init
  | step _ hs ih => exact .step ih hs

theorem Reach.logged {G : Global} (h : Reach hash limit A G) : ∃ L, Logged hash limit A L G := by
  induction h with
  | init => exact ⟨_, .init⟩
  | step _ hs ih =>
    obtain ⟨L, h⟩ := ih
    exact ⟨_, .step h hs⟩

/-- How a line follows from the line before it. -/
def Better (limit : Option ℕ) (a b : State) : Prop :=
  ¬ Stops limit a ∧ a.lo ≤ b.lo ∧ b.hi ≤ a.hi ∧ (a.lo < b.lo ∨ b.lo = b.hi)

/-- What holds of the lines logged so far. -/
structure LInv (limit : Option ℕ) (A : OSet) (L : List State) (G : Global) : Prop where
  whr : G.Where limit A ((defaultState A :: L).getLast (by simp))
  chain : (defaultState A :: L).IsChain (Better limit)
  lb : ∀ v ∈ L, LB A.s.toSet v.lo
  ub : ∀ v ∈ L, UB A.s.toSet v.hi
  le : ∀ v ∈ L, v.lo ≤ v.hi

theorem Logged.inv (hA : OK A) {L : List State} {G : Global} (h : Logged hash limit A L G) : LInv limit A L G := by
  induction h with
  | init =>
    refine ⟨⟨Nat.le_refl _, Nat.le_refl _, ?_⟩, by simp, by simp, by simp, by simp⟩
    intro t ht
    simp only [Search.init, if_true, Option.some.injEq] at ht
    subst ht
    exact Or.inl ⟨rfl, rfl, code_reads (limit := limit) (A := A) (b := defaultState A) _ ⟨rfl, rfl⟩, code_outer _ ⟨rfl, rfl⟩⟩
  | @step L G G' hl hs ih =>
    obtain ⟨β, hG, _⟩ := GInv.reach hA hl.reach
    obtain ⟨t0, ht0, _⟩ := hG.main
    have hev := hG.evolves hs
    obtain ⟨i, ha⟩ := hs
    by_cases hq : lines G G' = []
    · have hw := ih.whr.act (hl.reach.ownRoot hA) ⟨t0, ht0⟩ hev hq ha
      rw [hq, List.append_nil]
      exact ⟨hw, ih.chain, ih.lb, ih.ub, ih.le⟩
    · obtain ⟨t, v, f, ht, e, hv, rfl⟩ := act_lines ha hq
      rw [hv]
      obtain ⟨h1, h2, h3⟩ := ih.whr
      have h4 := h3 t ht
      rw [e] at h4
      have h5 : OuterFrame limit A ((defaultState A :: L).getLast (by simp)) f ∧ v = G.store.get A ∧
          Past ((defaultState A :: L).getLast (by simp)).lo (G.store.get A) := by
        rcases h4 with ⟨e1, _⟩ | ⟨f', e1, hf, h⟩ | ⟨⟨g, f', e1, _⟩, _⟩ | ⟨low, g, f', e1, _⟩
        · cases e1
        · cases e1
          exact ⟨hf, h⟩
        · cases e1
        · have := congrArg List.length e1
          simp at this
      obtain ⟨⟨h5, h6⟩, rfl, h7⟩ := h5
      have hadd : ∀ {P : State → Prop}, (∀ v ∈ L, P v) → P (G.store.get A) → ∀ v ∈ L ++ [G.store.get A], P v := by
        intro P hP hv v hm
        rcases List.mem_append.1 hm with hm | hm
        · exact hP v hm
        · rw [List.mem_singleton.1 hm]
          exact hv
      refine ⟨?_, ?_, hadd ih.lb (hG.sinv.lb A hA), hadd ih.ub (hG.sinv.ub A hA), hadd ih.le ((hG.sinv.known hA).lo_le hG.sinv hA)⟩
      · have el : (defaultState A :: (L ++ [G.store.get A])).getLast (by simp) = G.store.get A := by simp
        rw [el]
        refine ⟨Nat.le_refl _, Nat.le_refl _, ?_⟩
        intro u hu
        simp only [Global.setStatus, Function.update_self, Option.some.injEq] at hu
        subst hu
        exact Or.inl ⟨rfl, rfl, code_reads _ (h6 _), code_outer _ (h6 _)⟩
      · rw [← List.cons_append]
        refine List.isChain_append.2 ⟨ih.chain, by simp, ?_⟩
        intro x hx y hy
        rw [List.getLast?_eq_some_getLast (by simp), Option.mem_some_iff] at hx
        simp only [List.head?_cons, Option.mem_some_iff] at hy
        subst hx hy
        exact ⟨h5, h1, h2, h7⟩

/-- Every line after the first reduces the distance of the bounds. -/
theorem chain_length {a : State} {L : List State} (h : (a :: L).IsChain (Better limit)) (hle : ∀ v ∈ a :: L, v.lo ≤ v.hi) :
    a.lo + L.length ≤ a.hi := by
  induction L generalizing a with
  | nil => simpa using hle a List.mem_cons_self
  | cons c L ih =>
    rw [List.isChain_cons_cons] at h
    obtain ⟨⟨h1, h2, h3, h4⟩, h⟩ := h
    have ha := hle a List.mem_cons_self
    have hne : a.lo ≠ a.hi := fun e => h1 (Or.inl e)
    have := ih h fun v hv => hle v (List.mem_cons_of_mem _ hv)
    simp only [List.length_cons]
    omega

/-- Executes the model and collects the lines. -/
def execLog (hash : List ℕ → ℕ) : List (ℕ × ℕ) → List State → Global → Option (List State × Global)
  | [], L, G => some (L, G)
  | (N, i) :: l, L, G =>
    match act hash N i G with
    | none => none
    | some G1 => execLog hash l (L ++ lines G G1) G1

theorem execLog_logged {l : List (ℕ × ℕ)} {L L' : List State} {G G' : Global}
    (hG : Logged hash limit A L G) (h : execLog hash l L G = some (L', G')) : Logged hash limit A L' G' := by
  induction l generalizing L G with
  | nil => cases h; exact hG
  | cons x l ih =>
    obtain ⟨N, i⟩ := x
    rw [execLog] at h
    split at h
    · simp at h
    · next G1 h1 => exact ih (hG.step ⟨i, act_sound h1⟩) h

end Search

end Sortnet
