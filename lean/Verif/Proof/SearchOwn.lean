import Verif.Proof.SearchVisited

/-!
# Who changes the entry of the initial set

Only the main task works on the initial set.  What it returns is what it stored last.  The other tasks work on sets with a
property `P`, for example on the sets below the initial set.  With `md = false` the main task has not yet looked at the
successors of the initial set.
-/

namespace Sortnet

namespace Search

variable {α β : Type} {hash : List ℕ → ℕ} {A : OSet} {P : OSet → Prop} {md : Bool}

/-- The sets below `A`. -/
def Below (A B : OSet) : Prop := rank B < rank A

theorem Below.successor {A B T C : OSet} {i j : Fin B.n} (h : Below A B) (hj : j < i) (hT : Search.successor B i j = some T)
    (hC : canon hash T = some C) : Below A C := by
  unfold Below at *
  rw [rank_canon hC]
  exact (rank_successor hj.ne' hT).trans h

theorem Below.prune {A B T C : OSet} {pol : Bool} {c : Fin B.n} (h : Below A B) (hT : Search.prune B pol c = some T)
    (hC : canon hash T = some C) : Below A C := by
  unfold Below at *
  rw [rank_canon hC]
  exact (rank_prune hT).trans h

theorem below_successor {T C : OSet} {i j : Fin A.n} (hj : j < i) (hT : Search.successor A i j = some T)
    (hC : canon hash T = some C) : Below A C := by
  unfold Below
  rw [rank_canon hC]
  exact rank_successor hj.ne' hT

theorem below_prune {T C : OSet} {pol : Bool} {c : Fin A.n} (hT : Search.prune A pol c = some T)
    (hC : canon hash T = some C) : Below A C := by
  unfold Below
  rw [rank_canon hC]
  exact rank_prune hT

theorem Below.ne {A B : OSet} (h : Below A B) : B ≠ A := by
  rintro rfl
  exact lt_irrefl _ h

/-- What is needed of the property `P` of the sets other tasks work on. -/
structure Low (hash : List ℕ → ℕ) (A : OSet) (P : OSet → Prop) (md : Bool) : Prop where
  ne : ∀ B, P B → B ≠ A
  succ : ∀ B T C : OSet, ∀ i j : Fin B.n, P B → j < i → Search.successor B i j = some T → canon hash T = some C → P C
  prune : ∀ B T C : OSet, ∀ (pol : Bool) (c : Fin B.n), P B → Search.prune B pol c = some T → canon hash T = some C → P C
  rootPrune : ∀ T C : OSet, ∀ (pol : Bool) (c : Fin A.n), Search.prune A pol c = some T → canon hash T = some C → P C
  rootSucc : md = true → ∀ T C : OSet, ∀ i j : Fin A.n, j < i → Search.successor A i j = some T → canon hash T = some C → P C

theorem low_below (hash : List ℕ → ℕ) (A : OSet) (md : Bool) : Low hash A (Below A) e :=
  ⟨fun _ h => h.ne, fun _ _ _ _ _ hB hj hT hC => hB.successor hj hT hC, fun _ _ _ _ _ hB hT hC => hB.prune hT hC,
    fun _ _ _ _ hT hC => below_prune hT hC, fun _ _ _ _ _ hj hT hC => below_successor hj hT hC⟩

/-- A program that only stores states of `A` and only spawns tasks for sets with `P`, started when the state of `A` is `s`: its
result and the state of `A` at its end satisfy `Q`. -/
def Track (A : OSet) (P : OSet → Prop) (Q : State → α → Prop) : State → Prog α → Prop
  | s, .ret a => Q s a
  | _, .panic => True
  | s, .get B k => ∀ r, (B = A → r = s) → Track A P Q s (k r)
  | _, .set B v k => B = A ∧ Track A P Q v k
  | s, .lock _ k => ∀ b, Track A P Q s (k b)
  | s, .spawn _ _ B k => P B ∧ ∀ h, Track A P Q s (k h)
  | s, .addPending _ _ k => Track A P Q s k
  | s, .schedule _ k => Track A P Q s k
  | s, .isScheduled _ k => ∀ b, Track A P Q s (k b)
  | s, .poll _ k => ∀ r, Track A P Q s (k r)
  | s, .dropHandle _ k => Track A P Q s k
  | s, .pending k => Track A P Q s k

theorem Track.bind {R : State → α → Prop} {Q : State → β → Prop} {s : State} {p : Prog α} {f : α → Prog β}
    (h : Track A P R s p) (hf : ∀ s a, R s a → Track A P Q s (f a)) : Track A P Q s (p >>= f) := by
  show Track A P Q s (p.bind f)
  induction p generalizing s with
  | ret a => exact hf s a h
  | panic => exact True.intro
  | get B k ih => exact fun r hr => ih r (h r hr)
  | set B v k ih => exact ⟨h.1, ih h.2⟩
  | lock B k ih => exact fun r => ih r (h r)
  | spawn l p B k ih => exact ⟨h.1, fun r => ih r (h.2 r)⟩
  | addPending p h' k ih => exact ih h
  | schedule h' k ih => exact ih h
  | isScheduled h' k ih => exact fun r => ih r (h r)
  | poll h' k ih => exact fun r => ih r (h r)
  | dropHandle h' k ih => exact ih h
  | pending k ih => exact ih h

theorem Track.ofOption {Q : State → α → Prop} {s : State} {o : Option α} (h : ∀ a, o = some a → Q s a) :
    Track A P Q s (Prog.ofOption o) := by
  cases o with
  | none => exact True.intro
  | some a => exact h a rfl

/-- A value read from a pure computation. -/
theorem Track.option {Q : State → β → Prop} {s : State} {o : Option α} {f : α → Prog β}
    (h : ∀ a, o = some a → Track A P Q s (f a)) : Track A P Q s (Prog.ofOption o >>= f) :=
  (Track.ofOption (Q := fun s' a => s' = s ∧ o = some a) fun a ha => ⟨rfl, ha⟩).bind fun s' a ha => by
    rw [ha.1]
    exact h a ha.2

/-- The program point works on `A` and knows its state, or is about to read it. -/
def PC.Root (A : OSet) (P : OSet → Prop) (md : Bool) (s : State) : PC → Prop
  | .start _ B => B = A
  | .main _ B st => B = A ∧ st = s
  | .improve _ _ B => B = A
  | .locked _ _ B => B = A
  | .pruned _ B st C _ => B = A ∧ st = s ∧ P C
  | .afterHuffman _ B _ new => B = A ∧ new = s
  | .edgesLoop _ B st E => B = A ∧ st = s ∧ (md = true → E.In P)
  | .huffman _ B => B = A
  | .huffLoop _ B st E _ _ => B = A ∧ st = s ∧ E.In P
  | .nextLoop _ _ E _ (.edges _ B st) => (B = A ∧ st = s ∧ E.In P) ∧ md = true
  | .nextLoop _ _ E _ (.huffman _ B st _ _) => B = A ∧ st = s ∧ E.In P

/-- The loop over the successors of `A`. -/
def PC.edgesOf (A : OSet) : PC → Prop
  | .edgesLoop _ B _ _ => B = A
  | _ => False

/-- The same, but with `md = false` not the loop over the successors. -/
def PC.Next (A : OSet) (P : OSet → Prop) (md : Bool) (s : State) (pc : PC) : Prop :=
  pc.Root A P md s ∧ (md = true ∨ ¬ pc.edgesOf A)

/-- The same for the end of a program. -/
def Exit.Root (A : OSet) (P : OSet → Prop) (md : Bool) (s : State) : Exit → Prop
  | .done v => v = s
  | .goto pc => pc.Root A P md s
  | .call pc k => pc.Next A P md s ∧ (∀ s', (k s').Next A P md s') ∨ pc.In P ∧ ∀ v, (k v).Next A P md s

/-- The state of `A` does not change and the result satisfies `Q`. -/
abbrev Still (s : State) (Q : α → Prop) : State → α → Prop := fun s' a => s' = s ∧ Q a

theorem addEdge_track {E : Edges} {B : OSet} {s : State} {c : Prop} (h : c → E.In P) (hB : c → P B) :
    Track A P (Still s fun r => c → r.1.In P) s (E.addEdge B) := by
  unfold Edges.addEdge
  split
  · exact ⟨rfl, h⟩
  · intro st _
    refine ⟨rfl, ?_⟩
    intro hc t ht
    dsimp only at ht
    rcases List.mem_append.1 ht with ht | ht
    · exact h hc t ht
    · rw [List.mem_singleton.1 ht]; exact hB hc

theorem retainLoop_track (keep : ℕ → Bool) (ids : List ℕ) {E : Edges} {s : State} (h : E.In P) :
    Track A P (Still s (Edges.In P)) s (Edges.retainLoop keep ids E) := by
  induction ids generalizing E with
  | nil => exact ⟨rfl, h⟩
  | cons id ids ih =>
    unfold Edges.retainLoop
    split
    · exact ih h
    · split
      · exact True.intro
      · split
        · exact ih h
        · exact ih (In.clear h id)

theorem retainEdges_track {E : Edges} {s : State} (keep : ℕ → Bool) (h : E.In P) :
    Track A P (Still s (Edges.In P)) s (E.retainEdges keep) :=
  (retainLoop_track keep _ h).bind fun _ _ h' => h'

theorem pollLoop_track (ids : List ℕ) {E : Edges} {s : State} (h : E.In P) (b : Bool) (n : ℕ) :
    Track A P (Still s fun r => r.1.In P) s (Edges.pollLoop ids E b n) := by
  induction ids generalizing E b n with
  | nil => exact ⟨rfl, h⟩
  | cons id ids ih =>
    unfold Edges.pollLoop
    split
    · exact True.intro
    · split
      · exact ih h _ _
      · intro r
        cases r with
        | none => exact fun b' => ih h _ _
        | some v => exact ih (In.clear (In.setState h id v) id) _ _

theorem spawnLoop_track (level : ℕ) (order : Option ℕ) (ids : List ℕ) (index : ℕ) {E : Edges} {s : State}
    (h : E.In P) (b : Bool) :
    Track A P (Still s fun r => r.1.In P) s (Edges.spawnLoop level order ids index E b) := by
  induction ids generalizing index E b with
  | nil => exact ⟨rfl, h⟩
  | cons id ids ih =>
    unfold Edges.spawnLoop
    split
    · exact True.intro
    · rename_i t ht
      split
      · split
        · exact ih _ h _
        · exact ih _ h _
      · split
        · exact True.intro
        · refine ⟨h t (List.mem_of_getElem? ht), fun hd => ?_⟩
          have h' := In.setRunning h id hd
          split
          · split
            · exact ih _ h' _
            · exact ih _ h' _
          · exact ih _ h' _

theorem codeSpawn_track (level : ℕ) (order : Option ℕ) {E : Edges} {r : Ret} {s : State}
    (h : ∀ b, (PC.nextLoop level order E b r).Root A P md s) : Track A P (Exit.Root A P md) s (codeSpawn level order E r) := by
  have hE : E.In P := by
    have := h false
    cases r with
    | edges l B st => exact this.1.2.2
    | huffman l B st ids uh => exact this.2.2
  refine (spawnLoop_track level order _ 0 (E := { targets := E.targets, active := E.sorted order }) hE true).bind ?_
  rintro s' q ⟨rfl, hq⟩
  have := h false
  cases r with
  | edges l B st => exact ⟨⟨this.1.1, this.1.2.1, hq⟩, this.2⟩
  | huffman l B st ids uh => exact ⟨this.1, this.2.1, hq⟩

theorem buildEdges_track (hL : Low hash A P md) (ps : List (Fin A.n × Fin A.n)) (hps : ∀ p ∈ ps, p.2 < p.1) {E : Edges} {s : State}
    (h : md = true → E.In P) : Track A P (Still s fun E => md = true → E.In P) s (buildEdges hash A ps E) := by
  induction ps generalizing E with
  | nil => exact ⟨rfl, h⟩
  | cons p ps ih =>
    obtain ⟨i, j⟩ := p
    unfold buildEdges
    have ih' := @ih fun p hp => hps p (List.mem_cons_of_mem _ hp)
    split
    · exact ih' h
    · rename_i T hT
      refine Track.option fun C hC => ?_
      refine (addEdge_track h (fun he => hL.rootSucc he _ _ _ _ (hps _ List.mem_cons_self) hT hC)).bind ?_
      rintro s' r ⟨rfl, hr⟩
      exact ih' hr

theorem codeEdges_track (hL : Low hash A P md) (level : ℕ) (s : State) : Track A P (Exit.Root A P md) s (codeEdges hash level A s) := by
  refine (buildEdges_track hL (pairs A.n) ?_ (E := Edges.empty) (by intro _ t ht; simp [Edges.empty] at ht)).bind ?_
  · intro p hp
    unfold pairs at hp
    simp only [List.mem_flatMap, List.mem_map, List.mem_filter, decide_eq_true_eq] at hp
    obtain ⟨i, _, j, ⟨_, hj⟩, rfl⟩ := hp
    exact hj
  · rintro s' E ⟨rfl, hE⟩
    exact ⟨rfl, rfl, hE⟩

theorem buildPruned_track (hL : Low hash A P md) (pol : Bool) (cs : List (Fin A.n)) {E : Edges} {s : State}
    (h : E.In P) : Track A P (Still s fun r => r.1.In P) s (buildPruned hash A pol cs E) := by
  induction cs generalizing E with
  | nil => exact ⟨rfl, h⟩
  | cons c cs ih =>
    unfold buildPruned
    refine Track.option fun T hT => Track.option fun C hC => ?_
    refine (addEdge_track (c := True) (fun _ => h) (fun _ => hL.rootPrune _ _ _ _ hT hC)).bind ?_
    rintro s' r ⟨rfl, hr⟩
    refine (ih (hr True.intro)).bind ?_
    rintro s' r ⟨rfl, hr⟩
    exact ⟨rfl, hr⟩

theorem huffPol_track (pol : Bool) (ids : Bool → List ℕ) (s : State) {E : Edges} (h : E.In P)
    (uh : Bool → ℕ) : Track A P (fun s' r => r.2.1 = s' ∧ r.2.2.1.In P) s (huffPol A pol ids s E uh) := by
  unfold huffPol
  split
  · refine Track.option fun _ _ => Track.option fun _ _ => Track.option fun _ _ => Track.option fun upper _ => ?_
    dsimp only
    by_cases hup : upper ≤ s.lo
    · rw [if_pos hup]
      refine (retainEdges_track _ h).bind ?_
      rintro s' E' ⟨rfl, hE'⟩
      split
      · split
        · exact ⟨rfl, rfl, hE'⟩
        · exact ⟨rfl, rfl, hE'⟩
      · exact ⟨rfl, hE'⟩
    · rw [if_neg hup, bind_ret]
      split
      · split
        · exact ⟨rfl, rfl, h⟩
        · exact ⟨rfl, rfl, h⟩
      · exact ⟨rfl, h⟩
  · exact ⟨rfl, h⟩

theorem codeHuffman_track (hL : Low hash A P md) (level : ℕ) (s : State) : Track A P (Exit.Root A P md) s (codeHuffman hash level A s) := by
  unfold codeHuffman
  split
  · exact Or.inl ⟨⟨rfl, Or.inr id⟩, fun _ => ⟨⟨rfl, rfl⟩, Or.inr id⟩⟩
  · exact codeEdges_track hL level s

theorem codeShortcut_track (hL : Low hash A P md) (level : ℕ) (s : State) (pol : Bool) {p : Prog Exit}
    (h : Track A P (Exit.Root A P md) s p) : Track A P (Exit.Root A P md) s (codeShortcut hash level A s pol p) := by
  unfold codeShortcut
  split
  · rename_i c hc
    refine Track.option fun T hT => Track.option fun C hC => ?_
    intro v _
    exact ⟨rfl, rfl, hL.rootPrune _ _ _ _ hT hC⟩
  · exact h

theorem codePrunedLower_track (level : ℕ) {B : OSet} (hB : P B) (s ps : State) :
    Track A P (Exit.Root A P md) s (codePrunedLower level A s B ps) := by
  unfold codePrunedLower
  split
  · exact ⟨rfl, rfl⟩
  · exact Or.inr ⟨hB, fun _ => ⟨⟨rfl, rfl, hB⟩, Or.inr id⟩⟩

theorem codeEdgesLower_track (he : md = true) (level : ℕ) (s : State) {E : Edges} (hE : E.In P) :
    Track A P (Exit.Root A P md) s (codeEdgesLower level A s E) := by
  unfold codeEdgesLower
  refine Track.option fun _ _ => ?_
  dsimp only
  split
  · intro v _
    exact ⟨rfl, rfl⟩
  · exact ⟨⟨rfl, rfl, hE⟩, he⟩

theorem codeHuffRest_track (level : ℕ) (s : State) {E : Edges} (hE : E.In P) (ids : Bool → List ℕ)
    (uh : Bool → ℕ) : Track A P (Exit.Root A P md) s (codeHuffRest level A s E ids uh) := by
  unfold codeHuffRest
  dsimp only
  split
  · exact ⟨rfl, rfl, rfl, hE⟩
  · exact ⟨rfl, rfl, hE⟩

/-- Every program point of the main task that works on `A` returns or passes on the state it stored last. -/
theorem code_track (hL : Low hash A P md) {s : State} (pc : PC) (hn : pc.Next A P md s) :
    Track A P (Exit.Root A P md) s (code hash pc) := by
  obtain ⟨h, he⟩ := hn
  cases pc with
  | start limit B =>
    obtain rfl : B = A := h
    exact fun r hr => ⟨rfl, hr rfl⟩
  | main limit B st =>
    obtain ⟨rfl, rfl⟩ := h
    rw [code]
    split
    · exact rfl
    · exact Or.inl ⟨⟨rfl, Or.inr id⟩, fun _ => ⟨⟨rfl, rfl⟩, Or.inr id⟩⟩
  | improve level prev B =>
    obtain rfl : B = A := h
    rw [code, bind_get]
    intro v hv
    obtain rfl := hv rfl
    dsimp only
    split
    · exact rfl
    · split
      · exact rfl
      · intro b
        cases b
        · exact (rfl : B = B)
        · exact (rfl : B = B)
  | locked level prev B =>
    obtain rfl : B = A := h
    rw [code, bind_get]
    intro v hv
    obtain rfl := hv rfl
    dsimp only
    split
    · exact rfl
    · split
      · exact rfl
      · exact codeShortcut_track hL level v false (codeShortcut_track hL level v true (codeHuffman_track hL level v))
  | pruned level B st C ps =>
    obtain ⟨rfl, rfl, hC⟩ := h
    rw [code]
    split
    · refine ⟨rfl, ?_⟩
      split
      · exact rfl
      · exact codePrunedLower_track level hC _ _
    · exact codePrunedLower_track level hC _ _
  | afterHuffman level B st new =>
    obtain ⟨rfl, rfl⟩ := h
    rw [code]
    split
    · exact rfl
    · exact codeEdges_track hL level new
  | edgesLoop level B st E =>
    obtain ⟨rfl, rfl, hE⟩ := h
    obtain rfl : md = true := he.resolve_right fun hne => hne rfl
    have hE := hE rfl
    rw [code]
    refine Track.option fun _ _ => ?_
    dsimp only
    split
    · refine ⟨rfl, ?_⟩
      split
      · exact rfl
      · exact codeEdgesLower_track rfl level _ hE
    · exact codeEdgesLower_track rfl level _ hE
  | huffman level B =>
    obtain rfl : B = A := h
    rw [code, bind_get]
    intro v hv
    obtain rfl := hv rfl
    dsimp only
    split
    · exact rfl
    · refine (buildPruned_track hL false _ (E := Edges.empty) (by intro t ht; simp [Edges.empty] at ht)).bind ?_
      rintro s' q0 ⟨rfl, h0⟩
      refine (buildPruned_track hL true _ h0).bind ?_
      rintro s' q1 ⟨rfl, h1⟩
      exact ⟨rfl, rfl, h1⟩
  | huffLoop level B st E ids uh =>
    obtain ⟨rfl, rfl, hE⟩ := h
    rw [code]
    split
    · refine (huffPol_track false ids st hE uh).bind ?_
      rintro s' q0 ⟨rfl, h0⟩
      split
      · exact rfl
      · refine (huffPol_track true ids _ h0 _).bind ?_
        rintro s' q1 ⟨rfl, h1⟩
        split
        · exact rfl
        · exact codeHuffRest_track level _ h1 ids _
    · exact rfl
  | nextLoop level order E block r =>
    rw [code]
    have hE : E.In P := by
      cases r with
      | edges l B st => exact h.1.2.2
      | huffman l B st ids uh => exact h.2.2
    refine (pollLoop_track E.active hE false 0).bind ?_
    rintro s' p ⟨rfl, hp'⟩
    refine Track.bind (R := Still s' fun _ => True) ?_ ?_
    · unfold Prog.assert
      split
      · exact ⟨rfl, True.intro⟩
      · exact True.intro
    · rintro s'' _ ⟨rfl, _⟩
      have hn : ∀ b, (PC.nextLoop level order { targets := p.1.targets, active := p.1.active.filter p.1.open } b r).Root A P md s'' := by
        intro b
        cases r with
        | edges l B st => exact ⟨⟨h.1.1, h.1.2.1, hp'⟩, h.2⟩
        | huffman l B st ids uh => exact ⟨h.1, h.2.1, hp'⟩
      dsimp only
      split
      · cases r with
        | edges l B st => exact ⟨h.1.1, h.1.2.1, fun _ => hp'⟩
        | huffman l B st ids uh => exact ⟨h.1, h.2.1, hp'⟩
      · split
        · exact codeSpawn_track level order hn
        · exact codeSpawn_track level order hn

/-- The callers of a call that works on `A`. -/
def Callers (A : OSet) (P : OSet → Prop) (md : Bool) (stack : List Frame) : Prop :=
  ∀ f ∈ stack, ∀ s, (f.k s).Next A P md s

/-- The callers of a call that works on a set with `P`: those that work on sets with `P`, the one that works on `A`, and its
callers. -/
def LowCallers (A : OSet) (P : OSet → Prop) (md : Bool) (s : State) (stack : List Frame) : Prop :=
  ∃ low f up, stack = low ++ f :: up ∧ (∀ g ∈ low, ∀ v, (g.k v).In P) ∧ (∀ v, (f.k v).Next A P md s) ∧
    Callers A P md up

/-- A program of the main task with its callers. -/
def Runs (A : OSet) (P : OSet → Prop) (md : Bool) (s : State) (p : Prog Exit) (stack : List Frame) : Prop :=
  Track A P (Exit.Root A P md) s p ∧ Callers A P md stack ∨ Sets P (Exit.In P) p ∧ LowCallers A P md s stack

/-- The status of the main task when the state of `A` is `s`. -/
def Status.Root (A : OSet) (P : OSet → Prop) (md : Bool) (s : State) : Status → Prop
  | .run p _ stack => Runs A P md s p stack
  | .sleep p _ stack => Runs A P md s p stack
  | .wait _ _ p _ stack => Runs A P md s p stack
  | .unwind v _ stack => v = s ∧ Callers A P md stack ∨ LowCallers A P md s stack
  | .done v => v = s
  | _ => True

/-- What is known of the program of a task with its callers: the main task works on `A`, the other tasks on sets with `P`. -/
def Task.Runs (A : OSet) (P : OSet → Prop) (md : Bool) (i : ℕ) (s : State) (p : Prog Exit) (stack : List Frame) : Prop :=
  (i = 0 → Search.Runs A P md s p stack) ∧
    (i ≠ 0 → Sets P (Exit.In P) p ∧ ∀ f ∈ stack, ∀ v, (f.k v).In P)

/-- The same for the status of a task. -/
def Status.Own (A : OSet) (P : OSet → Prop) (md : Bool) (i : ℕ) (s : State) (st : Status) : Prop := (i = 0 → st.Root A P md s) ∧ (i ≠ 0 → st.In P)

/-- The same for all tasks. -/
def Global.OwnRoot (A : OSet) (P : OSet → Prop) (md : Bool) (G : Global) : Prop := ∀ i t, G.tasks i = some t → t.status.Own A P md i (G.store.get A)

theorem Task.Runs.map {i : ℕ} {s : State} {p p' : Prog Exit} {stack : List Frame} (h : Task.Runs A P md i s p stack)
    (h1 : Track A P (Exit.Root A P md) s p → Track A P (Exit.Root A P md) s p')
    (h2 : Sets P (Exit.In P) p → Sets P (Exit.In P) p') : Task.Runs A P md i s p' stack :=
  ⟨fun e => (h.1 e).imp (fun h => ⟨h1 h.1, h.2⟩) fun h => ⟨h2 h.1, h.2⟩, fun e => ⟨h2 (h.2 e).1, (h.2 e).2⟩⟩

theorem low_code (hL : Low hash A P md) {pc : PC} (h : pc.In P) : Sets P (Exit.In P) (code hash pc) :=
  code_sets hL.succ hL.prune pc h

theorem ownRoot_update {f : ℕ → Option Task} {s : State} (h : ∀ i t, f i = some t → t.status.Own A P md i s) {i : ℕ} {t' : Task}
    (ht : t'.status.Own A P md i s) : ∀ j t, Function.update f i (some t') j = some t → t.status.Own A P md j s := by
  intro j t hj
  by_cases e : j = i
  · subst e
    rw [Function.update_self] at hj
    cases hj
    exact ht
  · rw [Function.update_of_ne e] at hj
    exact h j t hj

theorem Global.OwnRoot.release {G : Global} (h : G.OwnRoot A P md) (r : Res) : (G.release r).OwnRoot A P md := by
  cases r with
  | lock B tok => exact h
  | handle hd =>
    intro j t hj
    unfold Global.release Global.cancel at hj
    dsimp only at hj
    by_cases e : j = hd.tid
    · subst e
      rw [Function.update_self] at hj
      cases hG : G.tasks hd.tid with
      | none => rw [hG] at hj; simp at hj
      | some t0 =>
        rw [hG] at hj
        cases hj
        exact h _ t0 hG
    · rw [Function.update_of_ne e] at hj
      exact h j t hj

theorem own_true {i : ℕ} {s : State} {st : Status} (h1 : st.Root A P md s) (h2 : st.In P) : st.Own A P md i s :=
  ⟨fun _ => h1, fun _ => h2⟩

theorem Global.OwnRoot.act (hL : Low hash A P md) {i : ℕ} {G G' : Global} (h : G.OwnRoot A P md) (h0 : ∃ t, G.tasks 0 = some t)
    (hgo : md = true ∨ ∀ t pc owned stack, G.tasks 0 = some t → t.status = .run (.ret (.goto pc)) owned stack → ¬ pc.edgesOf A)
    (ha : Act hash i G G') :
    G'.OwnRoot A P md := by
  have hst : ∀ {i : ℕ} {t : Task} {s : Status}, s.Own A P md i (G.store.get A) → (G.setStatus i t s).OwnRoot A P md :=
    fun h' => ownRoot_update h h'
  cases ha with
  | @get t B k owned stack ht e =>
    have h' : Task.Runs A P md i (G.store.get A) (.get B k) stack := by have := h _ _ ht; rw [e] at this; exact this
    exact hst (h'.map (p' := k (G.store.get B)) (fun h => h _ fun e => by rw [e]) (fun h => h _))
  | @set t B v k owned stack ht e hm =>
    have h' : Task.Runs A P md i (G.store.get A) (.set B v k) stack := by have := h _ _ ht; rw [e] at this; exact this
    by_cases hB : P B
    · have hget : (G.store.set B v).get A = G.store.get A := get_set_ne _ (hL.ne _ hB).symm v
      have h2 : Task.Runs A P md i (G.store.get A) k stack :=
        h'.map (fun h => absurd h.1 (hL.ne _ hB)) fun h => h.2
      intro j u hu
      show u.status.Own A P md j ((G.store.set B v).get A)
      rw [hget]
      exact ownRoot_update h (t' := { t with status := .run k owned stack }) h2 j u hu
    · by_cases hi : i = 0
      · subst hi
        rcases h'.1 rfl with ⟨⟨rfl, h1⟩, h2⟩ | ⟨h1, h2⟩
        · intro j u hu
          show u.status.Own B P md j ((G.store.set B v).get B)
          rw [get_set_self]
          by_cases hj : j = 0
          · subst hj
            simp only [Global.setStatus, Function.update_self, Option.some.injEq] at hu
            subst hu
            exact ⟨fun _ => Or.inl ⟨h1, h2⟩, fun h => absurd rfl h⟩
          · simp only [Global.setStatus] at hu
            rw [Function.update_of_ne hj] at hu
            exact ⟨fun h => absurd h hj, (h j u hu).2⟩
        · exact absurd h1.1 hB
      · exact absurd (h'.2 hi).1.1 hB
  | setPanic ht e hm => exact hst (own_true True.intro True.intro)
  | @lockFree t B k owned stack ht e hm hl =>
    have h' : Task.Runs A P md i (G.store.get A) (.lock B k) stack := by have := h _ _ ht; rw [e] at this; exact this
    exact ownRoot_update h (h'.map (p' := k true) (fun h => h _) (fun h => h _))
  | @lockBusy t B k owned stack token ht e hm hl =>
    have h' : Task.Runs A P md i (G.store.get A) (.lock B k) stack := by have := h _ _ ht; rw [e] at this; exact this
    exact hst (h'.map (p' := k false) (fun h => h _) (fun h => h _))
  | lockPanic ht e hm => exact hst (own_true True.intro True.intro)
  | lockWake ht e hl => have := h _ _ ht; rw [e] at this; exact hst this
  | @spawn t level prev B k owned stack j ht e hj =>
    have h' : Task.Runs A P md i (G.store.get A) (.spawn level prev B k) stack := by have := h _ _ ht; rw [e] at this; exact this
    have hB : P B := by
      by_cases hi : i = 0
      · rcases h'.1 hi with h | h
        · exact h.1.1
        · exact h.1.1
      · exact (h'.2 hi).1.1
    have hj0 : j ≠ 0 := by
      rintro rfl
      obtain ⟨t0, ht0⟩ := h0
      rw [hj] at ht0
      cases ht0
    refine ownRoot_update (ownRoot_update h ?_) ?_
    · exact h'.map (p' := k ⟨j, B, prev⟩) (fun h => h.2 _) (fun h => h.2 _)
    · exact ⟨fun h => absurd h hj0, fun _ => ⟨low_code hL hB, by simp⟩⟩
  | @addPending t prio hd k owned stack c ht e hc hne =>
    have h' : Task.Runs A P md i (G.store.get A) (.addPending prio hd k) stack := by have := h _ _ ht; rw [e] at this; exact this
    refine ownRoot_update (ownRoot_update h ?_) (by have := h _ _ hc; exact this)
    exact h'.map (p' := k) (fun h => h) (fun h => h)
  | @schedule t hd k owned stack c ht e hc hne =>
    have h' : Task.Runs A P md i (G.store.get A) (.schedule hd k) stack := by have := h _ _ ht; rw [e] at this; exact this
    refine ownRoot_update (ownRoot_update h ?_) (by have := h _ _ hc; exact this)
    exact h'.map (p' := k) (fun h => h) (fun h => h)
  | @isScheduled t hd k owned stack c ht e hc =>
    have h' : Task.Runs A P md i (G.store.get A) (.isScheduled hd k) stack := by have := h _ _ ht; rw [e] at this; exact this
    exact hst (h'.map (p' := k c.scheduled) (fun h => h _) (fun h => h _))
  | @pollReady t hd k owned stack c v ht e hc hd' hne =>
    have h' : Task.Runs A P md i (G.store.get A) (.poll hd k) stack := by have := h _ _ ht; rw [e] at this; exact this
    refine ownRoot_update (ownRoot_update h ?_) (own_true True.intro True.intro)
    exact h'.map (p' := k (some v)) (fun h => h _) (fun h => h _)
  | @pollPending t hd k owned stack c ht e hc h1 h2 h3 =>
    have h' : Task.Runs A P md i (G.store.get A) (.poll hd k) stack := by have := h _ _ ht; rw [e] at this; exact this
    exact hst (h'.map (p' := k none) (fun h => h _) (fun h => h _))
  | pollPanic ht e hc h1 h2 => exact hst (own_true True.intro True.intro)
  | @dropHandle t hd k owned stack ht e =>
    have h' : Task.Runs A P md i (G.store.get A) (.dropHandle hd k) stack := by have := h _ _ ht; rw [e] at this; exact this
    refine Global.OwnRoot.release (hst ?_) _
    exact h'.map (p' := k) (fun h => h) (fun h => h)
  | @pending t k owned stack ht e =>
    have h' : Task.Runs A P md i (G.store.get A) (.pending k) stack := by have := h _ _ ht; rw [e] at this; exact this
    exact hst (h'.map (p' := k) (fun h => h) (fun h => h))
  | wake ht e hsch => have := h _ _ ht; rw [e] at this; exact hst this
  | worker ht hq => exact ownRoot_update h (by have := h _ _ ht; exact this)
  | panic ht e => exact hst (own_true True.intro True.intro)
  | @goto t pc owned stack ht e =>
    have h' : Task.Runs A P md i (G.store.get A) (.ret (.goto pc)) stack := by have := h _ _ ht; rw [e] at this; exact this
    refine hst ⟨fun hi => ?_, fun hi => ⟨low_code hL (h'.2 hi).1, (h'.2 hi).2⟩⟩
    subst hi
    rcases h'.1 rfl with ⟨h1, h2⟩ | ⟨h1, h2⟩
    · exact Or.inl ⟨code_track hL pc ⟨h1, hgo.imp_right fun hgo => hgo t pc owned stack ht e⟩, h2⟩
    · exact Or.inr ⟨low_code hL h1, h2⟩
  | @call t pc k owned stack ht e =>
    have h' : Task.Runs A P md i (G.store.get A) (.ret (.call pc k)) stack := by have := h _ _ ht; rw [e] at this; exact this
    refine hst ⟨fun hi => ?_, fun hi => ?_⟩
    · rcases h'.1 hi with ⟨⟨h1, h2⟩ | ⟨h1, h2⟩, h3⟩ | ⟨⟨h1, h2⟩, low, f, up, rfl, h3, h4, h5⟩
      · refine Or.inl ⟨code_track hL pc h1, ?_⟩
        intro f hf
        rcases List.mem_cons.1 hf with rfl | hf
        · exact h2
        · exact h3 f hf
      · exact Or.inr ⟨low_code hL h1, [], _, stack, rfl, by simp, h2, h3⟩
      · refine Or.inr ⟨low_code hL h1, ⟨owned, k⟩ :: low, f, up, rfl, ?_, h4, h5⟩
        intro g hg
        rcases List.mem_cons.1 hg with rfl | hg
        · exact h2
        · exact h3 g hg
    · obtain ⟨⟨h1, h2⟩, h3⟩ := h'.2 hi
      refine ⟨low_code hL h1, ?_⟩
      intro f hf
      rcases List.mem_cons.1 hf with rfl | hf
      · exact h2
      · exact h3 f hf
  | @ret t v owned stack ht e =>
    have h' : Task.Runs A P md i (G.store.get A) (.ret (.done v)) stack := by have := h _ _ ht; rw [e] at this; exact this
    exact hst ⟨fun hi => (h'.1 hi).imp (fun h => h) fun h => h.2, fun hi => (h'.2 hi).2⟩
  | unwind ht e hr hrec =>
    have := h _ _ ht; rw [e] at this
    refine Global.OwnRoot.release (hst ?_) _
    exact this
  | unwindPanic ht e hr hrec => exact hst (own_true True.intro True.intro)
  | @«return» t v f stack ht e =>
    have := h _ _ ht; rw [e] at this
    refine hst ⟨fun hi => ?_, fun hi => ?_⟩
    · rcases this.1 hi with ⟨rfl, h2⟩ | ⟨low, f', up, h1, h2, h3, h4⟩
      · exact Or.inl ⟨code_track hL _ (h2 f List.mem_cons_self _), fun g hg => h2 g (List.mem_cons_of_mem _ hg)⟩
      · cases low with
        | nil =>
          rw [List.nil_append, List.cons.injEq] at h1
          obtain ⟨rfl, rfl⟩ := h1
          exact Or.inl ⟨code_track hL _ (h3 v), h4⟩
        | cons g low =>
          rw [List.cons_append, List.cons.injEq] at h1
          obtain ⟨rfl, rfl⟩ := h1
          exact Or.inr ⟨low_code hL (h2 f List.mem_cons_self v), low, f', up, rfl,
            fun g hg => h2 g (List.mem_cons_of_mem _ hg), h3, h4⟩
    · have h2 := this.2 hi
      exact ⟨low_code hL (h2 f List.mem_cons_self v), fun g hg => h2 g (List.mem_cons_of_mem _ hg)⟩
  | finish ht e =>
    have := h _ _ ht; rw [e] at this
    refine hst ⟨fun hi => ?_, fun _ => True.intro⟩
    rcases this.1 hi with ⟨rfl, _⟩ | ⟨low, f', up, h1, _⟩
    · exact rfl
    · cases low <;> cases h1
  | dropSleep ht e hc => exact hst (own_true True.intro True.intro)
  | dropWait ht e hc => exact hst (own_true True.intro True.intro)
  | drop ht e hr hrec =>
    refine Global.OwnRoot.release (hst ?_) _
    exact own_true True.intro True.intro
  | dropPanic ht e hr hrec => exact hst (own_true True.intro True.intro)

end Search

end Sortnet
