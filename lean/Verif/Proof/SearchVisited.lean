import Verif.Proof.SearchWP

/-!
# Which sets the search works on

Everything in the state map is obtained from the initial set by comparators, pruning and taking canonical forms.
-/

namespace Sortnet

namespace Search

/-- The sets the search works on, when started on `A0`. -/
inductive Visited (hash : List ℕ → ℕ) (A0 : OSet) : OSet → Prop
  | init : Visited hash A0 A0
  | successor {A T C : OSet} {i j : Fin A.n} : Visited hash A0 A → j < i → successor A i j = some T →
      canon hash T = some C → Visited hash A0 C
  | prune {A T C : OSet} {pol : Bool} {c : Fin A.n} : Visited hash A0 A → prune A pol c = some T →
      canon hash T = some C → Visited hash A0 C

variable {α β : Type} {hash : List ℕ → ℕ} {A0 : OSet}

/-- A program only stores and spawns tasks for sets in `P`, and its result satisfies `Q`. -/
def Sets (P : OSet → Prop) (Q : α → Prop) : Prog α → Prop
  | .ret a => Q a
  | .panic => True
  | .get _ k => ∀ r, Sets P Q (k r)
  | .set A _ k => P A ∧ Sets P Q k
  | .lock _ k => ∀ b, Sets P Q (k b)
  | .spawn _ _ A k => P A ∧ ∀ h, Sets P Q (k h)
  | .addPending _ _ k => Sets P Q k
  | .schedule _ k => Sets P Q k
  | .isScheduled _ k => ∀ b, Sets P Q (k b)
  | .poll _ k => ∀ r, Sets P Q (k r)
  | .dropHandle _ k => Sets P Q k
  | .pending k => Sets P Q k

theorem Sets.bind {P : OSet → Prop} {R : α → Prop} {Q : β → Prop} {p : Prog α} {f : α → Prog β} (h : Sets P R p)
    (hf : ∀ a, R a → Sets P Q (f a)) : Sets P Q (p >>= f) := by
  show Sets P Q (p.bind f)
  induction p with
  | ret a => exact hf a h
  | panic => exact True.intro
  | get A k ih => exact fun r => ih r (h r)
  | set A v k ih => exact ⟨h.1, ih h.2⟩
  | lock A k ih => exact fun r => ih r (h r)
  | spawn l p A k ih => exact ⟨h.1, fun r => ih r (h.2 r)⟩
  | addPending p h' k ih => exact ih h
  | schedule h' k ih => exact ih h
  | isScheduled h' k ih => exact fun r => ih r (h r)
  | poll h' k ih => exact fun r => ih r (h r)
  | dropHandle h' k ih => exact ih h
  | pending k ih => exact ih h

theorem Sets.ofOption {P : OSet → Prop} {Q : α → Prop} {o : Option α} (h : ∀ a, o = some a → Q a) :
    Sets P Q (Prog.ofOption o) := by
  cases o with
  | none => exact True.intro
  | some a => exact h a rfl

/-- The sets of the edges are in `P`. -/
def Edges.In (P : OSet → Prop) (E : Edges) : Prop := ∀ t ∈ E.targets, P t.set

/-- The sets a program point refers to are in `P`. -/
def PC.In (P : OSet → Prop) : PC → Prop
  | .start _ A => P A
  | .main _ A _ => P A
  | .improve _ _ A => P A
  | .locked _ _ A => P A
  | .pruned _ A _ B _ => P A ∧ P B
  | .afterHuffman _ A _ _ => P A
  | .edgesLoop _ A _ E => P A ∧ E.In P
  | .huffman _ A => P A
  | .huffLoop _ A _ E _ _ => P A ∧ E.In P
  | .nextLoop _ _ E _ (.edges _ A _) => P A ∧ E.In P
  | .nextLoop _ _ E _ (.huffman _ A _ _ _) => P A ∧ E.In P

/-- The same for the end of a program. -/
def Exit.In (P : OSet → Prop) : Exit → Prop
  | .done _ => True
  | .goto pc => pc.In P
  | .call pc k => pc.In P ∧ ∀ v, (k v).In P

section

variable {P : OSet → Prop}

theorem In.modify {E : Edges} (h : E.In P) {f : EdgeTarget → EdgeTarget} (hf : ∀ t, (f t).set = t.set) (id : ℕ) (l : List ℕ) :
    Edges.In P { targets := E.targets.modify id f, active := l } := by
  intro t ht
  dsimp only at ht
  obtain ⟨i, hi⟩ := List.getElem?_of_mem ht
  rw [List.getElem?_modify] at hi
  cases he : E.targets[i]? with
  | none => rw [he] at hi; simp at hi
  | some t0 =>
    rw [he] at hi
    have hm := h t0 (List.mem_of_getElem? he)
    simp only [Option.map_eq_map, Option.map_some, Option.some.injEq] at hi
    subst hi
    split
    · rw [hf]; exact hm
    · exact hm

theorem In.clear {E : Edges} (h : E.In P) (id : ℕ) : (E.clearRunning id).In P := by
  unfold Edges.clearRunning
  apply In.modify h
  intro t
  rfl

theorem In.setState {E : Edges} (h : E.In P) (id : ℕ) (v : State) : (E.setState id v).In P := by
  unfold Edges.setState
  apply In.modify h
  intro t
  rfl

theorem In.setRunning {E : Edges} (h : E.In P) (id : ℕ) (hd : Handle) : (E.setRunning id hd).In P := by
  unfold Edges.setRunning
  apply In.modify h
  intro t
  rfl

theorem addEdge_sets {E : Edges} {A : OSet} (h : E.In P) (hA : P A) : Sets P (fun r => r.1.In P) (E.addEdge A) := by
  unfold Edges.addEdge
  split
  · exact h
  · intro st
    intro t ht
    dsimp only at ht
    rcases List.mem_append.1 ht with ht | ht
    · exact h t ht
    · rw [List.mem_singleton.1 ht]; exact hA

theorem retainLoop_sets (keep : ℕ → Bool) (ids : List ℕ) {E : Edges} (h : E.In P) :
    Sets P (Edges.In P) (Edges.retainLoop keep ids E) := by
  induction ids generalizing E with
  | nil => exact h
  | cons id ids ih =>
    unfold Edges.retainLoop
    split
    · exact ih h
    · split
      · exact True.intro
      · split
        · exact ih h
        · exact ih (In.clear h id)

theorem retainEdges_sets {E : Edges} (keep : ℕ → Bool) (h : E.In P) : Sets P (Edges.In P) (E.retainEdges keep) :=
  (retainLoop_sets keep _ h).bind fun _ h' => h'

theorem pollLoop_sets (ids : List ℕ) {E : Edges} (h : E.In P) (b : Bool) (n : ℕ) :
    Sets P (fun r => r.1.In P) (Edges.pollLoop ids E b n) := by
  induction ids generalizing E b n with
  | nil => exact h
  | cons id ids ih =>
    unfold Edges.pollLoop
    split
    · exact True.intro
    · split
      · exact ih h _ _
      · intro r
        cases r with
        | none => exact fun b' => ih h _ _
        | some v => exact ih (In.clear (In.setState h id v) id) _ _

theorem spawnLoop_sets (level : ℕ) (order : Option ℕ) (ids : List ℕ) (index : ℕ) {E : Edges} (h : E.In P) (b : Bool) :
    Sets P (fun r => r.1.In P) (Edges.spawnLoop level order ids index E b) := by
  induction ids generalizing index E b with
  | nil => exact h
  | cons id ids ih =>
    unfold Edges.spawnLoop
    split
    · exact True.intro
    · rename_i t ht
      split
      · split
        · exact ih _ h _
        · exact ih _ h _
      · split
        · exact True.intro
        · refine ⟨h t (List.mem_of_getElem? ht), fun hd => ?_⟩
          have h' := In.setRunning h id hd
          split
          · split
            · exact ih _ h' _
            · exact ih _ h' _
          · exact ih _ h' _

theorem codeSpawn_sets (level : ℕ) (order : Option ℕ) {E : Edges} {r : Ret} (h : ∀ b, (PC.nextLoop level order E b r).In P) :
    Sets P (Exit.In P) (codeSpawn level order E r) := by
  have hE : E.In P := by
    have := h false
    cases r <;> exact this.2
  refine (spawnLoop_sets level order _ 0 (E := { targets := E.targets, active := E.sorted order }) hE true).bind ?_
  intro q hq
  have := h false
  cases r <;> exact ⟨this.1, hq⟩

variable (hs : ∀ A T C : OSet, ∀ i j : Fin A.n, P A → j < i → successor A i j = some T → canon hash T = some C → P C)
variable (hp : ∀ A T C : OSet, ∀ (pol : Bool) (c : Fin A.n), P A → prune A pol c = some T → canon hash T = some C → P C)

include hs in
theorem buildEdges_sets {A : OSet} (hA : P A) (ps : List (Fin A.n × Fin A.n)) (hps : ∀ p ∈ ps, p.2 < p.1) {E : Edges}
    (h : E.In P) : Sets P (Edges.In P) (buildEdges hash A ps E) := by
  induction ps generalizing E with
  | nil => exact h
  | cons p ps ih =>
    obtain ⟨i, j⟩ := p
    unfold buildEdges
    have ih' := @ih fun p hp => hps p (List.mem_cons_of_mem _ hp)
    split
    · exact ih' h
    · rename_i T hT
      refine (Sets.ofOption (Q := P) fun C hC => hs A T C i j hA (hps _ List.mem_cons_self) hT hC).bind fun C hC => ?_
      exact (addEdge_sets h hC).bind fun r hr => ih' hr

include hs in
theorem codeEdges_sets (level : ℕ) {A : OSet} (hA : P A) (st : State) :
    Sets P (Exit.In P) (codeEdges hash level A st) := by
  refine (buildEdges_sets hs hA (pairs A.n) ?_ (E := Edges.empty) (by intro t ht; simp [Edges.empty] at ht)).bind ?_
  · intro p hp
    unfold pairs at hp
    simp only [List.mem_flatMap, List.mem_map, List.mem_filter, decide_eq_true_eq] at hp
    obtain ⟨i, _, j, ⟨_, hj⟩, rfl⟩ := hp
    exact hj
  · intro E hE
    exact ⟨hA, hE⟩

include hp in
theorem buildPruned_sets {A : OSet} (hA : P A) (pol : Bool) (cs : List (Fin A.n)) {E : Edges}
    (h : E.In P) : Sets P (fun r => r.1.In P) (buildPruned hash A pol cs E) := by
  induction cs generalizing E with
  | nil => exact h
  | cons c cs ih =>
    unfold buildPruned
    refine (Sets.ofOption (Q := fun T => prune A pol c = some T) fun T hT => hT).bind fun T hT => ?_
    refine (Sets.ofOption (Q := P) fun C hC => hp A T C pol c hA hT hC).bind fun C hC => ?_
    exact (addEdge_sets h hC).bind fun r hr => (ih hr).bind fun r hr => hr

theorem huffPol_sets {A : OSet} (hA : P A) (pol : Bool) (ids : Bool → List ℕ) (st : State) {E : Edges} (h : E.In P)
    (uh : Bool → ℕ) : Sets P (fun r => r.2.2.1.In P) (huffPol A pol ids st E uh) := by
  unfold huffPol
  split
  · refine (Sets.ofOption (Q := fun _ => True) fun _ _ => True.intro).bind fun _ _ => ?_
    refine (Sets.ofOption (Q := fun _ => True) fun _ _ => True.intro).bind fun _ _ => ?_
    refine (Sets.ofOption (Q := fun _ => True) fun _ _ => True.intro).bind fun _ _ => ?_
    refine (Sets.ofOption (Q := fun _ => True) fun _ _ => True.intro).bind fun upper _ => ?_
    dsimp only
    by_cases hup : upper ≤ st.lo
    · rw [if_pos hup]
      refine (retainEdges_sets _ h).bind fun E' hE' => ?_
      split
      · split
        · exact ⟨hA, hE'⟩
        · exact ⟨hA, hE'⟩
      · exact hE'
    · rw [if_neg hup, bind_ret]
      split
      · split
        · exact ⟨hA, h⟩
        · exact ⟨hA, h⟩
      · exact h
  · exact h

include hs in
theorem codeHuffman_sets (level : ℕ) {A : OSet} (hA : P A) (st : State) :
    Sets P (Exit.In P) (codeHuffman hash level A st) := by
  unfold codeHuffman
  split
  · exact ⟨hA, fun _ => hA⟩
  · exact codeEdges_sets hs level hA st

include hp in
theorem codeShortcut_sets (level : ℕ) {A : OSet} (hA : P A) (st : State) (pol : Bool) {p : Prog Exit}
    (h : Sets P (Exit.In P) p) : Sets P (Exit.In P) (codeShortcut hash level A st pol p) := by
  unfold codeShortcut
  split
  · rename_i c hc
    refine (Sets.ofOption (Q := fun T => prune A pol c = some T) fun T hT => hT).bind fun T hT => ?_
    refine (Sets.ofOption (Q := P) fun C hC => hp A T C pol c hA hT hC).bind fun C hC => ?_
    intro v
    exact ⟨hA, hC⟩
  · exact h

theorem codePrunedLower_sets (level : ℕ) {A B : OSet} (hA : P A) (hB : P B) (st ps : State) :
    Sets P (Exit.In P) (codePrunedLower level A st B ps) := by
  unfold codePrunedLower
  split
  · exact ⟨hA, True.intro⟩
  · exact ⟨hB, fun _ => ⟨hA, hB⟩⟩

theorem codeEdgesLower_sets (level : ℕ) {A : OSet} (hA : P A) (st : State) {E : Edges} (hE : E.In P) :
    Sets P (Exit.In P) (codeEdgesLower level A st E) := by
  unfold codeEdgesLower
  refine (Sets.ofOption (Q := fun _ => True) fun _ _ => True.intro).bind fun _ _ => ?_
  dsimp only
  split
  · intro v
    exact ⟨hA, True.intro⟩
  · exact ⟨hA, hE⟩

theorem codeHuffRest_sets (level : ℕ) {A : OSet} (hA : P A) (st : State) {E : Edges} (hE : E.In P) (ids : Bool → List ℕ)
    (uh : Bool → ℕ) : Sets P (Exit.In P) (codeHuffRest level A st E ids uh) := by
  unfold codeHuffRest
  dsimp only
  split
  · exact ⟨hA, hA, hE⟩
  · exact ⟨hA, hE⟩

include hs hp in
theorem code_sets (pc : PC) (h : pc.In P) : Sets P (Exit.In P) (code hash pc) := by
  cases pc with
  | start limit A => exact fun _ => h
  | main limit A st =>
    rw [code]
    split
    · exact True.intro
    · exact ⟨h, fun _ => h⟩
  | improve level prev A =>
    rw [code, bind_get]
    intro v
    dsimp only
    split
    · exact True.intro
    · split
      · exact True.intro
      · intro b
        cases b
        · exact h
        · exact h
  | locked level prev A =>
    rw [code, bind_get]
    intro v
    dsimp only
    split
    · exact True.intro
    · split
      · exact True.intro
      · exact codeShortcut_sets hp level h v false (codeShortcut_sets hp level h v true (codeHuffman_sets hs level h v))
  | pruned level A st B ps =>
    rw [code]
    split
    · refine ⟨h.1, ?_⟩
      split
      · exact True.intro
      · exact codePrunedLower_sets level h.1 h.2 _ _
    · exact codePrunedLower_sets level h.1 h.2 _ _
  | afterHuffman level A st new =>
    rw [code]
    split
    · exact True.intro
    · exact codeEdges_sets hs level h new
  | edgesLoop level A st E =>
    rw [code]
    refine (Sets.ofOption (Q := fun _ => True) fun _ _ => True.intro).bind fun _ _ => ?_
    dsimp only
    split
    · refine ⟨h.1, ?_⟩
      split
      · exact True.intro
      · exact codeEdgesLower_sets level h.1 _ h.2
    · exact codeEdgesLower_sets level h.1 _ h.2
  | huffman level A =>
    rw [code, bind_get]
    intro v
    dsimp only
    split
    · exact True.intro
    · refine (buildPruned_sets hp h false _ (E := Edges.empty) (by intro t ht; simp [Edges.empty] at ht)).bind fun q0 h0 => ?_
      refine (buildPruned_sets hp h true _ h0).bind fun q1 h1 => ?_
      exact ⟨h, h1⟩
  | huffLoop level A st E ids uh =>
    rw [code]
    split
    · refine (huffPol_sets h.1 false ids st h.2 uh).bind fun q0 h0 => ?_
      split
      · exact True.intro
      · refine (huffPol_sets h.1 true ids _ h0 _).bind fun q1 h1 => ?_
        split
        · exact True.intro
        · exact codeHuffRest_sets level h.1 _ h1 ids _
    · exact True.intro
  | nextLoop level order E block r =>
    rw [code]
    have hE : E.In P := by cases r <;> exact h.2
    refine (pollLoop_sets E.active hE false 0).bind fun p hp' => ?_
    refine Sets.bind (R := fun _ => True) ?_ fun _ _ => ?_
    · unfold Prog.assert
      split
      · exact True.intro
      · exact True.intro
    · have hn : ∀ b, (PC.nextLoop level order { targets := p.1.targets, active := p.1.active.filter p.1.open } b r).In P := by
        intro b
        cases r <;> exact ⟨h.1, hp'⟩
      dsimp only
      split
      · cases r <;> exact ⟨h.1, hp'⟩
      · split
        · exact codeSpawn_sets level order hn
        · exact codeSpawn_sets level order hn

end

/-- The sets the status of a task refers to are in `P`. -/
def Status.In (P : OSet → Prop) : Status → Prop
  | .run p _ stack => Sets P (Exit.In P) p ∧ ∀ f ∈ stack, ∀ v, (f.k v).In P
  | .sleep p _ stack => Sets P (Exit.In P) p ∧ ∀ f ∈ stack, ∀ v, (f.k v).In P
  | .wait _ _ p _ stack => Sets P (Exit.In P) p ∧ ∀ f ∈ stack, ∀ v, (f.k v).In P
  | .unwind _ _ stack => ∀ f ∈ stack, ∀ v, (f.k v).In P
  | _ => True

/-- All sets in the state map and in the tasks are in `P`. -/
structure Global.In (P : OSet → Prop) (G : Global) : Prop where
  store : ∀ A v, G.store A = some v → P A
  task : ∀ i t, G.tasks i = some t → t.status.In P

theorem In.update {P : OSet → Prop} {f : ℕ → Option Task} (h : ∀ i t, f i = some t → t.status.In P) {i : ℕ} {t' : Task}
    (ht : t'.status.In P) : ∀ j t, Function.update f i (some t') j = some t → t.status.In P := by
  intro j t hj
  by_cases e : j = i
  · subst e
    rw [Function.update_self] at hj
    cases hj
    exact ht
  · rw [Function.update_of_ne e] at hj
    exact h j t hj

theorem In.cancel {P : OSet → Prop} {G : Global} (h : G.In P) (i : ℕ) : (G.cancel i).In P := by
  refine ⟨h.store, ?_⟩
  intro j t hj
  unfold Global.cancel at hj
  dsimp only at hj
  by_cases e : j = i
  · subst e
    rw [Function.update_self] at hj
    cases hG : G.tasks j with
    | none => rw [hG] at hj; simp at hj
    | some t0 =>
      rw [hG] at hj
      cases hj
      exact h.task j t0 hG
  · rw [Function.update_of_ne e] at hj
    exact h.task j t hj

theorem In.release {P : OSet → Prop} {G : Global} (h : G.In P) (r : Res) : (G.release r).In P := by
  cases r with
  | lock A tok => exact ⟨h.store, h.task⟩
  | handle hd => exact In.cancel h _

theorem In.act {P : OSet → Prop}
    (hs : ∀ A T C : OSet, ∀ i j : Fin A.n, P A → j < i → Search.successor A i j = some T → canon hash T = some C → P C)
    (hp : ∀ A T C : OSet, ∀ (pol : Bool) (c : Fin A.n), P A → Search.prune A pol c = some T → canon hash T = some C → P C)
    {i : ℕ} {G G' : Global} (h : G.In P) (ha : Act hash i G G') : G'.In P := by
  have hst : ∀ {i : ℕ} {t : Task} {s : Status}, s.In P → (G.setStatus i t s).In P := by
    intro i t s h'
    exact ⟨h.store, In.update h.task h'⟩
  cases ha with
  | get ht e => have := h.task _ _ ht; rw [e] at this; exact hst ⟨this.1 _, this.2⟩
  | set ht e hm =>
    have := h.task _ _ ht; rw [e] at this
    refine ⟨?_, In.update h.task ⟨this.1.2, this.2⟩⟩
    intro B w hB
    dsimp only [Store.set] at hB
    split at hB
    · rename_i hBA; rw [hBA]; exact this.1.1
    · exact h.store B w hB
  | setPanic ht e hm => exact hst True.intro
  | lockFree ht e hm hl =>
    have := h.task _ _ ht; rw [e] at this
    exact ⟨h.store, In.update h.task ⟨this.1 _, this.2⟩⟩
  | lockBusy ht e hm hl => have := h.task _ _ ht; rw [e] at this; exact hst ⟨this.1 _, this.2⟩
  | lockPanic ht e hm => exact hst True.intro
  | lockWake ht e hl => have := h.task _ _ ht; rw [e] at this; exact hst this
  | spawn ht e hj =>
    have := h.task _ _ ht; rw [e] at this
    refine ⟨h.store, In.update (In.update h.task ?_) ?_⟩
    · exact ⟨this.1.2 _, this.2⟩
    · exact ⟨code_sets hs hp _ this.1.1, by simp⟩
  | addPending ht e hc hne =>
    have := h.task _ _ ht; rw [e] at this
    refine ⟨h.store, In.update (In.update h.task ?_) ?_⟩
    · exact this
    · have := h.task _ _ hc
      exact this
  | schedule ht e hc hne =>
    have := h.task _ _ ht; rw [e] at this
    refine ⟨h.store, In.update (In.update h.task ?_) ?_⟩
    · exact this
    · have := h.task _ _ hc
      exact this
  | isScheduled ht e hc => have := h.task _ _ ht; rw [e] at this; exact hst ⟨this.1 _, this.2⟩
  | pollReady ht e hc hd hne =>
    have := h.task _ _ ht; rw [e] at this
    refine ⟨h.store, In.update (In.update h.task ?_) ?_⟩
    · exact ⟨this.1 _, this.2⟩
    · exact True.intro
  | pollPending ht e hc h1 h2 h3 => have := h.task _ _ ht; rw [e] at this; exact hst ⟨this.1 _, this.2⟩
  | pollPanic ht e hc h1 h2 => exact hst True.intro
  | dropHandle ht e =>
    have := h.task _ _ ht; rw [e] at this
    refine In.release (hst ?_) _
    exact this
  | pending ht e => have := h.task _ _ ht; rw [e] at this; exact hst this
  | wake ht e hsch => have := h.task _ _ ht; rw [e] at this; exact hst this
  | worker ht hq =>
    refine ⟨h.store, In.update h.task ?_⟩
    have := h.task _ _ ht
    exact this
  | panic ht e => exact hst True.intro
  | goto ht e => have := h.task _ _ ht; rw [e] at this; exact hst ⟨code_sets hs hp _ this.1, this.2⟩
  | call ht e =>
    have := h.task _ _ ht; rw [e] at this
    refine hst ⟨code_sets hs hp _ this.1.1, ?_⟩
    intro f hf
    rcases List.mem_cons.1 hf with rfl | hf
    · exact this.1.2
    · exact this.2 f hf
  | ret ht e => have := h.task _ _ ht; rw [e] at this; exact hst this.2
  | unwind ht e hr hrec =>
    have := h.task _ _ ht; rw [e] at this
    refine In.release (hst ?_) _
    exact this
  | unwindPanic ht e hr hrec => exact hst True.intro
  | «return» ht e =>
    have := h.task _ _ ht; rw [e] at this
    exact hst ⟨code_sets hs hp _ (this _ List.mem_cons_self _), fun f hf => this f (List.mem_cons_of_mem _ hf)⟩
  | finish ht e => exact hst True.intro
  | dropSleep ht e hc => exact hst True.intro
  | dropWait ht e hc => exact hst True.intro
  | drop ht e hr hrec =>
    refine In.release (hst ?_) _
    exact True.intro
  | dropPanic ht e hr hrec => exact hst True.intro

/-- Everything in the state map is obtained from the initial set by comparators, pruning and canonical forms. -/
theorem Reach.visited {limit : Option ℕ} {G : Global} (h : Reach hash limit A0 G) {A : OSet} {v : State}
    (hA : G.store A = some v) : Visited hash A0 A := by
  have key : G.In (Visited hash A0) := by
    have hs : ∀ A T C : OSet, ∀ i j : Fin A.n, Visited hash A0 A → j < i → Search.successor A i j = some T →
        canon hash T = some C → Visited hash A0 C := fun A T C i j h1 h2 h3 h4 => .successor h1 h2 h3 h4
    have hp : ∀ A T C : OSet, ∀ (pol : Bool) (c : Fin A.n), Visited hash A0 A → Search.prune A pol c = some T →
        canon hash T = some C → Visited hash A0 C := fun A T C pol c h1 h2 h3 => .prune h1 h2 h3
    clear hA
    induction h with
    | init =>
      refine ⟨by simp [Search.init], ?_⟩
      intro i t ht
      unfold Search.init at ht
      dsimp only at ht
      split at ht
      · cases ht
        exact ⟨code_sets hs hp _ .init, by simp⟩
      · simp at ht
    | step _ hst ih =>
      obtain ⟨i, ha⟩ := hst
      exact In.act hs hp ih ha
  exact key.store A v hA

end Search

end Sortnet
