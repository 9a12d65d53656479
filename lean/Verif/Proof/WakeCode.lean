import Verif.Model.Wake
import Verif.Proof.SearchCode

/-!
# The code of the search registers its wakers

Before a task is suspended at `pending!()` it polls all handles it owns.  At all other program points it owns handles
without being suspended.
-/

namespace Sortnet

namespace Search

open Prog

variable {hash : List ℕ → ℕ} {α β : Type}

/-- The program is not suspended at `pending!()` and ends with `P`. -/
def Calm (P : α → Prop) : Prog α → Prop
  | .ret a => P a
  | .panic => True
  | .get _ k => ∀ s, Calm P (k s)
  | .set _ _ k => Calm P k
  | .lock _ k => ∀ b, Calm P (k b)
  | .spawn _ _ _ k => ∀ h, Calm P (k h)
  | .addPending _ _ k => Calm P k
  | .schedule _ k => Calm P k
  | .isScheduled _ k => ∀ b, Calm P (k b)
  | .poll _ k => ∀ r, Calm P (k r)
  | .dropHandle _ k => Calm P k
  | .pending _ => False

/-- The program is calm after it has been suspended, has taken a lock or has spawned a task, and ends with `P`. -/
def Tame (P : α → Prop) : Prog α → Prop
  | .ret a => P a
  | .panic => True
  | .get _ k => ∀ s, Tame P (k s)
  | .set _ _ k => Tame P k
  | .lock _ k => ∀ b, Calm P (k b)
  | .spawn _ _ _ k => ∀ h, Calm P (k h)
  | .addPending _ _ k => Tame P k
  | .schedule _ k => Tame P k
  | .isScheduled _ k => ∀ b, Tame P (k b)
  | .poll _ k => ∀ r, Tame P (k r)
  | .dropHandle _ k => Tame P k
  | .pending k => Calm P k

/-- The program polls the handle `h` or drops it before it is suspended at `pending!()`. -/
def Safe (h : Handle) : Prog α → Prop
  | .ret _ => True
  | .panic => True
  | .get _ k => ∀ s, Safe h (k s)
  | .set _ _ k => Safe h k
  | .lock _ k => ∀ b, Safe h (k b)
  | .spawn _ _ _ k => ∀ h', Safe h (k h')
  | .addPending _ _ k => Safe h k
  | .schedule _ k => Safe h k
  | .isScheduled _ k => ∀ b, Safe h (k b)
  | .poll h' k => (h' = h ∨ Safe h (k none)) ∧ ∀ v, Safe h (k (some v))
  | .dropHandle h' k => h' = h ∨ Safe h k
  | .pending _ => False

theorem Calm.tame {P : α → Prop} {p : Prog α} (h : Calm P p) : Tame P p := by
  induction p with
  | ret a => exact h
  | panic => trivial
  | get A k ih => exact fun s => ih s (h s)
  | set A v k ih => exact ih h
  | lock A k ih => exact h
  | spawn l p A k ih => exact h
  | addPending p h' k ih => exact ih h
  | schedule h' k ih => exact ih h
  | isScheduled h' k ih => exact fun s => ih s (h s)
  | poll h' k ih => exact fun s => ih s (h s)
  | dropHandle h' k ih => exact ih h
  | pending k ih => exact h.elim

theorem Calm.safe {P : α → Prop} {p : Prog α} (h : Calm P p) (hd : Handle) : Safe hd p := by
  induction p with
  | ret a => trivial
  | panic => trivial
  | get A k ih => exact fun s => ih s (h s)
  | set A v k ih => exact ih h
  | lock A k ih => exact fun s => ih s (h s)
  | spawn l p A k ih => exact fun s => ih s (h s)
  | addPending p h' k ih => exact ih h
  | schedule h' k ih => exact ih h
  | isScheduled h' k ih => exact fun s => ih s (h s)
  | poll h' k ih => exact ⟨Or.inr (ih _ (h _)), fun v => ih _ (h _)⟩
  | dropHandle h' k ih => exact Or.inr (ih h)
  | pending k ih => exact h.elim

theorem Calm.bind {P : α → Prop} {Q : β → Prop} {p : Prog α} {f : α → Prog β} (h : Calm P p)
    (hf : ∀ a, P a → Calm Q (f a)) : Calm Q (p.bind f) := by
  induction p with
  | ret a => exact hf a h
  | panic => trivial
  | get A k ih => exact fun s => ih s (h s)
  | set A v k ih => exact ih h
  | lock A k ih => exact fun s => ih s (h s)
  | spawn l p A k ih => exact fun s => ih s (h s)
  | addPending p h' k ih => exact ih h
  | schedule h' k ih => exact ih h
  | isScheduled h' k ih => exact fun s => ih s (h s)
  | poll h' k ih => exact fun s => ih s (h s)
  | dropHandle h' k ih => exact ih h
  | pending k ih => exact h.elim

theorem Calm.bind' {Q : β → Prop} {p : Prog α} {f : α → Prog β} (h : Calm (fun _ => True) p)
    (hf : ∀ a, Calm Q (f a)) : Calm Q (p.bind f) := h.bind fun a _ => hf a

theorem calm_ofOption (o : Option α) : Calm (fun _ => True) (ofOption o) := by
  cases o <;> trivial

theorem calm_assert (b : Bool) : Calm (fun _ => True) (assert b) := by
  cases b <;> trivial

theorem calm_addEdge (E : Edges) (A : OSet) : Calm (fun _ => True) (E.addEdge A) := by
  unfold Edges.addEdge
  split
  · trivial
  · exact fun _ => trivial

theorem calm_retainLoop (keep : ℕ → Bool) (ids : List ℕ) (E : Edges) :
    Calm (fun _ => True) (Edges.retainLoop keep ids E) := by
  induction ids generalizing E with
  | nil => trivial
  | cons id ids ih =>
    rw [Edges.retainLoop]
    split
    · exact ih _
    · split
      · trivial
      · split
        · exact ih _
        · exact ih _

theorem calm_retainEdges (E : Edges) (keep : ℕ → Bool) : Calm (fun _ => True) (E.retainEdges keep) :=
  (calm_retainLoop keep E.active E).bind' fun _ => trivial

theorem calm_pollLoop (ids : List ℕ) (E : Edges) (fin : Bool) (num : ℕ) :
    Calm (fun _ => True) (Edges.pollLoop ids E fin num) := by
  induction ids generalizing E fin num with
  | nil => trivial
  | cons id ids ih =>
    rw [Edges.pollLoop]
    split
    · trivial
    · split
      · exact ih _ _ _
      · intro r
        cases r with
        | none => exact fun _ => ih _ _ _
        | some v => exact ih _ _ _

theorem calm_spawnLoop (level : ℕ) (order : Option ℕ) (ids : List ℕ) (index : ℕ) (E : Edges) (block : Bool) :
    Calm (fun _ => True) (Edges.spawnLoop level order ids index E block) := by
  induction ids generalizing index E block with
  | nil => trivial
  | cons id ids ih =>
    rw [Edges.spawnLoop]
    split
    · trivial
    · split
      · split
        · exact ih _ _ _
        · exact ih _ _ _
      · split
        · trivial
        · intro h
          dsimp only
          split
          · split
            · exact ih _ _ _
            · exact ih _ _ _
          · exact ih _ _ _

theorem calm_buildEdges (A : OSet) (ps : List (Fin A.n × Fin A.n)) (E : Edges) :
    Calm (fun _ => True) (buildEdges hash A ps E) := by
  induction ps generalizing E with
  | nil => trivial
  | cons p ps ih =>
    rw [buildEdges]
    split
    · exact ih _
    · exact (calm_ofOption _).bind' fun _ => (calm_addEdge _ _).bind' fun _ => ih _

theorem calm_buildPruned (A : OSet) (pol : Bool) (cs : List (Fin A.n)) (E : Edges) :
    Calm (fun _ => True) (buildPruned hash A pol cs E) := by
  induction cs generalizing E with
  | nil => trivial
  | cons c cs ih =>
    rw [buildPruned]
    exact (calm_ofOption _).bind' fun _ => (calm_ofOption _).bind' fun _ => (calm_addEdge _ _).bind' fun _ =>
      (ih _).bind' fun _ => trivial

theorem calm_huffPol (A : OSet) (pol : Bool) (ids : Bool → List ℕ) (state : State) (E : Edges) (uh : Bool → ℕ) :
    Calm (fun _ => True) (huffPol A pol ids state E uh) := by
  unfold huffPol
  split
  · refine (calm_ofOption _).bind' fun _ => (calm_ofOption _).bind' fun _ => (calm_ofOption _).bind' fun l =>
      (calm_ofOption _).bind' fun u => ?_
    have tail : ∀ E' : Edges, Calm (fun _ => True) (
        let uh' := Function.update uh pol u
        if l > state.hlo then
          if l > state.lo then
            let state' := { state with hlo := l, lo := l }
            Prog.set A state' (ret (true, state', E', uh'))
          else
            let state' := { state with hlo := l }
            Prog.set A state' (ret (false, state', E', uh'))
        else ret (false, state, E', uh')) := by
      intro E'
      dsimp only
      split
      · split <;> trivial
      · trivial
    dsimp only
    split
    · exact (calm_retainEdges _ _).bind' tail
    · exact tail E
  · trivial

/-- Not the loop of `improve_next`. -/
def PC.plain : PC → Prop
  | .nextLoop .. => False
  | _ => True

/-- Calls are made at, and return to, program points other than the loop of `improve_next`. -/
def PlainExit : Exit → Prop
  | .call pc k => pc.plain ∧ ∀ v, (k v).plain
  | _ => True

theorem calm_codeEdges (level : ℕ) (A : OSet) (state : State) : Calm PlainExit (codeEdges hash level A state) :=
  (calm_buildEdges _ _ _).bind' fun _ => trivial

theorem calm_codeHuffman (level : ℕ) (A : OSet) (state : State) : Calm PlainExit (codeHuffman hash level A state) := by
  unfold codeHuffman
  split
  · exact ⟨trivial, fun _ => trivial⟩
  · exact calm_codeEdges _ _ _

theorem calm_codeShortcut (level : ℕ) (A : OSet) (state : State) (pol : Bool) {p : Prog Exit} (h : Calm PlainExit p) :
    Calm PlainExit (codeShortcut hash level A state pol p) := by
  unfold codeShortcut
  split
  · exact (calm_ofOption _).bind' fun _ => (calm_ofOption _).bind' fun _ => fun _ => trivial
  · exact h

theorem calm_codePrunedLower (level : ℕ) (A : OSet) (state : State) (P : OSet) (ps : State) :
    Calm PlainExit (codePrunedLower level A state P ps) := by
  unfold codePrunedLower
  split
  · trivial
  · exact ⟨trivial, fun _ => trivial⟩

theorem calm_codeEdgesLower (level : ℕ) (A : OSet) (state : State) (E : Edges) :
    Calm PlainExit (codeEdgesLower level A state E) := by
  refine (calm_ofOption _).bind' fun m => ?_
  dsimp only
  split
  · exact fun _ => trivial
  · trivial

theorem calm_codeHuffRest (level : ℕ) (A : OSet) (state : State) (E : Edges) (ids : Bool → List ℕ) (uh : Bool → ℕ) :
    Calm PlainExit (codeHuffRest level A state E ids uh) := by
  unfold codeHuffRest
  dsimp only
  split <;> trivial

theorem calm_codeSpawn (level : ℕ) (order : Option ℕ) (E : Edges) (r : Ret) :
    Calm PlainExit (codeSpawn level order E r) :=
  (calm_spawnLoop _ _ _ _ _ _).bind' fun _ => trivial

theorem calm_code {pc : PC} (h : pc.plain) : Calm PlainExit (code hash pc) := by
  cases pc with
  | start limit A => exact fun _ => trivial
  | main limit A state =>
    rw [code]
    split
    · trivial
    · exact ⟨trivial, fun _ => trivial⟩
  | improve level prev A =>
    rw [code]
    intro s
    show Calm PlainExit (if _ then _ else _)
    split
    · trivial
    · split
      · trivial
      · intro b
        cases b <;> trivial
  | locked level prev A =>
    rw [code]
    intro s
    show Calm PlainExit (if _ then _ else _)
    split
    · trivial
    · split
      · trivial
      · exact calm_codeShortcut _ _ _ _ (calm_codeShortcut _ _ _ _ (calm_codeHuffman _ _ _))
  | pruned level A state P ps =>
    rw [code]
    split
    · dsimp only
      show Calm PlainExit (if _ then _ else _)
      split
      · trivial
      · exact calm_codePrunedLower _ _ _ _ _
    · exact calm_codePrunedLower _ _ _ _ _
  | afterHuffman level A state new =>
    rw [code]
    split
    · trivial
    · exact calm_codeEdges _ _ _
  | edgesLoop level A state E =>
    rw [code]
    refine (calm_ofOption _).bind' fun m => ?_
    dsimp only
    split
    · show Calm PlainExit (if _ then _ else _)
      split
      · trivial
      · exact calm_codeEdgesLower _ _ _ _
    · exact calm_codeEdgesLower _ _ _ _
  | huffman level A =>
    rw [code]
    intro s
    show Calm PlainExit (if _ then _ else _)
    split
    · trivial
    · exact (calm_buildPruned _ _ _ _).bind' fun _ => (calm_buildPruned _ _ _ _).bind' fun _ => trivial
  | huffLoop level A state E ids uh =>
    rw [code]
    split
    · refine (calm_huffPol _ _ _ _ _ _).bind' fun q0 => ?_
      split
      · trivial
      · refine (calm_huffPol _ _ _ _ _ _).bind' fun q1 => ?_
        split
        · trivial
        · exact calm_codeHuffRest _ _ _ _ _ _
    · trivial
  | nextLoop => exact h.elim

theorem tame_pollLoop {Q : β → Prop} (ids : List ℕ) (E : Edges) (fin : Bool) (num : ℕ)
    {f : Edges × Bool × ℕ → Prog β} (hf : ∀ a, Tame Q (f a)) : Tame Q ((Edges.pollLoop ids E fin num).bind f) := by
  induction ids generalizing E fin num with
  | nil => exact hf _
  | cons id ids ih =>
    rw [Edges.pollLoop]
    split
    · trivial
    · split
      · exact ih _ _ _
      · intro r
        cases r with
        | none => exact fun _ => ih _ _ _
        | some v => exact ih _ _ _

theorem tame_code (pc : PC) : Tame PlainExit (code hash pc) := by
  cases pc with
  | nextLoop level order E block r =>
    rw [code]
    refine tame_pollLoop _ _ _ _ fun p => ?_
    dsimp only
    cases hb : (p.1.active.all fun id => p.1.retainOk id) with
    | false => trivial
    | true =>
      show Tame PlainExit (if _ then _ else _)
      split
      · trivial
      · split
        · exact calm_codeSpawn _ _ _ _
        · exact (calm_codeSpawn _ _ _ _).tame
  | _ => exact (calm_code (by trivial)).tame

theorem targets_poll {E : Edges} {id id' : ℕ} {v : State} (h : id ≠ id') :
    ((E.setState id' v).clearRunning id').targets[id]? = E.targets[id]? := by
  have h' : ¬ id' = id := fun e => h e.symm
  simp [Edges.setState, Edges.clearRunning, List.getElem?_modify, h']

theorem safe_pollLoop {h : Handle} (ids : List ℕ) (E : Edges) (fin : Bool) (num : ℕ)
    {f : Edges × Bool × ℕ → Prog β}
    (hr : ∃ id ∈ ids, ∃ t, E.targets[id]? = some t ∧ t.running = some h) :
    Safe h ((Edges.pollLoop ids E fin num).bind f) := by
  induction ids generalizing E fin num with
  | nil => simp at hr
  | cons id ids ih =>
    obtain ⟨id0, hid, t0, ht0, hrun⟩ := hr
    rw [Edges.pollLoop]
    split
    · trivial
    · next t ht =>
      split
      · next hn =>
        refine ih _ _ _ ⟨id0, ?_, t0, ht0, hrun⟩
        rcases List.mem_cons.1 hid with rfl | hid
        · rw [ht] at ht0
          cases ht0
          rw [hn] at hrun
          simp at hrun
        · exact hid
      · next h2 hs =>
        by_cases e : h2 = h
        · exact ⟨Or.inl e, fun v => Or.inl e⟩
        · have hne : id0 ≠ id := by
            rintro rfl
            rw [ht] at ht0
            cases ht0
            rw [hs] at hrun
            exact e (Option.some.inj hrun)
          have hid : id0 ∈ ids := (List.mem_cons.1 hid).resolve_left hne
          refine ⟨Or.inr fun _ => ih _ _ _ ⟨id0, hid, t0, ht0, hrun⟩, fun v => Or.inr (ih _ _ _ ⟨id0, hid, t0, ?_, hrun⟩)⟩
          rw [targets_poll hne, ht0]

theorem safe_nextLoop {h : Handle} (level : ℕ) (order : Option ℕ) (E : Edges) (block : Bool) (r : Ret)
    (hr : ∃ id ∈ E.active, ∃ t, E.targets[id]? = some t ∧ t.running = some h) :
    Safe h (code hash (.nextLoop level order E block r)) := by
  rw [code]
  exact safe_pollLoop _ _ _ _ hr

end Search

end Sortnet
