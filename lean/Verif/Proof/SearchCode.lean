import Verif.Proof.SearchWP
import Verif.Proof.SearchRank

/-!
# Every program point of the search keeps the invariants

`PCInv K c σ pc` is what holds when a task reaches the program point `pc` in a call of kind `K`.
`code_spec`: the code from there on only performs allowed actions and ends in another program point with its
invariant, in a call of another function with its invariant, or with a result that satisfies `Post`.  All of
it is paid for from a budget of `pc.pot`.
-/

namespace Sortnet

namespace Search

/-- `A` is locked and below everything else that is locked. -/
def HeldTop (c : Ctx) (A : OSet) : Prop := c.held A ∧ ∀ B, c.held B → B = A ∨ rank A < rank B

/-- The locked set being worked on, and the local copy of its state. -/
structure Work (c : Ctx) (σ : Store) (A : OSet) (st : State) : Prop where
  ok : OK A
  n3 : 3 ≤ A.n
  unsorted : A.s.isSorted = false
  held : HeldTop c A
  state : σ.get A = st

theorem Work.stable {c : Ctx} {σ σ' : Store} {A : OSet} {st : State} (h : Work c σ A st) (hr : Rely c.held σ σ') :
    Work c σ' A st := by
  refine ⟨h.ok, h.n3, h.unsorted, h.held, ?_⟩
  rw [← h.state]
  simp [Store.get, hr.2 A h.held.1]

theorem Work.ctx {c c' : Ctx} {σ : Store} {A : OSet} {st : State} (h : Work c σ A st) (hc : c'.held = c.held) :
    Work c' σ A st := by
  refine ⟨h.ok, h.n3, h.unsorted, ?_, h.state⟩
  unfold HeldTop; rw [hc]; exact h.held

theorem Work.mapOk {c : Ctx} {σ : Store} {A : OSet} {st : State} (h : Work c σ A st) : mapOk A :=
  ⟨by have := h.n3; omega, h.ok.2⟩

/-- `sets` are the canonical forms of the successors of `A`. -/
structure SuccSets (hash : List ℕ → ℕ) (A : OSet) (sets : List OSet) : Prop where
  all : ∀ i j : Fin A.n, j < i → ∀ T C, successor A i j = some T → canon hash T = some C → C ∈ sets
  only : ∀ C ∈ sets, ∃ i j : Fin A.n, j < i ∧ ∃ T, successor A i j = some T ∧ canon hash T = some C

/-- `ids` are the positions in `sets` of the canonical forms of the sets obtained by pruning the extremal
channels. -/
def PrunedSets (hash : List ℕ → ℕ) (A : OSet) (ids : Bool → List ℕ) (sets : List OSet) : Prop :=
  ∀ pol, List.Forall₂ (fun (c : Fin A.n) (id : ℕ) => ∃ T C, prune A pol c = some T ∧ canon hash T = some C ∧
    sets[id]? = some C) (extremal A pol) (ids pol)

/-- Invariant of the edges in the loops. -/
structure LoopOK (σ : Store) (c : Ctx) (A : OSet) (E : Edges) : Prop where
  ok : EdgesOK σ c A E
  own : OwnRun c E
  allOpen : E.AllOpen

/-- While the Huffman rule may improve the bound for a polarity, the edges of the polarity are active or
closed. -/
def HuffClosed (E : Edges) (ids : Bool → List ℕ) (lo : ℕ) (uh : Bool → ℕ) : Prop :=
  ∀ pol, lo < uh pol → ∀ id ∈ ids pol, ∀ t, E.targets[id]? = some t → id ∉ E.active → t.state.lo = t.state.hi

/-- The Huffman rule cannot improve on `lo`. -/
def HuffTop (A : OSet) (lo : ℕ) : Prop := ∀ pol w, HuffLB A pol w → w ≤ lo

/-- Upper bounds for what the Huffman rule gives for the polarities. -/
def HuffUp (A : OSet) (uh : Bool → ℕ) : Prop := ∀ pol w, HuffLB A pol w → w ≤ uh pol

/-- Invariant of the caller of `improve_next`. -/
def RetInv (hash : List ℕ → ℕ) (K : Kind) (c : Ctx) (σ : Store) (E : Edges) : Ret → Prop
  | .edges _ A st => (∃ m, K = .improve A m ∧ st.todo ≤ m) ∧ Work c σ A st ∧ SuccSets hash A E.sets ∧
      st.lo ≠ st.hi ∧ E.ClosedOut ∧ E.active ≠ [] ∧ HuffTop A st.lo
  | .huffman _ A st ids uh => K = .huffman A st.hi st.lo ∧ Work c σ A st ∧ PrunedSets hash A ids E.sets ∧
      HuffClosed E ids st.lo uh ∧ (E.active = [] → st.hhi ≤ st.lo) ∧ HuffUp A uh

/-- Invariant of a program point. -/
def PCInv (hash : List ℕ → ℕ) (K : Kind) (c : Ctx) (σ : Store) : PC → Prop
  | .start l A => K = .main l A ∧ OK A ∧ ∀ B, ¬ c.held B
  | .main l A st => K = .main l A ∧ OK A ∧ (∀ B, ¬ c.held B) ∧ Known σ A st
  | .improve _ prev A => K = .improve A prev.todo ∧ OK A ∧ (∀ B, c.held B → rank A < rank B) ∧ Known σ A prev ∧
      prev.lo ≠ prev.hi ∧ NoOwn c
  | .locked _ prev A => K = .improve A prev.todo ∧ OK A ∧ HeldTop c A ∧ Known σ A prev ∧ prev.lo ≠ prev.hi ∧ NoOwn c
  | .pruned _ A st P ps => (∃ m, K = .improve A m ∧ st.todo ≤ m) ∧ Work c σ A st ∧
      (∃ pol ch T, extremal A pol = [ch] ∧ prune A pol ch = some T ∧ canon hash T = some P) ∧ Known σ P ps ∧
      st.lo ≠ st.hi ∧ NoOwn c
  | .afterHuffman _ A st new => (∃ m, K = .improve A m ∧ new.todo ≤ m ∧ (st.lo < new.lo → new.todo < m)) ∧
      Work c σ A new ∧ (¬ st.lo < new.lo → new.lo ≠ new.hi) ∧ NoOwn c ∧ (¬ st.lo < new.lo → new.hhi ≤ new.lo)
  | .edgesLoop _ A st E => (∃ m, K = .improve A m ∧ st.todo ≤ m) ∧ Work c σ A st ∧ LoopOK σ c A E ∧
      SuccSets hash A E.sets ∧ st.lo ≠ st.hi ∧ E.ClosedOut ∧ HuffTop A st.lo
  | .huffman _ A => K = .huffman A (σ.get A).hi (σ.get A).lo ∧ OK A ∧ 3 ≤ A.n ∧ A.s.isSorted = false ∧ HeldTop c A ∧ NoOwn c
  | .huffLoop _ A st E ids uh => K = .huffman A st.hi st.lo ∧ Work c σ A st ∧ LoopOK σ c A E ∧
      PrunedSets hash A ids E.sets ∧ HuffClosed E ids st.lo uh ∧ HuffUp A uh
  | .nextLoop _ _ E block r => LoopOK σ c r.cur E ∧ RetInv hash K c σ E r ∧
      (block = true → ∃ h, c.own h ∧ c.hs h ∧ c.sched h)

/-- Budget for the loops over the edges of a call that works on `A`. -/
noncomputable def edgePot (A : OSet) : ℕ := 435600 * (unit A + 8) + 20

/-- The budget needed at a program point. -/
noncomputable def PC.pot : PC → ℕ
  | .start _ A => 3600 * (callPot A + 5) + 6
  | .main _ A st => st.todo * (callPot A + 5) + 5
  | .improve _ _ A => callPot A
  | .locked _ _ A => callPot A - 3
  | .pruned _ A _ _ ps => ps.todo * (unit A + 5) + 5
  | .afterHuffman _ A _ _ => edgePot A
  | .edgesLoop _ A _ E => E.base (unit A) + 9
  | .huffman _ A => edgePot A
  | .huffLoop _ A st E _ _ => E.base (unit A) + if st.hhi ≤ st.lo then 5 else 9
  | .nextLoop _ _ E _ r => E.base (unit r.cur) + 7

/-- Program points that a task may go to again and again without paying: waiting for a lock, and waiting for
tasks. -/
def PC.free : PC → Bool
  | .improve _ _ _ => true
  | .nextLoop _ _ _ block _ => block
  | _ => false

/-- What the code from a program point of a call of kind `K` may end with. -/
def ExitOK (hash : List ℕ → ℕ) (K : Kind) (c : Ctx) (b : ℕ) (σ : Store) : Exit → Prop
  | .done v => Post σ v K ∧ 2 ≤ b
  | .goto pc => (pc.pot + 1 ≤ b ∨ pc.free = true ∧ pc.pot ≤ b) ∧ PCInv hash K c σ pc
  | .call pc k => ∃ K' b', pc.pot + b' + 1 ≤ b ∧ PCInv hash K' c.callee σ pc ∧ rank K'.cur ≤ rank K.cur ∧
      (∀ B, c.held B → B = K'.cur ∨ rank K'.cur < rank B) ∧
      ∀ σ' v, Rely (fun B => c.held B ∧ B ≠ K'.cur) σ σ' → SInv hash σ' → Post σ' v K' →
        (k v).pot ≤ b' ∧ PCInv hash K c σ' (k v)

variable {hash : List ℕ → ℕ}

theorem Work.known {c : Ctx} {σ : Store} {A : OSet} {st : State} (h : Work c σ A st) (hi : SInv hash σ) :
    Known σ A st := h.state ▸ hi.known h.ok

/-- What is needed to replace the state `st` by `v`. -/
structure Update (hash : List ℕ → ℕ) (A : OSet) (st v : State) (σ : Store) : Prop where
  lo : st.lo ≤ v.lo
  hi : v.hi ≤ st.hi
  ub : UB A.s.toSet v.hi
  just : v.lo = st.lo ∨ Just hash (fun B => (σ.get B).lo) A v.lo
  hhi : v.hhi ≤ 40
  hlo : v.hlo ≤ v.lo
  progress : v.hi < st.hi ∨ st.lo < v.lo ∨
    (v.lo = st.lo ∧ v.hi = st.hi ∧ v.hhi + (40 - v.hlo) < st.hhi + (40 - st.hlo))
  hup : HuffTop A v.hhi

/-- Writing the state of the locked set. -/
theorem WP.setWork {α : Type} {K : Kind} {Q : Ctx → ℕ → Store → α → Prop} {c : Ctx} {b : ℕ} {σ : Store} {A : OSet}
    {st v : State} {k : Prog α} (hK : K.cur = A) (hw : Work c σ A st)
    (h : ∀ σ', Rely c.held σ σ' → SInv hash σ' → Update hash A st v σ')
    (hk : ∀ σ', Evolves σ σ' → SInv hash σ' → Work c σ' A v → (st.lo ≠ st.hi → v.todo < st.todo) →
      WP hash K Q k c b σ') :
    WP hash K Q (.set A v k) c b σ := by
  intro σ' hr hi
  obtain ⟨h1, h2, h3, h4, h5, h6, h7, h8⟩ := h σ' hr hi
  have hw' := hw.stable hr
  have hlb : LB A.s.toSet v.lo := by
    rcases h4 with e | e
    · rw [e, ← hw'.state]; exact hi.lb A hw.ok
    · exact e.lb hi.lb hw.ok
  have hle := hlb.le_UB h3
  have hweight : v.weight < st.weight := by
    unfold State.weight
    omega
  have htodo : st.lo ≠ st.hi → v.todo < st.todo := fun ho => State.todo_lt ho hweight
  rw [← hw'.state] at h1 h2 h4 hweight
  have hs := hi.set hw.ok hw.n3 hw.unsorted h1 h2 h3 hweight ⟨h5, h6⟩ h4 h8
  have he := evolves_set h1 h2 hweight
  refine ⟨hw.held.1, hK.symm, hw.mapOk, hs, he, ?_⟩
  exact hk _ (hr.1.trans he) hs ⟨hw.ok, hw.n3, hw.unsorted, hw.held, get_set_self _ _ _⟩ htodo

theorem Work.le {c : Ctx} {σ : Store} {A : OSet} {st : State} (h : Work c σ A st) (hi : SInv hash σ) :
    st.lo ≤ st.hi := (h.known hi).lo_le hi h.ok

theorem Work.huff {c : Ctx} {σ : Store} {A : OSet} {st : State} (h : Work c σ A st) (hi : SInv hash σ) :
    st.hhi ≤ 40 ∧ st.hlo ≤ st.lo := h.state ▸ hi.huff A h.ok

theorem Work.hup {c : Ctx} {σ : Store} {A : OSet} {st : State} (h : Work c σ A st) (hi : SInv hash σ) :
    HuffTop A st.hhi := h.state ▸ hi.hup A h.ok

theorem HuffTop.mono {A : OSet} {a b : ℕ} (h : HuffTop A a) (hab : a ≤ b) : HuffTop A b :=
  fun pol w hw => (h pol w hw).trans hab

theorem HuffTop.of_UB {A : OSet} {k : ℕ} (hk : UB A.s.toSet k) : HuffTop A k := fun _ _ hw => hw.le_UB hk

theorem WP.doneImprove {c : Ctx} {b : ℕ} {σ : Store} {A : OSet} {m : ℕ} {v : State} (h : Known σ A v)
    (hm : v.todo < m) (hb : 2 ≤ b) :
    WP hash (.improve A m) (ExitOK hash (.improve A m)) (.ret (.done v)) c b σ :=
  fun _ hr _ => ⟨⟨h.mono hr.1, hm⟩, hb⟩

theorem LoopOK.stable {σ σ' : Store} {c : Ctx} {A : OSet} {E : Edges} (h : LoopOK σ c A E) (he : Evolves σ σ') :
    LoopOK σ' c A E := ⟨h.ok.stable he, h.own, h.allOpen⟩

theorem buildEdges_spec {K : Kind} {c : Ctx} {b n : ℕ} {σ : Store} {A : OSet} (hA : OK A) (ps : List (Fin A.n × Fin A.n))
    (hps : ∀ p ∈ ps, p.2 < p.1) (E : Edges) (hi : SInv hash σ) (hE : EdgesOK σ c A E)
    (hf : E.Fresh n) :
    WP hash K (fun c' b' σ' E' => c' = c ∧ b' = b ∧ E'.Fresh (n + ps.length) ∧ Rely c.held σ σ' ∧ EdgesOK σ' c A E' ∧ (∀ x ∈ E.sets, x ∈ E'.sets) ∧
      (∀ p ∈ ps, ∀ T C, successor A p.1 p.2 = some T → canon hash T = some C → C ∈ E'.sets) ∧
      (∀ C ∈ E'.sets, C ∈ E.sets ∨ ∃ p ∈ ps, ∃ T, successor A p.1 p.2 = some T ∧ canon hash T = some C))
      (buildEdges hash A ps E) c b σ := by
  induction ps generalizing E σ n with
  | nil =>
    intro σ' hr hi'
    exact ⟨rfl, rfl, hf, hr, hE.stable hr.1, fun x h => h, by simp, fun C h => Or.inl h⟩
  | cons p ps ih =>
    obtain ⟨i, j⟩ := p
    have hji : j < i := hps (i, j) (List.mem_cons_self ..)
    have hps' : ∀ p ∈ ps, p.2 < p.1 := fun p h => hps p (List.mem_cons_of_mem _ h)
    have hij : i ≠ j := (ne_of_lt hji).symm
    rw [buildEdges]
    split
    · next hnone =>
      refine (ih hps' E hi hE hf).mono ?_
      rintro c' b' σ' E' _ ⟨h1, hb, hf', h2, h3, h4, h5, h6⟩
      refine ⟨h1, hb, hf'.mono (by simp), h2, h3, h4, ?_, ?_⟩
      · intro p hp T C hT hC
        rcases List.mem_cons.1 hp with rfl | hp
        · rw [hnone] at hT; simp at hT
        · exact h5 p hp T C hT hC
      · intro C hC
        rcases h6 C hC with h | ⟨p, hp, h⟩
        · exact Or.inl h
        · exact Or.inr ⟨p, List.mem_cons_of_mem _ hp, h⟩
    · next T hT =>
      have hTok := successor_ok hA hij hT
      obtain ⟨C, hC, hCok, _⟩ := canon_spec (hash := hash) hTok
      rw [bind_ofOption hC]
      have hrank : rank C < rank A := by
        rw [rank_canon hC]
        exact rank_successor hij hT
      refine WP.seq hi (addEdge_spec hi hE hf hCok hrank) ?_
      rintro c1 b1 σ1 ⟨E1, id⟩ hi1 ⟨rfl, rfl, hf1, hr1, hE1, hpre, hid, hsub⟩
      refine (ih hps' E1 hi1 hE1 hf1).mono ?_
      rintro c' b' σ' E' _ ⟨h1, hb, hf', h2, h3, h4, h5, h6⟩
      refine ⟨h1, hb, hf'.mono (by simp; omega), hr1.trans h2, h3, fun x hx => h4 x (hpre.subset hx), ?_, ?_⟩
      · intro p hp T' C' hT' hC'
        rcases List.mem_cons.1 hp with rfl | hp
        · rw [hT] at hT'; cases hT'
          rw [hC] at hC'; cases hC'
          exact h4 _ (List.mem_of_getElem? hid)
        · exact h5 p hp T' C' hT' hC'
      · intro C' hC'
        rcases h6 C' hC' with h | ⟨p, hp, h⟩
        · rcases hsub C' h with h | rfl
          · exact Or.inl h
          · exact Or.inr ⟨(i, j), List.mem_cons_self .., T, hT, hC⟩
        · exact Or.inr ⟨p, List.mem_cons_of_mem _ hp, h⟩

theorem mem_pairs {n : ℕ} {p : Fin n × Fin n} : p ∈ pairs n ↔ p.2 < p.1 := by
  obtain ⟨i, j⟩ := p
  simp [pairs]

theorem length_pairs {n : ℕ} (hn : n ≤ 11) : (pairs n).length ≤ 121 := by
  unfold pairs
  rw [List.length_flatMap]
  refine (sum_le_mul (k := 11) (n := 11) ?_ (by simpa using hn)).trans (by omega)
  intro x hx
  obtain ⟨i, _, rfl⟩ := List.mem_map.1 hx
  rw [List.length_map]
  exact (List.length_filter_le _ _).trans (by simpa using hn)

theorem base_edgePot {σ : Store} {c : Ctx} {A : OSet} {E : Edges} {n : ℕ} (hE : EdgesOK σ c A E) (hf : E.Fresh n)
    (hn : n ≤ 121) : E.base (unit A) + 20 ≤ edgePot A := by
  have h1 := base_fresh hE hf (unit A)
  have h2 : n * 3600 * (unit A + 8) ≤ 435600 * (unit A + 8) := Nat.mul_le_mul_right _ (by omega)
  unfold edgePot
  omega

theorem codeEdges_spec {c : Ctx} {b : ℕ} {σ : Store} {A : OSet} {m : ℕ} {st : State} (level : ℕ) (hi : SInv hash σ)
    (hw : Work c σ A st) (hm : st.todo ≤ m) (hopen : st.lo ≠ st.hi) (hno : NoOwn c) (htop : st.hhi ≤ st.lo)
    (hb : edgePot A ≤ b) :
    WP hash (.improve A m) (ExitOK hash (.improve A m)) (codeEdges hash level A st) c b σ := by
  unfold codeEdges
  refine WP.seq hi (buildEdges_spec hw.ok (pairs A.n) (fun p hp => mem_pairs.1 hp) Edges.empty hi
    (EdgesOK.empty σ c A) Edges.Fresh.empty) ?_
  rintro c' b' σ' E hi' ⟨rfl, rfl, hf, h2, h3, _, h5, h6⟩ σ'' hr'' hi''
  have hpot := base_edgePot h3 hf (by have := length_pairs hw.ok.2; omega)
  refine ⟨Or.inl ?_, ⟨m, rfl, hm⟩, (hw.stable h2).stable hr'', ⟨h3.stable hr''.1, fun h ho => absurd ho (hno h),
    hf.allOpen⟩, ?_, hopen, hf.closedOut, (hw.hup hi).mono htop⟩
  · show E.base (unit A) + 9 + 1 ≤ b'
    omega
  constructor
  · intro i j hji T C hT hC
    exact h5 (i, j) (mem_pairs.2 hji) T C hT hC
  · intro C hC
    rcases h6 C hC with h | ⟨⟨i, j⟩, hp, h⟩
    · simp [Edges.sets, Edges.empty] at h
    · exact ⟨i, j, mem_pairs.1 hp, h⟩

theorem codeHuffman_spec {c : Ctx} {b : ℕ} {σ : Store} {A : OSet} {m : ℕ} {st : State} (level : ℕ) (hi : SInv hash σ)
    (hw : Work c σ A st) (hm : st.todo ≤ m) (hopen : st.lo ≠ st.hi) (hno : NoOwn c) (hb : 2 * edgePot A + 1 ≤ b) :
    WP hash (.improve A m) (ExitOK hash (.improve A m)) (codeHuffman hash level A st) c b σ := by
  unfold codeHuffman
  split
  · intro σ' hr' hi'
    have hw' := hw.stable hr'
    refine ⟨.huffman A (σ'.get A).hi (σ'.get A).lo, edgePot A, ?_, ⟨rfl, hw.ok, hw.n3, hw.unsorted, hw.held, fun _ h => h⟩,
      le_refl (rank A), hw.held.2, ?_⟩
    · show edgePot A + edgePot A + 1 ≤ b
      omega
    intro σ'' v hr'' hi'' ⟨hp, hhi, hraise⟩
    obtain ⟨e1, e2, e3⟩ := hr''.1 A
    rw [hp, hw'.state] at e1 e2 e3
    rw [hw'.state] at hhi hraise
    refine ⟨Nat.le_refl (edgePot A), ⟨m, rfl, ?_, ?_⟩, ⟨hw.ok, hw.n3, hw.unsorted, hw.held, hp⟩, ?_, hno, fun hlt => hraise.resolve_right hlt⟩
    · rcases e3 with rfl | e3
      · exact hm
      · have := State.todo_lt hopen e3
        omega
    · intro hlt
      rcases e3 with rfl | e3
      · omega
      · have := State.todo_lt hopen e3
        omega
    · intro hlt
      omega
  · exact codeEdges_spec level hi hw hm hopen hno (by omega) (by omega)

theorem codeShortcut_spec {c : Ctx} {b : ℕ} {σ : Store} {A : OSet} {m : ℕ} {st : State} (level : ℕ) (pol : Bool)
    (other : Prog Exit) (hi : SInv hash σ) (hw : Work c σ A st) (hm : st.todo ≤ m) (hopen : st.lo ≠ st.hi)
    (hno : NoOwn c) (hb : 3600 * (unit A + 5) + 6 ≤ b)
    (ho : WP hash (.improve A m) (ExitOK hash (.improve A m)) other c b σ) :
    WP hash (.improve A m) (ExitOK hash (.improve A m)) (codeShortcut hash level A st pol other) c b σ := by
  unfold codeShortcut
  split
  · next ch hch =>
    obtain ⟨T, hT⟩ := prune_some (A := A) (pol := pol) (c := ch) (by rw [hch]; simp)
    have hTok := prune_ok hw.ok hT
    obtain ⟨P, hP, hPok, _⟩ := canon_spec (hash := hash) hTok
    rw [bind_ofOption hT, bind_ofOption hP, bind_get]
    intro σ1 hr1 hi1 σ2 hr2 hi2
    have hk := hi1.known hPok
    refine ⟨Or.inl ?_, ⟨m, rfl, hm⟩, (hw.stable hr1).stable hr2, ⟨pol, ch, T, hch, hT, hP⟩, hk.mono hr2.1, hopen, hno⟩
    have := Nat.mul_le_mul_right (unit A + 5) hk.todo_max
    show (σ1.get P).todo * (unit A + 5) + 5 + 1 ≤ b
    omega
  · exact ho

/-- A bound for the single pruned set is a bound for the set. -/
theorem pruned_just {A T P : OSet} {pol : Bool} {ch : Fin A.n} (h1 : extremal A pol = [ch])
    (h2 : prune A pol ch = some T) (h3 : canon hash T = some P) {lb : OSet → ℕ} {b : ℕ} (hb : b ≤ lb P)
    (hb' : b < 256) : Just hash lb A b := by
  refine Or.inr (Or.inl ⟨pol, [b], ?_, by simpa using hb', huffman_singleton b⟩)
  rw [h1]
  exact List.Forall₂.cons ⟨T, P, h2, h3, hb⟩ List.Forall₂.nil

theorem codePrunedLower_spec {c : Ctx} {b : ℕ} {σ : Store} {A P T : OSet} {m : ℕ} {st ps : State} (level : ℕ)
    (hi : SInv hash σ) (hw : Work c σ A st) {pol : Bool} {ch : Fin A.n} (h1 : extremal A pol = [ch])
    (h2 : prune A pol ch = some T) (h3 : canon hash T = some P) (hk : Known σ P ps) (hm : st.todo ≤ m)
    (hopen : st.lo ≠ st.hi) (hno : NoOwn c) (hhi : st.hi ≤ ps.hi) (hb : ps.todo * (unit A + 5) + 5 ≤ b) :
    WP hash (.improve A m) (ExitOK hash (.improve A m)) (codePrunedLower level A st P ps) c b σ := by
  have hTok := prune_ok hw.ok h2
  obtain ⟨hPok, _, hlb, hub⟩ := canon_of_eq hTok h3
  have hrank : rank P < rank A := by
    rw [rank_canon h3]
    exact rank_prune h2
  unfold codePrunedLower
  split
  · next hgt =>
    refine WP.setWork (st := st) rfl hw ?_ ?_
    · intro σ' hr hi'
      have hk' := hk.mono hr.1
      refine ⟨Nat.le_of_lt hgt, Nat.le_refl _, (hw.known hi).ub, Or.inr ?_, (hw.huff hi).1, Nat.le_refl _,
        Or.inr (Or.inl hgt), hw.hup hi⟩
      refine pruned_just h1 h2 h3 hk'.lo ?_
      have := hk'.lo_le hi' hPok
      have := hk'.top
      show ps.lo < 256
      omega
    · intro σ' he hi' hw' htodo
      have := htodo hopen
      exact WP.doneImprove (hw'.known hi') (by omega) (by omega)
  · next hle =>
    intro σ' hr hi'
    have hbelow : ∀ B, c.held B → rank P < rank B := by
      intro B hB
      rcases hw.held.2 B hB with rfl | h
      · exact hrank
      · exact lt_trans hrank h
    have hpo : ps.lo ≠ ps.hi := by
      have := hw.le hi
      omega
    have hpos := State.todo_pos hpo
    refine ⟨.improve P ps.todo, (ps.todo - 1) * (unit A + 5) + 5, ?_,
      ⟨rfl, hPok, hbelow, hk.mono hr.1, hpo, fun _ h => h⟩, le_of_lt hrank, fun B hB => Or.inr (hbelow B hB), ?_⟩
    · have h4 := callPot_le hPok hw.ok hrank
      show callPot P + ((ps.todo - 1) * (unit A + 5) + 5) + 1 ≤ b
      have e : ps.todo * (unit A + 5) = (ps.todo - 1) * (unit A + 5) + (unit A + 5) := by
        obtain ⟨k, hk⟩ : ∃ k, ps.todo = k + 1 := ⟨ps.todo - 1, by omega⟩
        rw [hk, Nat.add_sub_cancel, Nat.add_mul, Nat.one_mul]
      omega
    · intro σ'' v hr'' hi'' ⟨hp, hv⟩
      refine ⟨?_, ⟨m, rfl, hm⟩, ⟨hw.ok, hw.n3, hw.unsorted, hw.held, ?_⟩, ⟨pol, ch, T, h1, h2, h3⟩, hp, hopen, hno⟩
      · have := Nat.mul_le_mul_right (unit A + 5) (show v.todo ≤ ps.todo - 1 by omega)
        show v.todo * (unit A + 5) + 5 ≤ _
        omega
      have hne : A ≠ P := by rintro rfl; exact lt_irrefl _ hrank
      have := hr''.2 A ⟨hw.held.1, hne⟩
      rw [← (hw.stable hr).state]
      simp [Store.get, this]

theorem listMin_some {l : List ℕ} (h : l ≠ []) : ∃ m, listMin l = some m ∧ m ∈ l ∧ ∀ x ∈ l, m ≤ x := by
  cases l with
  | nil => exact absurd rfl h
  | cons x xs =>
    refine ⟨_, rfl, ?_⟩
    clear h
    induction xs generalizing x with
    | nil => simp
    | cons y ys ih =>
      obtain ⟨h1, h2⟩ := ih (min x y)
      rw [List.foldl_cons]
      refine ⟨?_, ?_⟩
      · rcases List.mem_cons.1 h1 with h | h
        · rw [h]
          rcases Nat.le_total x y with hxy | hxy
          · rw [Nat.min_eq_left hxy]; simp
          · rw [Nat.min_eq_right hxy]; simp
        · simp [h]
      · have h0 := h2 (min x y) (by simp)
        intro z hz
        rcases List.mem_cons.1 hz with rfl | hz
        · exact h0.trans (Nat.min_le_left _ _)
        · rcases List.mem_cons.1 hz with rfl | hz
          · exact h0.trans (Nat.min_le_right _ _)
          · exact h2 z (by simp [hz])

theorem succ_nonempty {c : Ctx} {σ : Store} {A : OSet} {st : State} {E : Edges} (hi : SInv hash σ)
    (hw : Work c σ A st) (hs : SuccSets hash A E.sets) : E.targets ≠ [] := by
  obtain ⟨i, j, hji, T, hT⟩ := exists_successor hw.ok hw.unsorted (hi.ub A hw.ok)
  obtain ⟨C, hC, _⟩ := canon_spec (hash := hash) (successor_ok hw.ok (ne_of_lt hji).symm hT)
  have := hs.all i j hji T C hT hC
  intro e
  simp [Edges.sets, e] at this

theorem EdgesOK.mem_known {σ : Store} {c : Ctx} {A : OSet} {E : Edges} (h : EdgesOK σ c A E) {t : EdgeTarget}
    (ht : t ∈ E.targets) : OK t.set ∧ Known σ t.set t.state := by
  obtain ⟨id, hid⟩ := List.getElem?_of_mem ht
  exact ⟨(h.ok id t hid).1, h.known id t hid⟩


theorem codeEdgesLower_spec {c : Ctx} {b : ℕ} {σ : Store} {A : OSet} {m : ℕ} {st : State} {E : Edges} (level : ℕ)
    (hi : SInv hash σ) (hw : Work c σ A st) (hL : LoopOK σ c A E) (hs : SuccSets hash A E.sets)
    (htodo : st.todo ≤ m) (hopen : st.lo ≠ st.hi) (hout : E.ClosedOut)
    (hup : ∀ t ∈ E.targets, st.hi ≤ t.state.hi + 1) (htop : HuffTop A st.lo) (hb : E.base (unit A) + 9 ≤ b) :
    WP hash (.improve A m) (ExitOK hash (.improve A m)) (codeEdgesLower level A st E) c b σ := by
  have hne := succ_nonempty hi hw hs
  have hE := hL.ok
  obtain ⟨l, hm, hmem, hmin⟩ := listMin_some (l := E.targets.map fun t => t.state.lo) (by simpa using hne)
  unfold codeEdgesLower
  rw [bind_ofOption hm]
  dsimp only
  have hm35 : l ≤ 35 := by
    obtain ⟨t, ht, rfl⟩ := List.mem_map.1 hmem
    obtain ⟨hok, hk⟩ := hE.mem_known ht
    have := hk.lo_le hi hok
    have := hk.top
    omega
  rw [Nat.mod_eq_of_lt (by omega)]
  split
  · next hgt =>
    rw [bind_get]
    intro σ1 hr1 hi1
    have hw1 := hw.stable hr1
    rw [hw1.state]
    refine WP.setWork rfl hw1 ?_ ?_
    · intro σ' hr hi'
      refine ⟨Nat.le_of_lt hgt, Nat.le_refl _, (hw1.known hi1).ub, Or.inr (Or.inr (Or.inr ⟨hw.unsorted, ?_⟩)),
        (hw.huff hi).1, (hw.huff hi).2.trans (Nat.le_of_lt hgt), Or.inr (Or.inl hgt),
        hw.hup hi⟩
      intro i j hji T C hT hC
      have hC' := hs.all i j hji T C hT hC
      obtain ⟨t, ht, rfl⟩ := List.mem_map.1 hC'
      have := hmin t.state.lo (List.mem_map.2 ⟨t, ht, rfl⟩)
      have := ((hE.mem_known ht).2.mono (hr1.trans hr).1).lo
      show l + 1 ≤ (σ'.get t.set).lo + 1
      omega
    · intro σ' he hi' hw' hlt
      have := hlt hopen
      exact WP.doneImprove (hw'.known hi') (by omega) (by omega)
  · next hle =>
    have hact : E.active ≠ [] := by
      intro e
      obtain ⟨t, ht, rfl⟩ := List.mem_map.1 hmem
      obtain ⟨id, hid⟩ := List.getElem?_of_mem ht
      have h1 := hout id t hid (by rw [e]; simp)
      have h2 := hup t ht
      have h3 := hw.le hi
      omega
    intro σ' hr hi'
    refine ⟨Or.inl ?_, hL.stable hr.1, ⟨⟨m, rfl, htodo⟩, hw.stable hr, hs, hopen, hout, hact, htop⟩, by simp⟩
    show E.base (unit A) + 7 + 1 ≤ b
    omega

theorem prefix_get {α : Type} {l l' : List α} (h : l <+: l') {i : ℕ} {x : α} (hx : l[i]? = some x) :
    l'[i]? = some x := by
  obtain ⟨r, rfl⟩ := h
  rw [List.getElem?_append_left, hx]
  exact (List.getElem?_eq_some_iff.1 hx).1

/-- Pruned sets and their ids. -/
theorem buildPruned_spec {K : Kind} {c : Ctx} {b n : ℕ} {σ : Store} {A : OSet} (hA : OK A) (pol : Bool) (cs : List (Fin A.n))
    (hcs : ∀ ch ∈ cs, ch ∈ extremal A pol) (E : Edges) (hi : SInv hash σ) (hE : EdgesOK σ c A E)
    (hf : E.Fresh n) :
    WP hash K (fun c' b' σ' r => c' = c ∧ b' = b ∧ r.1.Fresh (n + cs.length) ∧ Rely c.held σ σ' ∧ EdgesOK σ' c A r.1 ∧ E.sets <+: r.1.sets ∧
      List.Forall₂ (fun (ch : Fin A.n) (id : ℕ) => ∃ T C, prune A pol ch = some T ∧ canon hash T = some C ∧
        r.1.sets[id]? = some C) cs r.2)
      (buildPruned hash A pol cs E) c b σ := by
  induction cs generalizing E σ n with
  | nil =>
    intro σ' hr hi'
    exact ⟨rfl, rfl, hf, hr, hE.stable hr.1, List.prefix_refl _, List.Forall₂.nil⟩
  | cons ch cs ih =>
    rw [buildPruned]
    obtain ⟨T, hT⟩ := prune_some (hcs ch (List.mem_cons_self ..))
    have hTok := prune_ok hA hT
    obtain ⟨C, hC, hCok, _⟩ := canon_spec (hash := hash) hTok
    rw [bind_ofOption hT, bind_ofOption hC]
    have hrank : rank C < rank A := by
      rw [rank_canon hC]
      exact rank_prune hT
    refine WP.seq hi (addEdge_spec hi hE hf hCok hrank) ?_
    rintro c1 b1 σ1 ⟨E1, id⟩ hi1 ⟨rfl, rfl, hf1, hr1, hE1, hpre, hid, _⟩
    refine WP.seq hi1 (ih (fun ch h => hcs ch (List.mem_cons_of_mem _ h)) E1 hi1 hE1 hf1) ?_
    rintro c2 b2 σ2 ⟨E2, ids⟩ hi2 ⟨rfl, rfl, hf2, hr2, hE2, hpre2, hids⟩ σ3 hr3 hi3
    refine ⟨rfl, rfl, hf2.mono (by simp; omega), (hr1.trans hr2).trans hr3, hE2.stable hr3.1, hpre.trans hpre2, ?_⟩
    refine List.Forall₂.cons ⟨T, C, hT, hC, ?_⟩ hids
    exact (prefix_get hpre2 hid)

theorem boundsOf_spec {σ : Store} {c : Ctx} {A : OSet} {E : Edges} (hi : SInv hash σ) (hE : EdgesOK σ c A E)
    {f : State → ℕ} (hf : ∀ st : State, st.lo ≤ st.hi → st.hi ≤ 35 → f st ≤ 35)
    {pol : Bool} {cs : List (Fin A.n)} {ids : List ℕ}
    (h : List.Forall₂ (fun (ch : Fin A.n) (id : ℕ) => ∃ T C, prune A pol ch = some T ∧ canon hash T = some C ∧
        E.sets[id]? = some C) cs ids) :
    ∃ bs, E.boundsOf f ids = some bs ∧ (∀ b ∈ bs, b ≤ 35) ∧ List.Forall₂ (fun ch b => ∃ T C st,
      prune A pol ch = some T ∧ canon hash T = some C ∧ Known σ C st ∧ b = f st) cs bs := by
  unfold Edges.boundsOf
  induction h with
  | nil => exact ⟨[], rfl, by simp, List.Forall₂.nil⟩
  | @cons ch id cs ids hh _ ih =>
    obtain ⟨bs, e, hb, hF⟩ := ih
    obtain ⟨T, C, hT, hC, hid⟩ := hh
    unfold Edges.sets at hid
    rw [List.getElem?_map, Option.map_eq_some_iff] at hid
    obtain ⟨t, ht, rfl⟩ := hid
    have hk := hE.known id t ht
    have hok := (hE.ok id t ht).1
    refine ⟨f t.state :: bs, ?_, ?_, ?_⟩
    · rw [List.mapM_cons, ht, e]
      rfl
    · intro b hb'
      rcases List.mem_cons.1 hb' with rfl | hb'
      · exact hf _ (hk.lo_le hi hok) hk.top
      · exact hb b hb'
    · exact List.Forall₂.cons ⟨T, t.set, t.state, hT, hC, hk, rfl⟩ hF

/-- The bounds of closed edges. -/
theorem boundsOf_closed {E : Edges} {ids : List ℕ}
    (h : ∀ id ∈ ids, ∀ t, E.targets[id]? = some t → t.state.lo = t.state.hi) :
    E.boundsOf State.lo ids = E.boundsOf State.hi ids := by
  unfold Edges.boundsOf
  induction ids with
  | nil => rfl
  | cons id ids ih =>
    have h1 : E.targets[id]?.map (fun t => t.state.lo) = E.targets[id]?.map (fun t => t.state.hi) := by
      cases ht : E.targets[id]? with
      | none => rfl
      | some t => simp [h id (List.mem_cons_self ..) t ht]
    rw [List.mapM_cons, List.mapM_cons, h1, ih fun i hi => h i (List.mem_cons_of_mem _ hi)]

/-- What the body of the loop over the polarities guarantees. -/
structure HuffPost (c : Ctx) (b : ℕ) (A : OSet) (st : State) (E : Edges) (ids : Bool → List ℕ) (uh : Bool → ℕ)
    (pol : Bool) (c' : Ctx) (b' : ℕ) (σ' : Store) (r : Bool × State × Edges × (Bool → ℕ)) : Prop where
  held : c'.held = c.held
  bud : b' = b
  work : Work c' σ' A r.2.1
  loop : LoopOK σ' c' A r.2.2.1
  sets : r.2.2.1.sets = E.sets
  base : ∀ d, r.2.2.1.base d ≤ E.base d
  hi : r.2.1.hi = st.hi
  lo : r.1 = false → r.2.1.lo = st.lo
  states : SameStates E r.2.2.1
  other : ∀ q, q ≠ pol → r.2.2.2 q = uh q
  closed : HuffClosed r.2.2.1 ids st.lo r.2.2.2
  raise : r.1 = true → st.lo < r.2.1.lo
  up : HuffUp A uh → HuffUp A r.2.2.2
  live : r.1 = false → st.lo < r.2.2.2 pol →
    ∃ id ∈ ids pol, ∃ t, r.2.2.1.targets[id]? = some t ∧ t.state.lo ≠ t.state.hi

theorem huffPol_spec {c : Ctx} {b : ℕ} {σ : Store} {A : OSet} {hb lb : ℕ} {st : State} {E : Edges} {ids : Bool → List ℕ}
    {uh : Bool → ℕ} (pol : Bool) (hi : SInv hash σ) (hw : Work c σ A st) (hL : LoopOK σ c A E)
    (hp : PrunedSets hash A ids E.sets) (hcl : HuffClosed E ids st.lo uh) :
    WP hash (.huffman A hb lb) (HuffPost c b A st E ids uh pol) (huffPol A pol ids st E uh) c b σ := by
  have hE := hL.ok
  unfold huffPol
  split
  · next huh =>
    obtain ⟨lbs, hl1, hl2, hl3⟩ := boundsOf_spec hi hE (f := State.lo) (fun st h1 h2 => h1.trans h2) (hp pol)
    obtain ⟨ubs, hu1, hu2, hu3⟩ := boundsOf_spec hi hE (f := State.hi) (fun st h1 h2 => h2) (hp pol)
    have len : ∀ bs : List ℕ, (∃ R, List.Forall₂ R (extremal A pol) bs) → bs.length ≤ 11 := by
      rintro bs ⟨R, h⟩
      rw [← h.length_eq]
      exact (length_extremal A pol).trans hw.ok.2
    obtain ⟨lower, hlow, hl39⟩ := huffman_some (len lbs ⟨_, hl3⟩) hl2
    obtain ⟨upper, hupp, _⟩ := huffman_some (len ubs ⟨_, hu3⟩) hu2
    rw [bind_ofOption hl1, bind_ofOption hu1, bind_ofOption hlow, bind_ofOption hupp]
    have hupper : ∀ w, HuffLB A pol w → w ≤ upper := by
      rintro w ⟨bs, hbs, _, hw'⟩
      refine huffman_mono ?_ (fun b hb => by have := hu2 b hb; omega) hw' hupp
      have key : ∀ cs : List (Fin A.n), ∀ bs ubs : List ℕ,
          List.Forall₂ (fun c b => ∃ B, prune A pol c = some B ∧ LB B.s.toSet b) cs bs →
          List.Forall₂ (fun ch b => ∃ T C st', prune A pol ch = some T ∧ canon hash T = some C ∧ Known σ C st' ∧
            b = st'.hi) cs ubs → List.Forall₂ (· ≤ ·) bs ubs := by
        intro cs
        induction cs with
        | nil =>
          intro bs ubs h1 h2
          cases h1
          cases h2
          exact List.Forall₂.nil
        | cons x xs ih =>
          intro bs ubs h1 h2
          cases h1 with
          | cons h1 h1' =>
            cases h2 with
            | cons h2 h2' =>
              refine List.Forall₂.cons ?_ (ih _ _ h1' h2')
              obtain ⟨B, hB, hl⟩ := h1
              obtain ⟨T, C, st', hT, hC, hk, rfl⟩ := h2
              rw [hB] at hT
              cases hT
              obtain ⟨_, _, _, hub⟩ := canon_of_eq (prune_ok hw.ok hB) hC
              exact hl.le_UB ((hub _).1 hk.ub)
      exact key _ _ _ hbs hu3
    have hjust : ∀ σ', Evolves σ σ' → Just hash (fun B => (σ'.get B).lo) A lower := by
      intro σ' he
      refine Or.inr (Or.inl ⟨pol, lbs, hl3.imp ?_, fun b hb => by have := hl2 b hb; omega, hlow⟩)
      rintro ch b ⟨T, C, st', h1, h2, h3, rfl⟩
      exact ⟨T, C, h1, h2, (h3.mono he).lo⟩
    have hlive : ¬ lower > st.lo → st.lo < upper → ∃ id ∈ ids pol, ∃ t, E.targets[id]? = some t ∧
        t.state.lo ≠ t.state.hi := by
      intro h1 h2
      by_contra hcon
      push Not at hcon
      have e := boundsOf_closed (E := E) (ids := ids pol) hcon
      rw [hl1, hu1] at e
      cases e
      rw [hlow] at hupp
      cases hupp
      exact h1 h2
    have rest : ∀ (c1 : Ctx) b1 σ1 E1, SInv hash σ1 → (EdgesPost c σ A E c1 σ1 E1 ∧ b1 = b ∧ SameStates E E1 ∧
        E1.AllOpen ∧ OwnRun c1 E1 ∧ (∀ d, E1.base d ≤ E.base d) ∧
        HuffClosed E1 ids st.lo (Function.update uh pol upper)) →
        WP hash (.huffman A hb lb) (HuffPost c b A st E ids uh pol)
        (let uh' := Function.update uh pol upper
        if lower > st.hlo then
          if lower > st.lo then
            let state' := { st with hlo := lower, lo := lower }
            Prog.set A state' (.ret (true, state', E1, uh'))
          else
            let state' := { st with hlo := lower }
            Prog.set A state' (.ret (false, state', E1, uh'))
        else .ret (false, st, E1, uh')) c1 b1 σ1 := by
      rintro c1 b1 σ1 E1 hi1 ⟨⟨hc, hr1, hE1, hs1⟩, hb1, hst1, ho1, hown1, hba1, hcl1⟩
      have hw1 : Work c1 σ1 A st := (hw.stable hr1).ctx hc
      have hoth : ∀ q, q ≠ pol → Function.update uh pol upper q = uh q := fun q hq => Function.update_of_ne hq _ _
      have hup : Function.update uh pol upper pol = upper := Function.update_self ..
      have hlive1 : ¬ lower > st.lo → st.lo < Function.update uh pol upper pol →
          ∃ id ∈ ids pol, ∃ t, E1.targets[id]? = some t ∧ t.state.lo ≠ t.state.hi := by
        intro h1 h2
        rw [hup] at h2
        obtain ⟨id, hid, t, ht, hne⟩ := hlive h1 h2
        obtain ⟨t0, ht0, e⟩ := hst1.symm.get ht
        exact ⟨id, hid, t0, ht0, by rw [e]; exact hne⟩
      have hhuff := hw.huff hi
      have hupU : HuffUp A uh → HuffUp A (Function.update uh pol upper) := by
        intro h q w hw'
        by_cases hq : q = pol
        · subst hq
          rw [Function.update_self]
          exact hupper w hw'
        · rw [Function.update_of_ne hq]
          exact h q w hw'
      dsimp only
      split
      · next hgt0 =>
        split
        · next hgt =>
          refine WP.setWork rfl hw1 ?_ ?_
          · intro σ' hr hi'
            rw [hc] at hr
            exact ⟨Nat.le_of_lt hgt, Nat.le_refl _, (hw1.known hi1).ub, Or.inr (hjust σ' (hr1.trans hr).1),
              hhuff.1, Nat.le_refl _, Or.inr (Or.inl hgt), hw.hup hi⟩
          · intro σ' he hi' hw' _ σ'' hr'' hi''
            exact ⟨hc, hb1, hw'.stable hr'', ⟨(hE1.stable he).stable hr''.1, hown1, ho1⟩, hs1, hba1, rfl, by simp, hst1,
              hoth, hcl1, fun _ => hgt, hupU, by simp⟩
        · next hgt =>
          refine WP.setWork rfl hw1 ?_ ?_
          · intro σ' hr hi'
            refine ⟨Nat.le_refl _, Nat.le_refl _, (hw1.known hi1).ub, Or.inl rfl, hhuff.1, by dsimp only; omega,
              Or.inr (Or.inr ⟨rfl, rfl, ?_⟩), hw.hup hi⟩
            dsimp only
            omega
          · intro σ' he hi' hw' _ σ'' hr'' hi''
            exact ⟨hc, hb1, hw'.stable hr'', ⟨(hE1.stable he).stable hr''.1, hown1, ho1⟩, hs1, hba1, rfl,
              fun _ => rfl, hst1, hoth, hcl1, by simp, hupU, fun _ => hlive1 hgt⟩
      · intro σ'' hr'' hi''
        exact ⟨hc, hb1, hw1.stable hr'', ⟨hE1.stable hr''.1, hown1, ho1⟩, hs1, hba1, rfl, fun _ => rfl, hst1, hoth, hcl1,
          by simp, hupU, fun _ => hlive1 (by omega)⟩
    dsimp only
    by_cases hup : upper ≤ st.lo
    · rw [if_pos hup]
      refine WP.seq hi (retainEdges_spec E _ hi hE hL.allOpen hL.own) ?_
      rintro c1 b1 σ1 E1 hi1 ⟨h1, h2, h3, h4, h5, h6, h7⟩
      refine rest c1 b1 σ1 E1 hi1 ⟨h1, h2, h3, h4, h5, h6, ?_⟩
      intro q hq id hid t ht hna
      have hqp : q ≠ pol := by
        rintro rfl
        rw [Function.update_self] at hq
        omega
      rw [Function.update_of_ne hqp] at hq
      obtain ⟨t0, ht0, e⟩ := h3.get ht
      rw [← e]
      refine hcl q hq id hid t0 ht0 fun hact => hna ((h7 id).2 ⟨hact, ?_⟩)
      have : (!pol) = q := by cases pol <;> cases q <;> simp_all
      rw [this]
      simpa using hid
    · rw [if_neg hup]
      refine rest c b σ E hi ⟨⟨rfl, Rely.refl _ _, hE, rfl⟩, rfl, rfl, hL.allOpen, hL.own, fun _ => Nat.le_refl _, ?_⟩
      intro q hq id hid t ht hna
      refine hcl q ?_ id hid t ht hna
      by_cases hqp : q = pol
      · subst hqp; exact huh
      · rwa [Function.update_of_ne hqp] at hq
  · next huh =>
    intro σ'' hr'' hi''
    exact ⟨rfl, rfl, hw.stable hr'', hL.stable hr''.1, rfl, fun _ => Nat.le_refl _, rfl, fun _ => rfl, rfl,
      fun _ _ => rfl, hcl, by simp, fun h => h, fun _ h => absurd h huh⟩

theorem codeHuffRest_spec {c : Ctx} {b : ℕ} {σ : Store} {A : OSet} {st : State} {E : Edges} {ids : Bool → List ℕ}
    {uh : Bool → ℕ} (level : ℕ) (hi : SInv hash σ) (hw : Work c σ A st) (hL : LoopOK σ c A E)
    (hp : PrunedSets hash A ids E.sets) (hcl : HuffClosed E ids st.lo uh) (hu : HuffUp A uh)
    (hlive : ∀ pol, st.lo < uh pol → ∃ id ∈ ids pol, ∃ t, E.targets[id]? = some t ∧ t.state.lo ≠ t.state.hi)
    (hb : E.base (unit A) + 8 ≤ b) :
    WP hash (.huffman A st.hi st.lo) (ExitOK hash (.huffman A st.hi st.lo)) (codeHuffRest level A st E ids uh) c b σ := by
  have hle : E.active = [] → max (uh false) (uh true) ≤ st.lo := by
    intro e
    have : ∀ pol, uh pol ≤ st.lo := by
      intro pol
      by_contra hcon
      obtain ⟨id, hid, t, ht, hne⟩ := hlive pol (by omega)
      exact hne (hcl pol (by omega) id hid t ht (by rw [e]; simp))
    exact max_le (this false) (this true)
  unfold codeHuffRest
  dsimp only
  split
  · next hlt =>
    refine WP.setWork rfl hw ?_ ?_
    · intro σ' hr hi'
      have := hw.huff hi
      refine ⟨Nat.le_refl _, Nat.le_refl _, (hw.known hi).ub, Or.inl rfl, by dsimp only; omega, this.2,
        Or.inr (Or.inr ⟨rfl, rfl, by dsimp only; omega⟩), ?_⟩
      intro pol w hw'
      have := hu pol w hw'
      dsimp only
      cases pol <;> omega
    · intro σ' he hi' hw' _ σ'' hr'' hi''
      exact ⟨Or.inl hb, (hL.stable he).stable hr''.1, ⟨rfl, hw'.stable hr'', hp, hcl, hle, hu⟩, by simp⟩
  · next hge =>
    intro σ'' hr'' hi''
    exact ⟨Or.inl hb, hL.stable hr''.1, ⟨rfl, hw.stable hr'', hp, hcl, fun e => by have := hle e; omega, hu⟩, by simp⟩


theorem RetInv.work {K : Kind} {c : Ctx} {σ : Store} {E : Edges} {r : Ret} (h : RetInv hash K c σ E r) :
    K.cur = r.cur ∧ ∃ st, Work c σ r.cur st := by
  cases r with
  | edges l A st =>
    obtain ⟨⟨m, rfl, _⟩, h2, _⟩ := h
    exact ⟨rfl, st, h2⟩
  | huffman l A st ids uh =>
    obtain ⟨rfl, h2, _⟩ := h
    exact ⟨rfl, st, h2⟩

theorem RetInv.stable {K : Kind} {c c' : Ctx} {σ σ' : Store} {E : Edges} {r : Ret} (h : RetInv hash K c σ E r)
    (hc : c'.held = c.held) (hr : Rely c.held σ σ') : RetInv hash K c' σ' E r := by
  cases r with
  | edges l A st => exact ⟨h.1, (h.2.1.stable hr).ctx hc, h.2.2⟩
  | huffman l A st ids uh => exact ⟨h.1, (h.2.1.stable hr).ctx hc, h.2.2⟩

theorem RetInv.same {K : Kind} {c : Ctx} {σ : Store} {E E' : Edges} {r : Ret} (h : RetInv hash K c σ E r)
    (hs : E'.sets = E.sets) (hst : SameStates E E') (ha : ∀ id, id ∈ E'.active ↔ id ∈ E.active) :
    RetInv hash K c σ E' r := by
  have hnil : E'.active = [] ↔ E.active = [] := by
    rw [List.eq_nil_iff_forall_not_mem, List.eq_nil_iff_forall_not_mem]
    simp only [ha]
  cases r with
  | edges l A st =>
    obtain ⟨h1, h2, h3, h4, h5, h6⟩ := h
    refine ⟨h1, h2, hs ▸ h3, h4, ?_, fun e => h6.1 (hnil.1 e), h6.2⟩
    intro id t ht hid
    obtain ⟨t0, ht0, e⟩ := hst.get ht
    rw [← e]
    exact h5 id t0 ht0 (fun hm => hid ((ha id).2 hm))
  | huffman l A st ids uh =>
    obtain ⟨h1, h2, h3, h4, h5⟩ := h
    refine ⟨h1, h2, hs ▸ h3, ?_, fun e => h5.1 (hnil.1 e), h5.2⟩
    intro pol hlt id hid t ht hact
    obtain ⟨t0, ht0, e⟩ := hst.get ht
    rw [← e]
    exact h4 pol hlt id hid t0 ht0 (fun hm => hact ((ha id).2 hm))

theorem LoopOK.withActive {σ : Store} {c : Ctx} {A : OSet} {E : Edges} (h : LoopOK σ c A E) {l : List ℕ}
    (hl : ∀ id, id ∈ l ↔ id ∈ E.active) : LoopOK σ c A { targets := E.targets, active := l } := by
  refine ⟨h.ok.withActive fun id hid => (hl id).1 hid, ?_, fun id t hid => h.allOpen id t ((hl id).1 hid)⟩
  intro hd ho
  obtain ⟨id, hid, rest⟩ := h.own hd ho
  exact ⟨id, (hl id).2 hid, rest⟩

theorem codeSpawn_spec {K : Kind} {c : Ctx} {b : ℕ} {σ : Store} {E : Edges} (level : ℕ) (order : Option ℕ) (r : Ret)
    (hi : SInv hash σ) (hL : LoopOK σ c r.cur E) (hr : RetInv hash K c σ E r) (hact : E.active ≠ [])
    (hb : E.base (unit r.cur) + 7 ≤ b) :
    WP hash K (ExitOK hash K) (codeSpawn level order E r) c b σ := by
  unfold codeSpawn
  dsimp only
  have hmem : ∀ id, id ∈ E.sorted order ↔ id ∈ E.active := by
    intro id
    unfold Edges.sorted
    exact List.mem_insertionSort _
  have hL' := hL.withActive hmem
  obtain ⟨hcur, st, hw⟩ := hr.work
  have hne : E.sorted order ≠ [] := by
    intro e
    apply hact
    rw [List.eq_nil_iff_forall_not_mem]
    intro id hid
    have := (hmem id).2 hid
    rw [e] at this
    simp at this
  have hbase : Edges.base (unit r.cur) ⟨E.targets, E.sorted order⟩ = E.base (unit r.cur) := by
    have hc : Edges.credit ⟨E.targets, E.sorted order⟩ = E.credit := by
      unfold Edges.credit Edges.sorted
      exact ((List.perm_insertionSort _ _).map _).sum_eq
    unfold Edges.base
    rw [hc]
    rfl
  refine WP.seq hi (spawnLoop_spec level order hcur hw.ok (E.sorted order) 0 _ true hL'.ok (fun _ h => h)
    hL'.allOpen (by omega)) ?_
  rintro c1 b1 σ1 ⟨E1, bl⟩ hi1 ⟨⟨h1, h2, h3, h4⟩, h5, h6, h7, h8, h9, h10, h11, h12⟩ σ2 hr2 hi2
  dsimp only at *
  rw [hbase] at h10 h11
  have hL1 : LoopOK σ1 c1 r.cur E1 := by
    refine ⟨h3, h7 hL'.own, ?_⟩
    intro id t hid ht
    obtain ⟨t0, ht0, e⟩ := h5.get ht
    rw [← e]
    rw [h6] at hid
    exact hL'.allOpen id t0 hid ht0
  refine ⟨?_, hL1.stable hr2.1, ?_, fun e => h12 rfl hne e⟩
  · cases bl with
    | true =>
      right
      obtain ⟨e1, e2, _⟩ := h8 rfl
      subst e1
      refine ⟨rfl, ?_⟩
      show Edges.base (unit r.cur) _ + 7 ≤ b1
      omega
    | false =>
      left
      have := (h11 rfl).resolve_left (by simp)
      show E1.base (unit r.cur) + 7 + 1 ≤ b1
      omega
  · have hr1 : RetInv hash K c1 σ2 E r := by
      refine hr.stable h1 (h2.trans ?_)
      rw [h1] at hr2
      exact hr2
    refine hr1.same h4 h5 ?_
    intro id
    rw [h6]
    exact hmem id

theorem edgePot_le (A : OSet) : 2 * edgePot A + 1 ≤ callPot A - 3 := by
  have := unit_pos A
  unfold edgePot callPot
  omega

theorem shortcutPot_le (A : OSet) : 3600 * (unit A + 5) + 6 ≤ callPot A - 3 := by
  have := unit_pos A
  unfold callPot
  omega

/-- The main lemma. -/
theorem code_spec {K : Kind} (pc : PC) {c : Ctx} {b : ℕ} {σ : Store} (hi : SInv hash σ) (h : PCInv hash K c σ pc)
    (hb : pc.pot ≤ b) : WP hash K (ExitOK hash K) (code hash pc) c b σ := by
  cases pc with
  | start limit A =>
    obtain ⟨rfl, hA, hh⟩ := h
    rw [code, bind_get]
    intro σ1 hr1 hi1 σ2 hr2 hi2
    have hk := hi1.known hA
    refine ⟨Or.inl ?_, rfl, hA, hh, hk.mono hr2.1⟩
    have := Nat.mul_le_mul_right (callPot A + 5) hk.todo_max
    change 3600 * (callPot A + 5) + 6 ≤ b at hb
    show (σ1.get A).todo * (callPot A + 5) + 5 + 1 ≤ b
    omega
  | main limit A st =>
    obtain ⟨rfl, hA, hh, hk⟩ := h
    change st.todo * (callPot A + 5) + 5 ≤ b at hb
    rw [code]
    split
    · next hc =>
      intro σ' hr hi'
      exact ⟨⟨hk.mono hr.1, hc⟩, by omega⟩
    · next hc =>
      have hopen : st.lo ≠ st.hi := fun e => hc (Or.inl e)
      have hpos := State.todo_pos hopen
      intro σ' hr hi'
      refine ⟨.improve A st.todo, (st.todo - 1) * (callPot A + 5) + 5, ?_,
        ⟨rfl, hA, fun B hB => absurd hB (hh B), hk.mono hr.1, hopen, fun _ h => h⟩, le_refl (rank A),
        fun B hB => absurd hB (hh B), ?_⟩
      · have e : st.todo * (callPot A + 5) = (st.todo - 1) * (callPot A + 5) + (callPot A + 5) := by
          obtain ⟨k, hk⟩ : ∃ k, st.todo = k + 1 := ⟨st.todo - 1, by omega⟩
          rw [hk, Nat.add_sub_cancel, Nat.add_mul, Nat.one_mul]
        show callPot A + ((st.todo - 1) * (callPot A + 5) + 5) + 1 ≤ b
        omega
      intro σ'' v hr'' hi'' ⟨hp, hv⟩
      refine ⟨?_, rfl, hA, hh, hp⟩
      have := Nat.mul_le_mul_right (callPot A + 5) (show v.todo ≤ st.todo - 1 by omega)
      show v.todo * (callPot A + 5) + 5 ≤ _
      omega
  | improve level prev A =>
    obtain ⟨rfl, hA, hh, hk, hpo, hno⟩ := h
    change callPot A ≤ b at hb
    have hcp := edgePot_le A
    rw [code, bind_get]
    intro σ1 hr1 hi1
    dsimp only
    split
    · next hne => exact WP.doneImprove (hi1.known hA) ((hk.mono hr1.1).todo_lt hpo hne) (by omega)
    · next heq =>
      rw [not_not] at heq
      split
      · next hc =>
        rw [heq] at hc
        exact absurd hc hpo
      · next hopen =>
        intro σ2 hr2 hi2
        obtain ⟨hn, hs⟩ := hi1.open hopen
        have hk2 := (hk.mono hr1.1).mono hr2.1
        refine ⟨⟨_, rfl⟩, ⟨by omega, hA.2⟩, hh, by omega, ?_, ?_⟩
        · intro σ3 hr3 hi3
          refine ⟨Or.inl ?_, rfl, hA, ⟨Or.inl rfl, ?_⟩, hk2.mono hr3.1, hpo, hno⟩
          · show callPot A - 3 + 1 ≤ b - 2
            omega
          rintro B (rfl | hB)
          · exact Or.inl rfl
          · exact Or.inr (hh B hB)
        · intro σ3 hr3 hi3
          exact ⟨Or.inr ⟨rfl, hb⟩, rfl, hA, hh, hk2.mono hr3.1, hpo, hno⟩
  | locked level prev A =>
    obtain ⟨rfl, hA, hh, hk, hpo, hno⟩ := h
    change callPot A - 3 ≤ b at hb
    have hcp := edgePot_le A
    have hsp := shortcutPot_le A
    rw [code, bind_get]
    intro σ1 hr1 hi1
    dsimp only
    split
    · next hne => exact WP.doneImprove (hi1.known hA) ((hk.mono hr1.1).todo_lt hpo hne) (by omega)
    · next heq =>
      rw [not_not] at heq
      split
      · next hc =>
        rw [heq] at hc
        exact absurd hc hpo
      · next hopen =>
        obtain ⟨hn, hs⟩ := hi1.open hopen
        have hw : Work c σ1 A (σ1.get A) := ⟨hA, hn, hs, hh, rfl⟩
        have hm : (σ1.get A).todo ≤ prev.todo := by rw [heq]
        exact codeShortcut_spec level false _ hi1 hw hm hopen hno (by omega)
          (codeShortcut_spec level true _ hi1 hw hm hopen hno (by omega)
            (codeHuffman_spec level hi1 hw hm hopen hno (by omega)))
  | pruned level A st P ps =>
    obtain ⟨⟨m, rfl, hm⟩, hw, ⟨pol, ch, T, h1, h2, h3⟩, hk, hopen, hno⟩ := h
    change ps.todo * (unit A + 5) + 5 ≤ b at hb
    have hTok := prune_ok hw.ok h2
    obtain ⟨hPok, _, hlb, hub⟩ := canon_of_eq hTok h3
    rw [code]
    split
    · next hlt =>
      refine WP.setWork rfl hw ?_ ?_
      · intro σ' hr hi'
        have := hk.top
        refine ⟨Nat.le_refl _, Nat.le_of_lt hlt, ?_, Or.inl rfl, by dsimp only; omega, (hw.huff hi).2, Or.inl hlt,
          HuffTop.of_UB ?_⟩ <;>
        exact ((prune_single hw.ok h1 h2).2 _).2 ((hub _).1 hk.ub)
      · intro σ' he hi' hw' htodo
        have := htodo hopen
        split
        · exact WP.doneImprove (hw'.known hi') (by omega) (by omega)
        · next hopen' =>
          exact codePrunedLower_spec level hi' hw' h1 h2 h3 (hk.mono he) (by omega) hopen' hno (Nat.le_refl _) hb
    · next hge => exact codePrunedLower_spec level hi hw h1 h2 h3 hk hm hopen hno (by omega) hb
  | afterHuffman level A st new =>
    obtain ⟨⟨m, rfl, hm, hlt⟩, hw, hopen, hno, htop⟩ := h
    change edgePot A ≤ b at hb
    rw [code]
    split
    · next hgt => exact WP.doneImprove (hw.known hi) (hlt hgt) (by unfold edgePot at hb; omega)
    · next hgt => exact codeEdges_spec level hi hw hm (hopen hgt) hno (htop hgt) hb
  | edgesLoop level A st E =>
    obtain ⟨⟨m, rfl, hm0⟩, hw, hL, hs, hopen, hout, htop⟩ := h
    change E.base (unit A) + 9 ≤ b at hb
    have hE := hL.ok
    have hne := succ_nonempty hi hw hs
    obtain ⟨l, hm, hmem, hmin⟩ := listMin_some (l := E.targets.map fun t => t.state.hi) (by simpa using hne)
    rw [code, bind_ofOption hm]
    dsimp only
    obtain ⟨t, ht, hmt⟩ := List.mem_map.1 hmem
    obtain ⟨hok, hk⟩ := hE.mem_known ht
    have := hk.top
    rw [Nat.mod_eq_of_lt (by omega)]
    split
    · next hlt =>
      refine WP.setWork rfl hw ?_ ?_
      · intro σ' hr hi'
        have hh := hw.huff hi
        have hu : UB A.s.toSet (l + 1) := ?_
        · refine ⟨Nat.le_refl _, Nat.le_of_lt hlt, hu, Or.inl rfl, by dsimp only; omega, hh.2, Or.inl hlt, ?_⟩
          intro pol w hw'
          have h1 := hw'.le_UB hu
          have h2 := hw.hup hi pol w hw'
          exact le_min h1 h2
        obtain ⟨i, j, hji, T, hT, hC⟩ := hs.only t.set (List.mem_map.2 ⟨t, ht, rfl⟩)
        have hij : i ≠ j := (ne_of_lt hji).symm
        obtain ⟨_, _, _, hub⟩ := canon_of_eq (successor_ok hw.ok hij hT) hC
        exact successor_ub hij hT ((hub _).1 (hmt ▸ hk.ub))
      · intro σ' he hi' hw' htodo
        have := htodo hopen
        split
        · exact WP.doneImprove (hw'.known hi') (by omega) (by omega)
        · next hopen' =>
          refine codeEdgesLower_spec level hi' hw' (hL.stable he) hs (by omega) hopen' hout ?_ htop hb
          intro u hu
          have := hmin u.state.hi (List.mem_map.2 ⟨u, hu, rfl⟩)
          dsimp only
          omega
    · next hge =>
      refine codeEdgesLower_spec level hi hw hL hs hm0 hopen hout ?_ htop hb
      intro u hu
      have := hmin u.state.hi (List.mem_map.2 ⟨u, hu, rfl⟩)
      omega
  | huffman level A =>
    obtain ⟨rfl, hA, hn, hs, hh, hno⟩ := h
    change edgePot A ≤ b at hb
    rw [code, bind_get]
    intro σ1 hr1 hi1
    have hw : Work c σ1 A (σ1.get A) := ⟨hA, hn, hs, hh, rfl⟩
    have hst : σ1.get A = σ.get A := by simp [Store.get, hr1.2 A hh.1]
    rw [← hst]
    dsimp only
    split
    · intro σ2 hr2 hi2
      exact ⟨⟨(hw.stable hr2).state, rfl, Or.inl (by assumption)⟩, by unfold edgePot at hb; omega⟩
    · next hgt =>
      refine WP.seq hi1 (buildPruned_spec hA false _ (fun _ h => h) Edges.empty hi1 (EdgesOK.empty _ _ _)
        Edges.Fresh.empty) ?_
      rintro c2 b2 σ2 ⟨E2, ids2⟩ hi2 ⟨rfl, rfl, hf2, hr2, hE2, _, hids2⟩
      refine WP.seq hi2 (buildPruned_spec hA true _ (fun _ h => h) E2 hi2 hE2 hf2) ?_
      rintro c3 b3 σ3 ⟨E3, ids3⟩ hi3 ⟨rfl, rfl, hf3, hr3, hE3, hpre, hids3⟩ σ4 hr4 hi4
      have hlen : 0 + (extremal A false).length + (extremal A true).length ≤ 121 := by
        have h1 := length_extremal A false
        have h2 := length_extremal A true
        have := hA.2
        omega
      have hpot := base_edgePot hE3 hf3 hlen
      refine ⟨Or.inl ?_, rfl, ((hw.stable hr2).stable hr3).stable hr4, ⟨hE3.stable hr4.1, fun h ho => absurd ho (hno h),
        hf3.allOpen⟩, ?_, fun pol _ id _ t ht hid => hf3.closedOut id t ht hid, fun pol w h => hi1.hup A hA pol w h⟩
      · show E3.base (unit A) + (if (σ1.get A).hhi ≤ (σ1.get A).lo then 5 else 9) + 1 ≤ b3
        rw [if_neg hgt]
        dsimp only at hpot
        omega
      intro pol
      cases pol with
      | true => exact hids3
      | false =>
        refine hids2.imp ?_
        rintro ch id ⟨T, C, hT, hC, hid⟩
        exact ⟨T, C, hT, hC, prefix_get hpre hid⟩
  | huffLoop level A st E ids uh =>
    obtain ⟨rfl, hw, hL, hp, hcl, hu⟩ := h
    change E.base (unit A) + (if st.hhi ≤ st.lo then 5 else 9) ≤ b at hb
    rw [code]
    split
    · next hgt =>
      rw [if_neg (by omega)] at hb
      refine WP.seq hi (huffPol_spec false hi hw hL hp hcl) ?_
      rintro c1 b1 σ1 ⟨b1', st1, E1, uh1⟩ hi1 h1
      have hb1 := h1.bud
      have hw1 := h1.work
      have hL1 := h1.loop
      have hs1 := h1.sets
      have hba1 := h1.base (unit A)
      have hhi1 := h1.hi
      have hlo1 := h1.lo
      have hcl1 := h1.closed
      have hlive1 := h1.live
      have hraise1 := h1.raise
      have hu1 := h1.up hu
      have hst1 := h1.states
      clear h1
      dsimp only at *
      split
      · next hb1t =>
        intro σ2 hr2 hi2
        exact ⟨⟨(hw1.stable hr2).state, hhi1, Or.inr (hraise1 hb1t)⟩, by omega⟩
      · next hb1f =>
        have hb1f : b1' = false := by simpa using hb1f
        have hlo1 := hlo1 hb1f
        have hlive1 := hlive1 hb1f
        rw [← hlo1] at hcl1 hlive1
        refine WP.seq hi1 (huffPol_spec true hi1 hw1 hL1 (hs1 ▸ hp) hcl1) ?_
        rintro c2 b2 σ2 ⟨b2', st2, E2, uh2⟩ hi2 h2
        have hb2 := h2.bud
        have hw2 := h2.work
        have hL2 := h2.loop
        have hs2 := h2.sets
        have hba2 := h2.base (unit A)
        have hhi2 := h2.hi
        have hlo2 := h2.lo
        have hcl2 := h2.closed
        have hlive2 := h2.live
        have hraise2 := h2.raise
        have hu2 := h2.up hu1
        have hst2 := h2.states
        have hoth2 := h2.other
        clear h2
        dsimp only at *
        split
        · next hb2t =>
          intro σ2 hr2 hi2
          exact ⟨⟨(hw2.stable hr2).state, hhi2.trans hhi1, Or.inr (hlo1 ▸ hraise2 hb2t)⟩, by omega⟩
        · next hb2f =>
          have hb2f : b2' = false := by simpa using hb2f
          have hlo2 := hlo2 hb2f
          have hlive2 := hlive2 hb2f
          rw [← hlo2] at hcl2 hlive1 hlive2
          rw [← hhi1, ← hhi2, ← hlo1, ← hlo2]
          refine codeHuffRest_spec level hi2 hw2 hL2 ((hs2.trans hs1) ▸ hp) hcl2 hu2 ?_ (by omega)
          intro pol hpol
          cases pol with
          | true => exact hlive2 hpol
          | false =>
            rw [hoth2 false (by simp)] at hpol
            obtain ⟨id, hid, t, ht, hne⟩ := hlive1 hpol
            obtain ⟨t0, ht0, e⟩ := hst2.symm.get ht
            exact ⟨id, hid, t0, ht0, by rw [e]; exact hne⟩
    · intro σ2 hr2 hi2
      refine ⟨⟨(hw.stable hr2).state, rfl, Or.inl (by omega)⟩, ?_⟩
      split at hb <;> omega
  | nextLoop level order E block r =>
    obtain ⟨hL, hr, hblock⟩ := h
    change E.base (unit r.cur) + 7 ≤ b at hb
    have hE := hL.ok
    rw [code]
    refine WP.seq hi (pollLoop_spec E.active E false 0 hE hE.active (by intro _ h; omega)) ?_
    rintro c1 b1 σ1 ⟨E1, fin, num⟩ hi1 hpoll
    obtain ⟨h1, h2, h3, h4⟩ := hpoll.post
    have h5 := hpoll.active
    have h6 := hpoll.running
    have hbud := hpoll.bud
    have hsame := hpoll.same
    have hless := hpoll.less
    have hown := hpoll.own hL.own
    have hclosed := hpoll.closed
    clear hpoll
    dsimp only at *
    have hassert : (E1.active.all fun id => E1.retainOk id) = true := by
      rw [List.all_eq_true]
      intro id hid
      have hlt := h3.active id hid
      have ht : E1.targets[id]? = some E1.targets[id] := List.getElem?_eq_getElem hlt
      unfold Edges.retainOk
      rw [ht]
      dsimp only
      rw [Bool.or_eq_true, decide_eq_true_eq]
      cases hrun : E1.targets[id].running with
      | none => right; rfl
      | some hd => left; exact (h3.running id _ hd ht hrun).2.2
    rw [Prog.assert, if_pos hassert, bind_ret]
    have hopen2 : ∀ (id : ℕ) t, E1.targets[id]? = some t → (E1.open id = true ↔ t.state.lo ≠ t.state.hi) := by
      intro id t ht
      unfold Edges.open
      rw [ht]
      simp
    have hL2 : LoopOK σ1 c1 r.cur { targets := E1.targets, active := E1.active.filter E1.open } := by
      refine ⟨h3.withActive fun id hid => (List.mem_filter.1 hid).1, ?_, ?_⟩
      · intro hd ho
        obtain ⟨id, hid, t, ht, hrun⟩ := hown hd ho
        exact ⟨id, List.mem_filter.2 ⟨hid, (hopen2 id t ht).2 (h3.running id t hd ht hrun).2.2⟩, t, ht, hrun⟩
      · intro id t hid ht
        exact (hopen2 id t ht).1 (List.mem_filter.1 hid).2
    have hs2 : Edges.sets { targets := E1.targets, active := E1.active.filter E1.open } = E.sets := h4
    have hr2 : RetInv hash K c1 σ1 E r := hr.stable h1 h2
    have hbase2 : Edges.base (unit r.cur) { targets := E1.targets, active := E1.active.filter E1.open } ≤
        E1.base (unit r.cur) := by
      have hle : Edges.credit ⟨E1.targets, E1.active.filter E1.open⟩ ≤ E1.credit := by
        unfold Edges.credit
        exact (List.filter_sublist.map _).sum_le_sum fun _ _ => Nat.zero_le _
      have := base_le (E := E1) (E' := ⟨E1.targets, E1.active.filter E1.open⟩) (unit r.cur) hle (k := 0) (Nat.le_refl _)
      omega
    have hsameE : fin = false → ({ targets := E1.targets, active := E1.active.filter E1.open } : Edges) = E := by
      intro e
      obtain ⟨rfl, _⟩ := hsame e
      have : E1.active.filter E1.open = E1.active := by
        rw [List.filter_eq_self]
        intro id hid
        have hlt := h3.active id hid
        have ht : E1.targets[id]? = some E1.targets[id] := List.getElem?_eq_getElem hlt
        exact (hopen2 id _ ht).2 (hL.allOpen id _ hid ht)
      rw [this]
    have hout : ∀ (id : ℕ) t, E1.targets[id]? = some t → id ∉ E1.active.filter E1.open →
        (∀ t0, E.targets[id]? = some t0 → id ∉ E.active → t0.state.lo = t0.state.hi) → t.state.lo = t.state.hi := by
      intro id t ht hid hcl
      by_cases hact : id ∈ E.active
      · by_contra hne
        exact hid (List.mem_filter.2 ⟨by rw [h5]; exact hact, (hopen2 id t ht).2 hne⟩)
      · have hlen : id < E.targets.length := by
          have e := congrArg List.length h4
          unfold Edges.sets at e
          rw [List.length_map, List.length_map] at e
          rw [← e]
          exact (List.getElem?_eq_some_iff.1 ht).1
        have ht0 : E.targets[id]? = some E.targets[id] := List.getElem?_eq_getElem hlen
        have := hclosed id _ ht0 (hcl _ ht0 hact)
        rw [ht] at this
        cases this
        exact hcl _ ht0 hact
    split
    · next hfin =>
      intro σ2 hr3 hi2
      have hr4 : RetInv hash K c1 σ2 E r := hr2.stable rfl hr3
      have hL4 := hL2.stable hr3.1
      cases r with
      | edges l A st =>
        obtain ⟨hK, hw4, hss, hop, hcl, hact, htop⟩ := hr4
        have hf : fin = true := by
          by_contra hf
          have hf : fin = false := by simpa using hf
          rcases hfin with hfin | hfin
          · simp [hf] at hfin
          · exact hact (by rw [← hsameE hf]; exact hfin)
        have hless := (hless hf).resolve_left (by simp) (unit A)
        refine ⟨Or.inl ?_, hK, hw4, hL4, hs2 ▸ hss, hop, ?_, htop⟩
        · change E.base (unit A) + 7 ≤ b at hb
          change Edges.base (unit A) _ ≤ E1.base (unit A) at hbase2
          show Edges.base (unit A) { targets := E1.targets, active := E1.active.filter E1.open } + 9 + 1 ≤ b1
          omega
        · intro id t ht hid
          exact hout id t ht hid fun t0 => hcl id t0
      | huffman l A st ids uh =>
        obtain ⟨hK, hw4, hss, hcl, hact, hu⟩ := hr4
        refine ⟨Or.inl ?_, hK, hw4, hL4, hs2 ▸ hss, ?_, hu⟩
        · change E.base (unit A) + 7 ≤ b at hb
          change Edges.base (unit A) _ ≤ E1.base (unit A) at hbase2
          show Edges.base (unit A) { targets := E1.targets, active := E1.active.filter E1.open } +
            (if st.hhi ≤ st.lo then 5 else 9) + 1 ≤ b1
          by_cases hf : fin = true
          · have hless := (hless hf).resolve_left (by simp) (unit A)
            split <;> omega
          · have hf : fin = false := by simpa using hf
            have e := hsameE hf
            have ha : E.active = [] := by
              rw [← e]
              exact hfin.resolve_left (by simp [hf])
            rw [if_pos (hact ha), e]
            omega
        · intro pol hlt id hid t ht hna
          exact hout id t ht hna fun t0 ht0 hna0 => hcl pol hlt id hid t0 ht0 hna0
    · next hnf =>
      rw [not_or] at hnf
      have hf : fin = false := by simpa using hnf.1
      have e := hsameE hf
      have hspawn : WP hash K (ExitOK hash K)
          (codeSpawn level order { targets := E1.targets, active := E1.active.filter E1.open } r) c1 b1 σ1 := by
        refine codeSpawn_spec level order r hi1 hL2 (by rw [e]; exact hr2) hnf.2 ?_
        rw [e]
        omega
      split
      · next hbk =>
        exact ⟨h6 hf hbk.2, hspawn⟩
      · exact hspawn

end Search

end Sortnet
