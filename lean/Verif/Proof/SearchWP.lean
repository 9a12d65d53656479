import Verif.Proof.SearchSpec
import Mathlib.Algebra.Order.BigOperators.Group.List

/-!
# Reasoning about the programs of the search

`WP p Q c b σ`: starting with the contents `σ` of the state map, the knowledge `c` about the locks and
handles of the task and the budget `b`, the program `p` performs only allowed actions that it can pay for,
whatever other tasks do in between, and ends with a result, knowledge, budget and contents that satisfy `Q`.

The budget bounds how much work a call can still cause.  Taking a lock and spawning a task is paid for from
the budget.
-/

namespace Sortnet

namespace Search

/-- What kind of call a program point belongs to.  `improve A m` improves on a state of `A` with `todo = m`;
`huffman A hi lo` does not change the upper bound `hi`, and raises the lower bound `lo` or shows that the Huffman rule cannot. -/
inductive Kind where
  | main (limit : Option ℕ) (A : OSet)
  | improve (A : OSet) (m : ℕ)
  | huffman (A : OSet) (hi lo : ℕ)

/-- The set a call works on. -/
def Kind.cur : Kind → OSet
  | main _ A => A
  | improve A _ => A
  | huffman A _ _ => A

/-- Kind of the first call of a task. -/
def PC.rootKind : PC → Kind
  | .start l A => .main l A
  | .improve _ prev A => .improve A prev.todo
  | pc => .main none pc.cur

/-- What a call guarantees about its result. -/
def Post (σ : Store) (v : State) : Kind → Prop
  | .main limit A => Known σ A v ∧ (v.lo = v.hi ∨ ∃ l ∈ limit, l ≤ v.lo)
  | .improve A m => Known σ A v ∧ v.todo < m
  | .huffman A hi lo => σ.get A = v ∧ v.hi = hi ∧ (v.hhi ≤ v.lo ∨ lo < v.lo)

/-- Unit of the budget of a call that works on `A`. -/
noncomputable def unit (A : OSet) : ℕ := (10 ^ 8) ^ rankN A

/-- Budget of a call of `improve` for `A`. -/
noncomputable def callPot (A : OSet) : ℕ := 10 ^ 8 * unit A

theorem unit_pos (A : OSet) : 1 ≤ unit A := Nat.one_le_pow _ _ (by omega)

theorem callPot_le {A B : OSet} (hA : OK A) (hB : OK B) (h : rank A < rank B) : callPot A ≤ unit B := by
  have := rankN_lt hA.2 hB.2 h
  unfold callPot unit
  calc 10 ^ 8 * (10 ^ 8) ^ rankN A = (10 ^ 8) ^ (rankN A + 1) := Nat.pow_succ'.symm
    _ ≤ (10 ^ 8) ^ rankN B := Nat.pow_le_pow_right (by omega) this

/-- Knowledge of a call: locks held by its task, handles it owns, handles whose result it has not taken,
handles that have been scheduled. -/
structure Ctx where
  held : OSet → Prop
  own : Handle → Prop
  hs : Handle → Prop
  sched : Handle → Prop

/-- Knowledge of a new call. -/
def Ctx.callee (c : Ctx) : Ctx := ⟨c.held, fun _ => False, fun _ => False, fun _ => False⟩

/-- After taking a lock. -/
def Ctx.addLock (c : Ctx) (A : OSet) : Ctx := { c with held := fun B => B = A ∨ c.held B }

/-- After spawning a task. -/
def Ctx.addHandle (c : Ctx) (h : Handle) : Ctx :=
  { c with
    own := fun h' => h' = h ∨ c.own h'
    hs := fun h' => h' = h ∨ c.hs h'
    sched := fun h' => h' ≠ h ∧ c.sched h' }

/-- After scheduling. -/
def Ctx.addSched (c : Ctx) (h : Handle) : Ctx := { c with sched := fun h' => h' = h ∨ c.sched h' }

/-- After taking the result. -/
def Ctx.consume (c : Ctx) (h : Handle) : Ctx := { c with hs := fun h' => h' ≠ h ∧ c.hs h' }

/-- After dropping a handle. -/
def Ctx.dropH (c : Ctx) (h : Handle) : Ctx :=
  { c with own := fun h' => h' ≠ h ∧ c.own h', hs := fun h' => h' ≠ h ∧ c.hs h' }

/-- What other tasks may do while this task holds the locks `H`. -/
def Rely (H : OSet → Prop) (σ σ' : Store) : Prop := Evolves σ σ' ∧ ∀ A, H A → σ' A = σ A

theorem Rely.refl (H : OSet → Prop) (σ : Store) : Rely H σ σ := ⟨Evolves.refl σ, fun _ _ => rfl⟩

theorem Rely.trans {H : OSet → Prop} {σ σ' σ'' : Store} (h : Rely H σ σ') (h' : Rely H σ' σ'') : Rely H σ σ'' :=
  ⟨h.1.trans h'.1, fun A hA => (h'.2 A hA).trans (h.2 A hA)⟩

theorem Rely.anti {H H' : OSet → Prop} (hH : ∀ A, H' A → H A) {σ σ' : Store} (h : Rely H σ σ') : Rely H' σ σ' :=
  ⟨h.1, fun A hA => h.2 A (hH A hA)⟩

/-- See the header. -/
def WP {α : Type} (hash : List ℕ → ℕ) (K : Kind) (Q : Ctx → ℕ → Store → α → Prop) :
    Prog α → Ctx → ℕ → Store → Prop
  | .ret a, c, b, σ => ∀ σ', Rely c.held σ σ' → SInv hash σ' → Q c b σ' a
  | .panic, _, _, _ => False
  | .get A k, c, b, σ => ∀ σ', Rely c.held σ σ' → SInv hash σ' → WP hash K Q (k (σ'.get A)) c b σ'
  | .set A v k, c, b, σ => ∀ σ', Rely c.held σ σ' → SInv hash σ' →
      c.held A ∧ A = K.cur ∧ mapOk A ∧ SInv hash (σ'.set A v) ∧ Evolves σ' (σ'.set A v) ∧
        WP hash K Q k c b (σ'.set A v)
  | .lock A k, c, b, σ => ∀ σ', Rely c.held σ σ' → SInv hash σ' →
      (∃ m, K = .improve A m) ∧ mapOk A ∧ (∀ B, c.held B → rank A < rank B) ∧ 2 ≤ b ∧
        WP hash K Q (k true) (c.addLock A) (b - 2) σ' ∧ WP hash K Q (k false) c b σ'
  | .spawn _ prev A k, c, b, σ => ∀ σ', Rely c.held σ σ' → SInv hash σ' →
      OK A ∧ rank A < rank K.cur ∧ Known σ' A prev ∧ prev.lo ≠ prev.hi ∧ callPot A + 3 ≤ b ∧
        ∀ h : Handle, h.target = A → h.prev = prev → ¬ c.own h →
          WP hash K Q (k h) (c.addHandle h) (b - (callPot A + 3)) σ'
  | .addPending _ h k, c, b, σ => (c.own h ∧ c.hs h) ∧ WP hash K Q k c b σ
  | .schedule h k, c, b, σ => (c.own h ∧ c.hs h) ∧ WP hash K Q k (c.addSched h) b σ
  | .isScheduled h k, c, b, σ => (c.own h ∧ c.hs h) ∧
      WP hash K Q (k true) (c.addSched h) b σ ∧ WP hash K Q (k false) c b σ
  | .poll h k, c, b, σ => (c.own h ∧ c.hs h) ∧ WP hash K Q (k none) c b σ ∧
      ∀ σ' v, Rely c.held σ σ' → SInv hash σ' → Known σ' h.target v → v.todo < h.prev.todo →
        WP hash K Q (k (some v)) (c.consume h) b σ'
  | .dropHandle h k, c, b, σ => c.own h ∧ WP hash K Q k (c.dropH h) b σ
  | .pending k, c, b, σ => (∃ h, c.own h ∧ c.hs h ∧ c.sched h) ∧ WP hash K Q k c b σ

variable {α β : Type} {hash : List ℕ → ℕ} {K : Kind}

theorem WP.stable {Q : Ctx → ℕ → Store → α → Prop} {p : Prog α} {c : Ctx} {b : ℕ} {σ σ' : Store} (h : WP hash K Q p c b σ)
    (hr : Rely c.held σ σ') : WP hash K Q p c b σ' := by
  induction p generalizing c b σ σ' with
  | ret a => exact fun σ'' hr' hi => h σ'' (hr.trans hr') hi
  | panic => exact h
  | get A k ih => exact fun σ'' hr' hi => h σ'' (hr.trans hr') hi
  | set A v k ih => exact fun σ'' hr' hi => h σ'' (hr.trans hr') hi
  | lock A k ih => exact fun σ'' hr' hi => h σ'' (hr.trans hr') hi
  | spawn l p A k ih => exact fun σ'' hr' hi => h σ'' (hr.trans hr') hi
  | addPending p h' k ih => exact ⟨h.1, ih h.2 hr⟩
  | schedule h' k ih => exact ⟨h.1, ih h.2 hr⟩
  | isScheduled h' k ih => exact ⟨h.1, ih _ h.2.1 hr, ih _ h.2.2 hr⟩
  | poll h' k ih => exact ⟨h.1, ih _ h.2.1 hr, fun σ'' v hr' hi hk ht => h.2.2 σ'' v (hr.trans hr') hi hk ht⟩
  | dropHandle h' k ih => exact ⟨h.1, ih h.2 hr⟩
  | pending k ih => exact ⟨h.1, ih h.2 hr⟩

theorem WP.mono {Q Q' : Ctx → ℕ → Store → α → Prop} (hQ : ∀ c b σ a, SInv hash σ → Q c b σ a → Q' c b σ a) {p : Prog α}
    {c : Ctx} {b : ℕ} {σ : Store} (h : WP hash K Q p c b σ) : WP hash K Q' p c b σ := by
  induction p generalizing c b σ with
  | ret a => exact fun σ'' hr' hi => hQ _ _ _ _ hi (h σ'' hr' hi)
  | panic => exact h
  | get A k ih => exact fun σ'' hr' hi => ih _ (h σ'' hr' hi)
  | set A v k ih =>
    intro σ'' hr' hi
    obtain ⟨h1, h2, h3, h4, h5, h6⟩ := h σ'' hr' hi
    exact ⟨h1, h2, h3, h4, h5, ih h6⟩
  | lock A k ih =>
    intro σ'' hr' hi
    obtain ⟨h1, h2, h3, h0, h4, h5⟩ := h σ'' hr' hi
    exact ⟨h1, h2, h3, h0, ih _ h4, ih _ h5⟩
  | spawn l p A k ih =>
    intro σ'' hr' hi
    obtain ⟨h1, h2, h4, h5, h6, h3⟩ := h σ'' hr' hi
    exact ⟨h1, h2, h4, h5, h6, fun hd e e' ho => ih _ (h3 hd e e' ho)⟩
  | addPending p h' k ih => exact ⟨h.1, ih h.2⟩
  | schedule h' k ih => exact ⟨h.1, ih h.2⟩
  | isScheduled h' k ih => exact ⟨h.1, ih _ h.2.1, ih _ h.2.2⟩
  | poll h' k ih => exact ⟨h.1, ih _ h.2.1, fun σ'' v hr' hi hk ht => ih _ (h.2.2 σ'' v hr' hi hk ht)⟩
  | dropHandle h' k ih => exact ⟨h.1, ih h.2⟩
  | pending k ih => exact ⟨h.1, ih h.2⟩

theorem WP.bind {Q : Ctx → ℕ → Store → β → Prop} {p : Prog α} {f : α → Prog β} {c : Ctx} {b : ℕ} {σ : Store}
    (hi : SInv hash σ) (h : WP hash K (fun c b σ a => WP hash K Q (f a) c b σ) p c b σ) :
    WP hash K Q (p.bind f) c b σ := by
  induction p generalizing c b σ with
  | ret a => exact h σ (Rely.refl _ _) hi
  | panic => exact h
  | get A k ih => exact fun σ'' hr' hi' => ih _ hi' (h σ'' hr' hi')
  | set A v k ih =>
    intro σ'' hr' hi'
    obtain ⟨h1, h2, h3, h4, h5, h6⟩ := h σ'' hr' hi'
    exact ⟨h1, h2, h3, h4, h5, ih h4 h6⟩
  | lock A k ih =>
    intro σ'' hr' hi'
    obtain ⟨h1, h2, h3, h0, h4, h5⟩ := h σ'' hr' hi'
    exact ⟨h1, h2, h3, h0, ih _ hi' h4, ih _ hi' h5⟩
  | spawn l p A k ih =>
    intro σ'' hr' hi'
    obtain ⟨h1, h2, h4, h5, h6, h3⟩ := h σ'' hr' hi'
    exact ⟨h1, h2, h4, h5, h6, fun hd e e' ho => ih _ hi' (h3 hd e e' ho)⟩
  | addPending p h' k ih => exact ⟨h.1, ih hi h.2⟩
  | schedule h' k ih => exact ⟨h.1, ih hi h.2⟩
  | isScheduled h' k ih => exact ⟨h.1, ih _ hi h.2.1, ih _ hi h.2.2⟩
  | poll h' k ih => exact ⟨h.1, ih _ hi h.2.1, fun σ'' v hr' hi' hk ht => ih _ hi' (h.2.2 σ'' v hr' hi' hk ht)⟩
  | dropHandle h' k ih => exact ⟨h.1, ih hi h.2⟩
  | pending k ih => exact ⟨h.1, ih hi h.2⟩

theorem bind_eq (p : Prog α) (f : α → Prog β) : (p >>= f) = p.bind f := rfl

theorem WP.seq {Q : Ctx → ℕ → Store → β → Prop} {p : Prog α} {f : α → Prog β} {c : Ctx} {b : ℕ} {σ : Store}
    {R : Ctx → ℕ → Store → α → Prop} (hi : SInv hash σ) (h : WP hash K R p c b σ)
    (hf : ∀ c' b' σ' a, SInv hash σ' → R c' b' σ' a → WP hash K Q (f a) c' b' σ') : WP hash K Q (p >>= f) c b σ :=
  WP.bind hi (h.mono hf)

theorem WP.ofOption {Q : Ctx → ℕ → Store → α → Prop} {o : Option α} {a : α} (h : o = some a) {c : Ctx} {b : ℕ} {σ : Store}
    (hq : WP hash K Q (.ret a) c b σ) : WP hash K Q (Prog.ofOption o) c b σ := by
  subst h; exact hq

theorem bind_ofOption {o : Option α} {a : α} (h : o = some a) (f : α → Prog β) :
    (Prog.ofOption o >>= f) = f a := by subst h; rfl

theorem bind_get (A : OSet) (f : State → Prog β) : (Prog.get A Prog.ret >>= f) = Prog.get A f := rfl

theorem bind_ret (a : α) (f : α → Prog β) : (Prog.ret a >>= f) = f a := rfl

/-! ## Edges -/

/-- The sets of the edges. -/
def Edges.sets (E : Edges) : List OSet := E.targets.map EdgeTarget.set

/-- Invariant of the edges of a call working on `A`. -/
structure EdgesOK (σ : Store) (c : Ctx) (A : OSet) (E : Edges) : Prop where
  ok : ∀ (id : ℕ) t, E.targets[id]? = some t → OK t.set ∧ rank t.set < rank A
  known : ∀ (id : ℕ) t, E.targets[id]? = some t → Known σ t.set t.state
  running : ∀ (id : ℕ) t h, E.targets[id]? = some t → t.running = some h →
    (c.own h ∧ c.hs h) ∧ (h.target = t.set ∧ h.prev = t.state) ∧ t.state.lo ≠ t.state.hi
  inj : ∀ (id id' : ℕ) t t' h, E.targets[id]? = some t → E.targets[id']? = some t' → t.running = some h →
    t'.running = some h → id = id'
  active : ∀ id ∈ E.active, id < E.targets.length

theorem EdgesOK.stable {σ σ' : Store} {c : Ctx} {A : OSet} {E : Edges} (h : EdgesOK σ c A E) (he : Evolves σ σ') :
    EdgesOK σ' c A E :=
  ⟨h.ok, fun id t e => (h.known id t e).mono he, h.running, h.inj, h.active⟩

theorem EdgesOK.empty (σ : Store) (c : Ctx) (A : OSet) : EdgesOK σ c A Edges.empty := by
  constructor <;> simp [Edges.empty]

/-- `EdgesOK` with other active ids. -/
theorem EdgesOK.withActive {σ : Store} {c : Ctx} {A : OSet} {E : Edges} (h : EdgesOK σ c A E) {l : List ℕ}
    (hl : ∀ id ∈ l, id ∈ E.active) : EdgesOK σ c A { targets := E.targets, active := l } :=
  ⟨h.ok, h.known, h.running, h.inj, fun id hid => h.active id (hl id hid)⟩

theorem find_some {E : Edges} {A : OSet} {id : ℕ} (h : E.find A = some id) : E.sets[id]? = some A := by
  unfold Edges.find at h
  rw [List.findIdx?_eq_some_iff_getElem] at h
  obtain ⟨h1, h2, _⟩ := h
  unfold Edges.sets
  rw [List.getElem?_map, List.getElem?_eq_getElem h1]
  simpa using h2

/-- Active edges are open. -/
def Edges.AllOpen (E : Edges) : Prop :=
  ∀ (id : ℕ) t, id ∈ E.active → E.targets[id]? = some t → t.state.lo ≠ t.state.hi

/-- Edges that are not active are closed. -/
def Edges.ClosedOut (E : Edges) : Prop :=
  ∀ (id : ℕ) t, E.targets[id]? = some t → id ∉ E.active → t.state.lo = t.state.hi

/-- All handles of the call belong to active edges. -/
def OwnRun (c : Ctx) (E : Edges) : Prop :=
  ∀ h, c.own h → ∃ id ∈ E.active, ∃ t, E.targets[id]? = some t ∧ t.running = some h

/-- The call has no handles. -/
def NoOwn (c : Ctx) : Prop := ∀ h, ¬ c.own h

/-- `E` has been built with `n` calls of `add_edge`. -/
structure Edges.Fresh (E : Edges) (n : ℕ) : Prop where
  allOpen : E.AllOpen
  closedOut : E.ClosedOut
  targets : E.targets.length ≤ n
  active : E.active.length ≤ n

theorem Edges.Fresh.empty : Edges.empty.Fresh 0 := by
  constructor <;> simp [Edges.empty, Edges.AllOpen, Edges.ClosedOut]

theorem Edges.Fresh.mono {E : Edges} {n m : ℕ} (h : E.Fresh n) (hnm : n ≤ m) : E.Fresh m :=
  ⟨h.1, h.2, h.3.trans hnm, h.4.trans hnm⟩

/-- `add_edge`. -/
theorem addEdge_spec {σ : Store} {c : Ctx} {b : ℕ} {A C : OSet} {E : Edges} {n : ℕ} (hi : SInv hash σ)
    (hE : EdgesOK σ c A E) (hf : E.Fresh n) (hC : OK C) (hr : rank C < rank A) :
    WP hash K (fun c' b' σ' r => c' = c ∧ b' = b ∧ r.1.Fresh (n + 1) ∧ Rely c.held σ σ' ∧ EdgesOK σ' c A r.1 ∧ E.sets <+: r.1.sets ∧
      r.1.sets[r.2]? = some C ∧ ∀ x ∈ r.1.sets, x ∈ E.sets ∨ x = C) (E.addEdge C) c b σ := by
  unfold Edges.addEdge
  split
  · next id hid =>
    intro σ' hr' hi'
    exact ⟨rfl, rfl, hf.mono (by omega), hr', hE.stable hr'.1, List.prefix_refl _, find_some hid, fun x hx => Or.inl hx⟩
  · next hnone =>
    rw [bind_get]
    intro σ1 hr1 hi1 σ2 hr2 hi2
    have hE2 := hE.stable (hr1.trans hr2).1
    have hk : Known σ2 C (σ1.get C) := (hi1.known hC).mono hr2.1
    refine ⟨rfl, rfl, ?_, hr1.trans hr2, ?_, ?_, ?_, ?_⟩
    · generalize σ1.get C = v
      dsimp only
      constructor
      · intro id t hid ht
        dsimp only at hid ht
        rw [List.getElem?_append] at ht
        split at ht
        · next hlt =>
          refine hf.allOpen id t ?_ ht
          split at hid
          · rcases List.mem_append.1 hid with h | h
            · exact h
            · simp at h; omega
          · exact hid
        · next hge =>
          have hv : ¬ v.lo = v.hi := by
            intro hv
            rw [if_neg (by simpa using hv)] at hid
            exact hge (hE2.active id hid)
          rw [List.getElem?_singleton] at ht
          split at ht
          · simp only [Option.some.injEq] at ht
            subst ht
            exact hv
          · simp at ht
      · intro id t ht hid
        dsimp only at hid ht
        rw [List.getElem?_append] at ht
        split at ht
        · next hlt =>
          refine hf.closedOut id t ht ?_
          intro hmem
          apply hid
          split
          · exact List.mem_append_left _ hmem
          · exact hmem
        · next hge =>
          rw [List.getElem?_singleton] at ht
          split at ht
          · next h0 =>
            simp only [Option.some.injEq] at ht
            subst ht
            dsimp only
            by_contra hv
            rw [if_pos hv] at hid
            exact hid (List.mem_append_right _ (by simp; omega))
          · simp at ht
      · have := hf.targets
        simp only [List.length_append, List.length_singleton]
        omega
      · have := hf.active
        dsimp only
        split
        · simp only [List.length_append, List.length_singleton]; omega
        · omega
    · generalize σ1.get C = v at hk ⊢
      have get : ∀ (id : ℕ) t, (E.targets ++ [({ set := C, state := v, len := C.s.len, running := none } : EdgeTarget)])[id]? = some t →
          E.targets[id]? = some t ∨ t = { set := C, state := v, len := C.s.len, running := none } := by
        intro id t ht
        rw [List.getElem?_append] at ht
        split at ht
        · exact Or.inl ht
        · right
          rw [List.getElem?_singleton] at ht
          split at ht
          · simpa using ht.symm
          · simp at ht
      constructor
      · intro id t ht
        rcases get id t ht with h | rfl
        · exact hE2.ok id t h
        · exact ⟨hC, hr⟩
      · intro id t ht
        rcases get id t ht with h | rfl
        · exact hE2.known id t h
        · exact hk
      · intro id t h ht hrun
        rcases get id t ht with h' | rfl
        · exact hE2.running id t h h' hrun
        · simp at hrun
      · intro id id' t t' h ht ht' hrun hrun'
        rcases get id t ht with h1 | rfl
        · rcases get id' t' ht' with h2 | rfl
          · exact hE2.inj id id' t t' h h1 h2 hrun hrun'
          · simp at hrun'
        · simp at hrun
      · intro id hid
        simp only [List.length_append, List.length_singleton]
        have : id ∈ E.active ∨ id = E.targets.length := by
          dsimp only at hid
          split at hid
          · simpa using hid
          · exact Or.inl hid
        rcases this with h | h
        · have := hE2.active id h; omega
        · omega
    · simp [Edges.sets]
    · simp [Edges.sets]
    · intro x hx
      simpa [Edges.sets] using hx

theorem modify_get {l : List α} {f : α → α} {i id : ℕ} {t : α} (h : (l.modify i f)[id]? = some t) :
    (id = i ∧ ∃ t0, l[id]? = some t0 ∧ t = f t0) ∨ (id ≠ i ∧ l[id]? = some t) := by
  rw [List.getElem?_modify] at h
  by_cases e : id = i
  · subst e
    simp only [if_true] at h
    rw [Option.map_eq_map, Option.map_eq_some_iff] at h
    obtain ⟨t0, h0, rfl⟩ := h
    exact Or.inl ⟨rfl, t0, h0, rfl⟩
  · right
    refine ⟨e, ?_⟩
    simpa [Ne.symm e] using h

theorem modify_ne {l : List α} {f : α → α} {i id : ℕ} (h : id ≠ i) : (l.modify i f)[id]? = l[id]? := by
  rw [List.getElem?_modify]
  simp [Ne.symm h]

theorem sets_modify (E : Edges) (id : ℕ) {f : EdgeTarget → EdgeTarget} (l : List ℕ)
    (hf : ∀ t, (f t).set = t.set) : Edges.sets { targets := E.targets.modify id f, active := l } = E.sets := by
  unfold Edges.sets
  dsimp only
  apply List.ext_getElem?
  intro i
  rw [List.getElem?_map, List.getElem?_map, List.getElem?_modify]
  cases E.targets[i]? with
  | none => rfl
  | some t =>
    simp only [Option.map_some]
    split <;> simp [hf]

/-! ### Potential of the edges -/

/-- How many tasks may still be spawned for an edge. -/
def Edges.cr (E : Edges) (id : ℕ) : ℕ :=
  match E.targets[id]? with
  | none => 0
  | some t => t.state.todo - if t.running.isSome then 1 else 0

/-- How many tasks may still be spawned for the active edges. -/
def Edges.credit (E : Edges) : ℕ := (E.active.map E.cr).sum

/-- How often the states of the edges may still change. -/
def Edges.total (E : Edges) : ℕ := (E.targets.map fun t => t.state.todo).sum

/-- The budget for the loops over the edges. -/
def Edges.base (d : ℕ) (E : Edges) : ℕ := E.credit * (d + 4) + 4 * E.total

theorem sum_modify (l : List EdgeTarget) (i : ℕ) (f : EdgeTarget → EdgeTarget) (g : EdgeTarget → ℕ) {t : EdgeTarget}
    (h : l[i]? = some t) : ((l.modify i f).map g).sum + g t = (l.map g).sum + g (f t) := by
  induction l generalizing i with
  | nil => simp at h
  | cons x l ih =>
    cases i with
    | zero =>
      simp only [List.getElem?_cons_zero, Option.some.injEq] at h
      subst h
      simp only [List.modify_zero_cons, List.map_cons, List.sum_cons]
      omega
    | succ i =>
      simp only [List.getElem?_cons_succ] at h
      have := ih i h
      simp only [List.modify_succ_cons, List.map_cons, List.sum_cons]
      omega

theorem credit_le {E E' : Edges} (ha : E'.active = E.active) (h : ∀ id, E'.cr id ≤ E.cr id) :
    E'.credit ≤ E.credit := by
  unfold Edges.credit
  rw [ha]
  exact List.sum_le_sum fun id _ => h id

theorem credit_lt {E E' : Edges} (ha : E'.active = E.active) (h : ∀ id, E'.cr id ≤ E.cr id) {id : ℕ}
    (hid : id ∈ E.active) (hlt : E'.cr id < E.cr id) : E'.credit + 1 ≤ E.credit := by
  unfold Edges.credit
  rw [ha]
  exact List.sum_lt_sum _ _ (fun id _ => h id) ⟨id, hid, hlt⟩

theorem base_le {E E' : Edges} (d : ℕ) (h1 : E'.credit ≤ E.credit) {k : ℕ} (h2 : E'.total + k ≤ E.total) :
    E'.base d + 4 * k ≤ E.base d := by
  have := Nat.mul_le_mul_right (d + 4) h1
  unfold Edges.base
  omega

theorem base_lt {E E' : Edges} (d : ℕ) (h1 : E'.credit + 1 ≤ E.credit) (h2 : E'.total ≤ E.total) :
    E'.base d + (d + 4) ≤ E.base d := by
  have := Nat.mul_le_mul_right (d + 4) h1
  rw [Nat.add_mul] at this
  unfold Edges.base
  omega

theorem sum_le_mul {l : List ℕ} {k n : ℕ} (h : ∀ x ∈ l, x ≤ k) (hl : l.length ≤ n) : l.sum ≤ n * k := by
  refine Nat.le_trans ?_ (Nat.mul_le_mul_right k hl)
  clear hl
  induction l with
  | nil => simp
  | cons x l ih =>
    have h1 := h x (List.mem_cons_self ..)
    have h2 := ih fun y hy => h y (List.mem_cons_of_mem _ hy)
    rw [List.sum_cons, List.length_cons, Nat.add_mul]
    omega

/-- A bound for new edges. -/
theorem base_fresh {σ : Store} {c : Ctx} {A : OSet} {E : Edges} {n : ℕ} (hE : EdgesOK σ c A E) (hf : E.Fresh n)
    (d : ℕ) : E.base d ≤ n * 3600 * (d + 8) := by
  have h1 : E.credit ≤ n * 3600 := by
    unfold Edges.credit
    refine sum_le_mul ?_ (by simpa using hf.active)
    intro x hx
    obtain ⟨id, hid, rfl⟩ := List.mem_map.1 hx
    unfold Edges.cr
    split
    · omega
    · next t ht => exact (Nat.sub_le _ _).trans (hE.known id t ht).todo_max
  have h2 : E.total ≤ n * 3600 := by
    unfold Edges.total
    refine sum_le_mul ?_ (by simpa using hf.targets)
    intro x hx
    obtain ⟨t, ht, rfl⟩ := List.mem_map.1 hx
    obtain ⟨id, hid⟩ := List.getElem?_of_mem ht
    exact (hE.known id t hid).todo_max
  have := Nat.mul_le_mul_right (d + 4) h1
  unfold Edges.base
  rw [Nat.mul_add (n * 3600)] at this ⊢
  omega

/-- Dropping the handle of a running target. -/
theorem EdgesOK.clear {σ : Store} {c : Ctx} {A : OSet} {E : Edges} (hE : EdgesOK σ c A E) {id : ℕ} {t : EdgeTarget}
    {h : Handle} (ht : E.targets[id]? = some t) (hrun : t.running = some h) :
    EdgesOK σ (c.dropH h) A (E.clearRunning id) := by
  constructor
  · intro i u hu
    rcases modify_get hu with ⟨rfl, t0, h0, rfl⟩ | ⟨_, h0⟩
    · exact hE.ok i t0 h0
    · exact hE.ok i u h0
  · intro i u hu
    rcases modify_get hu with ⟨rfl, t0, h0, rfl⟩ | ⟨_, h0⟩
    · exact hE.known i t0 h0
    · exact hE.known i u h0
  · intro i u h' hu hr
    rcases modify_get hu with ⟨rfl, t0, h0, rfl⟩ | ⟨hne, h0⟩
    · simp at hr
    · obtain ⟨⟨h1, h2⟩, h3⟩ := hE.running i u h' h0 hr
      have hne' : h' ≠ h := by
        rintro rfl
        exact hne (hE.inj i id u t h' h0 ht hr hrun)
      exact ⟨⟨⟨hne', h1⟩, hne', h2⟩, h3⟩
  · intro i i' u u' h' hu hu' hr hr'
    rcases modify_get hu with ⟨rfl, t0, h0, rfl⟩ | ⟨hne, h0⟩
    · simp at hr
    · rcases modify_get hu' with ⟨rfl, t0, h0', rfl⟩ | ⟨hne', h0'⟩
      · simp at hr'
      · exact hE.inj i i' u u' h' h0 h0' hr hr'
  · intro i hmem
    simp only [Edges.clearRunning, List.length_modify]
    exact hE.active i hmem

/-- The knowledge about locks is not changed by handle operations. -/
@[simp] theorem dropH_held (c : Ctx) (h : Handle) : (c.dropH h).held = c.held := rfl
@[simp] theorem addHandle_held (c : Ctx) (h : Handle) : (c.addHandle h).held = c.held := rfl
@[simp] theorem addSched_held (c : Ctx) (h : Handle) : (c.addSched h).held = c.held := rfl
@[simp] theorem consume_held (c : Ctx) (h : Handle) : (c.consume h).held = c.held := rfl

theorem EdgesOK.weaken {σ : Store} {c c' : Ctx} {A : OSet} {E : Edges} (hE : EdgesOK σ c A E)
    (h1 : ∀ h, c.own h → c'.own h) (h2 : ∀ h, c.hs h → c'.hs h) : EdgesOK σ c' A E :=
  ⟨hE.ok, hE.known, fun id t h e r => by
    obtain ⟨⟨a, b⟩, d⟩ := hE.running id t h e r
    exact ⟨⟨h1 h a, h2 h b⟩, d⟩, hE.inj, hE.active⟩

/-- What the loops over the edges preserve. -/
def EdgesPost (c : Ctx) (σ : Store) (A : OSet) (E : Edges) (c' : Ctx) (σ' : Store) (E' : Edges) : Prop :=
  c'.held = c.held ∧ Rely c.held σ σ' ∧ EdgesOK σ' c' A E' ∧ E'.sets = E.sets

/-- The states of the edges are the same. -/
def SameStates (E E' : Edges) : Prop := E'.targets.map EdgeTarget.state = E.targets.map EdgeTarget.state

theorem SameStates.get {E E' : Edges} (h : SameStates E E') {id : ℕ} {t : EdgeTarget}
    (ht : E'.targets[id]? = some t) : ∃ t0, E.targets[id]? = some t0 ∧ t0.state = t.state := by
  have := congrArg (fun l => l[id]?) h
  simp only [List.getElem?_map, ht, Option.map_some] at this
  exact Option.map_eq_some_iff.1 this.symm

theorem SameStates.total {E E' : Edges} (h : SameStates E E') : E'.total = E.total := by
  have e : ∀ F : Edges, F.total = ((F.targets.map EdgeTarget.state).map State.todo).sum := by
    intro F; simp [Edges.total, Function.comp_def]
  rw [e, e, h]

theorem SameStates.trans {E E' E'' : Edges} (h : SameStates E E') (h' : SameStates E' E'') : SameStates E E'' :=
  Eq.trans h' h

theorem SameStates.symm {E E' : Edges} (h : SameStates E E') : SameStates E' E := Eq.symm h

theorem states_modify (E : Edges) (id : ℕ) {f : EdgeTarget → EdgeTarget} (l : List ℕ)
    (hf : ∀ t, (f t).state = t.state) : SameStates E { targets := E.targets.modify id f, active := l } := by
  unfold SameStates
  dsimp only
  apply List.ext_getElem?
  intro i
  rw [List.getElem?_map, List.getElem?_map, List.getElem?_modify]
  cases E.targets[i]? with
  | none => rfl
  | some t =>
    simp only [Option.map_some]
    split <;> simp [hf]

/-- The loop of `retain_edges`: ids that are kept do not change, and the handles of the others are dropped. -/
theorem retainLoop_spec {c : Ctx} {b : ℕ} {σ : Store} {A : OSet} (keep : ℕ → Bool) (ids : List ℕ) (E : Edges)
    (hE : EdgesOK σ c A E) (hids : ∀ id ∈ ids, id < E.targets.length) :
    WP hash K (fun c' b' σ' E' => EdgesPost c σ A E c' σ' E' ∧ E'.active = E.active ∧ b' = b ∧ SameStates E E' ∧
        (∀ id, keep id = true → E'.targets[id]? = E.targets[id]?) ∧
        ∀ h, c'.own h → c.own h ∧ ∀ (id : ℕ) t, E.targets[id]? = some t → t.running = some h → id ∈ ids →
          keep id = true)
      (Edges.retainLoop keep ids E) c b σ := by
  induction ids generalizing E c with
  | nil =>
    intro σ' hr hi
    exact ⟨⟨rfl, hr, hE.stable hr.1, rfl⟩, rfl, rfl, rfl, fun _ _ => rfl, fun h ho => ⟨ho, by simp⟩⟩
  | cons id ids ih =>
    have hlt := hids id (List.mem_cons_self ..)
    have hids' : ∀ id ∈ ids, id < E.targets.length := fun i hi => hids i (List.mem_cons_of_mem _ hi)
    have ht : E.targets[id]? = some E.targets[id] := List.getElem?_eq_getElem hlt
    simp only [Edges.retainLoop]
    split
    · next hkeep =>
      refine (ih E hE hids').mono ?_
      rintro c' b' σ' E' hi ⟨h1, h2, h3, h4, h5, h6⟩
      refine ⟨h1, h2, h3, h4, h5, fun h ho => ⟨(h6 h ho).1, ?_⟩⟩
      intro i t hit hrun hmem
      rcases List.mem_cons.1 hmem with rfl | hmem
      · exact hkeep
      · exact (h6 h ho).2 i t hit hrun hmem
    · next hkeep =>
      rw [List.getElem?_eq_getElem hlt]
      dsimp only
      split
      · next hrun0 =>
        refine (ih E hE hids').mono ?_
        rintro c' b' σ' E' hi ⟨h1, h2, h3, h4, h5, h6⟩
        refine ⟨h1, h2, h3, h4, h5, fun h ho => ⟨(h6 h ho).1, ?_⟩⟩
        intro i t hit hrun hmem
        rcases List.mem_cons.1 hmem with rfl | hmem
        · rw [ht] at hit
          cases hit
          rw [hrun0] at hrun
          simp at hrun
        · exact (h6 h ho).2 i t hit hrun hmem
      · next h hrun =>
        refine ⟨(hE.running id _ h ht hrun).1.1, ?_⟩
        refine (ih (c := c.dropH h) (E.clearRunning id) (hE.clear ht hrun) (by simpa [Edges.clearRunning] using hids')).mono ?_
        rintro c' b' σ' E' hi ⟨⟨h1, h2, h3, h4⟩, h5, h6, h7, h8, h9⟩
        refine ⟨⟨h1, h2, h3, ?_⟩, h5, h6, ?_, ?_, ?_⟩
        · rw [h4]
          exact sets_modify E id _ (fun t => by rfl)
        · exact SameStates.trans (states_modify E id _ fun t => by rfl) h7
        · intro i hi'
          rw [h8 i hi']
          unfold Edges.clearRunning
          dsimp only
          refine modify_ne ?_
          rintro rfl
          exact hkeep hi'
        · intro h' ho
          obtain ⟨⟨hne, ho'⟩, hrest⟩ := h9 h' ho
          refine ⟨ho', ?_⟩
          intro i t hit hrun' hmem
          have hi' : i ≠ id := by
            rintro rfl
            rw [ht] at hit
            cases hit
            rw [hrun] at hrun'
            exact hne (by simpa using hrun'.symm)
          rcases List.mem_cons.1 hmem with h0 | hmem
          · exact absurd h0 hi'
          · refine hrest i t ?_ hrun' hmem
            unfold Edges.clearRunning
            dsimp only
            rw [modify_ne hi', hit]

/-- `retain_edges`. -/
theorem retainEdges_spec {c : Ctx} {b : ℕ} {σ : Store} {A : OSet} (E : Edges) (keep : ℕ → Bool) (hi : SInv hash σ)
    (hE : EdgesOK σ c A E) (hopen : E.AllOpen) (hown : OwnRun c E) :
    WP hash K (fun c' b' σ' E' => EdgesPost c σ A E c' σ' E' ∧ b' = b ∧ SameStates E E' ∧ E'.AllOpen ∧
      OwnRun c' E' ∧ (∀ d, E'.base d ≤ E.base d) ∧ ∀ id, id ∈ E'.active ↔ id ∈ E.active ∧ keep id = true)
      (E.retainEdges keep) c b σ := by
  unfold Edges.retainEdges
  refine WP.seq hi (retainLoop_spec keep E.active E hE hE.active) ?_
  rintro c' b' σ' E' hi' ⟨⟨h1, h2, h3, h4⟩, h5, h6, h7, h8, h9⟩ σ'' hr'' hi''
  rw [h1] at hr''
  have hmem : ∀ id, id ∈ E'.active.filter keep ↔ id ∈ E.active ∧ keep id = true := by
    intro id; rw [List.mem_filter, h5]
  refine ⟨⟨h1, h2.trans hr'', ?_, h4⟩, h6, h7, ?_, ?_, ?_, hmem⟩
  · exact (h3.stable hr''.1).withActive fun id hid => (List.mem_filter.1 hid).1
  · intro id t hid ht
    obtain ⟨t0, ht0, e⟩ := SameStates.get h7 ht
    rw [← e]
    exact hopen id t0 ((hmem id).1 hid).1 ht0
  · intro h ho
    obtain ⟨ho', hk⟩ := h9 h ho
    obtain ⟨id, hid, t, ht, hrun⟩ := hown h ho'
    have hkeep := hk id t ht hrun hid
    exact ⟨id, (hmem id).2 ⟨hid, hkeep⟩, t, by rw [← ht]; exact h8 id hkeep, hrun⟩
  · intro d
    have h0 := SameStates.total h7
    have hcr : ∀ id ∈ E'.active.filter keep, Edges.cr ⟨E'.targets, E'.active.filter keep⟩ id = E.cr id := by
      intro id hid
      unfold Edges.cr
      dsimp only
      rw [h8 id ((hmem id).1 hid).2]
    have hle : Edges.credit ⟨E'.targets, E'.active.filter keep⟩ ≤ E.credit := by
      unfold Edges.credit
      dsimp only
      rw [List.map_congr_left hcr, h5]
      exact (List.filter_sublist.map _).sum_le_sum fun _ _ => Nat.zero_le _
    have := base_le (E := E) (E' := ⟨E'.targets, E'.active.filter keep⟩) d hle (k := 0) (Nat.le_of_eq h0)
    omega

/-- Taking the result of a running target. -/
theorem EdgesOK.take {σ : Store} {c : Ctx} {A : OSet} {E : Edges} (hE : EdgesOK σ c A E) {id : ℕ} {t : EdgeTarget}
    {h : Handle} {v : State} (ht : E.targets[id]? = some t) (hrun : t.running = some h)
    (hv : Known σ t.set v) :
    EdgesOK σ (c.dropH h) A ((E.setState id v).clearRunning id) := by
  have get : ∀ (i : ℕ) u, ((E.setState id v).clearRunning id).targets[i]? = some u →
      (i = id ∧ u = { t with state := v, running := none }) ∨ (i ≠ id ∧ E.targets[i]? = some u) := by
    intro i u hu
    rcases modify_get hu with ⟨rfl, t0, h0, rfl⟩ | ⟨hne, h0⟩
    · rcases modify_get h0 with ⟨_, t1, h1, rfl⟩ | ⟨hne, _⟩
      · rw [ht] at h1
        cases h1
        exact Or.inl ⟨rfl, rfl⟩
      · exact absurd rfl hne
    · rcases modify_get h0 with ⟨e, _⟩ | ⟨_, h1⟩
      · exact absurd e hne
      · exact Or.inr ⟨hne, h1⟩
  constructor
  · intro i u hu
    rcases get i u hu with ⟨rfl, rfl⟩ | ⟨_, h0⟩
    · exact hE.ok i t ht
    · exact hE.ok i u h0
  · intro i u hu
    rcases get i u hu with ⟨rfl, rfl⟩ | ⟨_, h0⟩
    · exact hv
    · exact hE.known i u h0
  · intro i u h' hu hr
    rcases get i u hu with ⟨rfl, rfl⟩ | ⟨hne, h0⟩
    · simp at hr
    · obtain ⟨⟨h1, h2⟩, h3⟩ := hE.running i u h' h0 hr
      have hne' : h' ≠ h := by
        rintro rfl
        exact hne (hE.inj i id u t h' h0 ht hr hrun)
      exact ⟨⟨⟨hne', h1⟩, hne', h2⟩, h3⟩
  · intro i i' u u' h' hu hu' hr hr'
    rcases get i u hu with ⟨rfl, rfl⟩ | ⟨hne, h0⟩
    · simp at hr
    · rcases get i' u' hu' with ⟨rfl, rfl⟩ | ⟨hne', h0'⟩
      · simp at hr'
      · exact hE.inj i i' u u' h' h0 h0' hr hr'
  · intro i hmem
    simp only [Edges.clearRunning, Edges.setState, List.length_modify]
    exact hE.active i hmem

theorem sets_take (E : Edges) (id : ℕ) (v : State) : ((E.setState id v).clearRunning id).sets = E.sets := by
  refine Eq.trans (b := (E.setState id v).sets) (sets_modify (E.setState id v) id _ (fun t => by rfl)) ?_
  exact sets_modify E id _ (fun t => by rfl)

theorem take_get {E : Edges} {id : ℕ} {t : EdgeTarget} (v : State) (ht : E.targets[id]? = some t) :
    ((E.setState id v).clearRunning id).targets[id]? = some { t with state := v, running := none } := by
  unfold Edges.clearRunning Edges.setState
  dsimp only
  rw [List.getElem?_modify, List.getElem?_modify, ht]
  simp

theorem take_get_ne {E : Edges} {id i : ℕ} (v : State) (h : i ≠ id) :
    ((E.setState id v).clearRunning id).targets[i]? = E.targets[i]? := by
  unfold Edges.clearRunning Edges.setState
  dsimp only
  rw [modify_ne h, modify_ne h]

theorem base_take {E : Edges} {id : ℕ} {t : EdgeTarget} {h : Handle} {v : State} (ht : E.targets[id]? = some t)
    (hrun : t.running = some h) (hv : v.todo < t.state.todo) (d : ℕ) :
    ((E.setState id v).clearRunning id).base d + 4 ≤ E.base d := by
  refine base_le (E := E) (E' := (E.setState id v).clearRunning id) (k := 1) d (credit_le rfl ?_) ?_
  · intro i
    by_cases e : i = id
    · subst e
      unfold Edges.cr
      rw [take_get v ht, ht]
      simp only [hrun, Option.isSome_none, Option.isSome_some, if_true, Bool.false_eq_true, if_false]
      omega
    · unfold Edges.cr
      rw [take_get_ne v e]
  · have h1 : ((E.setState id v).clearRunning id).total = (E.setState id v).total :=
      SameStates.total (states_modify (E.setState id v) id _ fun t => by rfl)
    have h2 := sum_modify E.targets id (fun t => { t with state := v }) (fun t => t.state.todo) ht
    have h3 : (E.setState id v).total + t.state.todo = E.total + v.todo := h2
    omega

/-- Some running target is scheduled if `num_running > 0` and nothing finished. -/
def SomeRunning (c : Ctx) (finished : Bool) (numRunning : ℕ) : Prop :=
  finished = false → numRunning > 0 → ∃ h, c.own h ∧ c.hs h ∧ c.sched h

/-- What the polling loop guarantees. -/
structure PollPost (c : Ctx) (b : ℕ) (σ : Store) (A : OSet) (E : Edges) (fin : Bool) (c' : Ctx) (b' : ℕ) (σ' : Store)
    (r : Edges × Bool × ℕ) : Prop where
  post : EdgesPost c σ A E c' σ' r.1
  active : r.1.active = E.active
  running : SomeRunning c' r.2.1 r.2.2
  bud : b' = b
  same : r.2.1 = false → r.1 = E ∧ fin = false
  base : ∀ d, r.1.base d ≤ E.base d
  less : r.2.1 = true → fin = true ∨ ∀ d, r.1.base d + 4 ≤ E.base d
  own : OwnRun c E → OwnRun c' r.1
  closed : ∀ (id : ℕ) t, E.targets[id]? = some t → t.state.lo = t.state.hi → r.1.targets[id]? = some t

/-- The polling loop. -/
theorem pollLoop_spec {c : Ctx} {b : ℕ} {σ : Store} {A : OSet} (ids : List ℕ) (E : Edges) (fin : Bool) (num : ℕ)
    (hE : EdgesOK σ c A E) (hids : ∀ id ∈ ids, id < E.targets.length) (hs : SomeRunning c fin num) :
    WP hash K (PollPost c b σ A E fin) (Edges.pollLoop ids E fin num) c b σ := by
  induction ids generalizing E c fin num σ with
  | nil =>
    intro σ' hr hi
    exact ⟨⟨rfl, hr, hE.stable hr.1, rfl⟩, rfl, hs, rfl, fun h => ⟨rfl, h⟩, fun _ => Nat.le_refl _, fun h => Or.inl h,
      fun h => h, fun _ _ h _ => h⟩
  | cons id ids ih =>
    have hlt := hids id (List.mem_cons_self ..)
    have hids' : ∀ id ∈ ids, id < E.targets.length := fun i hi => hids i (List.mem_cons_of_mem _ hi)
    have ht : E.targets[id]? = some E.targets[id] := List.getElem?_eq_getElem hlt
    simp only [Edges.pollLoop]
    rw [ht]
    dsimp only
    split
    · exact ih E fin num hE hids' hs
    · next h hrun =>
      obtain ⟨hown, ⟨htar, hprev⟩, hopen⟩ := hE.running id _ h ht hrun
      refine ⟨hown, ?_, ?_⟩
      · refine ⟨hown, ?_, ?_⟩
        · refine (ih (c := c.addSched h) E fin (num + 1) (hE.weaken (fun _ h => h) (fun _ h => h)) hids' ?_).mono ?_
          · intro _ _
            exact ⟨h, hown.1, hown.2, Or.inl rfl⟩
          · rintro c' b' σ' r _ ⟨h1, h2, h3, h4, h5, h6, h7, h8, h9⟩
            exact ⟨h1, h2, h3, h4, h5, h6, h7, h8, h9⟩
        · exact ih E fin num hE hids' hs
      · intro σ' v hr hi hk hv
        refine ⟨hown.1, ?_⟩
        have hE' : EdgesOK σ' (c.dropH h) A ((E.setState id v).clearRunning id) :=
          (hE.stable hr.1).take ht hrun (htar ▸ hk)
        have hctx : (c.consume h).dropH h = c.dropH h := by
          simp only [Ctx.consume, Ctx.dropH, Ctx.mk.injEq, true_and, and_true]
          funext h'
          simp
        rw [hctx]
        rw [hprev] at hv
        have hbase := base_take ht hrun hv
        refine (ih (c := c.dropH h) (σ := σ') ((E.setState id v).clearRunning id) true num hE'
          (by simpa [Edges.clearRunning, Edges.setState] using hids') (by intro h; simp at h)).mono ?_
        rintro c' b' σ'' r _ ⟨⟨h1, h2, h3, h4⟩, h5, h6, h7, h8, h9, h10, h11, h12⟩
        refine ⟨⟨h1, hr.trans h2, h3, h4.trans (sets_take E id v)⟩, h5, h6, h7, ?_, ?_, ?_, ?_, ?_⟩
        · intro e
          exact absurd (h8 e).2 (by simp)
        · intro d
          have := h9 d
          have := hbase d
          omega
        · intro _
          right
          intro d
          have := h9 d
          have := hbase d
          omega
        · intro hown'
          apply h11
          rintro h' ⟨hne, ho⟩
          obtain ⟨i, hi', u, hu, hru⟩ := hown' h' ho
          have hii : i ≠ id := by
            rintro rfl
            rw [ht] at hu
            cases hu
            rw [hrun] at hru
            exact hne (by simpa using hru.symm)
          exact ⟨i, hi', u, by rw [take_get_ne v hii]; exact hu, hru⟩
        · intro i u hu hclosed
          refine h12 i u ?_ hclosed
          have hii : i ≠ id := by
            rintro rfl
            rw [ht] at hu
            cases hu
            exact hopen hclosed
          rw [take_get_ne v hii]
          exact hu

/-- What the spawning loop guarantees. -/
structure SpawnPost (d : ℕ) (c : Ctx) (b : ℕ) (σ : Store) (A : OSet) (E : Edges) (block : Bool) (ids : List ℕ) (index : ℕ)
    (c' : Ctx) (b' : ℕ) (σ' : Store) (r : Edges × Bool) : Prop where
  post : EdgesPost c σ A E c' σ' r.1
  states : SameStates E r.1
  active : r.1.active = E.active
  own : OwnRun c E → OwnRun c' r.1
  same : r.2 = true → r.1 = E ∧ b' = b ∧ block = true
  keep : r.2 = true → ∀ h, c.own h → c.hs h → c.sched h → c'.own h ∧ c'.hs h ∧ c'.sched h
  bud : r.1.base d + b ≤ E.base d + b'
  less : r.2 = false → block = false ∨ r.1.base d + b + 1 ≤ E.base d + b'
  head : index = 0 → ids ≠ [] → r.2 = true → ∃ h, c'.own h ∧ c'.hs h ∧ c'.sched h

theorem base_run {E : Edges} {id : ℕ} {t : EdgeTarget} (h : Handle) (ht : E.targets[id]? = some t)
    (hrun : t.running = none) (hopen : t.state.lo ≠ t.state.hi) (hid : id ∈ E.active) (d : ℕ) :
    (E.setRunning id h).base d + (d + 4) ≤ E.base d := by
  have hget : (E.setRunning id h).targets[id]? = some { t with running := some h } := by
    unfold Edges.setRunning
    dsimp only
    rw [List.getElem?_modify, ht]
    simp
  have hlt : (E.setRunning id h).cr id < E.cr id := by
    have := State.todo_pos hopen
    unfold Edges.cr
    rw [hget, ht]
    simp only [hrun, Option.isSome_none, Option.isSome_some, if_true, Bool.false_eq_true, if_false]
    omega
  refine base_lt d (credit_lt rfl ?_ hid hlt) (Nat.le_of_eq (SameStates.total (states_modify E id _ fun t => by rfl)))
  intro i
  by_cases e : i = id
  · subst e; exact Nat.le_of_lt hlt
  · unfold Edges.cr Edges.setRunning
    dsimp only
    rw [modify_ne e]

/-- The spawning loop. -/
theorem spawnLoop_spec {c : Ctx} {b : ℕ} {σ : Store} {A : OSet} (level : ℕ) (order : Option ℕ) (hA : K.cur = A)
    (hAok : OK A) (ids : List ℕ) (index : ℕ) (E : Edges) (block : Bool)
    (hE : EdgesOK σ c A E) (hids : ∀ id ∈ ids, id ∈ E.active)
    (hopen : ∀ (id : ℕ) t, id ∈ ids → E.targets[id]? = some t → t.state.lo ≠ t.state.hi)
    (hb : E.base (unit A) ≤ b) :
    WP hash K (SpawnPost (unit A) c b σ A E block ids index)
      (Edges.spawnLoop level order ids index E block) c b σ := by
  induction ids generalizing E c b σ index block with
  | nil =>
    intro σ' hr hi
    refine ⟨⟨rfl, hr, hE.stable hr.1, rfl⟩, rfl, rfl, fun h => h, fun h => ⟨rfl, rfl, h⟩, fun _ h h1 h2 h3 => ⟨h1, h2, h3⟩,
      Nat.le_refl _, fun h => Or.inl h, fun _ h => absurd rfl h⟩
  | cons id ids ih =>
    have hid := hids id (List.mem_cons_self ..)
    have hlt := hE.active id hid
    have hids' : ∀ id ∈ ids, id ∈ E.active := fun i hi => hids i (List.mem_cons_of_mem _ hi)
    have hopen' : ∀ (id : ℕ) t, id ∈ ids → E.targets[id]? = some t → t.state.lo ≠ t.state.hi :=
      fun i t hi => hopen i t (List.mem_cons_of_mem _ hi)
    have ht : E.targets[id]? = some E.targets[id] := List.getElem?_eq_getElem hlt
    simp only [Edges.spawnLoop]
    rw [ht]
    dsimp only
    split
    · next h hrun =>
      obtain ⟨hown, htar, _⟩ := hE.running id _ h ht hrun
      split
      · refine ⟨hown, ?_⟩
        refine (ih (c := c.addSched h) (index + 1) E block (hE.weaken (fun _ h => h) (fun _ h => h)) hids' hopen'
          hb).mono ?_
        rintro c' b' σ' r _ ⟨h1, h2, h3, h4, h5, h6, h7, h8, h9⟩
        exact ⟨h1, h2, h3, h4, h5, fun e h' a1 a2 a3 => h6 e h' a1 a2 (Or.inr a3), h7, h8,
          fun _ _ e => ⟨h, h6 e h hown.1 hown.2 (Or.inl rfl)⟩⟩
      · next hind =>
        refine (ih (index + 1) E block hE hids' hopen' hb).mono ?_
        rintro c' b' σ' r _ ⟨h1, h2, h3, h4, h5, h6, h7, h8, h9⟩
        exact ⟨h1, h2, h3, h4, h5, h6, h7, h8, fun e => absurd e hind⟩
    · next hrun =>
      have hne := hopen id _ (List.mem_cons_self ..) ht
      rw [if_neg hne]
      intro σ' hr hi
      obtain ⟨hok, hrank⟩ := hE.ok id _ ht
      have hpot := callPot_le hok hAok hrank
      have hbase : ∀ h, (E.setRunning id h).base (unit A) + (unit A + 4) ≤ E.base (unit A) := fun h =>
        base_run h ht hrun hne hid (unit A)
      refine ⟨hok, hA ▸ hrank, (hE.stable hr.1).known id _ ht, hne, ?_, ?_⟩
      · have := hbase ⟨0, A, E.targets[id].state⟩
        omega
      intro h htar hprev hfresh
      have hbase := hbase h
      have hE' : EdgesOK σ' (c.addHandle h) A (E.setRunning id h) := by
        have hE1 := hE.stable hr.1
        constructor
        · intro i u hu
          rcases modify_get hu with ⟨rfl, t0, h0, rfl⟩ | ⟨_, h0⟩
          · exact hE1.ok i t0 h0
          · exact hE1.ok i u h0
        · intro i u hu
          rcases modify_get hu with ⟨rfl, t0, h0, rfl⟩ | ⟨_, h0⟩
          · exact hE1.known i t0 h0
          · exact hE1.known i u h0
        · intro i u h' hu hr'
          rcases modify_get hu with ⟨rfl, t0, h0, rfl⟩ | ⟨_, h0⟩
          · rw [ht] at h0
            cases h0
            simp only [Option.some.injEq] at hr'
            subst hr'
            exact ⟨⟨Or.inl rfl, Or.inl rfl⟩, ⟨htar, hprev⟩, hne⟩
          · obtain ⟨⟨a, b⟩, d⟩ := hE1.running i u h' h0 hr'
            exact ⟨⟨Or.inr a, Or.inr b⟩, d⟩
        · intro i i' u u' h' hu hu' hr' hr''
          rcases modify_get hu with ⟨e1, t0, h0, rfl⟩ | ⟨hne1, h0⟩
          · rcases modify_get hu' with ⟨e2, t1, h1, rfl⟩ | ⟨hne2, h1⟩
            · rw [e1, e2]
            · exfalso
              simp only [Option.some.injEq] at hr'
              subst hr'
              exact hfresh (hE1.running i' u' h h1 hr'').1.1
          · rcases modify_get hu' with ⟨e2, t1, h1, rfl⟩ | ⟨hne2, h1⟩
            · exfalso
              simp only [Option.some.injEq] at hr''
              subst hr''
              exact hfresh (hE1.running i u h h0 hr').1.1
            · exact hE1.inj i i' u u' h' h0 h1 hr' hr''
        · intro i hmem
          simp only [Edges.setRunning, List.length_modify]
          exact hE.active i hmem
      have hids2 : ∀ i ∈ ids, i ∈ (E.setRunning id h).active := hids'
      have hopen2 : ∀ (i : ℕ) t, i ∈ ids → (E.setRunning id h).targets[i]? = some t → t.state.lo ≠ t.state.hi := by
        intro i u hi hu
        rcases modify_get hu with ⟨rfl, t0, h0, rfl⟩ | ⟨_, h0⟩
        · exact hopen' i t0 hi h0
        · exact hopen' i u hi h0
      have hown : (c.addHandle h).own h ∧ (c.addHandle h).hs h := ⟨Or.inl rfl, Or.inl rfl⟩
      have hb2 : (E.setRunning id h).base (unit A) ≤ b - (callPot E.targets[id].set + 3) := by omega
      have hpost : ∀ (c1 : Ctx), c1.held = c.held → (∀ h', c1.own h' ↔ h' = h ∨ c.own h') →
          ∀ (c' : Ctx) b' σ'' (r : Edges × Bool), SInv hash σ'' →
          SpawnPost (unit A) c1 (b - (callPot E.targets[id].set + 3)) σ' A (E.setRunning id h) false ids (index + 1)
            c' b' σ'' r → SpawnPost (unit A) c b σ A E block (id :: ids) index c' b' σ'' r := by
        rintro c1 hc1 ho1 c' b' σ'' r _ ⟨⟨p1, p2, p3, p4⟩, h2, h3, h4, h5, h6, h7, h8, h9⟩
        refine ⟨⟨p1.trans hc1, hr.trans (hc1 ▸ p2), p3, p4.trans (by exact sets_modify E id _ (fun t => by rfl))⟩,
          SameStates.trans (by exact states_modify E id _ fun t => by rfl) h2, h3, ?_, fun e => absurd (h5 e).2.2 (by simp),
          fun e => absurd (h5 e).2.2 (by simp), by omega, fun _ => Or.inr (by omega),
          fun _ _ e => absurd (h5 e).2.2 (by simp)⟩
        intro hown'
        apply h4
        intro h' ho'
        by_cases e : h' = h
        · subst e
          refine ⟨id, hid, { E.targets[id] with running := some h' }, ?_, rfl⟩
          unfold Edges.setRunning
          dsimp only
          rw [List.getElem?_modify, ht]
          simp
        · obtain ⟨i, hi', u, hu, hru⟩ := hown' h' (((ho1 h').1 ho').resolve_left e)
          have hii : i ≠ id := by
            rintro rfl
            rw [ht] at hu
            cases hu
            rw [hrun] at hru
            simp at hru
          refine ⟨i, hi', u, ?_, hru⟩
          unfold Edges.setRunning
          dsimp only
          rw [modify_ne hii]
          exact hu
      split
      · split
        · exact ⟨hown, (ih (index + 1) _ false hE' hids2 hopen2 hb2).mono (hpost (c.addHandle h) rfl fun _ => Iff.rfl)⟩
        · exact (ih (index + 1) _ false hE' hids2 hopen2 hb2).mono (hpost (c.addHandle h) rfl fun _ => Iff.rfl)
      · refine ⟨hown, ?_⟩
        exact (ih (c := (c.addHandle h).addSched h) (index + 1) _ false
          (hE'.weaken (fun _ h => h) (fun _ h => h)) hids2 hopen2 hb2).mono (hpost ((c.addHandle h).addSched h) rfl fun _ => Iff.rfl)

end Search

end Sortnet
