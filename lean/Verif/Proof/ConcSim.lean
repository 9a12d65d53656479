import Verif.Proof.ConcMap

/-!
# The simulation
-/

namespace Sortnet

namespace Search

namespace Conc

/-! ## Invariant -/

namespace PC

/-- The `StateLock` of a call. -/
def carries : PC → Option StateLock
  | want (.unlock l) => some l
  | inside (.unlock l) => some l
  | busy (.unlock l) => some l
  | after _ next => carries next
  | done (.held l) => some l
  | _ => none

/-- The message has been sent and the entry not yet removed. -/
def unlocking : PC → Bool
  | busy (.unlock _) => true
  | _ => false

/-- The token that the caller waits for. -/
def waits : PC → Option ℕ
  | await token => some token
  | after _ next => waits next
  | _ => none

end PC

/-- The variables of a section are what they should be. -/
def wfSec (hash : List UInt8 → ℕ) (N : ℕ) : Sec → Prop
  | .get A i => i = shardOf hash N A.s.packed
  | .len i _ => i < N
  | .set A _ i => mapOk A ∧ i = shardOf hash N A.s.packed
  | .lock A i => mapOk A ∧ i = shardOf hash N A.s.packed
  | .unlock _ => True

/-- What can follow after a section. -/
def wfNext (N : ℕ) : PC → Prop
  | .done _ => True
  | .await _ => True
  | .want (.len i _) => i < N
  | _ => False

/-- The variables of a caller are what they should be. -/
def wfPC (hash : List UInt8 → ℕ) (N : ℕ) : PC → Prop
  | .idle => True
  | .want s => wfSec hash N s
  | .inside s => wfSec hash N s
  | .busy s => wfSec hash N s
  | .after s next => wfSec hash N s ∧ wfNext N next
  | .await _ => True
  | .done _ => True
  | .panicked => False

/-- The invariant. -/
structure Inv (hash : List UInt8 → ℕ) (N : ℕ) (g : G) : Prop where
  mem : MemOk hash N g.mem
  wf : ∀ t, wfPC hash N (g.pc t)
  locks : Locks g.rw fun t => (g.pc t).holds
  owns : Owns hash N (g.mem.lk hash) g.mem.sent g.mem.nextToken g.owned (fun t => (g.pc t).carries)
    (fun t => (g.pc t).unlocking) (fun t => (g.pc t).waits)

/-! ## Simulation relation -/

/-- The position of a caller before its operation has taken effect. -/
def relSec (sh : List (OSMap State)) : Sec → APC → Prop
  | .get A _, a => a = .called (.get A)
  | .len i acc, a => ∃ lo, a = .counting lo ∧ lo ≤ acc + sumFrom sh i ∧ acc ≤ sumTo sh i
  | .set A v _, a => a = .called (.set A v)
  | .lock A _, a => a = .called (.lock A)
  | .unlock l, a => a = .called (.unlock l)

/-- The position of a caller. -/
def rel (sh : List (OSMap State)) : PC → APC → Prop
  | .idle, a => a = .idle
  | .want s, a => relSec sh s a
  | .inside s, a => relSec sh s a
  | .busy (.unlock _), a => a = .done .unit
  | .busy s, a => relSec sh s a
  | .after _ next, a => rel sh next a
  | .await tok, a => a = .waiting tok
  | .done r, a => a = .done r
  | .panicked, _ => False

theorem relSec_mono {sh sh' : List (OSMap State)} (h1 : ∀ j, sumTo sh j ≤ sumTo sh' j)
    (h2 : ∀ j, sumFrom sh j ≤ sumFrom sh' j) {s : Sec} {a : APC} (h : relSec sh s a) : relSec sh' s a := by
  cases s with
  | len i acc =>
    obtain ⟨lo, e, e1, e2⟩ := h
    exact ⟨lo, e, e1.trans (Nat.add_le_add_left (h2 i) _), e2.trans (h1 i)⟩
  | _ => exact h

theorem rel_mono {sh sh' : List (OSMap State)} (h1 : ∀ j, sumTo sh j ≤ sumTo sh' j)
    (h2 : ∀ j, sumFrom sh j ≤ sumFrom sh' j) {p : PC} {a : APC} (h : rel sh p a) : rel sh' p a := by
  induction p with
  | want s => exact relSec_mono h1 h2 h
  | inside s => exact relSec_mono h1 h2 h
  | busy s =>
    cases s with
    | unlock l => exact h
    | _ => exact relSec_mono (s := _) h1 h2 h
  | after s next ih => exact ih h
  | _ => exact h

/-- The simulation relation. -/
structure Rel (hash : List UInt8 → ℕ) (g : G) (S : Atomic) : Prop where
  store : S.store = g.mem.st hash
  locks : ∀ A tok, S.locks A = some tok ↔ g.mem.lk hash A = some tok ∧ g.mem.sent tok = false
  released : ∀ tok, tok ∈ S.released ↔ g.mem.sent tok = true
  pc : ∀ t, rel g.mem.map.stateShards (g.pc t) (S.pc t)

theorem comp_update {α : Type} (f : PC → α) (pc : ℕ → PC) (t : ℕ) (p : PC) :
    (fun u => f (Function.update pc t p u)) = Function.update (fun u => f (pc u)) t (f p) := by
  funext u
  by_cases h : u = t
  · subst h; simp
  · simp [h]

theorem update_same {α : Type} (f : ℕ → α) (t : ℕ) (x : α) (h : f t = x) : Function.update f t x = f := by
  subst h
  exact Function.update_eq_self t f

variable {hash : List UInt8 → ℕ} {N : ℕ} {g : G} {S : Atomic}

/-- A change of the position that changes neither locks nor owners. -/
theorem Inv.setPc (h : Inv hash N g) {t : ℕ} {p : PC} (hw : wfPC hash N p)
    (h1 : p.holds = (g.pc t).holds) (h2 : p.carries = (g.pc t).carries) (h3 : p.unlocking = (g.pc t).unlocking)
    (h4 : p.waits = (g.pc t).waits ∨ p.waits = none) : Inv hash N (g.setPc t p) := by
  refine ⟨h.mem, ?_, ?_, ?_⟩
  · intro u
    show wfPC hash N (Function.update g.pc t p u)
    by_cases hu : u = t
    · subst hu; simpa using hw
    · simpa [hu] using h.wf u
  · show Locks g.rw fun u => (Function.update g.pc t p u).holds
    rw [comp_update, update_same _ _ _ h1.symm]
    exact h.locks
  · show Owns _ _ _ _ _ _ (fun u => (Function.update g.pc t p u).carries)
      (fun u => (Function.update g.pc t p u).unlocking) (fun u => (Function.update g.pc t p u).waits)
    rw [comp_update, update_same _ _ _ h2.symm, comp_update, update_same _ _ _ h3.symm, comp_update]
    rcases h4 with h4 | h4
    · rw [update_same _ _ _ h4.symm]
      exact h.owns
    · rw [h4]
      exact h.owns.stopWait

theorem Rel.setPc (h : Rel hash g S) {t : ℕ} {p : PC} {a : APC} (hp : rel g.mem.map.stateShards p a) :
    Rel hash (g.setPc t p) { S with pc := Function.update S.pc t a } := by
  refine ⟨h.store, h.locks, h.released, ?_⟩
  intro u
  show rel g.mem.map.stateShards (Function.update g.pc t p u) (Function.update S.pc t a u)
  by_cases hu : u = t
  · subst hu; simpa using hp
  · simpa [hu] using h.pc u

theorem Rel.setPc' (h : Rel hash g S) {t : ℕ} {p : PC} (hp : rel g.mem.map.stateShards p (S.pc t)) :
    Rel hash (g.setPc t p) S := by
  have := h.setPc hp (t := t)
  rwa [update_same _ _ _ rfl] at this

theorem rel_lenFrom {sh : List (OSMap State)} {i acc lo : ℕ} (h1 : lo ≤ acc + sumFrom sh i)
    (h2 : acc ≤ sumTo sh i) (hi : i < sh.length) : rel sh (lenFrom sh.length i acc) (.counting lo) := by
  unfold lenFrom
  rw [if_pos hi]
  exact ⟨lo, rfl, h1, h2⟩

/-- One step of the atomic map or none. -/
def StepOr (S : Atomic) (e : Option Event) (S' : Atomic) : Prop := Atomic.Step S e S' ∨ (e = none ∧ S' = S)

theorem sim_call (h : Inv hash N g) (hr : Rel hash g S) {t : ℕ} {op : Op} {g' : G} {e : Option Event}
    (hs : step hash g t (.call op) = some (g', e)) (hv : ∀ x ∈ e, x.Valid) :
    Inv hash N g' ∧ ∃ S', Atomic.Step S e S' ∧ Rel hash g' S' := by
  unfold step at hs
  cases hp : g.pc t with
  | idle =>
    have ha : S.pc t = .idle := by have := hr.pc t; rwa [hp] at this
    simp only [hp] at hs
    cases op with
    | len =>
      cases hs
      have e1 : start hash g.mem.map .len = .want (.len 0 0) := by
        simp [start, lenFrom, h.mem.lenS, h.mem.pos]
      rw [e1]
      refine ⟨h.setPc (show wfSec hash N (.len 0 0) from h.mem.pos) (by rw [hp]; rfl) (by rw [hp]; rfl)
        (by rw [hp]; rfl) (Or.inr rfl), _, .callLen ha, hr.setPc ⟨_, rfl, ?_, Nat.zero_le _⟩⟩
      unfold Atomic.size
      rw [hr.store, h.mem.size, Nat.zero_add]
      exact le_of_eq rfl
    | get A =>
      cases hs
      exact ⟨h.setPc (by show _ = _; rw [h.mem.lenS]) (by rw [hp]; rfl) (by rw [hp]; rfl) (by rw [hp]; rfl)
        (Or.inr rfl), _, .call ha (by simp), hr.setPc rfl⟩
    | set A v =>
      cases hs
      exact ⟨h.setPc ⟨hv _ rfl, by rw [h.mem.lenS]⟩ (by rw [hp]; rfl) (by rw [hp]; rfl) (by rw [hp]; rfl)
        (Or.inr rfl), _, .call ha (by simp), hr.setPc rfl⟩
    | lock A =>
      cases hs
      exact ⟨h.setPc ⟨hv _ rfl, by rw [h.mem.lenL]⟩ (by rw [hp]; rfl) (by rw [hp]; rfl) (by rw [hp]; rfl)
        (Or.inr rfl), _, .call ha (by simp), hr.setPc rfl⟩
    | unlock l =>
      dsimp only at hs
      split_ifs at hs with hl
      cases hs
      refine ⟨⟨h.mem, ?_, ?_, ?_⟩, _, .call ha (by simp), ?_⟩
      · intro u
        show wfPC hash N (Function.update g.pc t _ u)
        by_cases hu : u = t
        · subst hu; simp [start, wfPC, wfSec]
        · simpa [hu] using h.wf u
      · show Locks g.rw fun u => (Function.update g.pc t _ u).holds
        rw [comp_update, update_same _ _ _ (by rw [hp]; rfl)]
        exact h.locks
      · show Owns _ _ _ _ _ _ (fun u => (Function.update g.pc t _ u).carries)
          (fun u => (Function.update g.pc t _ u).unlocking) (fun u => (Function.update g.pc t _ u).waits)
        rw [comp_update, comp_update, update_same _ _ (PC.unlocking _) (by rw [hp]; rfl), comp_update,
          update_same _ _ (PC.waits _) (by rw [hp]; rfl)]
        exact h.owns.use hl (by rw [hp]; rfl)
      · exact ⟨hr.store, hr.locks, hr.released, (hr.setPc (t := t) (p := .want (.unlock l)) rfl).pc⟩
  | _ => simp only [hp] at hs; cases hs

theorem sim_cancel (h : Inv hash N g) (hr : Rel hash g S) {t : ℕ} {g' : G} {e : Option Event}
    (hs : step hash g t .cancel = some (g', e)) :
    Inv hash N g' ∧ ∃ S', Atomic.Step S e S' ∧ Rel hash g' S' := by
  unfold step at hs
  cases hp : g.pc t with
  | await tok =>
    have ha : S.pc t = .waiting tok := by have := hr.pc t; rwa [hp] at this
    simp only [hp] at hs
    cases hs
    exact ⟨h.setPc trivial (by rw [hp]; rfl) (by rw [hp]; rfl) (by rw [hp]; rfl) (Or.inr rfl), _, .cancel ha,
      hr.setPc rfl⟩
  | _ => simp only [hp] at hs; cases hs

theorem Inv.withMem (h : Inv hash N g) {t : ℕ} {p : PC} {M : Mem} (hM : MemOk hash N M) (hw : wfPC hash N p)
    (h1 : p.holds = (g.pc t).holds)
    (ho : Owns hash N (M.lk hash) M.sent M.nextToken g.owned
      (Function.update (fun t => (g.pc t).carries) t p.carries)
      (Function.update (fun t => (g.pc t).unlocking) t p.unlocking)
      (Function.update (fun t => (g.pc t).waits) t p.waits)) :
    Inv hash N (({ g with mem := M } : G).setPc t p) := by
  refine ⟨hM, ?_, ?_, ?_⟩
  · intro u
    show wfPC hash N (Function.update g.pc t p u)
    by_cases hu : u = t
    · subst hu; simpa using hw
    · simpa [hu] using h.wf u
  · show Locks g.rw fun u => (Function.update g.pc t p u).holds
    rw [comp_update, update_same _ _ _ h1.symm]
    exact h.locks
  · show Owns _ _ _ _ _ _ (fun u => (Function.update g.pc t p u).carries)
      (fun u => (Function.update g.pc t p u).unlocking) (fun u => (Function.update g.pc t p u).waits)
    rw [comp_update, comp_update, comp_update]
    exact ho

/-- A lock whose message has been sent is being released by a caller that is in the section of its shard. -/
theorem Inv.sent_busy (h : Inv hash N g) {A : OSet} {tok : ℕ} (hA : g.mem.lk hash A = some tok)
    (hs : g.mem.sent tok = true) : ∃ u, g.pc u = .busy (.unlock (mkLock hash N A tok)) := by
  rcases h.owns.all A tok hA with ⟨l, hl, rfl⟩ | ⟨u, l, hu, rfl⟩
  · rw [h.owns.ownedSent l hl] at hs
    cases hs
  · have h1 := h.owns.crSent u l hu
    rw [hs] at h1
    obtain ⟨B, -, e, hB⟩ := h.owns.crGood u l hu
    have := h.owns.inj A B _ hA hB
    subst this
    refine ⟨u, ?_⟩
    cases hp : g.pc u with
    | busy s =>
      rw [hp] at h1 hu
      cases s with
      | unlock m =>
        injection hu with hu
        rw [hu, ← e]
      | _ => cases h1
    | _ => rw [hp] at h1; cases h1

/-- A caller that is in the section of `lock` sees only locks that are held. -/
theorem Inv.lock_sees (h : Inv hash N g) {t : ℕ} {A : OSet}
    (ht : g.pc t = .busy (.lock A (shardOf hash N A.s.packed))) {tok : ℕ} (hA : g.mem.lk hash A = some tok) :
    g.mem.sent tok = false := by
  by_contra hs
  obtain ⟨u, hu⟩ := h.sent_busy hA (by simpa using hs)
  have : t = u := h.locks.unique (s := .lock A (shardOf hash N A.s.packed)) (s' := .unlock (mkLock hash N A tok))
    (by rw [ht]; rfl) (by rw [hu]; rfl) rfl rfl rfl
  subst this
  rw [ht] at hu
  cases hu

theorem sim_want (h : Inv hash N g) (hr : Rel hash g S) {t : ℕ} {s : Sec} (hp : g.pc t = .want s) {g' : G}
    {e : Option Event} (hs : step hash g t .go = some (g', e)) :
    Inv hash N g' ∧ e = none ∧ Rel hash g' S := by
  simp only [step, hp] at hs
  rw [if_neg (by rw [h.locks.sane]; simp)] at hs
  cases ha : (g.rw s.locks s.shard).acquire s.write t with
  | none => rw [ha] at hs; cases hs
  | some r =>
    rw [ha] at hs
    cases hs
    refine ⟨⟨h.mem, ?_, ?_, ?_⟩, rfl, ?_⟩
    · intro u
      show wfPC hash N (Function.update g.pc t _ u)
      by_cases hu : u = t
      · subst hu
        have := h.wf u
        rw [hp] at this
        rw [Function.update_self]
        exact this
      · simpa [hu] using h.wf u
    · show Locks _ fun u => (Function.update g.pc t _ u).holds
      rw [comp_update]
      exact h.locks.acquire (by rw [hp]; rfl) ha
    · show Owns _ _ _ _ _ _ (fun u => (Function.update g.pc t _ u).carries)
        (fun u => (Function.update g.pc t _ u).unlocking) (fun u => (Function.update g.pc t _ u).waits)
      rw [comp_update, update_same _ _ (PC.carries _) (by rw [hp]; cases s <;> rfl), comp_update,
        update_same _ _ (PC.unlocking _) (by rw [hp]; rfl), comp_update,
        update_same _ _ (PC.waits _) (by rw [hp]; rfl)]
      exact h.owns
    · have hq := hr.pc t
      rw [hp] at hq
      have := hr.setPc' (t := t) (p := .inside s) hq
      exact ⟨this.store, this.locks, this.released, this.pc⟩

theorem sim_after (h : Inv hash N g) (hr : Rel hash g S) {t : ℕ} {s : Sec} {next : PC}
    (hp : g.pc t = .after s next) {g' : G} {e : Option Event} (hs : step hash g t .go = some (g', e)) :
    Inv hash N g' ∧ e = none ∧ Rel hash g' S := by
  simp only [step, hp] at hs
  cases hs
  have hw := h.wf t
  rw [hp] at hw
  have hn : next.holds = none ∧ next.unlocking = false ∧ wfPC hash N next := by
    have := hw.2
    cases next with
    | want s' =>
      cases s' with
      | len i acc => exact ⟨rfl, rfl, this⟩
      | _ => exact this.elim
    | done _ => exact ⟨rfl, rfl, trivial⟩
    | await _ => exact ⟨rfl, rfl, trivial⟩
    | _ => exact this.elim
  refine ⟨⟨h.mem, ?_, ?_, ?_⟩, rfl, ?_⟩
  · intro u
    show wfPC hash N (Function.update g.pc t _ u)
    by_cases hu : u = t
    · subst hu
      simpa using hn.2.2
    · simpa [hu] using h.wf u
  · show Locks _ fun u => (Function.update g.pc t _ u).holds
    rw [comp_update, hn.1]
    exact h.locks.release (by rw [hp]; rfl)
  · show Owns _ _ _ _ _ _ (fun u => (Function.update g.pc t _ u).carries)
      (fun u => (Function.update g.pc t _ u).unlocking) (fun u => (Function.update g.pc t _ u).waits)
    rw [comp_update, update_same _ _ (PC.carries _) (by rw [hp]; rfl), comp_update,
      update_same _ _ (PC.unlocking _) (by rw [hp, hn.2.1]; rfl), comp_update,
      update_same _ _ (PC.waits _) (by rw [hp]; rfl)]
    exact h.owns
  · have hq := hr.pc t
    rw [hp] at hq
    have := hr.setPc' (t := t) (p := next) hq
    exact ⟨this.store, this.locks, this.released, this.pc⟩

theorem sim_inside (h : Inv hash N g) (hr : Rel hash g S) {t : ℕ} {s : Sec} (hp : g.pc t = .inside s) {g' : G}
    {e : Option Event} (hs : step hash g t .go = some (g', e)) :
    Inv hash N g' ∧ ∃ S', StepOr S e S' ∧ Rel hash g' S' := by
  simp only [step, hp] at hs
  have hq := hr.pc t
  rw [hp] at hq
  have hw := h.wf t
  rw [hp] at hw
  cases s with
  | unlock l =>
    have hc : (g.pc t).carries = some l := by rw [hp]; rfl
    obtain ⟨A, hA, hl, hL⟩ := h.owns.crGood t l hc
    have hsent : g.mem.sent l.token = false := by
      have := h.owns.crSent t l hc
      rw [this, hp]
      rfl
    have hb := h.mem.begin_unlock hL
    rw [← hl] at hb
    rw [hb] at hs
    cases hs
    constructor
    · refine h.withMem ⟨h.mem.lenS, h.mem.lenL, h.mem.okS, h.mem.okL⟩ trivial (by rw [hp]; rfl) ?_
      rw [update_same _ _ (PC.carries _) (by rw [hp]; rfl), update_same _ _ (PC.waits _) (by rw [hp]; rfl)]
      exact h.owns.send hc
    · have hS : S.locks A = some l.token := (hr.locks A l.token).2 ⟨hL, hsent⟩
      refine ⟨_, Or.inl (.unlock hq hS), hr.store, ?_, ?_, (hr.setPc (t := t) (p := .busy (.unlock l)) rfl).pc⟩
      · intro B tok
        show Function.update S.locks A none B = some tok ↔
          g.mem.lk hash B = some tok ∧ Function.update g.mem.sent l.token true tok = false
        have h1 := hr.locks B tok
        have h2 := h.owns.inj A B l.token hL
        have h3 : B = A → g.mem.lk hash B = some l.token := fun e => e ▸ hL
        rw [Function.update_apply, Function.update_apply]
        by_cases e1 : B = A
        · rw [if_pos e1, h3 e1]
          by_cases e2 : tok = l.token
          · simp [e2]
          · simp only [if_neg e2, Option.some.injEq]
            constructor
            · intro h; cases h
            · rintro ⟨h, -⟩; exact absurd h.symm e2
        · rw [if_neg e1, h1]
          by_cases e2 : tok = l.token
          · rw [if_pos e2]
            constructor
            · rintro ⟨h4, -⟩
              rw [e2] at h4
              exact absurd (h2 h4).symm e1
            · rintro ⟨-, h⟩; cases h
          · rw [if_neg e2]
      · intro tok
        show tok ∈ insert l.token S.released ↔ Function.update g.mem.sent l.token true tok = true
        rw [Set.mem_insert_iff, hr.released, Function.update_apply]
        by_cases e2 : tok = l.token
        · simp [e2]
        · simp [e2]
  | _ =>
    cases hs
    exact ⟨h.setPc hw (by rw [hp]; rfl) (by rw [hp]; rfl) (by rw [hp]; rfl) (Or.inr rfl), S, Or.inr ⟨rfl, rfl⟩,
      hr.setPc' hq⟩

theorem sim_busy (h : Inv hash N g) (hr : Rel hash g S) {t : ℕ} {s : Sec} (hp : g.pc t = .busy s) {g' : G}
    {e : Option Event} (hs : step hash g t .go = some (g', e)) :
    Inv hash N g' ∧ ∃ S', StepOr S e S' ∧ Rel hash g' S' := by
  simp only [step, hp] at hs
  have hq := hr.pc t
  rw [hp] at hq
  have hw := h.wf t
  rw [hp] at hw
  cases s with
  | get A i =>
    have e1 : i = shardOf hash N A.s.packed := hw
    subst e1
    rw [h.mem.finish_get] at hs
    cases hs
    refine ⟨h.setPc ⟨hw, trivial⟩ (by rw [hp]; rfl) (by rw [hp]; rfl) (by rw [hp]; rfl) (Or.inr rfl), _,
      Or.inl (.get hq), hr.setPc ?_⟩
    rw [hr.store]
    rfl
  | len i acc =>
    obtain ⟨x, e1, e2⟩ := h.mem.finish_len hw acc
    rw [e2] at hs
    cases hs
    obtain ⟨lo, ha, h1, h2⟩ := hq
    have h3 := sumTo_succ e1
    have h4 := sumFrom_succ e1
    by_cases hi : i + 1 < N
    · have e3 : lenFrom N (i + 1) (acc + x.len) = .want (.len (i + 1) (acc + x.len)) := if_pos hi
      rw [e3]
      refine ⟨h.setPc ⟨hw, hi⟩ (by rw [hp]; rfl) (by rw [hp]; rfl) (by rw [hp]; rfl) (Or.inr rfl), S,
        Or.inr ⟨rfl, rfl⟩, hr.setPc' ⟨lo, ha, ?_, ?_⟩⟩
      · omega
      · omega
    · have e3 : lenFrom N (i + 1) (acc + x.len) = .done (.num (acc + x.len)) := if_neg hi
      rw [e3]
      have h5 : sumFrom g.mem.map.stateShards (i + 1) = 0 := by
        unfold sumFrom
        rw [List.drop_of_length_le (by rw [h.mem.lenS]; omega)]
        rfl
      have h6 := sumTo_add_sumFrom g.mem.map.stateShards (i + 1)
      refine ⟨h.setPc ⟨hw, trivial⟩ (by rw [hp]; rfl) (by rw [hp]; rfl) (by rw [hp]; rfl) (Or.inr rfl), _,
        Or.inl (.len ha (n := acc + x.len) ?_ ?_), hr.setPc rfl⟩
      · omega
      · unfold Atomic.size
        rw [hr.store, h.mem.size]
        omega
  | set A v i =>
    obtain ⟨hA, rfl⟩ := hw
    obtain ⟨M, e1, hM, e2, e3, e4, e5, e6, e7, -⟩ := h.mem.finish_set hA v
    rw [e1] at hs
    cases hs
    constructor
    · refine h.withMem hM ⟨⟨hA, rfl⟩, trivial⟩ (by rw [hp]; rfl) ?_
      rw [update_same _ _ (PC.carries _) (by rw [hp]; rfl), update_same _ _ (PC.unlocking _) (by rw [hp]; rfl),
        update_same _ _ (PC.waits _) (by rw [hp]; rfl), e3, e4]
      unfold Mem.lk
      rw [e2]
      exact h.owns
    · refine ⟨_, Or.inl (.set hq), ?_, ?_, ?_, ?_⟩
      · show Function.update S.store A (some v) = M.st hash
        rw [e5, hr.store]
      · intro B tok
        show S.locks B = some tok ↔ M.lk hash B = some tok ∧ M.sent tok = false
        unfold Mem.lk
        rw [e2, e3]
        exact hr.locks B tok
      · intro tok
        show tok ∈ S.released ↔ M.sent tok = true
        rw [e3]
        exact hr.released tok
      · intro u
        exact rel_mono e6 e7 ((hr.setPc (t := t) (p := .after _ (.done .unit)) (a := .done .unit) rfl).pc u)
  | lock A i =>
    obtain ⟨hA, rfl⟩ := hw
    cases hL : g.mem.lk hash A with
    | some tok =>
      rw [h.mem.finish_lock_wait hL] at hs
      cases hs
      have hsent := h.lock_sees hp hL
      refine ⟨?_, _, Or.inl (.wait hq ((hr.locks A tok).2 ⟨hL, hsent⟩)), hr.setPc rfl⟩
      refine h.withMem h.mem ⟨⟨hA, rfl⟩, trivial⟩ (by rw [hp]; rfl) ?_
      rw [update_same _ _ (PC.carries _) (by rw [hp]; rfl), update_same _ _ (PC.unlocking _) (by rw [hp]; rfl)]
      exact h.owns.waitFor hL
    | none =>
      obtain ⟨M, e1, hM, e2, e3, e4, e5⟩ := h.mem.finish_lock hA hL
      rw [e1] at hs
      cases hs
      have hnext : g.mem.sent g.mem.nextToken = false := by
        by_contra hc
        exact lt_irrefl _ (h.owns.sentLt _ (by simpa using hc))
      constructor
      · refine h.withMem hM ⟨⟨hA, rfl⟩, trivial⟩ (by rw [hp]; rfl) ?_
        rw [update_same _ _ (PC.unlocking _) (by rw [hp]; rfl), update_same _ _ (PC.waits _) (by rw [hp]; rfl),
          e3, e4, e5]
        exact h.owns.take hA hL (by rw [hp]; rfl)
      · have hSL : S.locks A = none := by
          rw [Option.eq_none_iff_forall_ne_some]
          intro tok ht
          rw [hr.locks, hL] at ht
          cases ht.1
        have hnew : S.New (mkLock hash N A g.mem.nextToken).token := by
          refine ⟨?_, ?_⟩
          · rw [hr.released]
            show ¬ g.mem.sent g.mem.nextToken = true
            rw [hnext]
            simp
          · intro B hB
            rw [hr.locks] at hB
            exact lt_irrefl _ (h.owns.lt _ _ hB.1)
        refine ⟨_, Or.inl (.lock hq hSL hnew), ?_, ?_, ?_, ?_⟩
        · show S.store = M.st hash
          unfold Mem.st
          rw [hr.store, e2]
        · intro B tok
          show Function.update S.locks A (some g.mem.nextToken) B = some tok ↔
            M.lk hash B = some tok ∧ M.sent tok = false
          rw [e5, e3, Function.update_apply, Function.update_apply]
          by_cases e6 : B = A
          · rw [if_pos e6, if_pos e6]
            constructor
            · intro h
              refine ⟨h, ?_⟩
              injection h with h
              rw [← h, hnext]
            · exact fun h => h.1
          · rw [if_neg e6, if_neg e6]
            exact hr.locks B tok
        · intro tok
          show tok ∈ S.released ↔ M.sent tok = true
          rw [e3]
          exact hr.released tok
        · intro u
          show rel M.map.stateShards _ _
          rw [e2]
          exact (hr.setPc (t := t)
            (p := .after (.lock A (shardOf hash N A.s.packed)) (.done (.held (mkLock hash N A g.mem.nextToken))))
            (a := .done (.held (mkLock hash N A g.mem.nextToken))) rfl).pc u
  | unlock l =>
    have hc : (g.pc t).carries = some l := by rw [hp]; rfl
    obtain ⟨A, hA, hl, hL⟩ := h.owns.crGood t l hc
    obtain ⟨M, e1, hM, e2, e3, e4, e5⟩ := h.mem.finish_unlock hA l.token
    rw [← hl] at e1
    rw [e1] at hs
    cases hs
    have hsent : g.mem.sent l.token = true := by
      have := h.owns.crSent t l hc
      rw [this, hp]
      rfl
    constructor
    · refine h.withMem hM ⟨trivial, trivial⟩ (by rw [hp]; rfl) ?_
      rw [update_same _ _ (PC.waits _) (by rw [hp]; rfl), e3, e4, e5]
      exact h.owns.drop hc (by rw [hp]; rfl) hL
    · refine ⟨S, Or.inr ⟨rfl, rfl⟩, ?_, ?_, ?_, ?_⟩
      · show S.store = M.st hash
        unfold Mem.st
        rw [hr.store, e2]
      · intro B tok
        show S.locks B = some tok ↔ M.lk hash B = some tok ∧ M.sent tok = false
        rw [e5, e3, hr.locks, Function.update_apply]
        by_cases e6 : B = A
        · rw [if_pos e6]
          constructor
          · rintro ⟨h1, h2⟩
            rw [e6, hL] at h1
            injection h1 with h1
            rw [← h1, hsent] at h2
            cases h2
          · rintro ⟨h1, -⟩
            cases h1
        · rw [if_neg e6]
      · intro tok
        show tok ∈ S.released ↔ M.sent tok = true
        rw [e3]
        exact hr.released tok
      · intro u
        have := (hr.setPc' (t := t) (p := .after (.unlock l) (.done .unit)) hq).pc u
        show rel M.map.stateShards _ _
        rw [e2]
        exact this

theorem sim_go (h : Inv hash N g) (hr : Rel hash g S) {t : ℕ} {g' : G}
    {e : Option Event} (hs : step hash g t .go = some (g', e)) :
    Inv hash N g' ∧ ∃ S', StepOr S e S' ∧ Rel hash g' S' := by
  cases hp : g.pc t with
  | idle => simp only [step, hp] at hs; cases hs
  | want s =>
    obtain ⟨h1, h2, h3⟩ := sim_want h hr hp hs
    exact ⟨h1, S, Or.inr ⟨h2, rfl⟩, h3⟩
  | inside s => exact sim_inside h hr hp hs
  | busy s => exact sim_busy h hr hp hs
  | after s next =>
    obtain ⟨h1, h2, h3⟩ := sim_after h hr hp hs
    exact ⟨h1, S, Or.inr ⟨h2, rfl⟩, h3⟩
  | await tok =>
    have hq := hr.pc t
    rw [hp] at hq
    simp only [step, hp] at hs
    split_ifs at hs with hsent
    cases hs
    exact ⟨h.setPc trivial (by rw [hp]; rfl) (by rw [hp]; rfl) (by rw [hp]; rfl) (Or.inr rfl), _,
      Or.inl (.wake hq ((hr.released tok).2 hsent)), hr.setPc rfl⟩
  | done r =>
    have hq := hr.pc t
    rw [hp] at hq
    simp only [step, hp] at hs
    cases r with
    | held l =>
      cases hs
      refine ⟨⟨h.mem, ?_, ?_, ?_⟩, _, Or.inl (.ret hq), ?_⟩
      · intro u
        show wfPC hash N (Function.update g.pc t _ u)
        by_cases hu : u = t
        · subst hu; simp [wfPC]
        · simpa [hu] using h.wf u
      · show Locks g.rw fun u => (Function.update g.pc t _ u).holds
        rw [comp_update, update_same _ _ _ (by rw [hp]; rfl)]
        exact h.locks
      · show Owns _ _ _ _ _ _ (fun u => (Function.update g.pc t _ u).carries)
          (fun u => (Function.update g.pc t _ u).unlocking) (fun u => (Function.update g.pc t _ u).waits)
        rw [comp_update, comp_update, update_same _ _ (PC.unlocking _) (by rw [hp]; rfl), comp_update,
          update_same _ _ (PC.waits _) (by rw [hp]; rfl)]
        exact h.owns.keep (by rw [hp]; rfl) (by rw [hp]; rfl)
      · exact ⟨hr.store, hr.locks, hr.released, (hr.setPc (t := t) (p := .idle) rfl).pc⟩
    | _ =>
      cases hs
      exact ⟨h.setPc trivial (by rw [hp]; rfl) (by rw [hp]; rfl) (by rw [hp]; rfl) (Or.inr rfl), _,
        Or.inl (.ret hq), hr.setPc rfl⟩
  | panicked => simp only [step, hp] at hs; cases hs

theorem sim_step (h : Inv hash N g) (hr : Rel hash g S) {t : ℕ} {m : Move} {g' : G}
    {e : Option Event} (hs : step hash g t m = some (g', e)) (hv : ∀ x ∈ e, x.Valid) :
    Inv hash N g' ∧ ∃ S', StepOr S e S' ∧ Rel hash g' S' := by
  cases m with
  | call op =>
    obtain ⟨h1, S', h2, h3⟩ := sim_call h hr hs hv
    exact ⟨h1, S', Or.inl h2, h3⟩
  | go => exact sim_go h hr hs
  | cancel =>
    obtain ⟨h1, S', h2, h3⟩ := sim_cancel h hr hs
    exact ⟨h1, S', Or.inl h2, h3⟩

/-- What modifies a shard has taken the lock for writing. -/
theorem Sec.Modifies.write {s : Sec} (h : s.Modifies) : s.write = true := by
  obtain ⟨M, M', next, h1, h2⟩ := h
  cases s with
  | get A i =>
    simp only [finish, Option.bind_eq_bind, Option.bind_eq_some_iff] at h1
    obtain ⟨x, -, r, -, h⟩ := h1
    cases r <;> · cases h; exact absurd rfl h2
  | len i acc =>
    simp only [finish, Option.bind_eq_bind, Option.bind_eq_some_iff] at h1
    obtain ⟨x, -, h⟩ := h1
    cases h
    exact absurd rfl h2
  | _ => rfl

/-- The number of shards for the given number of CPUs. -/
def shardsFor (threads : ℕ) : ℕ := Nat.nextPowerOfTwo (threads * threads * 8)

theorem Inv.init (hash : List UInt8 → ℕ) (threads : ℕ) : Inv hash (shardsFor threads) (init threads) := by
  have hpos : 0 < shardsFor threads := Nat.pos_of_isPowerOfTwo (Nat.isPowerOfTwo_nextPowerOfTwo _)
  refine ⟨⟨?_, ?_, shardsOK_replicate hpos, shardsOK_replicate hpos⟩, fun _ => trivial, ?_, ?_⟩
  · simp [Conc.init, StateMap.new, shardsFor]
  · simp [Conc.init, StateMap.new, shardsFor]
  · constructor <;> simp [Conc.init, PC.holds]
  · have : (Conc.init threads).mem.lk hash = fun _ => none := funext fun A => shardsGet_replicate A
    rw [this]
    exact Owns.init

theorem Rel.init (hash : List UInt8 → ℕ) (threads : ℕ) : Rel hash (Conc.init threads) Atomic.init := by
  refine ⟨?_, ?_, ?_, fun _ => rfl⟩
  · exact (funext fun A => shardsGet_replicate A).symm
  · intro A tok
    have : (Conc.init threads).mem.lk hash A = none := shardsGet_replicate A
    simp [Atomic.init, this]
  · intro tok
    simp [Atomic.init, Conc.init]

theorem Atomic.Exec.append {S S' S'' : Atomic} {es es' : List Event} (h : Atomic.Exec S es S')
    (h' : Atomic.Exec S' es' S'') : Atomic.Exec S (es ++ es') S'' := by
  induction h' with
  | nil => rwa [List.append_nil]
  | snoc h1 h2 ih =>
    rw [← List.append_assoc]
    exact .snoc ih h2

theorem sim_run {ms : List (ℕ × Move)} : ∀ {g : G} {S : Atomic}, Inv hash N g → Rel hash g S → ∀ {g' : G}
    {es : List Event}, run hash g ms = some (g', es) → (∀ x ∈ es, x.Valid) →
    Inv hash N g' ∧ ∃ S', Atomic.Exec S es S' ∧ Rel hash g' S' := by
  induction ms with
  | nil =>
    intro g S h hr g' es hs hv
    cases hs
    exact ⟨h, S, .nil S, hr⟩
  | cons tm ms ih =>
    obtain ⟨t, m⟩ := tm
    intro g S h hr g' es hs hv
    rw [run] at hs
    simp only [Option.bind_eq_bind, Option.bind_eq_some_iff] at hs
    obtain ⟨⟨g1, e⟩, h1, ⟨g2, es'⟩, h2, h3⟩ := hs
    cases h3
    obtain ⟨i1, S1, st, r1⟩ := sim_step h hr h1 (fun x hx => hv x (by
      rw [List.mem_append]
      exact Or.inl (Option.mem_toList.2 hx)))
    obtain ⟨i2, S2, ex, r2⟩ := ih i1 r1 h2 (fun x hx => hv x (List.mem_append_right _ hx))
    refine ⟨i2, S2, ?_, r2⟩
    rcases st with st | ⟨rfl, rfl⟩
    · have := (Atomic.Exec.nil S).snoc st
      rw [List.nil_append] at this
      exact this.append ex
    · exact ex

end Conc

end Search

end Sortnet
