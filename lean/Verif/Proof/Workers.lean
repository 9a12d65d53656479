import Verif.Proof.TearDown
import Verif.Spec.Workers

/-!
# The worker threads: proofs
-/

namespace Sortnet

namespace Search

variable {hash : List ℕ → ℕ}

/-! ## What a step does to the other tasks -/

theorem setStatus_other {G : Global} {i j : ℕ} {t : Task} {s : Status} (hj : j ≠ i) :
    (G.setStatus i t s).tasks j = G.tasks j := by
  unfold Global.setStatus
  simp [hj]

theorem release_task {G : Global} {r : Res} {j : ℕ} {t : Task} (ht : G.tasks j = some t) :
    ∃ t', (G.release r).tasks j = some t' ∧ t'.status = t.status ∧ t'.scheduled = t.scheduled := by
  cases r with
  | lock A tok => exact ⟨t, ht, rfl, rfl⟩
  | handle h =>
    unfold Global.release Global.cancel
    dsimp only
    by_cases e : j = h.tid
    · subst e
      rw [Function.update_self, ht]
      exact ⟨_, rfl, rfl, rfl⟩
    · rw [Function.update_of_ne e]
      exact ⟨t, ht, rfl, rfl⟩

theorem Act.other {G G' : Global} {i : ℕ} (h : Act hash i G G') {j : ℕ} (hj : j ≠ i) {t : Task} (ht : G.tasks j = some t)
    (hd : ∀ v, t.status ≠ .done v) :
    ∃ t', G'.tasks j = some t' ∧ t'.status = t.status ∧ (t.scheduled = true → t'.scheduled = true) := by
  have two : ∀ {u : Task} {i' : ℕ} {c c' : Task}, G.tasks i' = some c → c'.status = c.status →
      (c.scheduled = true → c'.scheduled = true) →
      ∃ t', Function.update (Function.update G.tasks i (some u)) i' (some c') j = some t' ∧ t'.status = t.status ∧
        (t.scheduled = true → t'.scheduled = true) := by
    intro u i' c c' hc h1 h2
    by_cases e : j = i'
    · subst e
      rw [ht] at hc
      cases hc
      exact ⟨c', Function.update_self .., h1, h2⟩
    · exact ⟨t, by rw [Function.update_of_ne e, Function.update_of_ne hj, ht], rfl, id⟩
  have rel : ∀ {u : Task} {s : Status} {r : Res}, ∃ t', ((G.setStatus i u s).release r).tasks j = some t' ∧
      t'.status = t.status ∧ (t.scheduled = true → t'.scheduled = true) := by
    intro u s r
    obtain ⟨t', h1, h2, h3⟩ := release_task (G := G.setStatus i u s) (r := r) (j := j) (t := t)
      (by rw [setStatus_other hj, ht])
    exact ⟨t', h1, h2, fun h => h3.trans h⟩
  cases h with
  | @spawn u level prev A k owned stack j' hu hs hj' =>
    have e : j ≠ j' := by rintro rfl; rw [ht] at hj'; cases hj'
    exact ⟨t, by dsimp only; rw [Function.update_of_ne e, Function.update_of_ne hj, ht], rfl, id⟩
  | addPending hu hs hc hne => dsimp only; refine two hc ?_ ?_; exacts [rfl, id]
  | schedule hu hs hc hne => dsimp only; refine two hc ?_ ?_; exacts [rfl, fun _ => rfl]
  | @pollReady u h k owned stack c v hu hs hc hdone hne =>
    by_cases e : j = h.tid
    · subst e
      rw [ht] at hc
      cases hc
      exact absurd hdone (hd v)
    · exact ⟨t, by dsimp only; rw [Function.update_of_ne e, Function.update_of_ne hj, ht], rfl, id⟩
  | worker hu hq hsc => exact ⟨t, by dsimp only; rw [Function.update_of_ne hj, ht], rfl, id⟩
  | dropHandle => exact rel
  | unwind => exact rel
  | drop => exact rel
  | set => exact ⟨t, (setStatus_other hj).trans ht, rfl, id⟩
  | lockFree => exact ⟨t, (setStatus_other hj).trans ht, rfl, id⟩
  | _ => exact ⟨t, (setStatus_other hj).trans ht, rfl, id⟩

/-- The status of an unfinished task is not changed by the steps of the others. -/
theorem Act.unfinished {G G' : Global} {i : ℕ} (h : Act hash i G G') {j : ℕ} (hj : j ≠ i) (hu : Unfinished G j) :
    Unfinished G' j ∧ statusOf G' j = statusOf G j := by
  obtain ⟨t, ht, h1, h2, h3, h4, h5⟩ := hu
  obtain ⟨t', ht', hs, hsc⟩ := h.other hj ht h2
  refine ⟨⟨t', ht', hsc h1, ?_, ?_, ?_, ?_⟩, ?_⟩
  · intro v; rw [hs]; exact h2 v
  · rw [hs]; exact h3
  · rw [hs]; exact h4
  · rw [hs]; exact h5
  · unfold statusOf; rw [ht, ht']; simp [hs]

theorem Suspended.congr {G G' : Global} {i : ℕ} (h : statusOf G' i = statusOf G i) : Suspended G' i ↔ Suspended G i := by
  unfold Suspended; rw [h]

/-- A task does not become active by the steps of the others. -/
theorem Act.executing {limit : Option ℕ} {A : OSet} {β : ℕ → ℕ} {G G' : Global} (hG : GInv hash limit A β G) {i : ℕ}
    (h : Act hash i G G') {j : ℕ} (hj : j ≠ i) (ha : Executing G' j) : Executing G j := by
  obtain ⟨⟨t', ht', h1, h2, h3, h4, h5⟩, hs⟩ := ha
  have hst : statusOf G' j = some t'.status := statusOf_some ht' rfl
  rcases act_others h hj hst with e | e | ⟨pc, _, e, _⟩
  · obtain ⟨t, ht, e'⟩ := Tail.statusOf_eq e
    have hns : ¬ Suspended G j := by rwa [← Suspended.congr (hst.trans e.symm)]
    refine ⟨⟨t, ht, ?_, ?_, ?_, ?_, ?_⟩, hns⟩
    · refine hG.own.started ht ?_ ?_
      · intro p hp
        exact hns (Or.inl ⟨p, _, _, statusOf_some ht hp⟩)
      · rw [e']; exact h5
    · intro v; rw [e']; exact h2 v
    · rw [e']; exact h3
    · rw [e']; exact h4
    · rw [e']; exact h5
  · exact absurd e h3
  · exact absurd (Or.inl ⟨_, _, _, hst.trans (congrArg some e)⟩) hs

/-! ## The invariant -/

/-- What the workers execute. -/
structure CInv (n : ℕ) (C : Crew) : Prop where
  held : ∀ w i, C.on w = some i → w < n ∧ Runnable C.W i
  active : ∀ i, Executing C.W.G i → ∃ w, C.on w = some i
  inj : ∀ w v i, C.on w = some i → C.on v = some i → w = v

theorem Runnable.after {W : World} {i : ℕ} {G' : Global} (h : Act hash i W.G G') {j : ℕ} (hj : j ≠ i) (hr : Runnable W j) :
    Runnable (W.after i G') j := by
  obtain ⟨hu, hn⟩ := hr
  obtain ⟨hu', e⟩ := h.unfinished hj hu
  exact ⟨hu', fun hs => Or.inr ⟨hn ((Suspended.congr e).1 hs), fun h => hj h.1⟩⟩

/-- A step of a task after which the workers go on with their tasks. -/
theorem CInv.keep {limit : Option ℕ} {A : OSet} {β : ℕ → ℕ} {n : ℕ} {C : Crew} (hC : CInv n C)
    (hG : GInv hash limit A β C.W.G) {i : ℕ} {G' : Global} (h : Act hash i C.W.G G')
    (hi : Executing G' i ↔ ∃ w, C.on w = some i) : CInv n { C with W := C.W.after i G' } := by
  refine ⟨fun w j hw => ⟨(hC.held w j hw).1, ?_⟩, fun j hj => ?_, hC.inj⟩
  · by_cases e : j = i
    · subst e
      have he := hi.2 ⟨w, hw⟩
      exact ⟨he.1, fun hs => absurd hs he.2⟩
    · exact (hC.held w j hw).2.after h e
  · by_cases e : j = i
    · subst e; exact hi.1 hj
    · exact hC.active j (h.executing hG e hj)

/-- A step of a task after which the worker is free. -/
theorem CInv.leave {limit : Option ℕ} {A : OSet} {β : ℕ → ℕ} {n : ℕ} {C : Crew} (hC : CInv n C)
    (hG : GInv hash limit A β C.W.G) {w i : ℕ} (hw : C.on w = some i) {G' : Global} (h : Act hash i C.W.G G')
    (hi : ¬ Executing G' i) : CInv n ⟨C.W.after i G', Function.update C.on w none⟩ := by
  have hv : ∀ v j, Function.update C.on w none v = some j → v ≠ w ∧ C.on v = some j ∧ j ≠ i := by
    intro v j hvj
    by_cases e : v = w
    · subst e; rw [Function.update_self] at hvj; cases hvj
    · rw [Function.update_of_ne e] at hvj
      refine ⟨e, hvj, ?_⟩
      rintro rfl
      exact e (hC.inj _ _ _ hvj hw)
  refine ⟨fun v j hvj => ?_, fun j hj => ?_, fun v u j h1 h2 => hC.inj _ _ _ (hv _ _ h1).2.1 (hv _ _ h2).2.1⟩
  · obtain ⟨_, h2, h3⟩ := hv v j hvj
    exact ⟨(hC.held v j h2).1, (hC.held v j h2).2.after h h3⟩
  · have e : j ≠ i := by rintro rfl; exact hi hj
    obtain ⟨v, hvj⟩ := hC.active j (h.executing hG e hj)
    refine ⟨v, ?_⟩
    dsimp only
    rw [Function.update_of_ne, hvj]
    rintro rfl
    rw [hvj] at hw
    exact e (Option.some.inj hw)

/-- The task is not scheduled: no worker has it. -/
theorem CInv.unscheduled {n : ℕ} {C : Crew} (hC : CInv n C) {i : ℕ} {t : Task} (ht : C.W.G.tasks i = some t)
    (hs : t.scheduled = false) (w : ℕ) : C.on w ≠ some i := by
  intro hw
  obtain ⟨⟨t', ht', h, _⟩, _⟩ := (hC.held w i hw).2
  rw [ht] at ht'
  cases ht'
  rw [hs] at h
  cases h

/-- The event of Model/Wake.lean. -/
def CEvent.toEvent : CEvent → Option Event
  | .take _ _ => none
  | .run _ i | .start _ i | .free i => some (.act i)
  | .repoll _ i => some (.repoll i)

theorem CStep.wstep {n : ℕ} {e : CEvent} {C C' : Crew} (h : CStep hash n e C C') :
    match e.toEvent with
    | none => C'.W = C.W
    | some a => WStep hash a C.W C'.W := by
  cases h with
  | take => rfl
  | run _ _ h _ => exact h
  | repoll _ _ h _ => exact h
  | @start w i t _ _ _ ht hq hs =>
    refine .act (.worker ht hq hs) ?_
    rintro ⟨h1, p, owned, stack, h2⟩
    have : statusOf C.W.G i = some (.run p owned stack) := by
      unfold statusOf at h2 ⊢
      dsimp only at h2
      rw [Function.update_self] at h2
      rw [ht]
      exact h2
    rcases h1 with ⟨_, _, _, e⟩ | ⟨_, _, _, _, _, e⟩ <;> rw [this] at e <;> cases e
  | @free i t p _ ht hs hc hst =>
    refine .act (.dropSleep ht hst hc) ?_
    rintro ⟨_, p', owned', stack', h⟩
    rw [statusOf_setStatus, if_pos rfl] at h
    cases h

theorem CReach.wreach {limit : Option ℕ} {A : OSet} {n : ℕ} {C : Crew} (h : CReach hash limit A n C) :
    WReach hash limit A C.W := by
  induction h with
  | init => exact .init
  | @step C C' e _ hs ih =>
    have := hs.wstep
    cases he : e.toEvent with
    | none => rw [he] at this; rw [this]; exact ih
    | some a => rw [he] at this; exact .step ih this

theorem CInv.reach {limit : Option ℕ} {A : OSet} (hA : OK A) {n : ℕ} {C : Crew} (h : CReach hash limit A n C) :
    CInv n C := by
  induction h with
  | init =>
    refine ⟨fun w i h => absurd h nofun, ?_, fun w v i h => absurd h nofun⟩
    rintro i ⟨⟨t, ht, _⟩, hs⟩
    unfold cinit winit Search.init at ht
    dsimp only at ht
    split at ht
    · cases ht
      exact absurd (Or.inl ⟨_, _, _, statusOf_some (by unfold cinit winit Search.init; dsimp only; rw [if_pos (by assumption)]) rfl⟩) hs
    · cases ht
  | @step C C' e hr hs ih =>
    obtain ⟨β, hG, _⟩ := GInv.reach hA hr.wreach.reach
    cases hs with
    | @take w i _ hw hf hu hsu hn ho =>
      have hv : ∀ v j, Function.update C.on w (some i) v = some j → v = w ∧ j = i ∨ v ≠ w ∧ C.on v = some j := by
        intro v j h
        by_cases e : v = w
        · subst e; rw [Function.update_self] at h; exact Or.inl ⟨rfl, (Option.some.inj h).symm⟩
        · rw [Function.update_of_ne e] at h; exact Or.inr ⟨e, h⟩
      refine ⟨fun v j hvj => ?_, fun j hj => ?_, fun v u j h1 h2 => ?_⟩
      · rcases hv v j hvj with ⟨rfl, rfl⟩ | ⟨_, h⟩
        · exact ⟨hw, hu, fun _ => hn⟩
        · exact ih.held v j h
      · obtain ⟨v, hvj⟩ := ih.active j hj
        refine ⟨v, ?_⟩
        dsimp only
        rw [Function.update_of_ne, hvj]
        rintro rfl
        rw [hf] at hvj
        cases hvj
      · rcases hv v j h1 with ⟨rfl, rfl⟩ | ⟨_, h1'⟩ <;> rcases hv u j h2 with ⟨rfl, e⟩ | ⟨_, h2'⟩
        · rfl
        · exact absurd h2' (ho u)
        · subst e; exact absurd h1' (ho v)
        · exact ih.inj v u j h1' h2'
    | @run w i _ W' hw ho hs hc =>
      cases hs with
      | @act _ _ G' h _ =>
        unfold Crew.after
        by_cases e : Executing (C.W.after i G').G i
        · rw [if_pos e]
          exact ih.keep hG h ⟨fun _ => ⟨w, ho⟩, fun _ => e⟩
        · rw [if_neg e]
          exact ih.leave hG ho h e
    | @repoll w i _ W' hw ho hs hc =>
      cases hs with
      | @repoll _ _ B tok p owned stack hst hsent hn =>
        have hne : ¬ Executing C.W.G i := fun h => h.2 (Or.inr ⟨_, _, _, _, _, hst⟩)
        unfold Crew.after
        rw [if_neg hne]
        have hv : ∀ v j, Function.update C.on w none v = some j → v ≠ w ∧ C.on v = some j ∧ j ≠ i := by
          intro v j h
          by_cases e : v = w
          · subst e; rw [Function.update_self] at h; cases h
          · rw [Function.update_of_ne e] at h
            refine ⟨e, h, ?_⟩
            rintro rfl
            exact e (ih.inj _ _ _ h ho)
        refine ⟨fun v j hvj => ?_, fun j hj => ?_, fun v u j h1 h2 => ih.inj _ _ _ (hv _ _ h1).2.1 (hv _ _ h2).2.1⟩
        · obtain ⟨_, h2, h3⟩ := hv v j hvj
          have := ih.held v j h2
          exact ⟨this.1, this.2.1, fun hs => ⟨this.2.2 hs, h3⟩⟩
        · obtain ⟨v, hvj⟩ := ih.active j hj
          refine ⟨v, ?_⟩
          dsimp only
          rw [Function.update_of_ne, hvj]
          rintro rfl
          rw [hvj] at ho
          cases ho
          exact hne hj
    | @start w i t _ hw hf ht hq hs =>
      refine ih.keep hG (.worker ht hq hs) ⟨fun he => ?_, fun ⟨v, hv⟩ => absurd hv (ih.unscheduled ht hs v)⟩
      exfalso
      obtain ⟨⟨t', ht', _, _, _, _, h5⟩, hns⟩ := he
      dsimp only at ht'
      rw [Function.update_self] at ht'
      cases ht'
      rcases hG.own.unsched i t ht hs with ⟨p, hp⟩ | hp
      · exact hns (Or.inl ⟨p, _, _, statusOf_some (Function.update_self ..) hp⟩)
      · exact h5 hp
    | @free i t p _ ht hs hc hst =>
      refine ih.keep hG (.dropSleep ht hst hc) ⟨fun he => ?_, fun ⟨v, hv⟩ => absurd hv (ih.unscheduled ht hs v)⟩
      exfalso
      obtain ⟨⟨t', ht', _, _, _, _, h5⟩, _⟩ := he
      unfold Global.setStatus at ht'
      dsimp only at ht'
      rw [Function.update_self] at ht'
      cases ht'
      exact h5 rfl

/-! ## What the workers can do -/

/-- A worker that executes a task is never blocked. -/
theorem CReach.held_moves {limit : Option ℕ} {A : OSet} (hA : OK A) {n : ℕ} {C : Crew} (h : CReach hash limit A n C)
    {w i : ℕ} (hw : C.on w = some i) : C.CanMove hash n w := by
  obtain ⟨hlt, hu, hn⟩ := (CInv.reach hA h).held w i hw
  by_cases hsus : Suspended C.W.G i
  · have hnot := hn hsus
    obtain ⟨t, ht, hsc, _⟩ := hu
    have one : ∀ {t'}, C.W.G.tasks i = some t' → t' = t := fun h => Option.some.inj (h.symm.trans ht)
    rcases hsus with ⟨p, owned, stack, hs⟩ | ⟨B, tok, p, owned, stack, hs⟩
    · obtain ⟨t', ht', hs'⟩ := Tail.statusOf_eq hs
      cases one ht'
      cases hc : t.cancelled with
      | false =>
        exact ⟨_, _, .run hlt hw (.act (.wake ht hs' hsc) fun _ => hnot)
          (fun u hu' hcu => by rw [one hu', hc] at hcu; cases hcu), rfl⟩
      | true =>
        have hnr : ¬ Resumes C.W.G (C.W.G.setStatus i t (.dropping (owned ++ stack.flatMap Frame.owned))) i := by
          rintro ⟨_, _, _, _, h⟩
          rw [statusOf_setStatus, if_pos rfl] at h
          cases h
        exact ⟨_, _, .run hlt hw (.act (.dropSleep ht hs' hc) fun h => absurd h hnr) (fun _ _ _ => hnr), rfl⟩
    · obtain ⟨t', ht', hs'⟩ := Tail.statusOf_eq hs
      cases one ht'
      cases hc : t.cancelled with
      | false =>
        cases e : C.W.G.sent tok with
        | true =>
          exact ⟨_, _, .run hlt hw (.act (.lockWake ht hs' e) fun _ => hnot)
            (fun u hu' hcu => by rw [one hu', hc] at hcu; cases hcu), rfl⟩
        | false => exact ⟨_, _, .repoll hlt hw (.repoll hs e hnot) (fun u hu' => by rw [one hu', hc]), rfl⟩
      | true =>
        have hnr : ¬ Resumes C.W.G (C.W.G.setStatus i t (.dropping (owned ++ stack.flatMap Frame.owned))) i := by
          rintro ⟨_, _, _, _, h⟩
          rw [statusOf_setStatus, if_pos rfl] at h
          cases h
        exact ⟨_, _, .run hlt hw (.act (.dropWait ht hs' hc) fun h => absurd h hnr) (fun _ _ _ => hnr), rfl⟩
  · obtain ⟨β, hG, _⟩ := GInv.reach hA h.wreach.reach
    obtain ⟨G', hG'⟩ := unblocked_acts hG (Fin'.reach h.wreach.reach) hu fun hb => hsus hb.suspended
    exact ⟨_, _, .run hlt hw (.act hG' fun h => absurd h.1 hsus) (fun _ _ _ h => hsus h.1), rfl⟩

/-- If a task is running or in the queue, a worker can make a step. -/
theorem CReach.moves {limit : Option ℕ} {A : OSet} (hA : OK A) {n : ℕ} (hn : 0 < n) {C : Crew}
    (h : CReach hash limit A n C) {i : ℕ} (hi : Runnable C.W i) : ∃ w < n, C.CanMove hash n w := by
  by_cases hex : ∃ w j, C.on w = some j
  · obtain ⟨w, j, hw⟩ := hex
    exact ⟨w, ((CInv.reach hA h).held w j hw).1, h.held_moves hA hw⟩
  · push Not at hex
    have hs : Suspended C.W.G i := by
      by_contra hs
      obtain ⟨w, hw⟩ := (CInv.reach hA h).active i ⟨hi.1, hs⟩
      exact hex w i hw
    exact ⟨0, hn, _, _, .take hn (Option.eq_none_iff_forall_ne_some.2 (hex 0)) hi.1 hs (hi.2 hs) (fun v => hex v i), rfl⟩

/-! ## Executions -/

namespace CExecution

variable {limit : Option ℕ} {A : OSet} {n : ℕ} {C : ℕ → Crew} {ev : ℕ → Option CEvent}

theorem creach (h : CExecution hash limit A n C ev) (k : ℕ) : CReach hash limit A n (C k) := by
  induction k with
  | zero => rw [h.start]; exact .init
  | succ k ih =>
    cases e : ev k with
    | none => rw [h.idle k e]; exact ih
    | some a => exact .step ih (h.step k a e)

/-- It is an execution in the sense of Model/Wake.lean. -/
theorem wexecution (h : CExecution hash limit A n C ev) :
    WExecution hash limit A (fun k => (C k).W) fun k => (ev k).bind CEvent.toEvent := by
  refine ⟨by rw [h.start]; rfl, fun k a ha => ?_, fun k ha => ?_⟩
  · obtain ⟨e, he, ha⟩ := Option.bind_eq_some_iff.1 ha
    have := (h.step k e he).wstep
    rw [ha] at this
    exact this
  · cases he : ev k with
    | none => rw [h.idle k he]
    | some e =>
      rw [he, Option.bind_some] at ha
      have := (h.step k e he).wstep
      rw [ha] at this
      exact this

theorem no_extra (ev : ℕ → Option CEvent) (k i : ℕ) : (ev k).bind CEvent.toEvent ≠ some (.extra i) := by
  intro h
  obtain ⟨e, _, he⟩ := Option.bind_eq_some_iff.1 h
  cases e <;> simp [CEvent.toEvent] at he

/-- The number of workers that execute nothing. -/
def idlers (n : ℕ) (C : Crew) : ℕ := ((List.range n).filter fun w => (C.on w).isNone).length

theorem idlers_take {w i : ℕ} {C : Crew} (hw : w < n) (hf : C.on w = none) :
    idlers n { C with on := Function.update C.on w (some i) } < idlers n C := by
  unfold idlers
  rw [← List.countP_eq_length_filter, ← List.countP_eq_length_filter]
  have key : ∀ l : List ℕ, l.countP (fun v => (Function.update C.on w (some i) v).isNone) ≤
      l.countP (fun v => (C.on v).isNone) ∧ (w ∈ l → l.countP (fun v => (Function.update C.on w (some i) v).isNone) <
        l.countP (fun v => (C.on v).isNone)) := by
    intro l
    induction l with
    | nil => simp
    | cons a l ih =>
      simp only [List.countP_cons]
      by_cases e : a = w
      · subst e
        simp [hf]
        omega
      · rw [Function.update_of_ne e]
        refine ⟨by omega, fun hm => ?_⟩
        rcases List.mem_cons.1 hm with h | h
        · exact absurd h.symm e
        · have := ih.2 h; omega
  exact (key _).2 (List.mem_range.2 hw)

/-- Every execution is finite. -/
theorem stops (h : CExecution hash limit A n C ev) (hA : OK A) : ∃ K, ∀ k, K ≤ k → ev k = none := by
  obtain ⟨K, hK⟩ := h.wexecution.stops hA ⟨0, fun k _ i => no_extra ev k i⟩
  have step : ∀ k, K ≤ k → ev k = none ∧ idlers n (C (k + 1)) = idlers n (C k) ∨ idlers n (C (k + 1)) < idlers n (C k) := by
    intro k hk
    cases e : ev k with
    | none => exact Or.inl ⟨rfl, by rw [h.idle k e]⟩
    | some a =>
      right
      have h1 := hK k hk
      have h2 := h.step k a e
      rw [e, Option.bind_some] at h1
      generalize C (k + 1) = C' at h2
      cases h2 with
      | take hw hf => exact idlers_take hw hf
      | _ => cases h1
  have anti : ∀ k k', K ≤ k → k ≤ k' → idlers n (C k') ≤ idlers n (C k) := by
    intro k k' hk hkk
    induction k', hkk using Nat.le_induction with
    | base => exact Nat.le_refl _
    | succ m hm ih => rcases step m (Nat.le_trans hk hm) with h | h <;> omega
  have main : ∀ m k, K ≤ k → idlers n (C k) ≤ m → ∃ K', ∀ k, K' ≤ k → ev k = none := by
    intro m
    induction m with
    | zero =>
      intro k hk hm
      refine ⟨k, fun k' hk' => ?_⟩
      rcases step k' (Nat.le_trans hk hk') with h | h
      · exact h.1
      · have := anti k k' hk hk'; omega
    | succ m ih =>
      intro k hk hm
      by_cases hall : ∀ k', k ≤ k' → ev k' = none
      · exact ⟨k, hall⟩
      · push Not at hall
        obtain ⟨k', hk', hne⟩ := hall
        rcases step k' (Nat.le_trans hk hk') with h | h
        · exact absurd h.1 hne
        · have := anti k k' hk hk'
          exact ih (k' + 1) (by omega) (by omega)
  exact main _ K (Nat.le_refl _) (Nat.le_refl _)

theorem const (h : CExecution hash limit A n C ev) {K : ℕ} (hK : ∀ k, K ≤ k → ev k = none) {k : ℕ} (hk : K ≤ k) :
    C k = C K := by
  induction k, hk using Nat.le_induction with
  | base => rfl
  | succ m hm ih => rw [h.idle m (hK m hm), ih]

/-- With fair workers, in the end no task is running or in the queue. -/
theorem quiet (h : CExecution hash limit A n C ev) (hA : OK A) (hn : 0 < n) (hf : FairWorkers hash n C ev) :
    ∃ K, (∀ k, K ≤ k → ev k = none) ∧ ∀ i, ¬ Runnable (C K).W i := by
  obtain ⟨K, hK⟩ := h.stops hA
  refine ⟨K, hK, fun i hi => ?_⟩
  obtain ⟨w, _, hw⟩ := (h.creach K).moves hA hn hi
  obtain ⟨k', e, hk', he, _⟩ := hf w K fun k hk => by rw [h.const hK hk]; exact hw
  rw [hK k' hk'] at he
  cases he

/-- The workers go on as long as there is something to do. -/
theorem works (h : CExecution hash limit A n C ev) (hA : OK A) (hn : 0 < n) (hf : FairWorkers hash n C ev) (k : ℕ)
    (hk : (∃ i, Runnable (C k).W i) ∨ OrphansDropped C ∧ ∃ i, Orphan (C k).W.G i) :
    ∃ k', k ≤ k' ∧ (ev k').bind CEvent.toEvent ≠ none := by
  by_contra hcon
  push Not at hcon
  have hW : ∀ k', k ≤ k' → (C k').W = (C k).W := by
    intro k' hk'
    induction k', hk' using Nat.le_induction with
    | base => rfl
    | succ m hm ih => exact (h.wexecution.idle m (hcon m hm)).trans ih
  rcases hk with ⟨i, hi⟩ | ⟨ho, i, hi⟩
  · obtain ⟨K, hK, hr⟩ := h.quiet hA hn hf
    apply hr i
    have h1 := h.const hK (Nat.le_max_left K k)
    rw [← h1, hW _ (Nat.le_max_right K k)]
    exact hi
  · obtain ⟨k', hk', hno⟩ := ho i k
    rw [hW k' hk'] at hno
    exact hno hi

end CExecution

/-! ## Existence -/

open Classical in
/-- The next event and state. -/
noncomputable def cnext (hash : List ℕ → ℕ) (n : ℕ) (C : Crew) : Option CEvent × Crew :=
  if h : ∃ r : CEvent × Crew, CStep hash n r.1 C r.2 then (some h.choose.1, h.choose.2) else (none, C)

/-- An execution. -/
noncomputable def cgreedy (hash : List ℕ → ℕ) (limit : Option ℕ) (A : OSet) (n : ℕ) : ℕ → Crew
  | 0 => cinit hash limit A
  | k + 1 => (cnext hash n (cgreedy hash limit A n k)).2

theorem cgreedy_execution (limit : Option ℕ) (A : OSet) (n : ℕ) :
    CExecution hash limit A n (cgreedy hash limit A n) fun k => (cnext hash n (cgreedy hash limit A n k)).1 := by
  refine ⟨rfl, ?_, ?_⟩
  · intro k e he
    rw [cgreedy]
    unfold cnext at he ⊢
    split at he
    · next hex =>
      rw [dif_pos hex]
      have := hex.choose_spec
      rw [← Option.some.inj he]
      exact this
    · cases he
  · intro k he
    rw [cgreedy]
    unfold cnext at he ⊢
    split at he
    · cases he
    · next hex => rw [dif_neg hex]

theorem cnext_none {n : ℕ} {C : Crew} (h : (cnext hash n C).1 = none) (e : CEvent) (C' : Crew) :
    ¬ CStep hash n e C C' := by
  intro hs
  unfold cnext at h
  rw [dif_pos ⟨(e, C'), hs⟩] at h
  cases h

/-- It stops when nothing can be done any more, so it is fair. -/
theorem cgreedy_fair {limit : Option ℕ} {A : OSet} (hA : OK A) (n : ℕ) :
    FairWorkers hash n (cgreedy hash limit A n) (fun k => (cnext hash n (cgreedy hash limit A n k)).1) ∧
      OrphansDropped (cgreedy hash limit A n) := by
  obtain ⟨K, hK⟩ := (cgreedy_execution (hash := hash) limit A n).stops hA
  constructor
  · intro w k hk
    obtain ⟨e, C', hs, _⟩ := hk (max K k) (Nat.le_max_right _ _)
    exact absurd hs (cnext_none (hK _ (Nat.le_max_left _ _)) e C')
  · intro i k
    refine ⟨max K k, Nat.le_max_right _ _, ?_⟩
    rintro ⟨t, ht, hs, hc, p, owned, stack, hst⟩
    obtain ⟨β, hG, _⟩ := GInv.reach hA ((cgreedy_execution (hash := hash) limit A n).creach (max K k)).wreach.reach
    rcases hG.own.unsched i t ht hs with ⟨p', hp⟩ | hp
    · exact cnext_none (hK _ (Nat.le_max_left _ _)) _ _ (.free ht hs hc hp)
    · rw [hst] at hp; cases hp

end Search

end Sortnet
