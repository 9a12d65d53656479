import Verif.Model.Search

/-!
# A scheduler that executes the model

Used to show that there are executions: `exec` follows `Step`.
-/

namespace Sortnet

namespace Search

instance (A : OSet) : Decidable (mapOk A) := inferInstanceAs (Decidable (_ ∧ _))

instance (G : Global) (r : Res) : Decidable (G.receiver r) :=
  match r with
  | .lock A token => inferInstanceAs (Decidable (G.locks A = some token))
  | .handle _ => inferInstanceAs (Decidable True)

/-- Whether a status is `done`. -/
def Status.isDone : Status → Bool
  | .done _ => true
  | _ => false

/-- Whether one of the children has finished. -/
def anyDone (G : Global) (owned : List Res) : Bool :=
  owned.any fun r => match r with
    | .handle h => match G.tasks h.tid with
      | some c => c.status.isDone
      | none => false
    | .lock _ _ => false

/-- An action of the running task `i`; `N` is an unused task id. -/
def actRun (hash : List ℕ → ℕ) (N i : ℕ) (G : Global) (t : Task) (owned : List Res) (stack : List Frame) :
    Prog Exit → Option Global
  | .get A k => some (G.setStatus i t (.run (k (G.store.get A)) owned stack))
  | .set A v k =>
    if mapOk A then some { G.setStatus i t (.run k owned stack) with store := G.store.set A v } else none
  | .lock A k =>
    if mapOk A then
      match G.locks A with
      | none => some { G.setStatus i t (.run (k true) (.lock A G.nextToken :: owned) stack) with
          locks := fun B => if B = A then some G.nextToken else G.locks B
          nextToken := G.nextToken + 1 }
      | some token => some (G.setStatus i t (.wait A token (k false) owned stack))
    else none
  | .spawn level prev A k =>
    if (G.tasks N).isNone then
      some { G with
        tasks := Function.update
          (Function.update G.tasks i
            (some { t with status := .run (k ⟨N, A, prev⟩) (.handle ⟨N, A, prev⟩ :: owned) stack })) N
          (some { status := .sleep (code hash (.improve level prev A)) [] []
                  root := .improve level prev A
                  scheduled := false, queued := false, cancelled := false }) }
    else none
  | .addPending _ h k =>
    match G.tasks h.tid with
    | none => none
    | some c => if h.tid = i then none else some { G with
        tasks := Function.update
          (Function.update G.tasks i (some { t with status := .run k owned stack })) h.tid
          (some { c with queued := true }) }
  | .schedule h k =>
    match G.tasks h.tid with
    | none => none
    | some c => if h.tid = i then none else some { G with
        tasks := Function.update
          (Function.update G.tasks i (some { t with status := .run k owned stack })) h.tid
          (some { c with scheduled := true }) }
  | .isScheduled h k =>
    match G.tasks h.tid with
    | none => none
    | some c => some (G.setStatus i t (.run (k c.scheduled) owned stack))
  | .poll h k =>
    match G.tasks h.tid with
    | none => none
    | some c =>
      match c.status with
      | .done v => if h.tid = i then none else some { G with
          tasks := Function.update
            (Function.update G.tasks i (some { t with status := .run (k (some v)) owned stack })) h.tid
            (some { c with status := .taken }) }
      | .taken => none
      | _ => if c.cancelled then none else some (G.setStatus i t (.run (k none) owned stack))
  | .dropHandle h k =>
    some ((G.setStatus i t (.run k (owned.erase (.handle h)) stack)).release (.handle h))
  | .pending k => some (G.setStatus i t (.sleep k owned stack))
  | .panic => none
  | .ret (.goto pc) => some (G.setStatus i t (.run (code hash pc) owned stack))
  | .ret (.call pc k) => some (G.setStatus i t (.run (code hash pc) [] (⟨owned, k⟩ :: stack)))
  | .ret (.done v) => some (G.setStatus i t (.unwind v owned stack))

/-- An action of task `i`. -/
def act (hash : List ℕ → ℕ) (N i : ℕ) (G : Global) : Option Global :=
  match G.tasks i with
  | none => none
  | some t =>
    match t.status with
    | .run p owned stack => actRun hash N i G t owned stack p
    | .sleep p owned stack =>
      if t.cancelled then some (G.setStatus i t (.dropping (owned ++ stack.flatMap Frame.owned)))
      else if t.scheduled ∧ (owned = [] ∨ anyDone G owned) then some (G.setStatus i t (.run p owned stack))
      else none
    | .wait _ token p owned stack =>
      if t.cancelled then some (G.setStatus i t (.dropping (owned ++ stack.flatMap Frame.owned)))
      else if G.sent token then some (G.setStatus i t (.run p owned stack)) else none
    | .unwind v (r :: owned) stack =>
      if G.receiver r then some ((G.setStatus i t (.unwind v ((r :: owned).erase r) stack)).release r) else none
    | .unwind v [] (f :: stack) => some (G.setStatus i t (.run (code hash (f.k v)) f.owned stack))
    | .unwind v [] [] => some (G.setStatus i t (.done v))
    | .dropping (r :: owned) =>
      if G.receiver r then some ((G.setStatus i t (.dropping ((r :: owned).erase r))).release r) else none
    | .dropping [] => none
    | .done _ => none
    | .taken => none
    | .panicked => none

/-- Whether task `i` is the main task and has finished with lower bound `r`. -/
def result (G : Global) : Option ℕ :=
  match G.tasks 0 with
  | some t => match t.status with
    | .done v => some v.lo
    | _ => none
  | none => none

/-- Executes the actions of the given tasks, with the given unused task ids. -/
def exec (hash : List ℕ → ℕ) : List (ℕ × ℕ) → Global → Option Global
  | [], G => some G
  | (N, i) :: l, G =>
    match act hash N i G with
    | none => none
    | some G' => exec hash l G'

theorem actRun_sound {hash : List ℕ → ℕ} {N i : ℕ} {G G' : Global} {t : Task} {owned : List Res} {stack : List Frame}
    {p : Prog Exit} (ht : G.tasks i = some t) (hs : t.status = .run p owned stack)
    (h : actRun hash N i G t owned stack p = some G') : Act hash i G G' := by
  cases p with
  | ret e =>
    cases e with
    | done v => cases h; exact .ret ht hs
    | goto pc => cases h; exact .goto ht hs
    | call pc k => cases h; exact .call ht hs
  | panic => exact absurd h (by simp [actRun])
  | get A k => cases h; exact .get ht hs
  | set A v k =>
    unfold actRun at h
    dsimp only at h
    split at h
    · next hm => cases h; exact .set ht hs hm
    · simp at h
  | lock A k =>
    unfold actRun at h
    dsimp only at h
    split at h
    · next hm =>
      split at h
      · next hl => cases h; exact .lockFree ht hs hm hl
      · next tok hl => cases h; exact .lockBusy ht hs hm hl
    · simp at h
  | spawn level prev A k =>
    unfold actRun at h
    dsimp only at h
    split at h
    · next hn => cases h; exact .spawn ht hs (by simpa using hn)
    · simp at h
  | addPending prio hd k =>
    unfold actRun at h
    dsimp only at h
    split at h
    · simp at h
    · next c hc =>
      split at h
      · simp at h
      · next hne => cases h; exact .addPending ht hs hc hne
  | schedule hd k =>
    unfold actRun at h
    dsimp only at h
    split at h
    · simp at h
    · next c hc =>
      split at h
      · simp at h
      · next hne => cases h; exact .schedule ht hs hc hne
  | isScheduled hd k =>
    unfold actRun at h
    dsimp only at h
    split at h
    · simp at h
    · next c hc => cases h; exact .isScheduled ht hs hc
  | poll hd k =>
    unfold actRun at h
    dsimp only at h
    split at h
    · simp at h
    · next c hc =>
      split at h
      · next v hv =>
        split at h
        · simp at h
        · next hne => cases h; exact .pollReady ht hs hc hv hne
      · simp at h
      · next h1 h2 =>
        split at h
        · simp at h
        · next hcc => cases h; exact .pollPending ht hs hc h1 h2 (by simpa using hcc)
  | dropHandle hd k => cases h; exact .dropHandle ht hs
  | pending k => cases h; exact .pending ht hs

theorem act_sound {hash : List ℕ → ℕ} {N i : ℕ} {G G' : Global} (h : act hash N i G = some G') :
    Act hash i G G' := by
  unfold act at h
  cases ht : G.tasks i with
  | none => rw [ht] at h; simp at h
  | some t =>
    rw [ht] at h
    dsimp only at h
    cases hs : t.status with
    | run p owned stack => rw [hs] at h; exact actRun_sound ht hs h
    | sleep p owned stack =>
      rw [hs] at h
      dsimp only at h
      split at h
      · next hc => cases h; exact .dropSleep ht hs hc
      · split at h
        · next hc => cases h; exact .wake ht hs hc.1
        · simp at h
    | wait A token p owned stack =>
      rw [hs] at h
      dsimp only at h
      split at h
      · next hc => cases h; exact .dropWait ht hs hc
      · split at h
        · next hc => cases h; exact .lockWake ht hs hc
        · simp at h
    | unwind v owned stack =>
      cases owned with
      | nil =>
        cases stack with
        | nil => rw [hs] at h; cases h; exact .finish ht hs
        | cons f fs => rw [hs] at h; cases h; exact .return ht hs
      | cons r rs =>
        rw [hs] at h
        dsimp only at h
        split at h
        · next hr => cases h; exact .unwind ht hs List.mem_cons_self hr
        · simp at h
    | dropping owned =>
      cases owned with
      | nil => rw [hs] at h; simp at h
      | cons r rs =>
        rw [hs] at h
        dsimp only at h
        split at h
        · next hr => cases h; exact .drop ht hs List.mem_cons_self hr
        · simp at h
    | done v => rw [hs] at h; simp at h
    | taken => rw [hs] at h; simp at h
    | panicked => rw [hs] at h; simp at h

theorem exec_reach {hash : List ℕ → ℕ} {limit : Option ℕ} {A : OSet} {l : List (ℕ × ℕ)} {G G' : Global}
    (hG : Reach hash limit A G) (h : exec hash l G = some G') : Reach hash limit A G' := by
  induction l generalizing G with
  | nil => cases h; exact hG
  | cons x l ih =>
    obtain ⟨N, i⟩ := x
    rw [exec] at h
    split at h
    · simp at h
    · next G1 h1 => exact ih (hG.step ⟨i, act_sound h1⟩) h

theorem result_returned {G : Global} {r : ℕ} (h : result G = some r) : Returned G r := by
  unfold result at h
  split at h
  · next t ht =>
    split at h
    · next v hv => cases h; exact ⟨t, v, ht, hv, rfl⟩
    · simp at h
  · simp at h

/-- Runs obtained by executing the model. -/
theorem run_of_exec {hash : List ℕ → ℕ} {limit : Option ℕ} {initial : OSet} {l : List (ℕ × ℕ)} {r : ℕ}
    (h : ((canon hash initial).bind fun A => (exec hash l (init hash limit A)).bind result) = some r) :
    ∃ G, Run hash limit initial G ∧ Returned G r := by
  rw [Option.bind_eq_some_iff] at h
  obtain ⟨A, hA, h⟩ := h
  rw [Option.bind_eq_some_iff] at h
  obtain ⟨G, hG, h⟩ := h
  exact ⟨G, ⟨A, hA, exec_reach .init hG⟩, result_returned h⟩

/-- Runs obtained by executing the model, with a computable test of the state reached. -/
theorem run_of_exec_test {hash : List ℕ → ℕ} {limit : Option ℕ} {initial : OSet} {l : List (ℕ × ℕ)}
    {test : Global → Bool}
    (h : (((canon hash initial).bind fun A => exec hash l (init hash limit A)).map test) = some true) :
    ∃ G, Run hash limit initial G ∧ test G = true := by
  rw [Option.map_eq_some_iff] at h
  obtain ⟨G, hG, h⟩ := h
  rw [Option.bind_eq_some_iff] at hG
  obtain ⟨A, hA, hG⟩ := hG
  exact ⟨G, ⟨A, hA, exec_reach .init hG⟩, h⟩

/-- Whether a task holds a lock. -/
def holdsLock (i : ℕ) (G : Global) : Bool :=
  match G.tasks i with
  | some t => t.res.any fun r => match r with | .lock _ _ => true | _ => false
  | none => false

theorem holdsLock_spec {i : ℕ} {G : Global} (h : holdsLock i G = true) :
    ∃ t A tok, G.tasks i = some t ∧ Res.lock A tok ∈ t.res := by
  unfold holdsLock at h
  split at h
  · next t ht =>
    rw [List.any_eq_true] at h
    obtain ⟨r, hr, h⟩ := h
    split at h
    · exact ⟨t, _, _, ht, hr⟩
    · simp at h
  · simp at h

/-- Whether a task is suspended and waits for child tasks none of which has finished. -/
def suspended (i : ℕ) (G : Global) : Bool :=
  match G.tasks i with
  | some t =>
    match t.status with
    | .sleep _ owned _ => (owned.any fun r => match r with | .handle _ => true | _ => false) && !anyDone G owned
    | _ => false
  | none => false

theorem suspended_spec {i : ℕ} {G : Global} (h : suspended i G = true) :
    ∃ t, G.tasks i = some t ∧ ∃ p owned stack, t.status = .sleep p owned stack ∧ (∃ h, Res.handle h ∈ owned) ∧
      ∀ h, Res.handle h ∈ owned → ∀ c, G.tasks h.tid = some c → ∀ v, c.status ≠ .done v := by
  unfold suspended at h
  split at h
  · next t ht =>
    split at h
    · next p owned stack hs =>
      rw [Bool.and_eq_true] at h
      obtain ⟨h1, h2⟩ := h
      refine ⟨t, ht, p, owned, stack, hs, ?_, ?_⟩
      · rw [List.any_eq_true] at h1
        obtain ⟨r, hr, h⟩ := h1
        split at h
        · exact ⟨_, hr⟩
        · simp at h
      · intro h hm c hc v hv
        have : anyDone G owned = true := by
          unfold anyDone
          rw [List.any_eq_true]
          refine ⟨_, hm, ?_⟩
          dsimp only
          rw [hc]
          dsimp only
          rw [hv]
          rfl
        rw [this] at h2
        simp at h2
    · simp at h
  · simp at h

end Search

end Sortnet
