import Verif.Model.CertWrite
import Verif.Proof.Fix
import Verif.Proof.Truncated

/-!
# Certificates that are being written: `gen-proof` and `fix-proof` stopped at any time
-/

namespace Sortnet

namespace Fix

open Files ProofGen Relation

/-! ## `gen_proof` -/

theorem append_other (fs : FS) (data : List UInt8) {x : Str} (hx : x ≠ proofName) : fs.append proofName data x = fs x := by
  unfold FS.append
  rw [Function.update_of_ne hx]

theorem create_other (fs : FS) {x : Str} (hx : x ≠ proofName) : fs.create proofName x = fs x := by
  unfold FS.create
  rw [Function.update_of_ne hx]

theorem append_self (fs : FS) {data data' : List UInt8} (h : fs proofName = some data) :
    fs.append proofName data' proofName = some (data ++ data') := by
  unfold FS.append
  rw [Function.update_self, h]
  rfl

theorem create_self (fs : FS) : fs.create proofName proofName = some [] := by
  unfold FS.create
  rw [Function.update_self]

/-- What holds of a run of `gen_proof` at any time. -/
structure GenInv (fs0 : FS) (s : FS × GenPC) : Prop where
  other : ∀ x, x ≠ proofName → s.1 x = fs0 x
  cert : s.1 = fs0 ∨ ∃ steps P, genSteps fs0 = some steps ∧ s.1 proofName = some P ∧ P <+: writeProof steps
  writing : ∀ rest, s.2 = .writing rest → ∃ steps P, genSteps fs0 = some steps ∧ s.1 proofName = some P ∧
    P ++ rest = writeProof steps

theorem genInv_of_reach (hcongr : ∀ fs fs' : FS, (∀ x, x ≠ proofName → fs' x = fs x) → genSteps fs' = genSteps fs)
    {fs0 : FS} {s : FS × GenPC} (h : ReflTransGen GenRun (fs0, .stopped) s) : GenInv fs0 s := by
  induction h with
  | refl => exact ⟨fun _ _ => rfl, .inl rfl, by simp⟩
  | tail _ hs ih =>
    cases hs with
    | panic _ => exact ⟨ih.other, ih.cert, by simp⟩
    | noCreate => exact ⟨ih.other, ih.cert, by simp⟩
    | @create fs steps h =>
      have hg : genSteps fs0 = some steps := by rw [← h]; exact (hcongr _ _ ih.other).symm
      refine ⟨fun x hx => (create_other _ hx).trans (ih.other x hx), .inr ⟨steps, [], hg, create_self fs, List.nil_prefix⟩, ?_⟩
      rintro rest hr
      cases hr
      exact ⟨steps, [], hg, create_self fs, rfl⟩
    | @write fs now rest h =>
      obtain ⟨steps, P, h1, h2, h3⟩ := ih.writing _ rfl
      refine ⟨fun x hx => (append_other _ _ hx).trans (ih.other x hx), .inr ⟨steps, P ++ now, h1, append_self _ h2, ?_⟩, ?_⟩
      · rw [← h3, ← List.append_assoc]
        exact List.prefix_append _ _
      · rintro rest' hr
        cases hr
        exact ⟨steps, P ++ now, h1, append_self _ h2, by rw [List.append_assoc]; exact h3⟩
    | error => exact ⟨ih.other, ih.cert, by simp⟩
    | finish => exact ⟨ih.other, ih.cert, by simp⟩
    | kill => exact ⟨ih.other, ih.cert, by simp⟩

/-! ## `fix_proof` -/

/-- The bytes written for the steps until the end or a panic. -/
def wrSteps (m : Sets) : List ℕ → List UInt8 → List UInt8
  | [], _ => []
  | len :: lengths, data =>
    match fixStep m data len with
    | none => []
    | some (out, data') => out ++ wrSteps m lengths data'

/-- The bytes written from an entry of the table on. -/
def wrTable (m : Sets) (step : ℕ) : ℕ → List ℕ → List UInt8 → List UInt8
  | 0, lengths, data => wrSteps m lengths data
  | left + 1, lengths, data =>
    match readLE 8 data with
    | none => []
    | some (offset, data') =>
      match readLE 4 data' with
      | none => []
      | some (len, data'') =>
        le64 (offset + step) ++ le32 (len + 1) ++ wrTable m (step + 1) left (lengths ++ [len]) data''

/-- The bytes written after the file is created. -/
def wrCount (m : Sets) (data : List UInt8) : List UInt8 :=
  match readLE 4 data with
  | none => []
  | some (n, data') => le32 n ++ wrTable m 0 n [] data'

/-- The same, `none` if there is a panic. -/
def remTable (m : Sets) (step left : ℕ) (lengths : List ℕ) (data : List UInt8) : Option (List UInt8) := do
  let (ls, t, d) ← fixTable step left data
  let st ← fixSteps m (lengths ++ ls) d
  some (t ++ st)

def remCount (m : Sets) (data : List UInt8) : Option (List UInt8) := do
  let (n, d) ← readLE 4 data
  let r ← remTable m 0 n [] d
  some (le32 n ++ r)

theorem wrSteps_eq {m : Sets} {lengths : List ℕ} {data r : List UInt8} (h : fixSteps m lengths data = some r) :
    wrSteps m lengths data = r := by
  induction lengths generalizing data r with
  | nil => exact Option.some.inj h
  | cons len lengths ih =>
    unfold fixSteps at h
    unfold wrSteps
    cases hs : fixStep m data len with
    | none => rw [hs] at h; simp at h
    | some o =>
      rw [hs] at h
      simp only [Option.bind_eq_bind, Option.bind_some] at h
      obtain ⟨outs, h1, h2⟩ := Option.bind_eq_some_iff.1 h
      dsimp only
      rw [ih h1]
      exact Option.some.inj h2

theorem remTable_zero (m : Sets) (step : ℕ) (lengths : List ℕ) (data : List UInt8) :
    remTable m step 0 lengths data = fixSteps m lengths data := by
  unfold remTable fixTable
  simp only [Option.bind_eq_bind, Option.bind_some, List.append_nil, List.nil_append]
  cases fixSteps m lengths data <;> rfl

theorem remTable_succ (m : Sets) (step left offset len : ℕ) (lengths : List ℕ) {data data' data'' : List UInt8}
    (h1 : readLE 8 data = some (offset, data')) (h2 : readLE 4 data' = some (len, data'')) :
    remTable m step (left + 1) lengths data = (remTable m (step + 1) left (lengths ++ [len]) data'').map
      fun r => le64 (offset + step) ++ le32 (len + 1) ++ r := by
  unfold remTable
  rw [fixTable, h1]
  simp only [Option.bind_eq_bind, Option.bind_some]
  rw [h2]
  simp only [Option.bind_some]
  cases fixTable (step + 1) left data'' with
  | none => rfl
  | some r =>
    simp only [Option.bind_some, List.append_assoc, List.singleton_append]
    cases fixSteps m (lengths ++ len :: r.1) r.2.2 with
    | none => rfl
    | some st => simp

theorem remTable_none (m : Sets) (step left : ℕ) (lengths : List ℕ) {data : List UInt8}
    (h : (readLE 8 data).bind (fun r => readLE 4 r.2) = none) : remTable m step (left + 1) lengths data = none := by
  unfold remTable
  rw [fixTable]
  cases h1 : readLE 8 data with
  | none => rfl
  | some r =>
    rw [h1] at h
    have h : readLE 4 r.2 = none := h
    simp only [Option.bind_eq_bind, Option.bind_some]
    rw [h]
    rfl

theorem wrTable_eq {m : Sets} {step left : ℕ} {lengths : List ℕ} {data r : List UInt8}
    (h : remTable m step left lengths data = some r) : wrTable m step left lengths data = r := by
  induction left generalizing step lengths data r with
  | zero =>
    rw [remTable_zero] at h
    exact wrSteps_eq h
  | succ left ih =>
    unfold wrTable
    cases h1 : readLE 8 data with
    | none => rw [remTable_none _ _ _ _ (by rw [h1]; rfl)] at h; cases h
    | some o =>
      obtain ⟨offset, data'⟩ := o
      dsimp only
      cases h2 : readLE 4 data' with
      | none => rw [remTable_none _ _ _ _ (by rw [h1]; exact h2)] at h; cases h
      | some l =>
        obtain ⟨len, data''⟩ := l
        rw [remTable_succ _ _ _ _ _ _ h1 h2] at h
        obtain ⟨r', h3, rfl⟩ := Option.map_eq_some_iff.1 h
        dsimp only
        rw [ih h3]

theorem wrCount_eq {m : Sets} {data r : List UInt8} (h : remCount m data = some r) : wrCount m data = r := by
  unfold remCount at h
  unfold wrCount
  cases h1 : readLE 4 data with
  | none => rw [h1] at h; simp at h
  | some o =>
    rw [h1] at h
    simp only [Option.bind_eq_bind, Option.bind_some] at h
    obtain ⟨r', h2, h3⟩ := Option.bind_eq_some_iff.1 h
    dsimp only
    rw [wrTable_eq h2]
    exact Option.some.inj h3

theorem fixProof_rem {fs : FS} {m : Sets} {data : List UInt8} (hm : load fs = some m) (hd : fs oldName = some data)
    (hp : fs proofName = none) :
    fixProof fs = (remCount m data).map fun r => (fs.create proofName).append proofName r := by
  unfold fixProof remCount remTable
  rw [hm, hd, hp]
  simp only [Option.bind_eq_bind, Option.bind_some, Option.isSome_none, Bool.false_eq_true, if_false, List.nil_append]
  cases readLE 4 data with
  | none => rfl
  | some o =>
    simp only [Option.bind_some]
    cases fixTable 0 o.1 o.2 with
    | none => rfl
    | some t =>
      simp only [Option.bind_some]
      cases fixSteps m t.1 t.2.2 with
      | none => rfl
      | some st => simp

/-- The bytes that the program will still write. -/
def toWrite : FixPC → Option (List UInt8)
  | .count m data => some (wrCount m data)
  | .table m step left lengths data => some (wrTable m step left lengths data)
  | .steps m lengths data => some (wrSteps m lengths data)
  | .done => some []
  | _ => none

/-- Whether it will not panic. -/
def goesWell : FixPC → Bool
  | .count m data => (remCount m data).isSome
  | .table m step left lengths data => (remTable m step left lengths data).isSome
  | .steps m lengths data => (fixSteps m lengths data).isSome
  | .done => true
  | _ => false

/-- What holds of a run of `fix_proof` at any time. -/
structure FixInv (fs0 : FS) (s : FS × List UInt8 × FixPC) : Prop where
  other : ∀ x, x ≠ proofName → s.1 x = fs0 x
  cert : (s.1 = fs0 ∧ s.2.1 = [] ∧ (s.2.2 = .stopped ∨ s.2.2 = .panicked)) ∨
    ∃ m data P, load fs0 = some m ∧ fs0 oldName = some data ∧ fs0 proofName = none ∧ s.1 proofName = some P ∧
      P ++ s.2.1 <+: wrCount m data ∧
      (∀ w, toWrite s.2.2 = some w → P ++ s.2.1 ++ w = wrCount m data ∧ goesWell s.2.2 = (remCount m data).isSome)
  stopped : s.2.2 = .stopped → s.2.1 = []

theorem FixInv.active {fs0 fs : FS} {buf : List UInt8} {p : FixPC} {w : List UInt8} (h : FixInv fs0 (fs, buf, p))
    (hw : toWrite p = some w) :
    ∃ m data P, load fs0 = some m ∧ fs0 oldName = some data ∧ fs0 proofName = none ∧ fs proofName = some P ∧
      P ++ buf ++ w = wrCount m data ∧ goesWell p = (remCount m data).isSome := by
  rcases h.cert with ⟨_, _, h1 | h1⟩ | ⟨m, data, P, h1, h2, h3, h4, _, h6⟩
  · have h1 : p = _ := h1
    subst h1; cases hw
  · have h1 : p = _ := h1
    subst h1; cases hw
  · obtain ⟨h7, h8⟩ := h6 w hw
    exact ⟨m, data, P, h1, h2, h3, h4, h7, h8⟩

/-- A step that only adds bytes to the buffer. -/
theorem FixInv.go {fs0 fs : FS} {buf out w w' : List UInt8} {p q : FixPC} (h : FixInv fs0 (fs, buf, p))
    (hw : toWrite p = some w) (hw' : toWrite q = some w') (ho : w = out ++ w') (hg : goesWell q = goesWell p) :
    FixInv fs0 (fs, buf ++ out, q) := by
  obtain ⟨m, data, P, h1, h2, h3, h4, h5, h6⟩ := h.active hw
  refine ⟨h.other, .inr ⟨m, data, P, h1, h2, h3, h4, ?_, ?_⟩, ?_⟩
  · rw [← h5, ho]
    exact ⟨w', by simp⟩
  · intro w'' e
    have e : toWrite q = _ := e
    rw [hw'] at e
    obtain rfl := Option.some.inj e
    refine ⟨?_, hg.trans h6⟩
    rw [← h5, ho]
    simp
  · rintro e
    have e : q = _ := e
    subst e; cases hw'

theorem FixInv.panic {fs0 fs : FS} {buf : List UInt8} {p : FixPC} (h : FixInv fs0 (fs, buf, p)) :
    FixInv fs0 (fs, buf, .panicked) := by
  refine ⟨h.other, ?_, by simp⟩
  rcases h.cert with ⟨h1, h2, _⟩ | ⟨m, data, P, h1, h2, h3, h4, h5, _⟩
  · exact .inl ⟨h1, h2, .inr rfl⟩
  · exact .inr ⟨m, data, P, h1, h2, h3, h4, h5, fun w hw => by cases hw⟩

theorem fixStep_wr {m : Sets} {len : ℕ} {lengths : List ℕ} {data data' out : List UInt8}
    (h : fixStep m data len = some (out, data')) :
    wrSteps m (len :: lengths) data = out ++ wrSteps m lengths data' ∧
      (fixSteps m (len :: lengths) data).isSome = (fixSteps m lengths data').isSome := by
  refine ⟨by rw [wrSteps, h], ?_⟩
  rw [fixSteps, h]
  simp only [Option.bind_eq_bind, Option.bind_some]
  cases fixSteps m lengths data' <;> rfl

theorem fixInv_step {fs0 : FS} {s t : FS × List UInt8 × FixPC} (h : FixInv fs0 s) (hs : FixRun s t) : FixInv fs0 t := by
  cases hs with
  | noInput _ => exact h.panic
  | «exists» _ => exact h.panic
  | noCreate => exact h.panic
  | @create fs m data hm hd hp =>
    rcases h.cert with ⟨h1, _, _⟩ | ⟨_, _, P, _, _, _, h4, _, _⟩
    · have h1 : fs = fs0 := h1
      subst h1
      refine ⟨fun x hx => create_other _ hx, .inr ⟨m, data, [], hm, hd, hp, create_self fs, List.nil_prefix, ?_⟩, by simp⟩
      intro w hw
      cases hw
      exact ⟨rfl, rfl⟩
    · have h4 : fs proofName = _ := h4
      rw [hp] at h4
      cases h4
  | countPanic _ => exact h.panic
  | @count fs buf m n data data' hr =>
    refine h.go rfl rfl ?_ ?_
    · rw [wrCount, hr]
    · show (remTable _ _ _ _ _).isSome = (remCount _ _).isSome
      unfold remCount
      rw [hr]
      simp only [Option.bind_eq_bind, Option.bind_some]
      cases remTable m 0 n [] data' <;> rfl
  | entryPanic _ => exact h.panic
  | @entry fs buf m step left offset len lengths data data' data'' h1 h2 =>
    rw [List.append_assoc]
    refine h.go rfl rfl ?_ ?_
    · rw [wrTable, h1]
      dsimp only
      rw [h2]
    · show (remTable _ _ _ _ _).isSome = (remTable _ _ _ _ _).isSome
      rw [remTable_succ _ _ _ _ _ _ h1 h2, Option.isSome_map]
  | @tableEnd fs buf m step lengths data =>
    have := h.go (out := []) (q := .steps m lengths data) rfl rfl rfl (by
      show (fixSteps _ _ _).isSome = (remTable _ _ _ _ _).isSome
      rw [remTable_zero])
    rw [List.append_nil] at this
    exact this
  | stepPanic _ => exact h.panic
  | @step fs buf m len lengths data data' out hr =>
    obtain ⟨e1, e2⟩ := fixStep_wr (lengths := lengths) hr
    exact h.go rfl rfl e1 e2.symm
  | @finish fs buf m data =>
    have := h.go (out := []) (q := .done) rfl rfl rfl rfl
    rw [List.append_nil] at this
    exact this
  | @flush fs now rest p hne =>
    rcases h.cert with ⟨_, h2, _⟩ | ⟨m, data, P, h1, h2, h3, h4, h5, h6⟩
    · have h2 : now ++ rest = [] := h2
      exact absurd (List.append_eq_nil_iff.1 h2).1 hne
    · refine ⟨fun x hx => (append_other _ _ hx).trans (h.other x hx),
        .inr ⟨m, data, P ++ now, h1, h2, h3, append_self _ h4, ?_, ?_⟩, ?_⟩
      · show P ++ now ++ rest <+: _
        rw [List.append_assoc]
        exact h5
      · intro w hw
        obtain ⟨h7, h8⟩ := h6 w hw
        refine ⟨?_, h8⟩
        show P ++ now ++ rest ++ w = _
        rw [← h7]
        simp
      · intro e
        have : now ++ rest = [] := h.stopped e
        exact absurd (List.append_eq_nil_iff.1 this).1 hne
  | error _ _ => exact h.panic
  | @kill fs buf p =>
    refine ⟨h.other, ?_, fun _ => rfl⟩
    rcases h.cert with ⟨h1, _, _⟩ | ⟨m, data, P, h1, h2, h3, h4, h5, _⟩
    · exact .inl ⟨h1, rfl, .inl rfl⟩
    · refine .inr ⟨m, data, P, h1, h2, h3, h4, ?_, fun w hw => by cases hw⟩
      show P ++ [] <+: _
      rw [List.append_nil]
      exact (List.prefix_append _ _).trans h5

theorem fixInv_of_reach {fs0 : FS} {s : FS × List UInt8 × FixPC} (h : ReflTransGen FixRun (fs0, [], .stopped) s) :
    FixInv fs0 s := by
  induction h with
  | refl => exact ⟨fun _ _ => rfl, .inl ⟨rfl, rfl, .inl rfl⟩, fun _ => rfl⟩
  | tail _ hs ih => exact fixInv_step ih hs

/-! ## A run without errors -/

theorem run_steps (fs : FS) (m : Sets) {lengths : List ℕ} {data r : List UInt8} (h : fixSteps m lengths data = some r)
    (buf : List UInt8) : ReflTransGen FixRun (fs, buf, .steps m lengths data) (fs, buf ++ r, .done) := by
  induction lengths generalizing data r buf with
  | nil =>
    obtain rfl : [] = r := Option.some.inj h
    rw [List.append_nil]
    exact .single .finish
  | cons len lengths ih =>
    unfold fixSteps at h
    cases hs : fixStep m data len with
    | none => rw [hs] at h; simp at h
    | some o =>
      rw [hs] at h
      simp only [Option.bind_eq_bind, Option.bind_some] at h
      obtain ⟨outs, h1, h2⟩ := Option.bind_eq_some_iff.1 h
      obtain rfl : o.1 ++ outs = r := Option.some.inj h2
      rw [← List.append_assoc]
      exact .head (.step hs) (ih h1 _)

theorem run_table (fs : FS) (m : Sets) {step left : ℕ} {lengths : List ℕ} {data r : List UInt8}
    (h : remTable m step left lengths data = some r)
    (buf : List UInt8) : ReflTransGen FixRun (fs, buf, .table m step left lengths data) (fs, buf ++ r, .done) := by
  induction left generalizing step lengths data r buf with
  | zero =>
    rw [remTable_zero] at h
    exact .head .tableEnd (run_steps fs m h buf)
  | succ left ih =>
    cases h1 : readLE 8 data with
    | none => rw [remTable_none _ _ _ _ (by rw [h1]; rfl)] at h; cases h
    | some o =>
      obtain ⟨offset, data'⟩ := o
      cases h2 : readLE 4 data' with
      | none => rw [remTable_none _ _ _ _ (by rw [h1]; exact h2)] at h; cases h
      | some l =>
        obtain ⟨len, data''⟩ := l
        rw [remTable_succ _ _ _ _ _ _ h1 h2] at h
        obtain ⟨r', h3, rfl⟩ := Option.map_eq_some_iff.1 h
        have := ih h3 (buf ++ le64 (offset + step) ++ le32 (len + 1))
        refine .head (.entry h1 h2) ?_
        simpa only [List.append_assoc] using this

theorem run_count (fs : FS) (m : Sets) {data r : List UInt8} (h : remCount m data = some r) :
    ReflTransGen FixRun (fs, [], .count m data) (fs, r, .done) := by
  unfold remCount at h
  cases h1 : readLE 4 data with
  | none => rw [h1] at h; simp at h
  | some o =>
    rw [h1] at h
    simp only [Option.bind_eq_bind, Option.bind_some] at h
    obtain ⟨r', h2, h3⟩ := Option.bind_eq_some_iff.1 h
    obtain rfl : le32 o.1 ++ r' = r := Option.some.inj h3
    exact .head (.count h1) (run_table fs m h2 _)

theorem remCount_ne_nil {m : Sets} {data r : List UInt8} (h : remCount m data = some r) : r ≠ [] := by
  unfold remCount at h
  cases h1 : readLE 4 data with
  | none => rw [h1] at h; simp at h
  | some o =>
    rw [h1] at h
    simp only [Option.bind_eq_bind, Option.bind_some] at h
    obtain ⟨r', h2, h3⟩ := Option.bind_eq_some_iff.1 h
    obtain rfl : le32 o.1 ++ r' = r := Option.some.inj h3
    rw [le32_eq]
    simp [leBytes]

/-! ## A set that is not in the log -/

/-- The bytes of the steps before the first one with a set that is not in the log. -/
theorem wrSteps_missing (m : Sets) {ss : List OldStep} (hn : ∀ s ∈ ss, s.set.n < 256)
    (hx : ∃ s ∈ ss, m.get (s.set.n, s.set.s.packed) = none) (data : List UInt8) (bnd : OldStep → ℕ)
    (hb : ∀ s ∈ ss, ∀ b, m.get (s.set.n, s.set.s.packed) = some b → bnd s = b) :
    ∃ k, k < ss.length ∧ wrSteps m ((ss.map OldStep.bytes).map List.length) ((ss.map OldStep.bytes).flatten ++ data) =
      ((ss.take k).map fun s => s.withBound (bnd s)).flatten := by
  induction ss with
  | nil => simp at hx
  | cons s ss ih =>
    rw [List.map_cons, List.map_cons, List.flatten_cons, List.append_assoc, wrSteps,
      fixStep_spec _ _ (hn s List.mem_cons_self)]
    cases hg : m.get (s.set.n, s.set.s.packed) with
    | none => exact ⟨0, by simp, rfl⟩
    | some b =>
      obtain ⟨s', hs', hx⟩ := hx
      obtain ⟨k, hk, e⟩ := ih (fun s hs => hn s (List.mem_cons_of_mem _ hs)) ⟨s', by
          rcases List.mem_cons.1 hs' with rfl | h
          · rw [hg] at hx; cases hx
          · exact h, hx⟩ (fun s hs => hb s (List.mem_cons_of_mem _ hs))
      refine ⟨k + 1, by simpa using hk, ?_⟩
      simp only [Option.map_some, List.take_succ_cons, List.map_cons, List.flatten_cons]
      rw [e, hb s List.mem_cons_self b hg]

theorem wrTable_spec (m : Sets) (step off : ℕ) {old new : List (List UInt8)}
    (h : List.Forall₂ (fun o n : List UInt8 => n.length = o.length + 1) old new) (hl : ∀ o ∈ old, o.length < 2 ^ 32)
    (lengths : List ℕ) (data : List UInt8) :
    wrTable m step old.length lengths (offsetTable off old ++ data) =
      offsetTable (off + step) new ++ wrSteps m (lengths ++ old.map List.length) data := by
  induction h generalizing step off lengths with
  | nil => simp [wrTable, offsetTable]
  | @cons o n old new ho _ ih =>
    rw [List.length_cons, wrTable, offsetTable, le64_eq, le32_eq, List.append_assoc, List.append_assoc, readLE_leBytes]
    dsimp only
    rw [readLE_leBytes]
    dsimp only
    rw [ih (step + 1) _ (fun o ho => hl o (List.mem_cons_of_mem _ ho)), offsetTable, le64_eq, le32_eq, le64_eq, le32_eq]
    have h1 : leBytes 8 (off % 256 ^ 8 + step) = leBytes 8 (off + step) := leBytes_congr (by omega)
    have h2 : o.length % 256 ^ 4 = o.length := Nat.mod_eq_of_lt (by
      have := hl o List.mem_cons_self
      omega)
    rw [h1, h2, ho, show off + o.length + (step + 1) = off + step + (o.length + 1) by omega]
    simp

end Fix

end Sortnet
