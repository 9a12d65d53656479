import Verif.Proof.PruneLoss
import Verif.Props.C70

/-!
# C72: `.pbin` files that have lost bytes

`prune` drops the writer of its output without looking at errors (`prune.rs:111`) and renames the file after that.  `LossStep`
(Model/PruneFile.lean) are the steps of `prune_all` with kills at any time, where the last bytes of a file may be missing when
it is renamed.
-/

namespace Sortnet

open Search Files ProofGen Relation

/-! ## The files -/

/-- C72, the files at any time.  Each `.pbin` file has a beginning of the complete output.  Apart from the `.pbin` and `.tmp`
files, nothing is changed.  At the end, all `.pbin` files are there. -/
theorem C72_prefix {fs0 : FS} {groups : List (ℕ × ℕ)} {out : ℕ × ℕ → List UInt8} (h0 : PruneDir fs0 groups out) {fs : FS}
    {p : Proc} (h : ReflTransGen LossStep (fs0, .stopped) (fs, p)) :
    (∀ g ∈ groups, ∀ P, fs (pbinName g) = some P → P <+: out g) ∧
    (∀ x, (∀ g ∈ groups, x ≠ pbinName g ∧ x ≠ tmpName g) → fs x = fs0 x) ∧
    (p = .done → ∀ g ∈ groups, (fs (pbinName g)).isSome) ∧ p ≠ .panicked := by
  obtain ⟨fs0', out', h1, h2, h3, h4⟩ := loss_of_reach h0.rerun h
  refine ⟨fun g hg P hP => ?_, fun x hx => (h2.base x hx).trans (h4 x hx), ?_, ?_⟩
  · rcases h2.pbin g hg with ⟨hc, _⟩ | ⟨hc, _⟩
    · have hc' : fs (pbinName g) = none := hc
      rw [hP] at hc'
      simp at hc'
    · have hc' : fs (pbinName g) = some (out' g) := hc
      rw [hP] at hc'
      rw [Option.some.inj hc']
      exact h3 g
  · rintro rfl g hg
    rw [show fs (pbinName g) = some (out' g) from h2.proc g hg]
    rfl
  · rintro rfl
    exact h2.proc

/-- C72, no repair.  A `.pbin` file, complete or not, is never changed by `prune_all`, however often it is started. -/
theorem C72_no_repair {fs0 : FS} {groups : List (ℕ × ℕ)} {out : ℕ × ℕ → List UInt8} (h0 : PruneDir fs0 groups out)
    {a b : FS × Proc} (ha : ReflTransGen LossStep (fs0, .stopped) a) (hab : ReflTransGen LossStep a b) {g : ℕ × ℕ}
    {P : List UInt8} (hP : a.1 (pbinName g) = some P) : b.1 (pbinName g) = some P := by
  induction hab with
  | refl => exact hP
  | @tail c d hac hs ih =>
    obtain ⟨fs0', out', _, h2, _, _⟩ := loss_of_reach h0.rerun (ha.trans hac)
    have hren : ∀ {fs : FS} {name rest todo}, CrashInv fs0' groups out' (fs, .writing name rest todo) →
        fs (pbinName g) = some P →
        (fs.rename (withExtension name extTmp) (withExtension name extPbin)) (pbinName g) = some P := by
      rintro fs name rest todo hc hP
      obtain ⟨gp, g', gt, _, rfl, _, _, e4, _⟩ := hc.proc
      change fs (pbinName g') = none at e4
      have hne : g ≠ g' := by
        rintro rfl
        rw [hP] at e4
        simp at e4
      change (fs.rename (tmpName g') (pbinName g')) (pbinName g) = some P
      unfold FS.rename
      rw [Function.update_of_ne (tmp_ne_pbin g g'), Function.update_of_ne fun e => hne (pbin_injective e)]
      exact hP
    cases hs with
    | lose => exact hren h2 ih
    | crash hs =>
      cases hs with
      | crash => exact ih
      | step hs =>
        have hloop : ∀ {fs : FS} {name todo}, CrashInv fs0' groups out' (fs, .loop (name :: todo)) →
            ∃ g', withExtension name extTmp = tmpName g' := by
          rintro fs name todo hc
          obtain ⟨gp, gt, _, e2, _⟩ := hc.proc
          cases gt with
          | nil => simp at e2
          | cons g' gt =>
            rw [List.map_cons, List.cons.injEq] at e2
            exact ⟨g', by rw [e2.1]; rfl⟩
        cases hs with
        | start => exact ih
        | startPanic => exact ih
        | skip => exact ih
        | create =>
          obtain ⟨g', e⟩ := hloop h2
          rw [e]
          exact (Function.update_of_ne (tmp_ne_pbin g g') _ _).trans ih
        | panic => exact ih
        | panicLate =>
          obtain ⟨g', e⟩ := hloop h2
          rw [e]
          exact (Function.update_of_ne (tmp_ne_pbin g g') _ _).trans
            ((Function.update_of_ne (tmp_ne_pbin g g') _ _).trans ih)
        | write =>
          obtain ⟨gp, g', gt, _, rfl, _⟩ := h2.proc
          rw [show withExtension (groupName g') extTmp = tmpName g' from rfl]
          unfold FS.append
          dsimp only
          rw [Function.update_of_ne (tmp_ne_pbin g g')]
          exact ih
        | rename => exact hren h2 ih
        | finish => exact ih

/-- C72, all losses are possible: any beginnings of the complete outputs can be the `.pbin` files at the end. -/
theorem C72_possible {fs0 : FS} {groups : List (ℕ × ℕ)} {out : ℕ × ℕ → List UInt8} (h0 : PruneDir fs0 groups out)
    (out' : ℕ × ℕ → List UInt8) (hout : ∀ g ∈ groups, out' g <+: out g) :
    ∃ fs, ReflTransGen LossStep (fs0, .stopped) (fs, .done) ∧ ∀ g ∈ groups, fs (pbinName g) = some (out' g) := by
  have key : ∀ (gt gp : List (ℕ × ℕ)) (fs : FS), groups = gp ++ gt →
      (∀ g, fs (groupName g) = fs0 (groupName g)) → (∀ g ∈ gp, fs (pbinName g) = some (out' g)) →
      (∀ g ∈ gt, fs (pbinName g) = none) →
      ∃ fs', ReflTransGen LossStep (fs, .loop (gt.map groupName)) (fs', .done) ∧
        ∀ g ∈ groups, fs' (pbinName g) = some (out' g) := by
    intro gt
    induction gt with
    | nil =>
      intro gp fs e hi hp _
      refine ⟨fs, .single (.crash (.step .finish)), fun g hg => hp g ?_⟩
      rw [e, List.append_nil] at hg
      exact hg
    | cons g gt ih =>
      intro gp fs e hi hp hn
      have hg : g ∈ groups := by rw [e]; simp
      have hnd := h0.nodup
      rw [e, List.nodup_append] at hnd
      obtain ⟨_, hnd2, hdis⟩ := hnd
      obtain ⟨hb, data, i1, i2⟩ := h0.input g hg
      obtain ⟨rest, hr⟩ := hout g hg
      let fs1 := fs.create (tmpName g)
      let fs2 := fs1.append (tmpName g) (out' g)
      let fs3 := fs2.rename (tmpName g) (pbinName g)
      have t2 : fs2 (tmpName g) = some (out' g) := by
        simp [fs2, fs1, FS.append, FS.create]
      have o2 : ∀ x, x ≠ tmpName g → fs2 x = fs x := fun x hx => by
        simp [fs2, fs1, FS.append, FS.create, Function.update_of_ne hx]
      have s1 : LossStep (fs, .loop ((g :: gt).map groupName)) (fs1, .writing (groupName g) (out g) (gt.map groupName)) :=
        .crash (.step (.create (lineChannels_groupName hb) ((hi g).trans i1) (hn g (by simp)) i2))
      have s2 : ReflTransGen LossStep (fs1, .writing (groupName g) (out g) (gt.map groupName))
          (fs2, .writing (groupName g) rest (gt.map groupName)) := by
        by_cases hz : out' g = []
        · have : fs2 = fs1 := by
            funext x
            by_cases hx : x = tmpName g
            · rw [hx, t2, hz]
              simp [fs1, FS.create]
            · rw [o2 x hx]
              simp [fs1, FS.create, Function.update_of_ne hx]
          rw [this, ← hr, hz]
          exact .refl
        · rw [← hr]
          exact .single (.crash (.step (.write hz)))
      have s3 : LossStep (fs2, .writing (groupName g) rest (gt.map groupName)) (fs3, .loop (gt.map groupName)) := .lose
      have o3 : ∀ x, x ≠ tmpName g → x ≠ pbinName g → fs3 x = fs x := fun x hx hx' => by
        simp only [fs3, FS.rename]
        rw [Function.update_of_ne hx, Function.update_of_ne hx', o2 x hx]
      have p3 : fs3 (pbinName g) = some (out' g) := by
        simp only [fs3, FS.rename]
        rw [Function.update_of_ne (tmp_ne_pbin g g), Function.update_self, t2]
      have o3' : ∀ g', g' ≠ g → fs3 (pbinName g') = fs (pbinName g') := fun g' hne =>
        o3 _ (tmp_ne_pbin g' g) fun e => hne (pbin_injective e)
      obtain ⟨fs', k1, k2⟩ := ih (gp ++ [g]) fs3 (by simpa using e)
        (fun g' => (o3 _ (tmp_ne_group g' g) (pbin_ne_group g' g)).trans (hi g'))
        (fun g' hg' => by
          rcases List.mem_append.1 hg' with hg' | hg'
          · rw [o3' g' (hdis g' hg' g (by simp))]
            exact hp g' hg'
          · rw [List.mem_singleton.1 hg']
            exact p3)
        (fun g' hg' => by
          rw [o3' g' (by rintro rfl; exact (List.nodup_cons.1 hnd2).1 hg')]
          exact hn g' (by simp [hg']))
      exact ⟨fs', .head s1 (s2.trans (.head s3 k1)), k2⟩
  obtain ⟨idx, hi, hl⟩ := h0.index
  obtain ⟨fs', k1, k2⟩ := key groups [] fs0 rfl (fun _ => rfl) (by simp) h0.fresh
  refine ⟨fs', .head (.crash (.step (.start hi))) ?_, k2⟩
  rw [hl]
  exact k1

/-! ## Sets that are cut off -/

theorem unpackBits_pad (k : ℕ) (old : List Bool) (hold : old.length = 8 * k) (ht : ∀ b ∈ old, b = true) (src : List UInt8)
    (hs : src.length ≤ k) : unpackBits old src = unpackBits old (src ++ List.replicate (k - src.length) 255) := by
  induction k generalizing old src with
  | zero =>
    have : src = [] := List.length_eq_zero_iff.1 (by omega)
    subst this
    rfl
  | succ k ih =>
    have hd : (old.drop 8).length = 8 * k := by rw [List.length_drop]; omega
    have ht' : ∀ b ∈ old.drop 8, b = true := fun b hb => ht b (List.mem_of_mem_drop hb)
    cases src with
    | nil =>
      have e : old.take 8 = unpackByte 255 8 := by
        rw [show unpackByte 255 8 = List.replicate 8 true by decide]
        refine List.eq_replicate_iff.2 ⟨by rw [List.length_take]; omega, fun b hb => ht b (List.mem_of_mem_take hb)⟩
      rw [List.nil_append, List.length_nil, Nat.sub_zero, List.replicate_succ, unpackBits, if_neg (by omega),
        if_pos (by omega), unpackBits.eq_def old, if_neg (by omega), if_pos (by omega)]
      have := ih (old.drop 8) hd ht' [] (by simp)
      rw [List.nil_append, List.length_nil, Nat.sub_zero] at this
      rw [this, e]
    | cons b src =>
      have hs' : src.length ≤ k := by simpa using hs
      rw [List.cons_append, List.length_cons, Nat.add_sub_add_right, unpackBits, if_neg (by omega), if_pos (by omega),
        unpackBits.eq_def old, if_neg (by omega), if_pos (by omega)]
      exact congrArg _ (ih (old.drop 8) hd ht' src hs')

theorem fromPacked_pad {n : ℕ} (h3 : 3 ≤ n) {src : List UInt8} (hs : src.length ≤ packedLen n) :
    fromPacked n src = fromPacked n (src ++ List.replicate (packedLen n - src.length) 255) := by
  unfold fromPacked fromPackedList
  rw [unpackBits_pad (packedLen n) _ (by rw [toList_length, (packedLen_eq h3).2]) ?_ src hs]
  intro b hb
  unfold Bitmap.toList at hb
  obtain ⟨i, _, rfl⟩ := List.mem_map.1 hb
  rfl

/-- The contents of a file of sets on `n` channels, with the byte 255 for each missing byte of the last set. -/
def padded (n : ℕ) (data : List UInt8) : List UInt8 :=
  data ++ List.replicate ((packedLen n - data.length % packedLen n) % packedLen n) 255

theorem insert_pad {n : ℕ} (h3 : 3 ≤ n) (bound : ℕ) (data : List UInt8) (idx : Sortnet.OutputSetIndex n) :
    (Files.chunks (packedLen n) (padded n data)).foldlM (insertPacked n bound) idx =
      (Files.chunks (packedLen n) data).foldlM (insertPacked n bound) idx := by
  have hk : 0 < packedLen n := by
    have := Nat.one_le_two_pow (n := n)
    unfold packedLen
    omega
  induction hd : data.length using Nat.strong_induction_on generalizing data idx with
  | _ len ih =>
    subst hd
    by_cases h0 : data = []
    · subst h0
      unfold padded
      simp
    · have hpos : 0 < data.length := List.length_pos_iff.2 h0
      have hp0 : padded n data ≠ [] := by
        unfold padded
        simp [h0]
      rw [Files.chunks, dif_neg (by simp only [not_or]; exact ⟨hp0, by omega⟩), Files.chunks.eq_def _ data,
        dif_neg (by simp only [not_or]; exact ⟨h0, by omega⟩)]
      by_cases hl : data.length < packedLen n
      · have hlen : (padded n data).length = packedLen n := by
          unfold padded
          rw [List.length_append, List.length_replicate, Nat.mod_eq_of_lt hl, Nat.mod_eq_of_lt (by omega)]
          omega
        have hpad : padded n data = data ++ List.replicate (packedLen n - data.length) 255 := by
          unfold padded
          rw [Nat.mod_eq_of_lt hl, Nat.mod_eq_of_lt (by omega)]
        rw [List.take_of_length_le hlen.le, List.drop_of_length_le hlen.le, List.take_of_length_le hl.le,
          List.drop_of_length_le hl.le, List.foldlM_cons, List.foldlM_cons]
        have e : insertPacked n bound idx (padded n data) = insertPacked n bound idx data := by
          unfold insertPacked
          rw [hpad, ← fromPacked_pad h3 hl.le]
        rw [e]
      · have hl' : packedLen n ≤ data.length := by omega
        have e1 : (padded n data).take (packedLen n) = data.take (packedLen n) := by
          unfold padded
          rw [List.take_append_of_le_length hl']
        have e2 : (padded n data).drop (packedLen n) = padded n (data.drop (packedLen n)) := by
          unfold padded
          rw [List.drop_append_of_le_length hl', List.length_drop, ← Nat.mod_eq_sub_mod hl']
        rw [e1, e2, List.foldlM_cons, List.foldlM_cons]
        congr 1
        funext idx'
        exact ih _ (by rw [List.length_drop]; omega) (data.drop (packedLen n)) idx' rfl

/-- C72, sets that are cut off.  `gen_proof` does not notice that a `.pbin` file does not end at the end of a set: it writes
the same certificate, or panics, as if each missing byte were 255, that is, as if all the missing vectors were in the set. -/
theorem C72_cut_set {fs fs' : FS} {groups : List (ℕ × ℕ)}
    (hidx : ∃ data, fs indexName = some data ∧ lines data = groups.map groupName)
    (hgr : ∀ g ∈ groups, 3 ≤ g.1 ∧ g.1 ≤ 11) (hi : fs' indexName = fs indexName)
    (hf : ∀ g ∈ groups, fs' (pbinName g) = (fs (pbinName g)).map (padded g.1)) :
    (genProof fs').map (fun r => r proofName) = (genProof fs).map fun r => r proofName := by
  have hload : load fs' = load fs := by
    obtain ⟨data, h1, h2⟩ := hidx
    unfold load
    rw [hi, h1]
    simp only [Option.bind_eq_bind, Option.bind_some]
    rw [h2]
    clear h2 h1 hi
    generalize ([] : Indexes) = m
    induction groups generalizing m with
    | nil => rfl
    | cons g groups ih =>
      have h11 : (11 : ℕ) < 2 ^ 64 := by norm_num
      have hb := hgr g (by simp)
      have e : loadLine fs' m (groupName g) = loadLine fs m (groupName g) := by
        unfold loadLine
        rw [lineChannels_groupName (by omega)]
        simp only [Option.bind_eq_bind, Option.bind_some]
        congr 1
        funext bound
        rw [show withExtension (groupName g) extPbin = pbinName g from rfl, hf g (by simp)]
        cases hd : fs (pbinName g) with
        | none => rfl
        | some d =>
          simp only [Option.map_some, Option.bind_some]
          by_cases h0 : d = []
          · subst h0
            unfold padded
            simp
          · rw [if_neg h0, if_neg (by unfold padded; simp [h0])]
            congr 1
            funext idx
            exact insert_pad hb.1 bound d idx
      rw [List.map_cons, List.foldlM_cons, List.foldlM_cons, e]
      congr 1
      funext m'
      exact ih (fun g' hg' => hgr g' (by simp [hg'])) (fun g' hg' => hf g' (by simp [hg'])) m'
  have hsteps : genSteps fs' = genSteps fs := by
    unfold genSteps
    rw [hload]
  unfold genProof
  rw [hsteps]
  cases genSteps fs with
  | none => rfl
  | some st =>
    simp only [Option.bind_eq_bind, Option.bind_some, Option.map_some]
    simp [FS.append, FS.create]

/-! ## Certificates -/

/-- An empty `.pbin` file is noticed. -/
theorem load_empty {fs : FS} {gs : List (ℕ × ℕ)} {g : ℕ × ℕ} (hg : g ∈ gs) (he : fs (pbinName g) = some []) (m : Indexes) :
    (gs.map groupName).foldlM (loadLine fs) m = none := by
  induction gs generalizing m with
  | nil => simp at hg
  | cons g' gs ih =>
    rw [List.map_cons, List.foldlM_cons]
    rcases List.mem_cons.1 hg with rfl | hg
    · have : loadLine fs m (groupName g) = none := by
        unfold loadLine
        rw [show withExtension (groupName g) extPbin = pbinName g from rfl, he]
        cases lineChannels (groupName g) with
        | none => rfl
        | some c =>
          cases lineBound (groupName g) with
          | none => rfl
          | some b => rfl
      rw [this]
      rfl
    · cases loadLine fs m (groupName g') with
      | none => rfl
      | some m' => exact ih hg m'

theorem packed_take {n j : ℕ} {sets : List (Bitmap n)} {P : List UInt8} (h : P <+: sets.flatMap Bitmap.packed)
    (hj : P.length = packedLen n * j) : P = (sets.take j).flatMap Bitmap.packed := by
  induction j generalizing sets P with
  | zero =>
    rw [Nat.mul_zero] at hj
    rw [List.length_eq_zero_iff.1 hj]
    rfl
  | succ j ih =>
    cases sets with
    | nil =>
      have := List.prefix_nil.1 h
      rw [this]
      rfl
    | cons s sets =>
      rw [List.flatMap_cons] at h
      have hl := packed_length s
      have hle : s.packed.length ≤ P.length := by
        rw [hl, hj, Nat.mul_succ]
        omega
      obtain ⟨Q, rfl⟩ := List.prefix_of_prefix_length_le (List.prefix_append _ _) h hle
      rw [List.take_succ_cons, List.flatMap_cons]
      rw [List.length_append, hl, Nat.mul_succ] at hj
      rw [ih ((List.prefix_append_right_inj _).1 h) (by omega)]

/-- C72, certificates.  Let the state map of a search be dumped into a new directory, completely or in part (C70), and let
`prune_all` have ended there, after any number of crashes and with the last bytes of any of its files lost.  If each `.pbin` file
ends at the end of a set, and `gen_proof` does not panic, the certificate is about all vectors on some number `N` of channels and
their lower bound `b` in the state map.  Both modes of `snocheck` accept it for the pair `(N, b)`, and the bound is true.  Only if
`b` is less than 2 is it a file without steps. -/
theorem C72_certificate (hash : List ℕ → ℕ) (limit : Option ℕ) (A0 : OSet) (h0 : Chained A0.s.toSet) (hA : A0.n ≤ 11)
    (G : Global) (hrun : Run hash limit A0 G)
    (hash' : List UInt8 → ℕ) (threads : ℕ) (hist : List (OSet × State)) (hh : ∀ e ∈ hist, 3 ≤ e.1.n ∧ e.1.n ≤ 11)
    (hst : lastSet hist = G.store) (m : StateMap) (hm : (StateMap.new threads).run hash' hist = some m)
    (hsize : m.len < 2 ^ 32) (fs0 : FS) (hnew : ∀ x, fs0 x = none) (st : DumpSt)
    (h : ReflTransGen (DumpStep m) (DumpSt.init fs0) st) (fs2 : FS)
    (hp : ReflTransGen LossStep (st.fs, .stopped) (fs2, .done))
    (hcut : ∀ g data, fs2 (pbinName g) = some data → packedLen g.1 ∣ data.length) (fs3 : FS) (hg : genProof fs2 = some fs3) :
    ∃ (N b : ℕ) (v : State) (file : List UInt8), G.store ⟨N, allValues N⟩ = some v ∧ v.lo = b ∧ fs3 proofName = some file ∧
      (2 ≤ b ∧ Lazy.mainVerified file = some (some ((N : ℤ), (b : ℤ))) ∧ Lazy.mainReference file = .ok (N, b) ∧
          LowerSizeBound N b ∨
        b ≤ 1 ∧ file = [0, 0, 0, 0]) := by
  obtain ⟨P, gs, hP, hl, hnd, hgs⟩ := cut_prune hash' threads hist hh m hm fs0 hnew st h fs2 hp
  obtain ⟨kept, hkept, hdir⟩ := cut_dir m fs0 hnew st h hP hl hnd hgs
  obtain ⟨fs0', out', h1, h2, h3, _⟩ := loss_of_reach hdir.rerun hp
  have hfile : ∀ g ∈ gs, fs2 (pbinName g) = some (out' g) := h2.proc
  have hne : ∀ g ∈ gs, out' g ≠ [] := by
    intro g hgg he
    have hload : load fs2 = none := by
      obtain ⟨data, i1, i2⟩ := h2.index h1
      unfold load
      rw [i1]
      simp only [Option.bind_eq_bind, Option.bind_some]
      rw [i2]
      exact load_empty hgg (by rw [hfile g hgg, he]) _
    unfold genProof genSteps at hg
    rw [hload] at hg
    simp at hg
  have hk : ∀ g : ℕ × ℕ, ∃ kept' : List (Bitmap g.1), g ∈ gs → kept' <+: kept g ∧ out' g = kept'.flatMap Bitmap.packed := by
    intro g
    by_cases hg : g ∈ gs
    · obtain ⟨j, hj⟩ := hcut g _ (hfile g hg)
      exact ⟨(kept g).take j, fun _ => ⟨List.take_prefix _ _, packed_take (h3 g) hj⟩⟩
    · exact ⟨[], fun h => absurd h hg⟩
  choose kept' hk using hk
  exact log_certificate hash limit A0 h0 hA G hrun hash' threads hist hh hst m hm hsize gs kept' hnd
    (fun g hg => ⟨(hgs g hg).1, (hgs g hg).2.1⟩)
    (fun g hg => ⟨(hkept g hg).1.sublist (hk g hg).1.sublist,
      fun hn => hne g hg (by rw [(hk g hg).2, hn]; rfl),
      fun s hs => (hkept g hg).2.2 s ((hk g hg).1.subset hs)⟩) fs2
    (h2.index h1) (fun g hg => by rw [hfile g hg, (hk g hg).2]) fs3 hg

/-! ## Examples -/

/-- A log with one group and one set, all vectors on four channels. -/
def exampleLoss : FS := fun x =>
  if x = indexName then some (groupName (4, 3) ++ [10]) else if x = groupName (4, 3) then some [255, 255] else none

theorem exampleLoss_dir : PruneDir exampleLoss [(4, 3)] fun _ => [255, 255] := by
  refine ⟨⟨groupName (4, 3) ++ [10], by decide +kernel, by decide +kernel⟩, by simp, fun g hg => ?_, fun g hg => ?_⟩
  · rw [List.mem_singleton.1 hg]
    exact ⟨by norm_num, [255, 255], by decide +kernel, by decide +kernel⟩
  · rw [List.mem_singleton.1 hg]
    decide +kernel

/-- Non-vacuity: here one of two bytes is lost, and `prune_all` ends. -/
theorem C72_example : ∃ fs, ReflTransGen LossStep (exampleLoss, .stopped) (fs, .done) ∧ fs (pbinName (4, 3)) = some [255] ∧
    ∃ data, fs indexName = some data ∧ lines data = [(4, 3)].map groupName := by
  obtain ⟨fs, h1, h2⟩ := C72_possible exampleLoss_dir (fun _ => [255]) fun g _ => ⟨[255], rfl⟩
  refine ⟨fs, h1, h2 _ (by simp), groupName (4, 3) ++ [10], ?_, by decide +kernel⟩
  have := (C72_prefix exampleLoss_dir h1).2.1 indexName fun g _ => ⟨pbin_ne_index g, tmp_ne_index g⟩
  exact this.trans (by decide +kernel)

/-- The files of this directory that `gen_proof` reads. -/
def exampleLossEnd : FS := fun x =>
  if x = indexName then some (groupName (4, 3) ++ [10]) else if x = pbinName (4, 3) then some [255] else none

/-- Non-vacuity: `gen_proof` writes a certificate with a step for the set of all vectors from this directory, although only half
of the set is there. -/
theorem C72_example_cut : genSteps exampleLossEnd = some [[4, 3, 255, 255, 0, 2, 2, 2, 2]] := by
  unfold genSteps
  simp only [encodeProof_eq]
  decide +kernel

/-- Non-vacuity of C72, certificates: the hypotheses can be met, for the search for all vectors on four channels. -/
theorem C72_example_certificate : ∃ (G : Global) (hist : List (OSet × State)) (m : StateMap) (st : DumpSt) (fs2 fs3 : FS),
    Run (fun _ => 0) none ⟨4, allValues 4⟩ G ∧ (∀ e ∈ hist, 3 ≤ e.1.n ∧ e.1.n ≤ 11) ∧ lastSet hist = G.store ∧
    (StateMap.new 8).run (fun _ => 0) hist = some m ∧ m.len < 2 ^ 32 ∧
    ReflTransGen (DumpStep m) (DumpSt.init fun _ => none) st ∧
    ReflTransGen LossStep (st.fs, .stopped) (fs2, .done) ∧
    (∀ g data, fs2 (pbinName g) = some data → packedLen g.1 ∣ data.length) ∧ genProof fs2 = some fs3 := by
  obtain ⟨G, hist, m, st, fs2, fs3, h1, hh, h2, h3, h4, h5, h6, h7⟩ := C70_example
  refine ⟨G, hist, m, st, fs2, fs3, h1, hh, h2, h3, h4, h5, ReflTransGen.mono (fun _ _ => LossStep.crash) _ _ h6, ?_, h7⟩
  obtain ⟨P, gs, hP, hl, hnd, hgs⟩ := C70_prune _ 8 hist hh m h3 _ (fun _ => rfl) st h5 fs2 h6
  obtain ⟨kept, hkept, hdir⟩ := cut_dir m _ (fun _ => rfl) st h5 hP hl hnd hgs
  have hinv := crashInv_of_reach hdir.rerun h6
  intro g data hd
  by_cases hg : g ∈ gs
  · rw [show fs2 (pbinName g) = _ from hinv.proc g hg] at hd
    rw [← Option.some.inj hd, List.length_flatMap]
    refine ⟨(kept g).length, ?_⟩
    rw [List.map_congr_left (g := fun _ => packedLen g.1) fun s _ => packed_length s, List.map_const', List.sum_replicate,
      smul_eq_mul, Nat.mul_comm]
  · have : fs2 (pbinName g) = st.fs (pbinName g) := hinv.base _ fun g' hg' =>
      ⟨fun e => hg (pbin_injective e ▸ hg'), tmp_ne_pbin g g'⟩
    rw [this] at hd
    rcases C70_prefix m _ st h5 (pbinName g) with hc | ⟨hc | ⟨e, _, hc⟩, _⟩
    · rw [hc] at hd
      simp at hd
    · exact absurd hc.symm (pbin_ne_index g)
    · exact absurd hc.symm (pbin_ne_group _ g)

end Sortnet
