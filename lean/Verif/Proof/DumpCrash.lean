import Verif.Proof.Files
import Verif.Model.DumpCrash
import Mathlib.Logic.Relation

/-!
# `dump_states` with buffers
-/

namespace Sortnet

namespace Files

open Search Relation

/-- The files together with the contents of the buffers. -/
def DumpSt.view (st : DumpSt) : FS := fun x => (st.fs x).map (· ++ st.buf x)

theorem dumpEntry_groups (st : FS × List (ℕ × ℕ)) (e : DumpItem) : st.2 <+: (dumpEntry st e).2 := by
  obtain ⟨fs, groups⟩ := st
  obtain ⟨c, p, v⟩ := e
  unfold dumpEntry
  dsimp only
  split_ifs
  · exact List.prefix_rfl
  · exact List.prefix_append _ _

theorem dumpFold_groups (es : List DumpItem) (st : FS × List (ℕ × ℕ)) : st.2 <+: (es.foldl dumpEntry st).2 := by
  induction es generalizing st with
  | nil => exact List.prefix_rfl
  | cons e es ih => exact (dumpEntry_groups st e).trans (ih _)

/-- The loop after some entries. -/
def dumpFold (fs0 : FS) (es : List DumpItem) : FS × List (ℕ × ℕ) := es.foldl dumpEntry (fs0.create indexName, [])

theorem dumpFold_append (fs0 : FS) (es es' : List DumpItem) : dumpFold fs0 (es ++ es') = es'.foldl dumpEntry (dumpFold fs0 es) := by
  unfold dumpFold
  rw [List.foldl_append]

theorem flatMap_prefix {α β : Type} {l l' : List α} (h : l <+: l') (f : α → List β) : l.flatMap f <+: l'.flatMap f := by
  obtain ⟨t, rfl⟩ := h
  rw [List.flatMap_append]
  exact List.prefix_append _ _

theorem dumpFold_index (fs0 : FS) {es es' : List DumpItem} (h : es <+: es') : ∃ P D, (dumpFold fs0 es).1 indexName = some P ∧
    (dumpFold fs0 es').1 indexName = some D ∧ P <+: D := by
  refine ⟨_, _, (dump_inv fs0 es).index, (dump_inv fs0 es').index, flatMap_prefix ?_ _⟩
  obtain ⟨t, rfl⟩ := h
  rw [List.foldl_append]
  exact dumpFold_groups t _

theorem dumpFold_group (fs0 : FS) {es es' : List DumpItem} (h : es <+: es') {g : ℕ × ℕ} (hg : g ∈ (dumpFold fs0 es).2) :
    ∃ P D, (dumpFold fs0 es).1 (groupName g) = some P ∧ (dumpFold fs0 es').1 (groupName g) = some D ∧ P <+: D := by
  refine ⟨_, _, (dump_inv fs0 es).group g hg, (dump_inv fs0 es').group g ?_, flatMap_prefix ?_ _⟩
  · obtain ⟨t, rfl⟩ := h
    rw [List.foldl_append]
    exact (dumpFold_groups t _).subset hg
  · exact h.filter _

/-- The file `x` is one that the dump writes, and `a x` is a part of `b x`. -/
def PartAt (a b : FS) (groups : List (ℕ × ℕ)) (x : Str) : Prop :=
  (x = indexName ∨ ∃ g ∈ groups, x = groupName g) ∧ ∃ P D, a x = some P ∧ b x = some D ∧ P <+: D

/-- What holds in the states that are reached. -/
def DumpSt.PcOK (m : StateMap) (fs0 : FS) (st : DumpSt) : Prop :=
  match st.pc with
  | .start => st.fs = fs0 ∧ st.groups = []
  | .loop todo => ∃ done, m.drain = done ++ todo ∧ dumpFold fs0 done = (st.view, st.groups)
  | .create e todo => ∃ done, m.drain = done ++ e :: todo ∧ groupOf e ∉ st.groups ∧ (dumpFold fs0 done).2 = st.groups ∧
      (dumpFold fs0 done).1.append indexName (groupName (groupOf e) ++ [10]) = st.view
  | .drop => dumpFold fs0 m.drain = (st.view, st.groups)
  | .lost => (dumpFold fs0 m.drain).2 = st.groups ∧
      ∀ x, st.view x = (dumpFold fs0 m.drain).1 x ∨ PartAt st.view (dumpFold fs0 m.drain).1 st.groups x

structure DumpSt.Inv (m : StateMap) (fs0 : FS) (st : DumpSt) : Prop where
  pc : st.PcOK m fs0
  buf : ∀ x, st.buf x ≠ [] → (x = indexName ∧ st.pc ≠ .start) ∨ ∃ g ∈ st.groups, x = groupName g

theorem DumpSt.view_flush {st : DumpSt} {name : Str} {now rest : List UInt8} (h : st.buf name = now ++ rest) :
    ({ st with fs := st.fs.append name now, buf := Function.update st.buf name rest } : DumpSt).view = st.view := by
  funext x
  unfold DumpSt.view FS.append
  dsimp only
  by_cases e : x = name
  · subst e
    rw [Function.update_self, Function.update_self, h]
    cases st.fs x <;> simp
  · rw [Function.update_of_ne e, Function.update_of_ne e]

theorem DumpSt.view_write (st : DumpSt) (name : Str) (data : List UInt8) (pc : DumpPc) :
    ({ st with buf := st.write name data, pc := pc } : DumpSt).view = st.view.append name data := by
  funext x
  unfold DumpSt.view DumpSt.write FS.append
  dsimp only
  by_cases e : x = name
  · subst e
    rw [Function.update_self, Function.update_self]
    cases st.fs x <;> simp
  · rw [Function.update_of_ne e, Function.update_of_ne e]

theorem DumpSt.view_create (st : DumpSt) {name : Str} {data : List UInt8} {groups : List (ℕ × ℕ)} {pc : DumpPc}
    (h : st.buf name = []) : ({ fs := st.fs.create name, buf := st.write name data, groups := groups, pc := pc } : DumpSt).view =
      (st.view.create name).append name data := by
  funext x
  unfold DumpSt.view DumpSt.write FS.append FS.create
  dsimp only
  by_cases e : x = name
  · subst e
    rw [Function.update_self, Function.update_self, Function.update_self, Function.update_self, h]
    rfl
  · rw [Function.update_of_ne e, Function.update_of_ne e, Function.update_of_ne e, Function.update_of_ne e]

theorem write_ne {st : DumpSt} {name x : Str} {data : List UInt8} (h : st.write name data x ≠ []) : x = name ∨ st.buf x ≠ [] := by
  unfold DumpSt.write at h
  by_cases e : x = name
  · exact Or.inl e
  · rw [Function.update_of_ne e] at h
    exact Or.inr h

theorem DumpSt.Inv.step {m : StateMap} {fs0 : FS} {st st' : DumpSt} (h : st.Inv m fs0) (hs : DumpStep m st st') :
    st'.Inv m fs0 := by
  have hok := h.pc
  unfold DumpSt.PcOK at hok
  cases hs with
  | start hp =>
    rw [hp] at hok
    obtain ⟨h1, h2⟩ := hok
    have hb : st.buf = fun _ => [] := by
      funext x
      by_contra hx
      rcases h.buf x hx with ⟨_, hc⟩ | ⟨g, hg, _⟩
      · exact hc hp
      · rw [h2] at hg
        simp at hg
    constructor
    · refine ⟨[], rfl, ?_⟩
      unfold dumpFold DumpSt.view
      rw [h1, h2, hb]
      simp
    · intro x hx
      rcases h.buf x hx with ⟨_, hc⟩ | hc
      · exact absurd hp hc
      · exact Or.inr hc
  | @old e todo hp hg =>
    rw [hp] at hok
    obtain ⟨done, h1, h2⟩ := hok
    constructor
    · refine ⟨done ++ [e], by rw [h1]; simp, ?_⟩
      rw [DumpSt.view_write, dumpFold_append, h2]
      simp only [List.foldl_cons, List.foldl_nil]
      unfold dumpEntry
      dsimp only
      rw [if_pos hg]
    · intro x hx
      rcases write_ne hx with rfl | hx
      · exact Or.inr ⟨_, hg, rfl⟩
      · rcases h.buf x hx with ⟨hc, _⟩ | hc
        · exact Or.inl ⟨hc, by simp⟩
        · exact Or.inr hc
  | @line e todo hp hg =>
    rw [hp] at hok
    obtain ⟨done, h1, h2⟩ := hok
    constructor
    · refine ⟨done, h1, hg, by rw [h2], ?_⟩
      rw [DumpSt.view_write, h2]
      rfl
    · intro x hx
      rcases write_ne hx with rfl | hx
      · exact Or.inl ⟨rfl, by simp⟩
      · rcases h.buf x hx with ⟨hc, _⟩ | hc
        · exact Or.inl ⟨hc, by simp⟩
        · exact Or.inr hc
  | @create e todo hp =>
    rw [hp] at hok
    obtain ⟨done, h1, hg, h2, h3⟩ := hok
    have hb : st.buf (groupName (e.1, e.2.2.lo)) = [] := by
      by_contra hx
      rcases h.buf _ hx with ⟨hc, _⟩ | ⟨g, hc, he⟩
      · exact groupName_ne_index _ hc
      · rw [← groupName_injective he] at hc
        exact hg hc
    constructor
    · refine ⟨done ++ [e], by rw [h1]; simp, ?_⟩
      rw [DumpSt.view_create st hb, dumpFold_append]
      simp only [List.foldl_cons, List.foldl_nil]
      unfold dumpEntry
      dsimp only
      rw [h2, if_neg (show (e.1, e.2.2.lo) ∉ st.groups from hg), ← h3]
      rfl
    · intro x hx
      rcases write_ne hx with rfl | hx
      · exact Or.inr ⟨(e.1, e.2.2.lo), by simp, rfl⟩
      · rcases h.buf x hx with ⟨hc, _⟩ | ⟨g, hg, hc⟩
        · exact Or.inl ⟨hc, by simp⟩
        · exact Or.inr ⟨g, List.mem_append_left _ hg, hc⟩
  | @flush name now rest hb =>
    constructor
    · unfold DumpSt.PcOK
      rw [DumpSt.view_flush hb]
      cases hp : st.pc with
      | start =>
        rw [hp] at hok
        dsimp only
        refine ⟨?_, hok.2⟩
        have hb' : st.buf name = [] := by
          by_contra hx
          rcases h.buf name hx with ⟨_, hc⟩ | ⟨g, hg, _⟩
          · exact hc hp
          · rw [hok.2] at hg
            simp at hg
        rw [hb'] at hb
        obtain ⟨rfl, rfl⟩ := List.append_eq_nil_iff.1 hb.symm
        rw [← hok.1]
        unfold FS.append
        funext x
        by_cases e : x = name
        · subst e
          rw [Function.update_self]
          cases st.fs x <;> simp
        · rw [Function.update_of_ne e]
      | loop todo => rw [hp] at hok; exact hok
      | create e todo => rw [hp] at hok; exact hok
      | drop => rw [hp] at hok; exact hok
      | lost => rw [hp] at hok; exact hok
    · intro x hx
      refine h.buf x ?_
      dsimp only at hx
      by_cases e : x = name
      · subst e
        rw [Function.update_self] at hx
        rw [hb]
        intro hn
        exact hx (List.append_eq_nil_iff.1 hn).2
      · rwa [Function.update_of_ne e] at hx
  | finish hp =>
    rw [hp] at hok
    obtain ⟨done, h1, h2⟩ := hok
    rw [List.append_nil] at h1
    subst h1
    constructor
    · exact h2
    · intro x hx
      rcases h.buf x hx with ⟨hc, _⟩ | hc
      · exact Or.inl ⟨hc, by simp⟩
      · exact Or.inr hc
  | @lose name hp =>
    have hok' : (dumpFold fs0 m.drain).2 = st.groups ∧
        ∀ x, st.view x = (dumpFold fs0 m.drain).1 x ∨ PartAt st.view (dumpFold fs0 m.drain).1 st.groups x := by
      rcases hp with hp | hp
      · rw [hp] at hok
        dsimp only at hok
        rw [hok]
        exact ⟨rfl, fun x => Or.inl rfl⟩
      · rw [hp] at hok
        exact hok
    have hns : st.pc ≠ .start := by rcases hp with hp | hp <;> rw [hp] <;> simp
    constructor
    · refine ⟨hok'.1, fun x => ?_⟩
      have hv : x ≠ name → ({ st with buf := Function.update st.buf name [], pc := .lost } : DumpSt).view x = st.view x := by
        intro e
        unfold DumpSt.view
        dsimp only
        rw [Function.update_of_ne e]
      by_cases e : x = name
      · subst e
        by_cases hb : st.buf x = []
        · have e' : Function.update st.buf x [] = st.buf := by rw [← hb, Function.update_eq_self]
          rw [e']
          exact hok'.2 x
        · have hname : x = indexName ∨ ∃ g ∈ st.groups, x = groupName g := by
            rcases h.buf x hb with ⟨hc, _⟩ | hc
            · exact Or.inl hc
            · exact Or.inr hc
          have hfull : ∃ D, (dumpFold fs0 m.drain).1 x = some D := by
            rcases hname with rfl | ⟨g, hg, rfl⟩
            · exact ⟨_, (dump_inv fs0 m.drain).index⟩
            · exact ⟨_, (dump_inv fs0 m.drain).group g (by rw [← hok'.1] at hg; exact hg)⟩
          obtain ⟨D, hD⟩ := hfull
          have : ∃ Q, st.view x = some Q ∧ Q <+: D := by
            rcases hok'.2 x with hc | ⟨_, P, D', h1, h2, h3⟩
            · exact ⟨D, hc.trans hD, List.prefix_rfl⟩
            · rw [hD] at h2
              obtain rfl := Option.some.inj h2
              exact ⟨P, h1, h3⟩
          obtain ⟨Q, hQ, hpre⟩ := this
          unfold DumpSt.view at hQ
          obtain ⟨d, hd, rfl⟩ := Option.map_eq_some_iff.1 hQ
          refine Or.inr ⟨hname, d, D, ?_, hD, (List.prefix_append _ _).trans hpre⟩
          unfold DumpSt.view
          dsimp only
          rw [hd, Function.update_self]
          simp
      · rcases hok'.2 x with hc | ⟨hn, P, D, h1, h2, h3⟩
        · exact Or.inl ((hv e).trans hc)
        · exact Or.inr ⟨hn, P, D, (hv e).trans h1, h2, h3⟩
    · intro x hx
      dsimp only at hx
      by_cases e : x = name
      · subst e
        rw [Function.update_self] at hx
        exact absurd rfl hx
      · rw [Function.update_of_ne e] at hx
        rcases h.buf x hx with ⟨hc, _⟩ | hc
        · exact Or.inl ⟨hc, by simp⟩
        · exact Or.inr hc

theorem dump_crash_inv {m : StateMap} {fs0 : FS} {st : DumpSt} (h : ReflTransGen (DumpStep m) (DumpSt.init fs0) st) :
    st.Inv m fs0 := by
  induction h with
  | refl => exact ⟨⟨rfl, rfl⟩, fun x hx => absurd rfl hx⟩
  | tail _ hs ih => exact ih.step hs

theorem fs_of_view {st : DumpSt} {x : Str} {Q : List UInt8} (h : st.view x = some Q) : ∃ d, st.fs x = some d ∧ d <+: Q := by
  unfold DumpSt.view at h
  obtain ⟨d, hd, rfl⟩ := Option.map_eq_some_iff.1 h
  exact ⟨d, hd, List.prefix_append _ _⟩

theorem fs_of_empty {st : DumpSt} {x : Str} (h : st.buf x = []) : st.fs x = st.view x := by
  unfold DumpSt.view
  rw [h]
  cases st.fs x <;> simp

/-- What is on disk at any time. -/
theorem dump_partial {m : StateMap} {fs0 : FS} {st : DumpSt} (h : st.Inv m fs0) (x : Str) :
    st.fs x = fs0 x ∨ PartAt st.fs (dumpStates m fs0) (dumpFold fs0 m.drain).2 x := by
  change st.fs x = fs0 x ∨ PartAt st.fs (dumpFold fs0 m.drain).1 (dumpFold fs0 m.drain).2 x
  have key : ∀ done : List DumpItem, done <+: m.drain → (dumpFold fs0 done).2 = st.groups →
      (∀ x, x ≠ indexName → st.view x = (dumpFold fs0 done).1 x ∨ PartAt st.view (dumpFold fs0 done).1 st.groups x) →
      (∃ P D, st.view indexName = some P ∧ (dumpFold fs0 m.drain).1 indexName = some D ∧ P <+: D) →
      st.fs x = fs0 x ∨ PartAt st.fs (dumpFold fs0 m.drain).1 (dumpFold fs0 m.drain).2 x := by
    intro done hd hg hv hi
    by_cases hx : x = indexName
    · subst hx
      obtain ⟨P, D, h1, h2, h3⟩ := hi
      obtain ⟨d, hd1, hd2⟩ := fs_of_view h1
      exact Or.inr ⟨Or.inl rfl, d, D, hd1, h2, hd2.trans h3⟩
    · by_cases hgx : ∃ g ∈ st.groups, x = groupName g
      · right
        obtain ⟨g, hg', rfl⟩ := hgx
        rw [← hg] at hg'
        obtain ⟨P, D, p1, p2, p3⟩ := dumpFold_group fs0 hd hg'
        have hmem : g ∈ (dumpFold fs0 m.drain).2 := by
          obtain ⟨t, ht⟩ := hd
          rw [← ht, dumpFold_append]
          exact (dumpFold_groups t _).subset hg'
        refine ⟨Or.inr ⟨g, hmem, rfl⟩, ?_⟩
        rcases hv _ hx with hc | ⟨_, P', D', q1, q2, q3⟩
        · obtain ⟨d, hd1, hd2⟩ := fs_of_view (hc.trans p1)
          exact ⟨d, D, hd1, p2, hd2.trans p3⟩
        · rw [p1] at q2
          obtain rfl := Option.some.inj q2
          obtain ⟨d, hd1, hd2⟩ := fs_of_view q1
          exact ⟨d, D, hd1, p2, (hd2.trans q3).trans p3⟩
      · left
        have hb : st.buf x = [] := by
          by_contra hb
          rcases h.buf x hb with ⟨hc, _⟩ | hc
          · exact hx hc
          · exact hgx hc
        rw [fs_of_empty hb]
        rcases hv x hx with hc | ⟨hc | hc, _⟩
        · rw [hc]
          refine (dump_inv fs0 done).other x hx fun g hg' e => hgx ⟨g, ?_, e⟩
          rw [← hg]
          exact hg'
        · exact absurd hc hx
        · exact absurd hc hgx
  have hok := h.pc
  unfold DumpSt.PcOK at hok
  cases hp : st.pc with
  | start => rw [hp] at hok; exact Or.inl (congrFun hok.1 x)
  | loop todo =>
    rw [hp] at hok
    obtain ⟨done, h1, h2⟩ := hok
    have hpre : done <+: m.drain := by rw [h1]; exact List.prefix_append _ _
    refine key done hpre (by rw [h2]) (fun x _ => Or.inl (by rw [h2])) ?_
    obtain ⟨P, D, q1, q2, q3⟩ := dumpFold_index fs0 hpre
    rw [h2] at q1
    exact ⟨P, D, q1, q2, q3⟩
  | create e todo =>
    rw [hp] at hok
    obtain ⟨done, h1, hg, h2, h3⟩ := hok
    have hpre : done <+: m.drain := by rw [h1]; exact List.prefix_append _ _
    refine key done hpre h2 (fun x hx => Or.inl ?_) ?_
    · rw [← h3]
      exact Function.update_of_ne hx _ _
    · have hpre' : done ++ [e] <+: m.drain := ⟨todo, by rw [h1]; simp⟩
      obtain ⟨P, D, q1, q2, q3⟩ := dumpFold_index fs0 hpre'
      refine ⟨P, D, ?_, q2, q3⟩
      rw [← q1, ← h3, dumpFold_append]
      simp only [List.foldl_cons, List.foldl_nil]
      unfold dumpEntry
      dsimp only
      rw [h2, if_neg (show (e.1, e.2.2.lo) ∉ st.groups from hg)]
      unfold FS.append FS.create
      dsimp only
      rw [Function.update_of_ne (groupName_ne_index _).symm, Function.update_of_ne (groupName_ne_index _).symm]
      rfl
  | drop =>
    rw [hp] at hok
    refine key m.drain List.prefix_rfl (by rw [hok]) (fun x _ => Or.inl (by rw [hok])) ?_
    obtain ⟨P, D, q1, q2, q3⟩ := dumpFold_index fs0 (List.prefix_refl m.drain)
    refine ⟨P, D, ?_, q2, q3⟩
    rw [hok] at q1
    exact q1
  | lost =>
    rw [hp] at hok
    refine key m.drain List.prefix_rfl hok.1 (fun x _ => hok.2 x) ?_
    obtain ⟨P, D, q1, q2, q3⟩ := dumpFold_index fs0 (List.prefix_refl m.drain)
    rcases hok.2 indexName with hc | ⟨_, hc⟩
    · exact ⟨P, D, hc.trans q1, q2, q3⟩
    · exact hc

theorem dump_complete {m : StateMap} {fs0 : FS} {st : DumpSt} (h : st.Inv m fs0) (hp : st.pc = .drop)
    (hb : ∀ x, st.buf x = []) : st.fs = dumpStates m fs0 := by
  have hok := h.pc
  unfold DumpSt.PcOK at hok
  rw [hp] at hok
  change dumpFold fs0 m.drain = (st.view, st.groups) at hok
  change st.fs = (dumpFold fs0 m.drain).1
  rw [hok]
  funext x
  exact fs_of_empty (hb x)

/-! ## Executions exist -/

/-- All buffers can be written: the names of the files that have a buffer. -/
theorem dump_flush (m : StateMap) (names : List Str) (st : DumpSt) : ∃ st', ReflTransGen (DumpStep m) st st' ∧ st'.pc = st.pc ∧
    st'.groups = st.groups ∧ (∀ x ∈ names, st'.buf x = []) ∧ ∀ x, st.buf x = [] → st'.buf x = [] := by
  induction names generalizing st with
  | nil => exact ⟨st, .refl, rfl, rfl, by simp, fun _ h => h⟩
  | cons x names ih =>
    obtain ⟨st', h1, h2, h3, h4, h5⟩ := ih { st with fs := st.fs.append x (st.buf x), buf := Function.update st.buf x [] }
    refine ⟨st', .head (.flush (by simp)) h1, h2, h3, fun y hy => ?_, fun y hy => h5 y ?_⟩
    · rcases List.mem_cons.1 hy with rfl | hy
      · exact h5 _ (Function.update_self ..)
      · exact h4 y hy
    · dsimp only
      by_cases e : y = x
      · subst e
        exact Function.update_self ..
      · rw [Function.update_of_ne e]
        exact hy

theorem dump_loop (m : StateMap) (todo : List DumpItem) (st : DumpSt) (h : st.pc = .loop todo) :
    ∃ st', ReflTransGen (DumpStep m) st st' ∧ st'.pc = .drop := by
  induction todo generalizing st with
  | nil => exact ⟨_, .single (.finish h), rfl⟩
  | cons e todo ih =>
    by_cases hg : (e.1, e.2.2.lo) ∈ st.groups
    · have s1 := DumpStep.old (m := m) h hg
      obtain ⟨st', h1, h2⟩ := ih { st with buf := st.write (groupName (e.1, e.2.2.lo)) e.2.1, pc := .loop todo } rfl
      exact ⟨st', .head s1 h1, h2⟩
    · have s1 := DumpStep.line (m := m) h hg
      have s2 := DumpStep.create (m := m) (e := e) (todo := todo)
        (st := { st with buf := st.write indexName (groupName (e.1, e.2.2.lo) ++ [10]), pc := .create e todo }) rfl
      generalize hst2 : DumpSt.mk _ _ _ (DumpPc.loop todo) = st2 at s2
      obtain ⟨st', h1, h2⟩ := ih st2 (by rw [← hst2])
      exact ⟨st', .head s1 (.head s2 h1), h2⟩

theorem dump_exists (m : StateMap) (fs0 : FS) : ∃ st, ReflTransGen (DumpStep m) (DumpSt.init fs0) st ∧ st.pc = .drop ∧
    ∀ x, st.buf x = [] := by
  obtain ⟨st, h1, h2⟩ := dump_loop m m.drain _ (rfl : ({ DumpSt.init fs0 with fs := fs0.create indexName, pc := .loop m.drain } : DumpSt).pc = _)
  have hr : ReflTransGen (DumpStep m) (DumpSt.init fs0) st := .head (.start rfl) h1
  obtain ⟨st', h3, h4, h5, h6, h7⟩ := dump_flush m (indexName :: st.groups.map groupName) st
  refine ⟨st', hr.trans h3, h4.trans h2, fun x => ?_⟩
  by_contra hx
  rcases (dump_crash_inv (hr.trans h3)).buf x hx with ⟨rfl, _⟩ | ⟨g, hg, rfl⟩
  · exact hx (h6 _ List.mem_cons_self)
  · rw [h5] at hg
    exact hx (h6 _ (List.mem_cons_of_mem _ (List.mem_map.2 ⟨g, hg, rfl⟩)))

end Files

end Sortnet
