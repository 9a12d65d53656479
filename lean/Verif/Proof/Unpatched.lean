import Verif.Model.Unpatched
import Verif.Proof.LazyApprox
import Verif.Proof.CheckerSound

/-! The checker before and after the patch evaluate to the same result. -/

namespace Sortnet.Lazy.Raw

open Checker (VectTrie ProofWitness)

/-- A trie without unevaluated parts. -/
def embed : VectTrie → LTrie
  | .empty => .empty
  | .node a lo hi => .node (some a) (embed lo) (embed hi)

/-- The unevaluated trie before the patch for an unevaluated trie after it, when it is evaluated completely or throws at once. -/
def emb : L VectTrie → LTrie
  | none => .bot
  | some t => embed t

theorem or_some (a b : Bool) : or (some a) (some b) = some (a || b) := by cases a <;> rfl
theorem and_some (a b : Bool) : and (some a) (some b) = some (a && b) := by cases a <;> rfl

theorem vtUnion_embed (a b : VectTrie) : vtUnion (embed a) (embed b) = embed (Checker.vtUnion a b) := by
  induction a generalizing b with
  | empty => cases b <;> rfl
  | node x lo hi ih1 ih2 =>
    cases b with
    | empty => rfl
    | node y lo' hi' => simp [embed, vtUnion, Checker.vtUnion, ih1, ih2, or_some]

theorem vtSingleton_embed (xs : List Bool) : vtSingleton (xs.map some) = embed (Checker.vtSingleton xs) := by
  induction xs with
  | nil => rfl
  | cons x xs ih => cases x <;> simp [vtSingleton, Checker.vtSingleton, embed, ih]

theorem lazy_vtSingleton (xs : List Bool) : Lazy.vtSingleton (xs.map some) = some (Checker.vtSingleton xs) := by
  induction xs with
  | nil => rfl
  | cons x xs ih => cases x <;> simp [Lazy.vtSingleton, Checker.vtSingleton, ih]

theorem vtListFrom_embed (ls : List (List Bool)) (s : VectTrie) :
    vtListFrom (embed s) (LList.ofList (ls.map fun xs => xs.map some)) =
      embed (Checker.fold (Checker.vtUnion ∘ Checker.vtSingleton) ls s) := by
  induction ls generalizing s with
  | nil => rfl
  | cons x ls ih =>
    simp only [List.map_cons, LList.ofList, vtListFrom, vtSingleton_embed, vtUnion_embed, Checker.fold, Function.comp]
    exact ih _

theorem vtList_embed (ls : List (List Bool)) :
    vtList (LList.ofList (ls.map fun xs => xs.map some)) = embed (Checker.vtList ls) := vtListFrom_embed ls .empty

theorem lazy_fold (ls : List (List Bool)) (s : VectTrie) :
    Checker.fold (fun x s => Lazy.vtUnion (Lazy.vtSingleton x) s) (ls.map fun xs => xs.map some) (some s) =
      some (Checker.fold (Checker.vtUnion ∘ Checker.vtSingleton) ls s) := by
  induction ls generalizing s with
  | nil => rfl
  | cons x ls ih =>
    simp only [List.map_cons, Checker.fold, lazy_vtSingleton, Function.comp]
    exact ih _

theorem lazy_vtList (ls : List (List Bool)) : Lazy.vtList (ls.map fun xs => xs.map some) = some (Checker.vtList ls) :=
  lazy_fold ls .empty

theorem ofList_map {α β : Type} (f : α → β) (l : List α) : (LList.ofList l).map f = LList.ofList (l.map f) := by
  induction l with
  | nil => rfl
  | cons x l ih => simp [LList.ofList, LList.map, ih]

theorem ofList_all {α : Type} (p : α → L Bool) (l : List α) : (LList.ofList l).all p = all p l := by
  induction l with
  | nil => rfl
  | cons x l ih => simp [LList.ofList, LList.all, all, ih]

/-- The trie of vectors that the certificate gives. -/
theorem vtList_vects (v : L (List (List Bool))) :
    vtList ((LList.ofL v).map fun xs => xs.map some) = emb (v >>= fun l => Lazy.vtList (l.map fun xs => xs.map some)) := by
  cases v with
  | none => rfl
  | some l =>
    show _ = emb (Lazy.vtList _)
    rw [lazy_vtList, LList.ofL, ofList_map, vtList_embed]; rfl

theorem listVtExtend_embed (t : VectTrie) (pre : List Bool → List Bool) (l : List (List Bool)) :
    listVtExtend (embed t) pre (LList.ofList l) = LList.ofList (Checker.listVtExtend t pre l) := by
  induction t generalizing pre l with
  | empty => rfl
  | node x lo hi ih1 ih2 =>
    cases x <;> simp only [embed, listVtExtend, Checker.listVtExtend, ih1, ih2, LList.ofList]

theorem listVt_embed (t : VectTrie) : listVt (embed t) = LList.ofList (Checker.listVt t) := listVtExtend_embed t id []

theorem lengthVt_embed (t : VectTrie) : lengthVt (embed t) = some (Checker.lengthVt t) := by
  induction t with
  | empty => rfl
  | node x lo hi ih1 ih2 => cases x <;> simp [embed, lengthVt, Checker.lengthVt, ih1, ih2]

theorem isUnsortedVt_emb (n : L ℕ) (a : L VectTrie) : isUnsortedVt n (emb a) = Lazy.isUnsortedVt n a := by
  cases n with
  | none => rfl
  | some n =>
    cases a with
    | none => rfl
    | some t =>
      simp only [isUnsortedVt, Lazy.isUnsortedVt, emb, lengthVt_embed, Checker.isUnsortedVt]; rfl

theorem isSubsetVt_embed (a b : VectTrie) : isSubsetVt (embed a) (embed b) = some (Checker.isSubsetVt a b) := by
  induction a generalizing b with
  | empty => rfl
  | node x lo hi ih1 ih2 =>
    cases b with
    | empty =>
      cases x
      · have h1 := ih1 .empty
        have h2 := ih2 .empty
        simp only [embed] at h1 h2
        simp [embed, isSubsetVt, Checker.isSubsetVt, h1, h2, and_some]
      · simp [embed, isSubsetVt, Checker.isSubsetVt]
    | node y lo' hi' =>
      cases x <;> cases y <;> simp [embed, isSubsetVt, Checker.isSubsetVt, ih1, ih2, and_some]

theorem isSubsetVt_emb (a b : L VectTrie) : isSubsetVt (emb a) (emb b) = Lazy.isSubsetVt a b := by
  cases a with
  | none => rfl
  | some t =>
    cases b with
    | none => cases t <;> rfl
    | some s =>
      rw [emb, emb, isSubsetVt_embed]
      cases t <;> rfl

theorem invertVt_emb (z : Bool) (a : L VectTrie) : invertVt z (emb a) = emb (Lazy.invertVt z a) := by
  cases a with
  | none => cases z <;> rfl
  | some t =>
    cases z
    · rfl
    · show vtList ((listVt (embed t)).map _) = embed (Checker.vtList ((Checker.listVt t).map fun l => l.map Bool.not))
      rw [listVt_embed, ofList_map, ← vtList_embed, List.map_map]
      congr 3
      funext l
      simp [Function.comp_def]

theorem permuteVt_emb (ps : List ℕ) (a : L VectTrie)
    (h : ∀ t, a = some t → ∀ v ∈ Checker.listVt t, ∀ i ∈ ps, i < v.length) :
    permuteVt ps (emb a) = emb (Lazy.permuteVt ps a) := by
  cases a with
  | none => rfl
  | some t =>
    show vtList ((listVt (embed t)).map _) = emb (Lazy.vtList _)
    have : (Checker.listVt t).map (permuteListVect ps) =
        ((Checker.listVt t).map fun v => ps.map (Checker.nth false v)).map fun xs => xs.map some := by
      rw [List.map_map]
      apply List.map_congr_left
      intro v hv
      simp only [permuteListVect, Function.comp, List.map_map]
      apply List.map_congr_left
      intro i hi
      exact nth_isSome (h t rfl v hv i hi) false
    rw [listVt_embed, ofList_map, this, vtList_embed, lazy_vtList]; rfl

theorem or_congr {a b c : L Bool} (h : a = some false → b = c) : or a b = or a c := by
  match a with
  | none => rfl
  | some true => rfl
  | some false => exact h rfl

theorem and_congr {a b c : L Bool} (h : a = some true → b = c) : and a b = and a c := by
  match a with
  | none => rfl
  | some true => exact h rfl
  | some false => rfl

theorem not_eq_false {a : L Bool} (h : not a = some false) : a = some true := by
  match a, h with
  | some true, _ => rfl

theorem and_eq_true {a b : L Bool} (h : and a b = some true) : a = some true ∧ b = some true := by
  match a, h with
  | some true, h => exact ⟨rfl, h⟩

theorem all_eq_true {α : Type} {p : α → L Bool} {l : List α} (h : all p l = some true) : ∀ x ∈ l, p x = some true := by
  induction l with
  | nil => simp
  | cons y l ih =>
    obtain ⟨h1, h2⟩ := and_eq_true h
    intro x hx
    rcases List.mem_cons.1 hx with rfl | hx
    · exact h1
    · exact ih h2 x hx

theorem mem_invert {z : Bool} {ls : List (List Bool)} {n : ℕ} (h : ∀ v ∈ ls, v.length = n) {v : List Bool}
    (hv : v ∈ Checker.listVt (Checker.invertVt z (Checker.vtList ls))) : v.length = n := by
  rw [Checker.mem_listVt] at hv
  unfold Checker.invertVt at hv
  split_ifs at hv
  · rw [Checker.isMemberVt_vtList, List.mem_map] at hv
    obtain ⟨w, hw, rfl⟩ := hv
    rw [Checker.mem_listVt, Checker.isMemberVt_vtList] at hw
    simpa using h w hw
  · rw [Checker.isMemberVt_vtList] at hv
    exact h v hv

theorem getBound_emb (steps : ℤ → ProofStep) (limit : ℤ) (w : L (Option ProofWitness)) (width : L ℕ) (a : L VectTrie) :
    getBound steps limit w width (emb a) = Lazy.getBound steps limit w width a := by
  unfold getBound Lazy.getBound
  match w with
  | none => rfl
  | some none => simp only [Option.bind_eq_bind, Option.bind_some, isUnsortedVt_emb]
  | some (some w) =>
    simp only [Option.bind_eq_bind, Option.bind_some]
    refine congrArg (fun b : L Bool => b.bind _) ?_
    refine or_congr fun _ => or_congr fun h1 => or_congr fun h2 => or_congr fun _ => or_congr fun h3 => congrArg not ?_
    have h1 := all_eq_true (not_eq_false h1)
    have h2 := not_eq_false h2
    have h3 := not_eq_false h3
    match width, h2 with
    | some n, h2 =>
      generalize hv : (steps w.stepId).vectList = v at h3 ⊢
      match v, h3 with
      | some ls, h3 =>
        have h3 := all_eq_true h3
        have hl : ∀ x ∈ ls, x.length = n := by
          intro x hx
          simpa using h3 x hx
        have hp : ∀ i ∈ w.perm.map Checker.nat, i < n := by
          intro i hi
          have := h1 i hi
          simpa [and] using this
        have hb := vtList_vects (some ls)
        simp only [Option.bind_eq_bind, Option.bind_some] at hb
        rw [hb, invertVt_emb, permuteVt_emb, isSubsetVt_emb]
        · rfl
        · intro t ht v hv i hi
          rw [lazy_vtList] at ht
          simp only [Lazy.invertVt, Option.bind_eq_bind, Option.bind_some, Option.some.injEq] at ht
          subst ht
          rw [mem_invert hl hv]
          exact hp i hi

theorem isRedundantCmpVt_emb (c : ℕ × ℕ) (a : L VectTrie) : isRedundantCmpVt c (emb a) = Lazy.isRedundantCmpVt c a := by
  cases a with
  | none => rfl
  | some t => simp only [isRedundantCmpVt, emb, listVt_embed, ofList_all, Lazy.isRedundantCmpVt, Option.bind_eq_bind, Option.bind_some]

theorem listUpdate_map {α β : Type} (f : α → β) (xs : List α) (i : ℕ) (y : α) :
    Checker.listUpdate (xs.map f) i (f y) = (Checker.listUpdate xs i y).map f := by
  induction xs generalizing i with
  | nil => rfl
  | cons x xs ih =>
    simp only [List.map_cons, Checker.listUpdate]
    split_ifs
    · rfl
    · rw [ih]; rfl

theorem applyCmpList_some {c : ℕ × ℕ} {xs : List Bool} (h1 : c.1 < xs.length) (h2 : c.2 < xs.length) :
    applyCmpList c xs = (Checker.applyCmpList ⟨false, 0⟩ c xs).map some := by
  simp only [applyCmpList, Checker.applyCmpList, nth_isSome h1 false, nth_isSome h2 false, or_some, and_some, listUpdate_map]

theorem listAll2_map {α β γ : Type} (p : β → γ → L Bool) (f : α → β) (l : List α) (ws : List γ) :
    listAll2 p (l.map f) ws = listAll2 (fun x w => p (f x) w) l ws := by
  induction l generalizing ws with
  | nil => cases ws <;> rfl
  | cons x l ih =>
    cases ws with
    | nil => rfl
    | cons w ws => simp only [List.map_cons, listAll2, ih]

theorem listAll2_congr {α γ : Type} {p q : α → γ → L Bool} {l : List α} (h : ∀ x ∈ l, ∀ w, p x w = q x w) (ws : List γ) :
    listAll2 p l ws = listAll2 q l ws := by
  induction l generalizing ws with
  | nil => cases ws <;> rfl
  | cons x l ih =>
    cases ws with
    | nil => rfl
    | cons w ws =>
      simp only [listAll2]
      rw [h x (by simp), ih fun y hy => h y (by simp [hy])]

theorem filter_subset {α : Type} {p : α → L Bool} {l r : List α} (h : filter p l = some r) : ∀ x ∈ r, x ∈ l := by
  induction l generalizing r with
  | nil => simp only [filter, Option.some.injEq] at h; subst h; simp
  | cons y l ih =>
    simp only [filter, Option.bind_eq_bind, Option.bind_eq_some_iff, Option.some.injEq] at h
    obtain ⟨b, -, r', hr, rfl⟩ := h
    intro x hx
    split_ifs at hx
    · rcases List.mem_cons.1 hx with rfl | hx
      · simp
      · exact List.mem_cons_of_mem _ (ih hr x hx)
    · exact List.mem_cons_of_mem _ (ih hr x hx)

/-- The vectors after a comparator. -/
theorem vtList_apply {c : ℕ × ℕ} {ls : List (List Bool)} (h : ∀ v ∈ ls, c.1 < v.length ∧ c.2 < v.length) :
    vtList ((LList.ofL (some ls)).map (applyCmpList c)) = emb (Lazy.vtList (ls.map (applyCmpList c))) := by
  have : ls.map (applyCmpList c) = (ls.map (Checker.applyCmpList ⟨false, 0⟩ c)).map fun xs => xs.map some := by
    rw [List.map_map]
    apply List.map_congr_left
    intro v hv
    exact applyCmpList_some (h v hv).1 (h v hv).2
  rw [LList.ofL, ofList_map, this, vtList_embed, lazy_vtList]; rfl

theorem checkSuccessors_eq (steps : ℤ → ProofStep) (limit : ℤ) (step : ProofStep) :
    checkSuccessors steps limit step = Lazy.checkSuccessors steps limit step := by
  unfold checkSuccessors Lazy.checkSuccessors
  match step.witnesses with
  | none => rfl
  | some (.huffman _ _) => rfl
  | some (.successor witnesses) =>
    simp only [Option.bind_eq_bind, Option.bind_some, vtList_vects, isUnsortedVt_emb, isRedundantCmpVt_emb]
    refine and_congr fun _ => and_congr fun h1 => and_congr fun h2 => and_congr fun h3 => ?_
    generalize hw : step.width = width at *
    generalize hv : step.vectList = vl at *
    match width, vl, h3 with
    | none, _, _ => rfl
    | _, none, h3 => cases h3
    | some n, some ls, h3 =>
      have h3 := all_eq_true h3
      have hl : ∀ x ∈ ls, x.length = Checker.nat n := by
        intro x hx
        simpa using h3 x hx
      simp only [Option.bind_some]
      generalize hf : filter _ _ = f
      match f, hf with
      | none, _ => rfl
      | some cs, hf =>
        have hc : ∀ c ∈ cs, c.1 < Checker.nat n ∧ c.2 < Checker.nat n := by
          intro c hc
          have := (Checker.mem_ocmpList _ _).1 (filter_subset hf c hc)
          omega
        simp only [Option.bind_some]
        congr 1
        funext ws
        rw [listAll2_map, listAll2_map]
        refine listAll2_congr (fun c hcm w => ?_) ws
        rw [vtList_apply fun v hv => by rw [hl v hv]; exact hc c hcm, getBound_emb]
        rfl

theorem isMemberVt_embed (xs : List Bool) (t : VectTrie) : isMemberVt xs (embed t) = some (Checker.isMemberVt xs t) := by
  induction t generalizing xs with
  | empty => rcases xs with _ | ⟨_ | _, xs⟩ <;> rfl
  | node x lo hi ih1 ih2 =>
    rcases xs with _ | ⟨_ | _, xs⟩
    · rfl
    · exact ih1 xs
    · exact ih2 xs

theorem isMemberVt_emb (xs : List Bool) (a : L VectTrie) :
    isMemberVt xs (emb a) = a >>= fun a => some (Checker.isMemberVt xs a) := by
  cases a with
  | none => rcases xs with _ | ⟨_ | _, xs⟩ <;> rfl
  | some t => exact isMemberVt_embed xs t

theorem extremalChannelsVt_emb (a : L VectTrie) (n : ℕ) (pol : Bool) :
    extremalChannelsVt (emb a) n pol = Lazy.extremalChannelsVt a n pol := by
  simp only [extremalChannelsVt, Lazy.extremalChannelsVt, isMemberVt_emb]

theorem pruneExtremalVt_embed (pol : Bool) (i : ℕ) (t : VectTrie) :
    pruneExtremalVt pol i (embed t) = embed (Checker.pruneExtremalVt pol i t) := by
  induction t generalizing i with
  | empty => cases pol <;> rfl
  | node x lo hi ih1 ih2 =>
    cases pol <;> simp only [embed, pruneExtremalVt, Checker.pruneExtremalVt, ih1, ih2] <;> split_ifs <;> rfl

theorem pruneExtremalVt_emb (pol : Bool) (i : ℕ) (a : L VectTrie) :
    pruneExtremalVt pol i (emb a) = emb (Lazy.pruneExtremalVt pol i a) := by
  cases a with
  | none => cases pol <;> rfl
  | some t => exact pruneExtremalVt_embed pol i t

theorem zip_emb (width : L ℕ) (steps : ℤ → ProofStep) (limit : ℤ) (bs : List (L VectTrie)) (ws : List (L (Option ProofWitness))) :
    ((bs.map emb).zip ws).map (fun p => getBound steps limit p.2 width p.1) =
      (bs.zip ws).map fun p => Lazy.getBound steps limit p.2 width p.1 := by
  induction bs generalizing ws with
  | nil => rfl
  | cons b bs ih =>
    cases ws with
    | nil => rfl
    | cons w ws => simp only [List.map_cons, List.zip_cons_cons, getBound_emb, ih]

theorem checkHuffman_eq (steps : ℤ → ProofStep) (limit : ℤ) (step : ProofStep) :
    checkHuffman steps limit step = Lazy.checkHuffman steps limit step := by
  unfold checkHuffman Lazy.checkHuffman
  match step.witnesses with
  | none => rfl
  | some (.successor _) => rfl
  | some (.huffman pol witnesses) =>
    have key : ∀ (a : L VectTrie) (l : List ℕ), l.map (fun c => pruneExtremalVt pol c (emb a)) =
        (l.map fun c => Lazy.pruneExtremalVt pol c a).map emb := by
      intro a l
      rw [List.map_map]
      apply List.map_congr_left
      intro c _
      exact pruneExtremalVt_emb pol c a
    simp only [Option.bind_eq_bind, Option.bind_some, vtList_vects, extremalChannelsVt_emb, key, Option.bind_assoc, zip_emb]

theorem checkStep_eq (steps : ℤ → ProofStep) (limit : ℤ) (step : ProofStep) :
    checkStep steps limit step = Lazy.checkStep steps limit step := by
  unfold checkStep Lazy.checkStep
  simp only [checkSuccessors_eq, checkHuffman_eq]
  rfl

theorem parRangeAll_eq (f : ℕ → L Bool) (lo n : ℕ) : parRangeAll f lo n = Lazy.parRangeAll f lo n := by
  induction n using Nat.strong_induction_on generalizing lo with
  | _ n ih =>
    rw [parRangeAll, Lazy.parRangeAll]
    split_ifs with h
    · rfl
    · rw [ih (n / 2) (by omega), ih (n - n / 2) (by omega)]; rfl

theorem checkProof_eq (cert : ProofCert) : checkProof cert = Lazy.checkProof cert := by
  unfold checkProof Lazy.checkProof
  simp only [checkStep_eq, parRangeAll_eq]

theorem checkProofGetBound_eq (cert : ProofCert) : checkProofGetBound cert = Lazy.checkProofGetBound cert := by
  unfold checkProofGetBound Lazy.checkProofGetBound
  rw [checkProof_eq]

theorem mainVerified_eq (bytes : List UInt8) : mainVerified bytes = Lazy.mainVerified bytes := by
  unfold mainVerified Lazy.mainVerified
  rw [checkProofGetBound_eq]
  rfl

end Sortnet.Lazy.Raw
