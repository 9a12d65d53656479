import Verif.Proof.SliceOps

/-! # The abstraction on slices -/

namespace Sortnet.Slice

variable {n : ℕ} {σ τ ι : Type}

theorem foldlM_enc (L : List ι) (body : τ → ι → Option τ) (f : σ → ι → σ) (enc : σ → τ)
    (h : ∀ x ∈ L, ∀ st, body (enc st) x = some (enc (f st x))) (st : σ) :
    L.foldlM body (enc st) = some (enc (L.foldl f st)) := by
  induction L generalizing st with
  | nil => rfl
  | cons x L ih =>
    rw [List.foldlM_cons, h x (by simp) st, List.foldl_cons]
    exact ih (fun y hy => h y (List.mem_cons_of_mem _ hy)) _

/-- An array of four lists. -/
def arrL (a : Fin 4 → List ℕ) : List (List ℕ) := [a 0, a 1, a 2, a 3]

theorem push_all (a : Fin 4 → ℕ) (A : Fin 4 → List ℕ) (h : ∀ g, (A g).length < capC) :
    ((arr4 a).zip (arrL A)).mapM (fun e => push capC e.2 e.1) = some (arrL fun g => A g ++ [a g]) := by
  simp only [arr4, arrL, List.zip_cons_cons, List.zip_nil_right, List.mapM_cons, List.mapM_nil, push, h, if_true]
  rfl

theorem groupLoop_eq (s : Bitmap n) (c : Fin n) (L : List (Fin n)) (A : Fin 4 → List ℕ)
    (h : ∀ g, (A g).length + (L.filter fun o => o ≠ c).length ≤ capC) :
    (ofBitmap s).groupLoop c (L.map Fin.val) (arrL A) =
      some (arrL fun g => A g ++ (L.filter fun o => o ≠ c).map fun o => s.channelPairAbstraction c o g) := by
  induction L generalizing A with
  | nil => simp [OutputSet.groupLoop]
  | cons o L ih =>
    rw [List.map_cons, OutputSet.groupLoop]
    by_cases ho : o = c
    · subst ho
      rw [if_pos rfl, ih A (by simpa using h)]
      simp
    · have hov : ¬ (o : ℕ) = c := fun e => ho (Fin.ext e)
      rw [if_neg hov, channelPairAbstraction_eq]
      dsimp only [Option.bind_eq_bind, Option.bind_some]
      have hf : (o :: L).filter (fun o => o ≠ c) = o :: L.filter fun o => o ≠ c := by simp [ho]
      rw [hf] at h ⊢
      simp only [List.length_cons] at h
      rw [push_all _ _ (fun g => by have := h g; omega), Option.bind_some,
        ih _ (fun g => by simp only [List.length_append, List.length_singleton]; have := h g; omega)]
      simp

theorem filter_ne_length (c : Fin n) : ((List.finRange n).filter fun o => o ≠ c).length = n - 1 := by
  have h : ((List.finRange n).filter fun o => o ≠ c) = (List.finRange n).erase c := by
    rw [(List.nodup_finRange n).erase_eq_filter]
    congr 1
    funext o
    simp [bne, beq_eq_decide]
  rw [h, List.length_erase_of_mem (List.mem_finRange c), List.length_finRange]

theorem groupValues_length (s : Bitmap n) (c : Fin n) (g : Fin 4) : (s.groupValues c g).length = n - 1 := by
  unfold Bitmap.groupValues sortDesc
  rw [List.length_insertionSort, List.length_map, filter_ne_length]

theorem write_index_lt {c g i : ℕ} (hc : c < n) (hg : g < 4) (hi : i < n - 1) :
    c + n * (g + 4 * i) < n * (n - 1) * 4 := by
  have h1 : g + 4 * i + 1 ≤ (n - 1) * 4 := by omega
  have h2 := Nat.mul_le_mul_left n h1
  rw [Nat.mul_add] at h2
  rw [Nat.mul_assoc]
  omega

theorem writeGroups_eq (s : Bitmap n) (c : Fin n) (b : ℕ → ℕ) :
    (ofBitmap s).writeGroups c (arrL fun g => s.groupValues c g) (buf (n * (n - 1) * 4) b) =
      some (buf (n * (n - 1) * 4) (writeChannel s b c)) := by
  have inner : ∀ (g : Fin 4) (b : ℕ → ℕ),
      (s.groupValues c g).zipIdx.foldlM (fun abstraction (v : ℕ × ℕ) =>
        put abstraction (c.val + n * (g.val + 4 * v.2)) (v.1 % 2 ^ 16)) (buf (n * (n - 1) * 4) b) =
      some (buf (n * (n - 1) * 4) (((s.groupValues c g).zipIdx).foldl (fun buf (p : ℕ × ℕ) =>
        Function.update buf (c.val + n * (g.val + pairAbstractionGroups * p.2)) (p.1 % 2 ^ 16)) b)) := by
    intro g b
    refine foldlM_enc _ _ _ (buf (n * (n - 1) * 4)) ?_ b
    intro v hv st
    refine put_buf st (write_index_lt c.isLt g.isLt ?_) _
    rw [List.mem_iff_getElem?] at hv
    obtain ⟨k, hk⟩ := hv
    rw [List.getElem?_zipIdx] at hk
    have hkl : k < (s.groupValues c g).length := by
      by_contra hlt
      rw [List.getElem?_eq_none (by omega)] at hk
      simp at hk
    rw [List.getElem?_eq_getElem hkl, Option.map_some] at hk
    have := congrArg Prod.snd (Option.some.inj hk)
    rw [groupValues_length] at hkl
    simp only at this
    omega
  unfold OutputSet.writeGroups writeChannel
  have h4 : List.finRange 4 = [0, 1, 2, 3] := by decide
  rw [h4]
  have i0 := inner 0 b
  simp only [arrL, List.zipIdx_cons, List.zipIdx_nil, List.foldlM_cons, List.foldlM_nil, List.foldl_cons, List.foldl_nil]
  have e : (ofBitmap s).channels = n := rfl
  rw [e]
  erw [inner 0 b]
  dsimp only [Option.bind_eq_bind, Option.bind_some]
  erw [inner 1, Option.bind_some, inner 2, Option.bind_some, inner 3, Option.bind_some]
  rfl

theorem abstractChannel_eq (hn : n ≤ 11) (s : Bitmap n) (c : Fin n) (b : ℕ → ℕ) :
    (ofBitmap s).abstractChannel (buf (n * (n - 1) * 4) b) c = some (buf (n * (n - 1) * 4) (writeChannel s b c)) := by
  unfold OutputSet.abstractChannel
  have e : List.range (ofBitmap s).channels = (List.finRange n).map Fin.val := (List.map_coe_finRange_eq_range).symm
  have e0 : List.replicate 4 ([] : List ℕ) = arrL fun _ => [] := rfl
  rw [e, e0, groupLoop_eq s c _ _ (fun g => by
    rw [filter_ne_length]; simp only [List.length_nil]; unfold capC; omega)]
  exact writeGroups_eq s c b

theorem chunksMut_buf (k q : ℕ) (hk : 0 < k) (body : List ℕ → Option (List ℕ)) (b b' : ℕ → ℕ)
    (h : ∀ i < q, body (buf k fun j => b (i * k + j)) = some (buf k fun j => b' (i * k + j))) :
    chunksMut k body (buf (q * k) b) = some (buf (q * k) b') := by
  induction q generalizing b b' with
  | zero =>
    rw [chunksMut.eq_def, if_neg (by omega), if_pos (by simp [buf_length])]
    simp [buf]
  | succ q ih =>
    have hs : ∀ b : ℕ → ℕ, buf ((q + 1) * k) b = buf k b ++ buf (q * k) fun j => b (k + j) := by
      intro b
      unfold buf
      rw [Nat.succ_mul, Nat.add_comm, List.range_add, List.map_append, List.map_map]
      rfl
    rw [chunksMut.eq_def, if_neg (by omega), if_neg (by rw [buf_length, Nat.succ_mul]; omega), hs b,
      List.take_left' (buf_length _ _), List.drop_left' (buf_length _ _)]
    have h0 := h 0 (by omega)
    simp only [Nat.zero_mul, Nat.zero_add] at h0
    rw [h0]
    dsimp only [Option.bind_eq_bind, Option.bind_some]
    rw [ih (fun j => b (k + j)) (fun j => b' (k + j)), hs b']
    · rfl
    · intro i hi
      have := h (i + 1) (by omega)
      rw [Nat.succ_mul] at this
      convert this using 4
      · congr 1; omega
      · congr 1; omega

theorem buf_getD (l : List ℕ) : l = buf l.length fun j => l[j]?.getD 0 := by
  apply List.ext_getElem?
  intro i
  by_cases h : i < l.length
  · rw [getElem?_buf _ h, List.getElem?_eq_getElem h]; rfl
  · rw [List.getElem?_eq_none (by omega), List.getElem?_eq_none (by rw [buf_length]; omega)]

theorem sortAsc_length (l : List ℕ) : (sortAsc l).length = l.length := List.length_insertionSort _ _

theorem sortChunks_eq (hn : 0 < n) (q : ℕ) (b : ℕ → ℕ) :
    chunksMut n (fun chunk => some (sortAsc chunk)) (buf (q * n) b) = some (buf (q * n) (sortChunks n b)) := by
  refine chunksMut_buf n q hn _ _ _ ?_
  intro i _
  congr 1
  have hl : (sortAsc (buf n fun j => b (i * n + j))).length = n := by rw [sortAsc_length, buf_length]
  conv_lhs => rw [buf_getD (sortAsc (buf n fun j => b (i * n + j))), hl]
  refine buf_congr fun j hj => ?_
  unfold sortChunks
  have h1 : (i * n + j) / n = i := by
    rw [Nat.mul_comm, Nat.mul_add_div hn, Nat.div_eq_of_lt hj, Nat.add_zero]
  have h2 : (i * n + j) % n = j := by rw [Nat.mul_comm, Nat.mul_add_mod, Nat.mod_eq_of_lt hj]
  rw [h1, h2]
  rfl

theorem foldl_update_self (F : ℕ → ℕ) (L : List ℕ) (st : ℕ → ℕ) (k : ℕ) :
    L.foldl (fun st p => Function.update st p (F p)) st k = if k ∈ L then F k else st k := by
  induction L generalizing st with
  | nil => simp
  | cons p L ih =>
    rw [List.foldl_cons, ih]
    by_cases hk : k ∈ L
    · simp [hk]
    · by_cases hp : k = p
      · subst hp; simp [hk]
      · simp [hk, hp]

theorem transposeChunk_eq (hn : n ≤ 11) (s : Bitmap n) (b : ℕ → ℕ) :
    (ofBitmap s).transposeChunk (buf (n * 4) b) = some (buf (n * 4) fun k => b (k / 4 + k % 4 * n)) := by
  unfold OutputSet.transposeChunk tryExtend
  rw [if_pos (by rw [buf_length]; omega)]
  dsimp only [Option.bind_eq_bind, Option.bind_some]
  have e : (ofBitmap s).channels = n := rfl
  rw [e]
  rw [foldlM_enc (List.range 4) _ (fun st i => (List.range n).foldl
    (fun st j => Function.update st (i + j * 4) (b ((i + j * 4) / 4 + (i + j * 4) % 4 * n))) st) (buf (n * 4))]
  · congr 1
    refine buf_congr fun k hk => ?_
    have : (List.range 4).foldl (fun st i => (List.range n).foldl
        (fun st j => Function.update st (i + j * 4) (b ((i + j * 4) / 4 + (i + j * 4) % 4 * n))) st) b =
        ((List.range 4).flatMap fun i => (List.range n).map fun j => i + j * 4).foldl
          (fun st p => Function.update st p (b (p / 4 + p % 4 * n))) b := by
      rw [List.foldl_flatMap]
      congr 1
      funext st i
      rw [List.foldl_map]
    rw [this, foldl_update_self (fun p => b (p / 4 + p % 4 * n)), if_pos]
    rw [List.mem_flatMap]
    refine ⟨k % 4, List.mem_range.2 (by omega), List.mem_map.2 ⟨k / 4, List.mem_range.2 (by omega), by omega⟩⟩
  · intro i hi st
    rw [List.mem_range] at hi
    refine foldlM_enc (List.range n) _
      (fun st j => Function.update st (i + j * 4) (b ((i + j * 4) / 4 + (i + j * 4) % 4 * n))) (buf (n * 4)) ?_ st
    intro j hj st
    rw [List.mem_range] at hj
    have h1 : j + i * n < n * 4 := by
      have : (i + 1) * n ≤ 4 * n := Nat.mul_le_mul_right _ (by omega)
      rw [Nat.succ_mul] at this
      omega
    rw [getElem?_buf _ h1]
    dsimp only [Option.bind_some]
    rw [put_buf _ (by omega)]
    have h2 : (i + j * 4) / 4 = j := by omega
    have h3 : (i + j * 4) % 4 = i := by omega
    rw [h2, h3]

theorem transposeChunks_eq (h0 : 0 < n) (hn : n ≤ 11) (s : Bitmap n) (q : ℕ) (b : ℕ → ℕ) :
    chunksMut (n * 4) (OutputSet.transposeChunk (ofBitmap s)) (buf (q * (n * 4)) b) =
      some (buf (q * (n * 4)) (transposeChunks n b)) := by
  refine chunksMut_buf (n * 4) q (by omega) _ _ _ ?_
  intro i _
  rw [transposeChunk_eq hn]
  congr 1
  refine buf_congr fun j hj => ?_
  unfold transposeChunks
  have h1 : (i * (n * 4) + j) / (4 * n) = i := by
    rw [Nat.mul_comm i, Nat.mul_comm 4, Nat.mul_add_div (by omega), Nat.div_eq_of_lt hj, Nat.add_zero]
  have h2 : (i * (n * 4) + j) % (4 * n) = j := by
    rw [Nat.mul_comm i, Nat.mul_comm 4, Nat.mul_add_mod, Nat.mod_eq_of_lt hj]
  dsimp only
  rw [h1, h2, Nat.mul_comm 4 n]

theorem writeAbstractionInto_eq (h0 : 0 < n) (hn : n ≤ 11) (s : Bitmap n) (b : ℕ → ℕ) :
    (ofBitmap s).writeAbstractionInto (buf (n * (n - 1) * 4) b) =
      some (buf (n * (n - 1) * 4) (transposeChunks n (sortChunks n ((List.finRange n).foldl (writeChannel s) b)))) := by
  unfold OutputSet.writeAbstractionInto OutputSet.abstractionLen sub
  have e : (ofBitmap s).channels = n := rfl
  rw [e, if_pos (by omega)]
  dsimp only [Option.bind_eq_bind, Option.bind_some]
  rw [if_neg (by simp [buf_length]), ← List.map_coe_finRange_eq_range, List.foldlM_map,
    foldlM_enc (List.finRange n) _ (writeChannel s) (buf (n * (n - 1) * 4)) (fun c _ st => abstractChannel_eq hn s c st)]
  dsimp only [Option.bind_some]
  have e1 : n * (n - 1) * 4 = (n - 1) * 4 * n := by rw [Nat.mul_comm n, Nat.mul_assoc, Nat.mul_comm n, Nat.mul_assoc]
  rw [e1, sortChunks_eq h0, Option.bind_some]
  have e2 : (n - 1) * 4 * n = (n - 1) * (n * 4) := by rw [Nat.mul_assoc, Nat.mul_comm 4]
  rw [e2, transposeChunks_eq h0 hn]

theorem abstraction_eq (s : Bitmap n) : (ofBitmap s).abstraction = s.abstraction := by
  unfold OutputSet.abstraction Bitmap.abstraction Sortnet.abstractionLen
  have e : (ofBitmap s).channels = n := rfl
  by_cases h0 : n = 0
  · subst h0; rfl
  · have hl : (ofBitmap s).abstractionLen = some (n * (n - 1) * 4) := by
      unfold OutputSet.abstractionLen sub
      rw [e, if_pos (by omega)]
      rfl
    rw [hl, if_neg h0]
    dsimp only [Option.bind_eq_bind, Option.bind_some]
    by_cases hn : n ≤ 11
    · have hc : n * (n - 1) * 4 ≤ capA := by
        have : n * (n - 1) ≤ 11 * 10 := Nat.mul_le_mul hn (by omega)
        unfold capA; omega
      rw [collect_replicate hc, buf_zero, writeAbstractionInto_eq (by omega) hn, if_pos (show n ≤ maxChannels from hn)]
      rfl
    · have hc : capA < n * (n - 1) * 4 := by
        have : 12 * 11 ≤ n * (n - 1) := Nat.mul_le_mul (by omega) (by omega)
        unfold capA; omega
      rw [if_neg (show ¬ n ≤ maxChannels from hn)]
      unfold OutputSet.writeAbstractionInto
      rw [hl]
      dsimp only [Option.bind_eq_bind, Option.bind_some]
      rw [if_pos]
      unfold collect
      rw [List.length_take, List.length_replicate]
      omega

end Sortnet.Slice
