import Verif.Proof.Cert5
import Verif.Proof.Cert7
import Verif.Proof.FewStates
import Verif.Props.C80
import Verif.Props.C83

/-!
# C84: what the commands print for few channels

The theorems about `search` and the checkers say how the results are related to the least size of sorting networks.  Here this
size is known: the kernel has checked certificates for five and seven channels (`Proof/Cert5.lean`, `Proof/Cert7.lean`).
-/

namespace Sortnet

open Search Files ProofGen Relation KnownBounds

/-- The least size of a sorting network on up to 8 channels, the table `known_bounds` of `search/states.rs:76`. -/
def leastSize : ℕ → ℕ
  | 2 => 1
  | 3 => 3
  | 4 => 5
  | 5 => 9
  | 6 => 12
  | 7 => 16
  | 8 => 19
  | _ => 0

/-- C84, the sizes.  The least sizes of sorting networks on 0 to 8 channels are 0, 0, 1, 3, 5, 9, 12, 16 and 19. -/
theorem C84_sizes (N : ℕ) (h8 : N ≤ 8) : MinSize N (leastSize N) := by
  interval_cases N
  · exact ⟨⟨[], by simp [Standard], fun x => Subsingleton.monotone _, rfl⟩, fun cn _ => Nat.zero_le _⟩
  · exact ⟨⟨[], by simp [Standard], fun x => Subsingleton.monotone _, rfl⟩, fun cn _ => Nat.zero_le _⟩
  · exact ⟨⟨[(0, 1)], by decide +kernel, sorting2, by decide⟩, lowerSizeBound_two⟩
  · exact ⟨⟨net3, by decide +kernel, sorting3, by decide +kernel⟩, lowerSizeBound_three⟩
  · exact ⟨⟨net4, by decide +kernel, sorting4, by decide +kernel⟩, lowerSizeBound_four⟩
  · exact ⟨⟨net5, by decide +kernel, sorting5, by decide +kernel⟩, lowerSizeBound_five⟩
  · exact ⟨⟨net6, by decide +kernel, sorting6, by decide +kernel⟩, lowerSizeBound_six⟩
  · exact ⟨⟨net7, by decide +kernel, sorting7, by decide +kernel⟩, lowerSizeBound_seven⟩
  · exact ⟨⟨net8, by decide +kernel, sorting8, by decide +kernel⟩, lowerSizeBound_eight⟩

/-- C84, the table.  Up to 8 channels, the entries of the table of the program cannot be improved. -/
theorem C84_table (N : ℕ) (h8 : N ≤ 8) : ∃ k, knownBounds[N]? = some k ∧ MinSize N k := by
  refine ⟨leastSize N, ?_, C84_sizes N h8⟩
  interval_cases N <;> rfl

theorem MinSize.unique {n k l : ℕ} (h : MinSize n k) (h' : MinSize n l) : k = l := by
  obtain ⟨⟨c, _, hc, rfl⟩, hk⟩ := h
  obtain ⟨⟨d, _, hd, rfl⟩, hl⟩ := h'
  exact Nat.le_antisymm (hk d hd) (hl c hc)

/-- C84, `search`.  In every execution, with every number of threads and every schedule, a search without limit for all vectors on
0 to 8 channels returns 0, 0, 1, 3, 5, 9, 12, 16 or 19 if it returns. -/
theorem C84_search (hash : List ℕ → ℕ) (N : ℕ) (h8 : N ≤ 8) (G : Global) (h : Run hash none ⟨N, allValues N⟩ G)
    (r : ℕ) (hr : Returned G r) : r = leastSize N :=
  (C29_sorting_network hash N (by omega) G h r hr).unique (C84_sizes N h8)

/-- C84, certificates.  Let a search for all vectors on 3 to 9 channels have returned `r`, without limit or with any limit of at least
2, and let `r` not be 24 if there are 9 channels.  Then dumping, `prune_all` (with any number of crashes) and `gen_proof` always make a certificate for which `snocheck -v`
prints `Just (N, r)`. -/
theorem C84_certificate (hash : List ℕ → ℕ) (N : ℕ) (h3 : 3 ≤ N) (h9 : N ≤ 9) (limit : Option ℕ) (hl : ∀ l ∈ limit, 2 ≤ l)
    (G : Global) (h : Run hash limit ⟨N, allValues N⟩ G) (r : ℕ) (hr : Returned G r) (h24 : N = 9 → r ≠ 24)
    (hash' : List UInt8 → ℕ) (threads : ℕ) (hist : List (OSet × State)) (hh : ∀ e ∈ hist, 3 ≤ e.1.n ∧ e.1.n ≤ 11)
    (hst : lastSet hist = G.store) (m : StateMap) (hm : (StateMap.new threads).run hash' hist = some m)
    (hsize : m.len < 2 ^ 32) (fs0 : FS) (hfresh : ∀ g, fs0 (pbinName g) = none) (fs2 : FS)
    (hp : ReflTransGen CrashStep (dumpStates m fs0, .stopped) (fs2, .done)) :
    ∃ fs3 file, genProof fs2 = some fs3 ∧ fs3 proofName = some file ∧
      Lazy.mainVerified file = some (some ((N : ℤ), (r : ℤ))) := by
  have hlb := (C83_limit hash N h3 (by omega) limit hl G h r hr hash' threads hist hh hst m hm hsize fs0 hfresh fs2 hp).1
  have key : ∀ q k : ℕ, LowerSizeBound (N - 1) q → q + Nat.clog 2 N = k → (∃ cn : List (Fin N × Fin N), SortingNetwork N cn ∧
      (cn.length ≤ k + 1 ∨ (r ≠ k + 1 ∧ cn.length ≤ k + 2))) → ∃ fs3 file, genProof fs2 = some fs3 ∧ fs3 proofName = some file ∧
      Lazy.mainVerified file = some (some ((N : ℤ), (r : ℤ))) := by
    rintro q k hq hk ⟨cn, h1, h2⟩
    have h4 := hlb cn h1
    by_cases hle : r ≤ k
    · exact C83_small_bound hash N h3 (by omega) limit hl G h r hr q hq (by omega) hash' threads hist hh hst m hm hsize fs0 hfresh fs2 hp
    · exact C83_optimal hash N h3 (by omega) limit hl G h r hr ⟨cn, h1, by omega⟩ hash' threads hist hh hst m hm hsize fs0 hfresh fs2 hp
  interval_cases N
  · exact key 1 3 lowerSizeBound_two (by decide +kernel) ⟨net3, sorting3, Or.inl (by decide)⟩
  · exact key 3 5 lowerSizeBound_three (by decide +kernel) ⟨net4, sorting4, Or.inl (by decide)⟩
  · exact key 5 8 lowerSizeBound_four (by decide +kernel) ⟨net5, sorting5, Or.inl (by decide)⟩
  · exact key 9 12 lowerSizeBound_five (by decide +kernel) ⟨net6, sorting6, Or.inl (by decide)⟩
  · exact key 12 15 lowerSizeBound_six (by decide +kernel) ⟨net7, sorting7, Or.inl (by decide)⟩
  · exact key 16 19 lowerSizeBound_seven (by decide +kernel) ⟨net8, sorting8, Or.inl (by decide)⟩
  · exact key 19 23 lowerSizeBound_eight (by decide +kernel) ⟨net9, sorting9, Or.inr ⟨h24 rfl, by decide⟩⟩

/-- C84, certificates for few channels.  For 3 to 5 channels nothing has to be assumed about the number of states: dumping the states of
a search that has returned `r`, `prune_all` (with any number of crashes) and `gen_proof` always make a certificate for which
`snocheck -v` prints `Just (N, r)`. -/
theorem C84_certificate_five (hash : List ℕ → ℕ) (N : ℕ) (h3 : 3 ≤ N) (h5 : N ≤ 5) (limit : Option ℕ) (hl : ∀ l ∈ limit, 2 ≤ l)
    (G : Global) (h : Run hash limit ⟨N, allValues N⟩ G) (r : ℕ) (hr : Returned G r)
    (hash' : List UInt8 → ℕ) (threads : ℕ) (hist : List (OSet × State)) (hh : ∀ e ∈ hist, 3 ≤ e.1.n ∧ e.1.n ≤ 11)
    (hst : lastSet hist = G.store) (m : StateMap) (hm : (StateMap.new threads).run hash' hist = some m)
    (fs0 : FS) (hfresh : ∀ g, fs0 (pbinName g) = none) (fs2 : FS)
    (hp : ReflTransGen CrashStep (dumpStates m fs0, .stopped) (fs2, .done)) :
    ∃ fs3 file, genProof fs2 = some fs3 ∧ fs3 proofName = some file ∧
      Lazy.mainVerified file = some (some ((N : ℤ), (r : ℤ))) :=
  C84_certificate hash N h3 (by omega) limit hl G h r hr (by omega) hash' threads hist hh hst m hm
    (len_five h5 h hash' threads hist hh hst m hm) fs0 hfresh fs2 hp

/-- C84, acceptance.  No file makes `snocheck -v` print `Just (N, b)` with `b` above the least size. -/
theorem C84_accepted (u : Decode.Undef) (v : Checker.Undef) (bytes : List UInt8) (N : ℕ) (h8 : N ≤ 8) (b : ℤ)
    (h : Decode.mainVerified u v bytes = some ((N : ℤ), b)) : b ≤ leastSize N := by
  have h1 := (Decode.C02_verified_pipeline_sound u v bytes _ _ h).1
  obtain ⟨⟨cn, _, hcn, hlen⟩, _⟩ := C84_sizes N h8
  have := h1 cn hcn
  omega

/-- C84, the script.  If `search_and_verify.sh` for 3 to 8 channels gets as far as the checker, in a directory without `.pbin` files, its
last line is `Just (3,3)`, `Just (4,5)`, `Just (5,9)`, `Just (6,12)`, `Just (7,16)` or `Just (8,19)`, and its exit status is 0. -/
theorem C84_script (msg : List UInt8 → Str) (N : ℕ) (h3 : 3 ≤ N) (h8 : N ≤ 8) (fs fs' : FS) (hnew : ∀ g, fs (pbinName g) = none)
    (a : Option (Option (ℤ × ℤ))) (h : Script.ScriptRun N fs fs' (.checked a)) :
    Snocheck.script msg fs' [proofName] = ⟨Snocheck.banner ++ justText N (leastSize N), 0⟩ := by
  obtain ⟨r, hr, h1⟩ := C80_search_and_verify msg h3 (by omega) hnew h
  rw [h1, hr.unique (C84_sizes N h8)]

/-- Non-vacuity: `C84_script` applies to a run for four channels. -/
example (msg : List UInt8 → Str) : ∃ fs fs' : FS, (∀ g, fs (pbinName g) = none) ∧
    Script.ScriptRun 4 fs fs' (.checked (some (some (4, 5)))) ∧
    Snocheck.script msg fs' [proofName] = ⟨Snocheck.banner ++ str "Just (4,5)\n".toList, 0⟩ := by
  obtain ⟨fs1, fs2, _, h1, _, h2, _⟩ := C77_example
  have hnew := early_pbin (fun _ => rfl) (.single h1)
  exact ⟨fs1, fs2, hnew, h2, (C84_script msg 4 (by omega) (by omega) fs1 fs2 hnew _ h2).trans (by decide +kernel)⟩

/-- Non-vacuity: there is an execution of the search on five channels that returns, and it returns 9. -/
example : ∃ G, Run (fun _ => 0) none ⟨5, allValues 5⟩ G ∧ Returned G 9 := by
  obtain ⟨A, W, ev, hA, hW, _, _, k, r, hr⟩ := C53_exists (fun _ => 0) none ⟨5, allValues 5⟩
    (by dsimp only; rw [toSet_allValues]; exact chained_univ) (by decide)
  have h : Run (fun _ => 0) none ⟨5, allValues 5⟩ (W k).G := ⟨A, hA, (hW.wreach k).reach⟩
  have : r = 9 := C84_search _ 5 (by omega) _ h r hr
  exact ⟨_, h, this ▸ hr⟩

/-- Non-vacuity: the hypotheses of `C84_certificate` are met after a search on four channels with limit 2. -/
example : ∃ (G : Global) (hist : List (OSet × State)) (m : StateMap) (fs2 : FS),
    Run (fun _ => 0) (some 2) ⟨4, allValues 4⟩ G ∧ Returned G 3 ∧ lastSet hist = G.store ∧
    (StateMap.new 8).run (fun _ => 0) hist = some m ∧ m.len < 2 ^ 32 ∧
    ReflTransGen CrashStep (dumpStates m fun _ => none, .stopped) (fs2, .done) := by
  obtain ⟨G, hist, m, fs2, _, _, h1, h2, h3, h4, h5, h6, _⟩ := C83_example
  exact ⟨G, hist, m, fs2, h1, h2, h3, h4, h5, h6⟩

end Sortnet
