# Formal model of jix/sortnetopt in Lean 4

## Layout

* `lean/Verif/Spec/`  – small specification: comparator networks, "sorts", lower bounds, permuted/complemented
  sets. No reference to the code. Property theorems are stated with these notions.
* `lean/Verif/Theory/` – mathematics about the specification (Huffman bound, successor rule, chains, measure).
* `lean/Verif/Model/` – executable model of the code, function by function, each definition citing file:lines.
* `lean/Verif/Proof/` – helper lemmas relating model and specification.
* `lean/Verif/Props/` – the property theorems (one file per area), each with a non-vacuity example.
* `MANIFEST.json` – property -> theorems. `seeded/LOG.jsonl` – log of seeded-bug experiments.
* `tools/gen_cert.cpp`, `tools/gen_cert.py` – the program that found the certificate of `Proof/Cert7.lean`. Nothing depends on it: the
  kernel checks the certificate.

## Trusted base

* Lean 4.33.0 kernel; axioms used by the theorems: at most `propext`, `Classical.choice`, `Quot.sound`
  (checked with `#print axioms` by `tools/axioms.sh`). No axioms of our own, no `sorry`, no `native_decide`/`bv_decide`.
* The reading of the Rust/Haskell source: no code is executed; each definition cites the lines it models.
* Rust `usize/u16/u8` are modelled by `Nat`; where overflow matters (u8 bounds, u16 abstraction, u32 ids) a
  theorem or explicit hypothesis states that values are in range.
* Slices/`ArrayVec` are lists. Out-of-range reads panic in Rust. Most models use bitmaps for which all indices are in range;
  C61 shows this for `output_set.rs` with slices, bounds checks and capacities.
* Hashing (`FxHasher`) is a parameter (arbitrary function): theorems hold for every hash function.
* Rust `HashMap/BTreeMap/BinaryHeap`, rayon `filter`/`map` (order preserving collect), the async runtime, the OS and
  the file system are represented by their documented behaviour.

## Semantics chosen for "number of comparators needed"

A network is a list of ordered pairs of channels `(i,j)`: min goes to i, max to j (any orientation). A network *sorts* a
set A of 0/1 vectors if the image of A is a chain for the pointwise order. For `A = all vectors` this is equivalent to
the usual notion (C49): sizes of generalised and of standard sorting networks coincide. Lower bound `LB A k`: every
network sorting A has >= k comparators.

## Plan per property

| id | model | proof |
|----|-------|-------|
| C01 | `Model/Checker.lean`: port of the extracted Haskell | induction over steps; successor rule + Huffman rule from Theory |
| C02 | `Model/Decode.lean`: readLE, header, step decoder, translation | corollary of C01 (soundness for any step function) |
| C03 | `par_range_all` | induction on range length |
| C04 | trie functions | structural induction, membership semantics |
| C05 | `Model/RefChecker.lean` | expected FALSE (perm not validated): counterexample + `_partial` for valid perms; for files with `Model/LazyRef.lean` |
| C06 | both checkers | set semantics of both |
| C07,C09 | `Model/Huffman.lean`: heap as sorted multiset / list | invariant: huffman <= K iff sum 2^v <= 2^K |
| C08 | Theory | token path argument + Kraft inequality |
| C10-C14,C50 | `Model/OutputSet.lean`: loops over bitmaps | loop = fold over masked indices; pointwise characterisation |
| C15,C16 | `Model/Subsume.lean`: full search with matching, undo stack, rollback | invariants: matching over-approximates permutations; rollback restores; measure for termination |
| C17,C18 | `Model/Canon.lean`: layers of candidates, partitions, fingerprints with hash parameter | equivalence-class invariant of layers |
| C19 | abstraction functions | sorted lists of a pointwise dominated family are dominated |
| C20-C22 | BFS prune | reachability invariant; saturated chain property |
| C23-C27 | `Model/Tree.lean`, `Model/Index.lean`: node arena, traversal automaton | representation invariant, refinement to a list of entries |
| C28-C33 | `Model/Search.lean`: transition system over state map, locks, tasks | invariants |
| C34,C36 | sharded map, dump | refinement to a finite map |
| C35 | explicit networks | kernel evaluation over all 2^n inputs (finite table) |
| C37,C38 | prune as function on lists; file-system transition system with crashes | induction |
| C39-C44 | `Model/ProofGen.lean` | well-founded measure; refinement to checker |
| C45 | `Model/Fix.lean` | byte-level round trip |
| C46,C47 | `Model/Pool.lean`: interleaved steps of any number of threads | invariants of the reachable states, statements about the history of events |
| C51 | `Model/Pool.lean`, infinite executions | well-founded ranks under strong fairness |
| C52 | `Model/Search.lean`, infinite executions (`Spec/Schedule.lean`) | every task has a budget which its steps use up or which they leave unchanged (`FreeStep`); an execution ends with free steps only; then induction on the rank of sets (`Proof/SearchTerm.lean`), and a second proof without fairness (`Proof/SearchFinite.lean`) |
| C53 | `Model/Wake.lean`: the model of C52 with the queue of the thread pool and the registered wakers | invariant: a task polls (and so registers its waker in) every handle it owns before it is suspended (`Proof/WakeCode.lean`); a registered waker stays registered until it is called (`Proof/Wake.lean`); in the end of an execution every resumption uses up a notification, so C52_finite applies |
| C54 | `Model/Cmd.lean`: `cmd_search` with arbitrary numbers as channels, on top of the model of the search | for channels in range the loop is the one of C10, so the initial set is the image of all vectors under the prefix; then C29 and C53. A completion is made standard without changing a standard prefix (`untangle`) |
| C55 | the model of C53; `Spec/TearDown.lean` says which references keep a task object | invariants: each task that is not cancelled has an owner (`Adopted`), wakers are held by tasks with smaller sets (`AwaitersLarger`); then C53_finite and the absence of deadlocks also for the tasks left over after the result is known |
| C56 | `Model/CanonArena.lean`: flat bitmaps, data, free list, layers of indices | simulation by the model of C17; invariant: layer, next layer and free list together are a permutation of all slots; the sizes of the parts of a partition sum up to at most n |
| C57 | `max_plus_1_huffman`, `snocheck -v` and the search, as in C02, C07, C08, C29 | C08 with all n + 1 channels extremal; the optimal merge of n + 1 equal numbers; a network with 39 comparators for 12 channels |
| C58 | `Model/FlatIndex.lean`: the index with flat vectors, strides, `unsafe` swaps and copies, the reused buffer | every function of `Model/Tree.lean` and `Model/Index.lean` is simulated by the flat one (`Proof/FlatTree.lean`, `Proof/FlatIndex.lean`); then C23-C25 |
| C59 | `Model/ConcMap.lean`: the state map with a `RwLock` per shard, callers whose steps are interleaved; `Spec/ConcMap.lean`: the map with atomic operations | forward simulation; `set`, `get` and `lock` take effect at the access to the shard, a drop of a lock when the message is sent; the number of states grows by at most one per step, so `len` meets its result; it never shrinks, so later calls give at least as many |
| C60 | `Model/Decode.lean`, both checkers; a part of a file is a prefix of its bytes | bytes beyond the end are read as 127: then the number of steps, the offset, or the number of the last reference is too large, or there are fewer references than an accepted step needs |
| C61 | `Model/SliceSet.lean`: `output_set.rs` on slices with bounds checks and capacities | each operation on slices equals the operation of `Model/OutputSet.lean` etc., for which C10-C20 hold; loops by induction on the indices left |
| C62 | `Model/SliceSubsume.lean`: `subsume.rs` on slices, vectors with capacities, 16-bit masks and the reused buffer | simulation of `Model/Subsume.lean` by fixpoint induction, then C15, C16 |
| C63 | `Model/LazyChecker.lean`: `snocheck -v` with unevaluated expressions, `none` for an exception | approximation: an evaluated result is that of `Model/Checker.lean` and `Model/Decode.lean`; definedness from the checks that precede each partial operation; then C02, C41, C44, C60 |
| C64 | `Model/Checker.lean`, `Model/LazyChecker.lean`; rules in `Spec/Accept.lean` | each check of the model is equivalent to its rule; completeness by induction on the bound: the certificate for a set contains those of its successors |
| C65 | `Model/LazyRef.lean`, `Model/LazyChecker.lean`; `Spec/RefFile.lean` | approximation as in C63; acceptance demands every witness; C64 gives the genuine permutations, then C06 |
| C66 | `Model/PoolDrop.lean`: the model of C53 with the point at which the pool is dropped; `Spec/PoolDrop.lean` | expected FALSE: a schedule executed by the kernel (`Proof/SearchFast.lean`); `_partial`: every task is a descendant of the main task or of a cancelled task |
| C67 | `prune_all` with crashes (C38) in a directory with `.pbin` files of any contents (`RerunDir`), `dump_states`, `gen_proof` | the invariant of C38, generalised; C43 and C44 for a permutation of the groups; a directory on which `gen_proof` panics |
| C68 | `Model/Pool.lean`, infinite executions | C51; the queue of runnable tasks is FIFO; after the last start a pass through the pending queue ends idle, then C47; the number of entries received with the lock is bounded by induction over the steps (`Spec/PoolRecv.lean`) |
| C69 | `Model/Workers.lean`: `Model/Wake.lean` with a fixed number of workers | refinement to C53; invariant: a task is executed by one worker, which is never blocked; C52 bounds the steps |
| C70 | `Model/DumpCrash.lean`: `dump_states` with buffers; `prune_all` with crashes (C38); `gen_proof`; both checkers | invariant relating files and buffers to C36; an incomplete line is no file, so pruning cannot pass it; C63 and C65 for a part of the log |
| C71 | `Model/Dot.lean`: `dump_dot`, `gnp --dump-index`; drawings in `Spec/Dot.lean` | the traversal that enters inner nodes and skips leaves visits the represented tree in preorder; names are injective |
| C72 | `LossStep` in `Model/PruneFile.lean`: `prune_all` with crashes, and renames of files without their last bytes; `from_packed` for short slices | after a loss the directory is like one that had the shorter file from the start, so that C38/C67 apply; prefixes of whole sets are prefixes of the list of sets, then as C70 |
| C73 | `PruneConc` in `Model/PruneCmd.lean`: processes with the command `prune` for files of one directory, interleaved, with kills | invariant `ConcInv`: each process owns its `.pbin` and `.tmp` names; the final state is determined, and compared with that of C38/C67 |
| C74 | `PruneRace` in `Model/PruneRace.lean`: processes that prune the same file; a disk with inodes and file positions | invariant `RaceInv`: every byte of a visible file is right or will still be written by a process that is running; the damage is an explicit schedule |
| C75 | `lines`, `lineChannels`, `lineBound`, `parseUInt`, `split` (`Model/Files.lean`, `Model/Dump.lean`) for all byte strings, with UTF-8 errors | the parsers are shown to be equivalent to descriptions of the accepted strings; invariant `BadInv` for `prune_all` before a bad line |
| C76 | `fmtTime`, `memUsage`, `logPrefix` in `Model/Logging.lean` | digits with padding are read back with `parseDigits`; `trim` and the prefix of the line; arithmetic |
| C77 | `Model/Script.lean`: runs of `search_and_verify.sh`, stopped anywhere, composed of C29, C36, C38, C44, C63, C70 | invariant of the `.pbin` files by induction over the runs (`GoodFile`, Spec/Script.lean); the answer by C63 and C64; a directory with two bounds for a set as a witness for `Nothing` |
| C78 | `GenRun`, `FixRun` in `Model/CertWrite.lean`: `gen-proof` and `fix-proof` step by step, with the bytes in the `BufWriter`, killed or failing anywhere | invariants `GenInv`, `FixInv`: file, buffer and what is still to be written make up the whole output; the checker by C60; a missing set leaves the last step without data |
| C79 | `Thy.checkProofGetBound` in `Model/Thy.lean`: the definitions of the Isabelle theories, with sets, multisets and formulas of Lean for those of HOL | one lemma per function, Haskell model = Isabelle definition; unspecified values are never reached where the lengths have been checked; the claim by `LB_univ_iff` and `lowerSizeBoundNat_of_LB` |
| C80 | `Snocheck.main`, `Snocheck.script` in `Model/Snocheck.lean`: arguments and files to standard output and exit status | cases on the arguments; the decimal numbers by `dec_injective`; truth by C63, the script by C77 |
| C81 | the extracted code before the patch, `Model/Unpatched.lean`: `LTrie` has unevaluated parts, `LList` is a lazy list | tries made from evaluated vectors have no unevaluated parts (`emb`); `get_bound` and `check_successors` compare the lengths, and `get_bound` the permutation, before a trie with a part that may throw is used |
| C82 | `Check.hs` with its messages, `Model/RefMsg.lean`; `RightStep` and `Says` in `Spec/RefStep.lean` | each check is an equivalence with a part of `RightStep` or gives a case of `Says`; the first step by induction on the halves of the range; without the texts it is the model of C65 (`forget_mainReference`) |
| C83 | `CmdSearch`, `dumpStates`, `CrashStep`, `genProof`, `Lazy.mainVerified`, with any limit and initial set | the log of any state map (`pipeline_log_any`); a proper subset with the same bound makes `prune_all` drop the set of all vectors; the initial set is stored, or the search stops at once and the map is empty (`root_stored`); only the main task changes the entry of the initial set, and it returns what it stored last (`Global.OwnRoot`); before the main task starts with the edges every other set in the map has fewer channels (`Reach.phase`), and its Huffman bound is final by then (`SInv.hup`) |
| C84 | the models of C29, C57, C83 and C02 for up to 9 channels | certificates for five and seven channels, found outside Lean, are accepted by the model of the verified checker (`Cert5.accepted`, `Cert7.accepted`, evaluated by the kernel); C57 gives the bounds for 6 and 8 channels |
| C85 | the model of C28 with the line of `search.rs:65-66` (`lines`, `Logged`) | where the main task can be between two lines (`Where`): in its outermost function, in `improve` for the initial set, in `improve_huffman` called by it, or in calls for sets below; `improve` returns only when the lower bound has grown or the bounds coincide (`code_imp`, `Global.Where.act`) |
| C48 | `Model/Gnp.lean` | invariant relating layers to networks |
| C49 | Spec | untangling, 0-1 principle |

## Notes on the models

* **Checker / RefChecker / Decode.** `Model/Checker.lean` ports the extracted Haskell (`par` returns its second
  argument). `Model/RefChecker.lean` ports the unverified checker; crashes are explicit outcomes. C05 is false: the
  unverified checker never checks that the permutation of a witness is one, and `C05_false` exhibits a file accepted by
  `snocheck -r` whose claim is wrong. `C05_sound_partial` is the statement for genuine permutations.
  `C05_file_partial` is the statement for whole files, in the model with exceptions. It needs two more hypotheses, because
  there are two more kinds of false answers: a step with less than three channels fills a part of a byte only, and the
  reference checker counts the other bits as further vectors (`C05_false_bits`); and the answer for a file without steps is
  read from step -1, whose table entry is at the beginning of the file, and whose place can be after the first 4 GiB
  (`C05_false_no_steps`). Files with 64 channels or more are rejected or end with an exception.
* **Huffman.** The heap is a sorted list of bytes; byte overflow is an explicit `none`.
* **Subsume.** Masks are `BitVec n`; loops without an evident measure are `partial_fixpoint` (the result `none` would be
  divergence or panic, and the theorems show that the result is `some`). Domain `n <= MAX_CHANNELS = 11`; beyond that
  the program panics (`C16_too_many_channels`).
* **Tree / Index.** The parallel arrays of the tree are combined into one list of nodes; `u8/u16/usize` are `ℕ`. The
  flag captured by the closure of `traverse` is user state. Domain 2 to 11 channels (with one channel the abstraction
  has no dimensions and the tree would panic). The assertion in `insert` can fire if the same key was added twice with the
  unchecked insertion; the theorems state the precondition. `Model/FlatIndex.lean` has the flat vectors instead of a list of
  entries, with the preconditions of `swap_nonoverlapping` and `copy_nonoverlapping`; C58 shows that it gives the same
  results. The aliasing rules of Rust are not part of it: `swap_values` and `move_node_ranges` create a second reference to
  the same vector (`tree.rs:273-275,281-282,296-297`) while they hold a pointer derived from the first one, which is
  undefined behaviour under the stacked-borrows rules, although the ranges do not overlap.
* **Canon.** The hash function is arbitrary; the arena of candidates with its free list is replaced by a list of
  candidates; sorting is insertion sort. That the fixed-capacity buffers suffice is `C17_buffer_bounds`. The arena itself is
  modelled in `Model/CanonArena.lean` and C56 shows that it gives the same result.
* **Search.** An interleaving model: each `async fn` is a list of program points (`PC`), the code between two accesses
  to shared state is a `Prog` (a tree of atomic accesses), `Act` is one atomic step of one task or of the pool.
  Over-approximations, all of which only add behaviours: a suspended task can be woken at any time, the variables of a
  function are dropped in any order, a task in the pending queue can be started at any time. Removing the lock and
  sending the message in `StateLock::drop` is one step because it happens under the write lock of the shard. Executions
  are found with a computable scheduler (`Proof/SearchExec.lean`) that is proved sound. A state in which one task waits
  for the *lock* of another is not exhibited by a concrete execution (evaluating one in the kernel is too slow); waiting
  for child tasks is.

* **StateMap / Files / Dump.** A `BTreeMap` is a list ordered by key, the hash function is arbitrary, names and files
  are lists of bytes, a directory is a function from names to contents, and input and output calls succeed.
* **PruneFile.** The output is a function of the input (the closure of the parallel filter only reads). For C38 the
  process is a transition system in which pieces of the output reach the temporary file at arbitrary times and the process
  can be killed in every state. Finding: the destructor of `BufWriter` ignores write errors, so with a full disk an
  incomplete `.pbin` file is published (`C38_io_error`).
* **ProofGen.** `load`, the in-memory indexes, the search for proof steps and the encoder follow `proof.rs`. The
  recursion of `encode_proof` is a `partial_fixpoint`; `none` is a panic or divergence. The parallel map over the sets is
  sequential (the closures only read). A `BTreeMap`/`HashMap` is an association list. `successor_bound + 1` overflowing at
  255 is a panic in the model; with the wrapping of a release build the step search finds nothing and panics too.

* **ConcMap (C59).** The access to a shard has a beginning and an end, so that a data race would be visible as two callers
  between them; the effect is at the end. A message of a lock is sent before its entry is removed; a caller that is woken up
  in between and calls `lock` again has to wait for the shard and then finds the lock free. `C59_atomic` is what the model of
  the search assumes about `Prog.get`, `Prog.set`, `Prog.lock` and the drop of a lock.
* **Incomplete certificates (C60).** `write_proof` writes the bytes of `writeProof` in order, so what is on the disk after a
  crash of the process is a prefix. (A file system that reorders writes when the machine crashes is not modelled.) The bound
  on the number of steps is the value from which on the chosen value of missing bytes is no number of a step,
  about half of what the format allows.
* **Slices (C61).** The other models use bitmaps indexed by vectors of `n` bits, so that no index is out of range.
  `Model/SliceSet.lean` transcribes `output_set.rs` once more, close to the text, with lists for slices, natural numbers for
  indices and `none` for a panic, an unchecked access out of bounds, a full `ArrayVec`, an underflow, or a loop that does
  not end. `collect` into an `ArrayVec` of version 0.5 (`Cargo.toml`) stops silently when the vector is full, and is
  modelled like this. `C61_*` connect the two models. `Model/SliceSubsume.lean` (C62) does the same for `subsume.rs`.
* **Exceptions (C63).** `Model/Checker.lean` and `Model/Decode.lean` give throwing expressions arbitrary values.  That this
  is sound was an argument in prose; `Model/LazyChecker.lean` makes it a theorem (`C63_answer`).  There, an expression that
  may be left unevaluated is an `Option`, and `none` spreads to whatever demands it.  Sparks of `par` are not modelled:
  they compute values that are demanded later or dropped.  Running out of memory is not modelled.  An exception of the
  program at an unevaluated place that the model evaluates would show as `none` in the model: `C63_no_exception` excludes it for
  decodable files.
* **Acceptance (C64).** C01 says that accepted certificates are sound.  A checker that rejects everything would satisfy
  this, and C41 only shows that the certificates of `gen_proof` are accepted.  C64 fixes the answer for every certificate.
  The list of witnesses of a step is aligned with the list of useful comparators (by second, then by first channel) or of
  extremal channels; this order is part of the specification, since `gen_proof` and the checker have to agree on it.
* **Reference checker with exceptions (C65).** `Model/LazyRef.lean` demands the parts of a step in the order of `Check.hs`.
  Sparks (`par`) whose value is not demanded have no effect. `C65_extra_bits` is a file that the verified checker accepts and
  the reference checker rejects: superfluous bits make the reference checker reject as well as accept too much.
* **The script (C77).** Finding: after a run that was stopped in `prune-all`, a second run mixes the results of two searches. If these have different bounds for a set, the certificate can be rejected although all bounds are true: `gen_proof` keeps one bound for each set (`proof.rs:97-104`) but looks up the best one. Removing the directory avoids this.
* **Certificates being written (C78).** Finding: `fix_proof` creates `proof.bin` before it knows whether the conversion is possible, and refuses to run if the file exists. After a panic or a kill the incomplete file must be removed by hand, or `gen-proof` be used. Both commands can end normally with an incomplete file if the last write fails, because errors are ignored when a `BufWriter` is dropped; the checker does not accept such a file.
* **The Isabelle definitions (C79).** The data types are shared between `Model/Checker.lean` and `Model/Thy.lean`, as they are the same in both sources. Unspecified values of HOL (`xs ! i` past the end, `the None`, `Min {}`, `the_elem`) are parameters, and so are the Haskell errors; the theorem holds for every choice of both. Differences that had to be bridged: lists for multisets and `sort_key` for `sorted_list_of_multiset`, recursion with accumulators, `par` (patched in Haskell), and the order of evaluation of conjunctions. The theorem about Huffman's algorithm in an arbitrary Huffman algebra is by induction on the expression: two cases of the associativity inequality and one of the medial law bring the two smallest values into one half.
* **What the checker prints (C80).** Findings: the exit status of `snocheck` and of `verify_proof_cert.sh` is 0 for a certificate that is rejected, so that it must not be used to decide whether the verification was successful; and the script announces `None` or `Some (w,b)`, but `Nothing` or `Just (w,b)` is printed.
* **The patch of the extracted code (C81).** The claim of the README that the patch does not change the result is true, and also for exceptions, which is not obvious: a trie of `get_bound` or `check_successors` may contain `nth` out of range, and strict fields evaluate it at once. It is the order of the tests in these functions that makes the two versions agree. Memory and time are not modelled.
* **The messages of the reference checker (C82).** Finding: `step id out of bounds` (`Check.hs:32`) cannot be printed, because every number that is looked up has been compared with the number of the step that is checked.
* **Progress lines (C85).** `Logged` adds to `Reach` the lines logged by the main task, one in the action in which it continues its outermost function after a call of `improve`. The numbers are modelled, the text of the line and the statistics logged with it are not.
* **Certificates for searches with options (C83).** Findings: (1) after `search --prefix` with a proper comparator `gen-proof` always panics, since it looks up the set of all vectors (`proof.rs:63`), which is not in the log. (2) After `search --limit L` `gen-proof` panics if at that moment another set on as many channels has the lower bound of the set of all vectors, because `prune-all` keeps only the smaller of the two. Up to 8 channels the search does not look at such sets before its last improvement (`C84_certificate`), but on 9 channels (limit 24) and 11 channels (limit 34) it does. That such an execution exists is not proved; `C84_certificate` leaves only the result 24 for 9 channels open. (3) With limit 0 or 1 the log is empty and `gen-proof` panics.
* **Processes at the same time (C73, C74).** Finding: `prune` uses a temporary name without a process number and without
  `create_new`, so that two processes that prune the same file write to the same file. If nobody is killed, the last
  writes repair it, and the result is right (C74_ends), but one process may panic in `rename`, and the `.pbin` file can be visible
  with zeros in it, which is final if the second process is killed then (C74_damage). Finding: `prune N x.tmp`
  empties its input (C73_destroys). The input is mapped into memory; it is modelled as read when the temporary file is created,
  which is the same, since no process of the model changes an input (apart from C73_destroys).
* **Lost bytes (C72).** `drop(output_file)` in `prune.rs:111` ignores errors. The model lets any last part of the output be
  missing. A loss of power may also leave zeros or old data in a file, because nothing calls `fsync`; this is not modelled.
  Finding: `gen_proof` reads the last chunk of a `.pbin` file even if it is too short, and `from_packed` then keeps the
  entries of `all_values` (C72_cut_set). `prune` itself panics for such an input, because `get_packed` slices.
* **Cut dumps (C70).** `Model/Dump.lean` (C36) has all bytes in the files at the end; C70_complete derives this from the
  model with buffers. `LogDir`, `PruneDir` and `RerunDir` only ask that the lines of the index are the names of the groups, so
  that an index without the last newline is included. A cut can go unnoticed (C70_unnoticed): the errors of the last
  flush are ignored when a `BufWriter` is dropped (`search.rs:107`), and the commands that follow do not know how many
  groups there should be.
* **Pipeline (C43, C44).** `Proof/SearchVisited.lean` shows that everything in the state map is derived from the initial set,
  `Proof/SearchLog.lean` that the set of all vectors is the only stored set on `N` channels with the final bound (so
  pruning keeps it), and `Proof/ProofComplete.lean` that the justification invariant of the search makes `prove_all`
  succeed. The log is the dump of the state map after the calls of `set` of the run. Findings: `gen_proof` panics on the
  (empty) log of a search for at most two channels (`C43_two_channels`); the argument needs a search without limit and
  without prefix, otherwise another set may subsume the root in its group; stale `.pbin` files of an earlier run are
  silently reused by `prune_all`, so the directory must not contain any.
* **Conversion (C45).** `Model/Fix.lean` is `fix_proof` on byte lists; the old format is in `Spec/OldCert.lean`. The theorem
  needs a log with one bound for each set: of several bounds the code takes the last one. Not modelled: the incomplete
  `proof.bin` that a panic leaves behind.
* **Termination (C52).** The budget of a task (`PC.pot` in `Proof/SearchCode.lean`) bounds the locks it takes, the child tasks
  it creates and the improvements it makes; a child task gets its budget from its parent. Steps that cost nothing are those
  of a task that waits: trying to get a lock again, and polling its child tasks again. The executor and the wakers of the
  futures (`async_task`, `futures::channel::oneshot`) are not modelled. What is assumed of them is either `Fair` (a task that
  from some time on can always continue makes a step), or that tasks are resumed only finitely often while they cannot
  continue and that there is no time at which some task can continue and nothing ever happens. Tasks that have been cancelled
  need not be dropped for this. C52_exists shows for every input that there are such executions.
* **Wakers (C53).** C52 assumes that a suspended task that can continue is resumed. C53 removes this assumption: in
  `Model/Wake.lean` a suspended task is only resumed if it is in the queue, and it gets into the queue only when it is scheduled
  or cancelled, when a task whose `JoinHandle` holds its waker finishes or is cancelled (one waker slot, replaced by each poll),
  or when the message of the lock it waits for is sent. What remains assumed is that workers run the tasks in the queue.
  C69 replaces this by an assumption about threads: a worker that can always make a step makes one.
* **Tear-down (C55).** `scope` drops the pool and then joins the workers, which end when the last sender of the queue is
  gone; every task object owns one. C55 shows that all task objects are freed. It does not show memory safety: tasks keep a
  reference `&pool` whose lifetime was extended by `transmute` (`thread_pool.rs:93-98`), and `drop(pool)`
  (`thread_pool.rs:213`) runs while tasks left over may still call `pool.spawn_delayed` (which clones `pool.queue`) or
  `pool.add_pending` (the comment there, "Ignore errors here, to not panic during tear down", shows that this happens). The
  fields have been dropped by then, so this is undefined behaviour of the code in the sense of Rust.
  C66 makes this precise: `C66_false` is a schedule, without unnecessary wakeups, that leads there.
* **Prefix (C54).** `apply_comparator` checks its channels with debug assertions only. In a release build a pair of equal
  channels has no effect, and a pair with a channel from `n` to 63 is silently ignored (C54_ignored); larger numbers wrap around.
* **Thread pool (C46, C47, C51, C68).** `Model/Pool.lean` is `thread_pool.rs` as steps of any number of threads, with one access to
  shared data per step. The write guard of `schedule` lives until the end of its `if let` (Rust 2018 temporaries), so the
  task is sent while the lock is held; the theorem about `is_scheduled` depends on it. The state has a ghost, the history of
  events; the properties are stated about histories in `Spec/Pool.lean`. Code inside of tasks is attributed to other threads,
  which only adds interleavings. Assumed of the libraries: channels are FIFO and do not lose messages; `async_task`'s
  `Task::schedule` calls the closure once; locks are not poisoned (a panic aborts the program). Not modelled: cancelling by
  dropping a `Handle`, `pending_id` wrapping around, errors of `send` during tear-down.
* **Generate-and-prune (C48).** `Model/Gnp.lean` is `cmd_gnp`; the order in which a hash set is drained is an arbitrary
  permutation for each call. The invariant `Layer` says that the sets of layer `k` need at least `m - k` comparators and one
  of them needs no more. A sorted set subsumes all sets of its layer (`Theory/Chain.lean`), so the last layer has one set.

## Not modelled

Memory safety of `unsafe` blocks other than the bounds and overlaps in C58 and the bounds in C61, OS threads/async executor internals, timing, the filter of the log, progress bars, jemalloc, memory limits, the proofs (as opposed to the definitions and the main theorems) in the Isabelle theories.
