{
 "claims": [
  {
   "property": "C01",
   "status": "proved",
   "theorems": [
    "Sortnet.Checker.C01_checker_sound",
    "Sortnet.Checker.C01_every_step",
    "Sortnet.Checker.C01_undef_irrelevant"
   ],
   "note": "For every certificate (any step function) an answer of check_proof_get_bound is a true lower bound, also for networks over all natural numbers as in the Isabelle statement."
  },
  {
   "property": "C02",
   "status": "proved",
   "theorems": [
    "Sortnet.Decode.C02_verified_pipeline_sound",
    "Sortnet.Decode.C02_answer"
   ],
   "note": "Decoding, translation and the extracted checker are modelled; reading the file and printing are not."
  },
  {
   "property": "C03",
   "status": "proved",
   "theorems": [
    "Sortnet.Checker.C03_par_range_all",
    "Sortnet.Checker.C03_check_proof",
    "Sortnet.Checker.C03_earlier_steps"
   ],
   "note": "GHC's evaluation of sparks is modelled as returning the second argument of par."
  },
  {
   "property": "C04",
   "status": "proved",
   "theorems": [
    "Sortnet.Checker.C04_build",
    "Sortnet.Checker.C04_list",
    "Sortnet.Checker.C04_size",
    "Sortnet.Checker.C04_union",
    "Sortnet.Checker.C04_subset",
    "Sortnet.Checker.C04_prune",
    "Sortnet.Checker.C04_permute",
    "Sortnet.Checker.C04_invert"
   ],
   "note": ""
  },
  {
   "property": "C05",
   "status": "partial",
   "theorems": [
    "Sortnet.Decode.C05_false",
    "Sortnet.Ref.C05_sound_partial",
    "Sortnet.C05_file_partial",
    "Sortnet.C05_false_permutation",
    "Sortnet.C05_false_bits",
    "Sortnet.C05_false_no_steps",
    "Sortnet.C05_example",
    "Sortnet.Decode.C05_badFile_verified"
   ],
   "note": "The property is false: C05_false exhibits a file accepted by `snocheck -r` whose claim is wrong (the permutation of a witness is not checked). Proved for certificates with genuine permutations (C05_sound_partial), and for files, with exceptions and with the weakest hypotheses found (C05_file_partial); a counterexample for each hypothesis shows that it is needed."
  },
  {
   "property": "C06",
   "status": "proved",
   "theorems": [
    "Sortnet.Ref.C06_agree",
    "Sortnet.Ref.C06_files",
    "Sortnet.Ref.C06_no_steps",
    "Sortnet.Ref.C06_bound_zero"
   ],
   "note": "Well-formedness: at least one step, genuine permutations, vectors without superfluous bits, fewer than 64 channels, no successor step with bound 0; the last two theorems show that the checkers differ otherwise."
  },
  {
   "property": "C07",
   "status": "proved",
   "theorems": [
    "Sortnet.C07_optimal",
    "Sortnet.C07_closed_form",
    "Sortnet.C07_overflow",
    "Sortnet.C07_empty",
    "Sortnet.C07_order",
    "Sortnet.C07_monotone"
   ],
   "note": "Values are bytes; an overflow of the byte arithmetic is an explicit outcome, characterised by C07_overflow."
  },
  {
   "property": "C08",
   "status": "proved",
   "theorems": [
    "Sortnet.C08_math",
    "Sortnet.C08_program"
   ],
   "note": ""
  },
  {
   "property": "C09",
   "status": "proved",
   "theorems": [
    "Sortnet.C09_checkers",
    "Sortnet.C09_rust",
    "Sortnet.C09_empty"
   ],
   "note": ""
  },
  {
   "property": "C10",
   "status": "proved",
   "theorems": [
    "Sortnet.C10_apply_comparator",
    "Sortnet.C10_redundant"
   ],
   "note": ""
  },
  {
   "property": "C11",
   "status": "proved",
   "theorems": [
    "Sortnet.C11_swap_channels",
    "Sortnet.C11_invert",
    "Sortnet.C11_bounds"
   ],
   "note": ""
  },
  {
   "property": "C12",
   "status": "proved",
   "theorems": [
    "Sortnet.C12_round_trip",
    "Sortnet.C12_unpack_into",
    "Sortnet.C12_injective",
    "Sortnet.C12_from_packed"
   ],
   "note": ""
  },
  {
   "property": "C13",
   "status": "proved",
   "theorems": [
    "Sortnet.C13_is_sorted",
    "Sortnet.C13_is_sorted_UB",
    "Sortnet.C13_is_sorted_len",
    "Sortnet.C13_chain_is_sorted",
    "Sortnet.C13_needs_chained"
   ],
   "note": ""
  },
  {
   "property": "C14",
   "status": "proved",
   "theorems": [
    "Sortnet.C14_subsumes_unpermuted"
   ],
   "note": ""
  },
  {
   "property": "C15",
   "status": "proved",
   "theorems": [
    "Sortnet.C15_sound"
   ],
   "note": ""
  },
  {
   "property": "C16",
   "status": "proved",
   "theorems": [
    "Sortnet.C16_complete",
    "Sortnet.C16_too_many_channels"
   ],
   "note": "Up to MAX_CHANNELS channels, the range in which the program works; beyond it the call panics."
  },
  {
   "property": "C17",
   "status": "proved",
   "theorems": [
    "Sortnet.C17_witness",
    "Sortnet.C17_too_many_channels",
    "Sortnet.C17_buffer_bounds"
   ],
   "note": "Up to MAX_CHANNELS channels, the range in which the program works, and for every hash function. The arena with its free list is not modelled."
  },
  {
   "property": "C18",
   "status": "proved",
   "theorems": [
    "Sortnet.C18_canonical",
    "Sortnet.C18_iff",
    "Sortnet.C18_idempotent"
   ],
   "note": "Up to MAX_CHANNELS channels, the range in which the program works, and for every hash function. The arena with its free list is not modelled."
  },
  {
   "property": "C19",
   "status": "proved",
   "theorems": [
    "Sortnet.C19_abstraction_monotone",
    "Sortnet.C19_fits_u16",
    "Sortnet.C19_zero_channels"
   ],
   "note": "Between 1 and MAX_CHANNELS channels, the range in which the program works."
  },
  {
   "property": "C20",
   "status": "proved",
   "theorems": [
    "Sortnet.C20_channel_is_extremal",
    "Sortnet.C20_prune",
    "Sortnet.C20_prune_subset",
    "Sortnet.C20_prune_no_overflow"
   ],
   "note": ""
  },
  {
   "property": "C21",
   "status": "proved",
   "theorems": [
    "Sortnet.C21_single_extremal"
   ],
   "note": ""
  },
  {
   "property": "C22",
   "status": "proved",
   "theorems": [
    "Sortnet.C22_reachable_chained",
    "Sortnet.C22_preserved"
   ],
   "note": ""
  },
  {
   "property": "C23",
   "status": "proved",
   "theorems": [
    "Sortnet.C23_lookup_best",
    "Sortnet.C23_history_total"
   ],
   "note": "2 to MAX_CHANNELS channels, the range in which the program uses an index. Capacity effects of the u8/u16 fields are outside the model (values are natural numbers)."
  },
  {
   "property": "C24",
   "status": "proved",
   "theorems": [
    "Sortnet.C24_lookup_subsuming_witness"
   ],
   "note": "2 to MAX_CHANNELS channels, the range in which the program uses an index. Capacity effects of the u8/u16 fields are outside the model (values are natural numbers)."
  },
  {
   "property": "C25",
   "status": "proved",
   "theorems": [
    "Sortnet.C25_insert_as_if_added",
    "Sortnet.C25_answers_improve"
   ],
   "note": "2 to MAX_CHANNELS channels, the range in which the program uses an index. Capacity effects of the u8/u16 fields are outside the model (values are natural numbers)."
  },
  {
   "property": "C26",
   "status": "proved",
   "theorems": [
    "Sortnet.C26_reported_entries",
    "Sortnet.C26_insertNew_adds_one",
    "Sortnet.C26_insert_replaces",
    "Sortnet.C26_all_kept"
   ],
   "note": "2 to MAX_CHANNELS channels, the range in which the program uses an index. Capacity effects of the u8/u16 fields are outside the model (values are natural numbers)."
  },
  {
   "property": "C27",
   "status": "proved",
   "theorems": [
    "Sortnet.C27_antichain",
    "Sortnet.C27_insert_returns"
   ],
   "note": "2 to MAX_CHANNELS channels, the range in which the program uses an index. Capacity effects of the u8/u16 fields are outside the model (values are natural numbers)."
  },
  {
   "property": "C28",
   "status": "proved",
   "theorems": [
    "Sortnet.C28_stored_bounds",
    "Sortnet.C28_entries"
   ],
   "note": "Every interleaving of tasks at accesses to shared state, every cancellation, every hash function; initial sets with up to MAX_CHANNELS channels. The async executor is represented by an over-approximation (any task that is not blocked may run)."
  },
  {
   "property": "C29",
   "status": "proved",
   "theorems": [
    "Sortnet.C29_exact",
    "Sortnet.C29_limit",
    "Sortnet.C29_sorting_network",
    "Sortnet.C29_three_four"
   ],
   "note": "Every interleaving of tasks at accesses to shared state, every cancellation, every hash function; initial sets with up to MAX_CHANNELS channels. The async executor is represented by an over-approximation (any task that is not blocked may run)."
  },
  {
   "property": "C30",
   "status": "proved",
   "theorems": [
    "Sortnet.C30_monotone"
   ],
   "note": "Every interleaving of tasks at accesses to shared state, every cancellation, every hash function; initial sets with up to MAX_CHANNELS channels. The async executor is represented by an over-approximation (any task that is not blocked may run)."
  },
  {
   "property": "C31",
   "status": "proved",
   "theorems": [
    "Sortnet.C31_mutual_exclusion",
    "Sortnet.C31_write_needs_lock",
    "Sortnet.C31_entry_iff_held",
    "Sortnet.C31_release_wakes",
    "Sortnet.C31_no_lost_wakeup",
    "Sortnet.C31_no_panic",
    "Sortnet.C31_finished_holds_nothing"
   ],
   "note": "Every interleaving of tasks at accesses to shared state, every cancellation, every hash function; initial sets with up to MAX_CHANNELS channels. The async executor is represented by an over-approximation (any task that is not blocked may run)."
  },
  {
   "property": "C32",
   "status": "proved",
   "theorems": [
    "Sortnet.C32_acyclic",
    "Sortnet.C32_children_smaller",
    "Sortnet.C32_progress",
    "Sortnet.C32_never_stuck",
    "Sortnet.C32_rank_wellFounded"
   ],
   "note": "Every interleaving of tasks at accesses to shared state, every cancellation, every hash function; initial sets with up to MAX_CHANNELS channels. The async executor is represented by an over-approximation (any task that is not blocked may run)."
  },
  {
   "property": "C33",
   "status": "proved",
   "theorems": [
    "Sortnet.C33_self_justified",
    "Sortnet.C33_sound",
    "Sortnet.C33_root"
   ],
   "note": "Every interleaving of tasks at accesses to shared state, every cancellation, every hash function; initial sets with up to MAX_CHANNELS channels. The async executor is represented by an over-approximation (any task that is not blocked may run)."
  },
  {
   "property": "C34",
   "status": "proved",
   "theorems": [
    "Sortnet.C34_last_set",
    "Sortnet.C34_refines_store",
    "Sortnet.C34_out_of_range",
    "Sortnet.C34_drain",
    "Sortnet.C34_locks"
   ],
   "note": "Every history of set calls, every hash function. The per-shard lock and the unchecked slice conversions are not modelled."
  },
  {
   "property": "C35",
   "status": "proved",
   "theorems": [
    "Sortnet.C35_known_bounds",
    "Sortnet.C35_default_bounds"
   ],
   "note": "The networks are checked on all 2^n inputs by kernel evaluation, which is the whole finite table."
  },
  {
   "property": "C36",
   "status": "proved",
   "theorems": [
    "Sortnet.C36_dump_states",
    "Sortnet.C36_names",
    "Sortnet.C36_read_index",
    "Sortnet.C36_read_group"
   ],
   "note": "Every content of the state map. Input and output calls succeed; a directory is a function from names to byte lists."
  },
  {
   "property": "C37",
   "status": "proved",
   "theorems": [
    "Sortnet.C37_prune",
    "Sortnet.C37_unique",
    "Sortnet.C37_example"
   ],
   "note": "Every content of the input file, 3 to MAX_CHANNELS channels (the channel counts that the search writes). The parallel filter is pure and keeps the order, so the evaluation order does not appear."
  },
  {
   "property": "C38",
   "status": "proved",
   "theorems": [
    "Sortnet.C38_never_partial",
    "Sortnet.C38_same_result",
    "Sortnet.C38_recovers",
    "Sortnet.C38_io_error"
   ],
   "note": "Every crash point of prune_all, any number of crashes, output reaching the file in pieces of any size. A crash is a killed process; loss of file system caches is not modelled. C38_io_error: the property needs the flush on drop to succeed."
  },
  {
   "property": "C39",
   "status": "proved",
   "theorems": [
    "Sortnet.C39_encode_terminates",
    "Sortnet.C39_no_cycle",
    "Sortnet.C39_gen_proof"
   ],
   "note": "Every directory with an index, group files and 2 to MAX_CHANNELS channels per group; the sets and bounds in it are arbitrary. Parallel iteration over the sets is pure and modelled as a sequential one."
  },
  {
   "property": "C40",
   "status": "proved",
   "theorems": [
    "Sortnet.C40_references"
   ],
   "note": "Every directory with an index, group files and 2 to MAX_CHANNELS channels per group; the sets and bounds in it are arbitrary. Parallel iteration over the sets is pure and modelled as a sequential one."
  },
  {
   "property": "C41",
   "status": "proved",
   "theorems": [
    "Sortnet.C41_accepts",
    "Sortnet.C41_correct_bounds",
    "Sortnet.C41_small_bound",
    "Sortnet.C41_example"
   ],
   "note": "Every directory with an index, group files and 2 to MAX_CHANNELS channels per group; the sets and bounds in it are arbitrary. Parallel iteration over the sets is pure and modelled as a sequential one. The checker is the model of Verified/Checker.hs with the decoder of Decode.hs in front of it; the values of throwing expressions are arbitrary."
  },
  {
   "property": "C42",
   "status": "proved",
   "theorems": [
    "Sortnet.C42_round_trip",
    "Sortnet.C42_length",
    "Sortnet.C42_injective"
   ],
   "note": "Every list of fewer than 2^32 steps with fewer than 64 channels, bounds below 256, 32-bit references and permutations on the right number of channels. The total size must be below 2^63, as for every file."
  },
  {
   "property": "C43",
   "status": "proved",
   "theorems": [
    "Sortnet.C43_provable",
    "Sortnet.C43_hypotheses",
    "Sortnet.C43_two_channels"
   ],
   "note": "Every completed execution of the search without limit for 3 to MAX_CHANNELS channels, every number of shards, every crash history of prune_all. Needs a directory without old .pbin files. C43_two_channels: for at most two channels the log is empty and gen_proof panics."
  },
  {
   "property": "C44",
   "status": "proved",
   "theorems": [
    "Sortnet.C44_pipeline",
    "Sortnet.C44_example"
   ],
   "note": "Composition of C29, C34, C36, C38, C43 and C41; needs fewer than 2^32 logged states because step ids are u32. snocheck is the model of Decode.hs, Verified/Checker.hs and the -v branch of Main.hs."
  },
  {
   "property": "C45",
   "status": "proved",
   "theorems": [
    "Sortnet.C45_inserts",
    "Sortnet.C45_certificate",
    "Sortnet.C45_missing",
    "Sortnet.C45_exists",
    "Sortnet.C45_example"
   ],
   "note": "Byte-level, for arbitrary bytes after the sets and for certificates; together with C42 the decoder finds the steps with their bounds. The log must have one bound for each set."
  },
  {
   "property": "C46",
   "status": "proved",
   "theorems": [
    "Sortnet.C46_schedule",
    "Sortnet.C46_count",
    "Sortnet.C46_queue",
    "Sortnet.C46_example"
   ],
   "note": "Model/Pool.lean is thread_pool.rs as interleaved steps, one access to shared data each. Threads and their use of the pool are arbitrary."
  },
  {
   "property": "C47",
   "status": "proved",
   "theorems": [
    "Sortnet.C47_order",
    "Sortnet.C47_kept",
    "Sortnet.C47_dropped",
    "Sortnet.C47_dropped_refs",
    "Sortnet.C47_no_leak",
    "Sortnet.C47_example",
    "Sortnet.C47_example_leak"
   ],
   "note": "Minimal among the entries added before the worker has locked the queue; entries that arrive later may or may not be considered. pending_id does not wrap around."
  },
  {
   "property": "C48",
   "status": "proved",
   "theorems": [
    "Sortnet.C48_gnp",
    "Sortnet.C48_too_many",
    "Sortnet.C48_example"
   ],
   "note": "Every n from 2 to MAX_CHANNELS, every hash function, every order of draining the hash sets. The result of the model is the list of logged layer sizes; the dump of the index (dump_index) is in C71."
  },
  {
   "property": "C49",
   "status": "proved",
   "theorems": [
    "Sortnet.C49_zero_one",
    "Sortnet.C49_standard",
    "Sortnet.C49_optimum",
    "Sortnet.C49_lower_bound"
   ],
   "note": ""
  },
  {
   "property": "C50",
   "status": "proved",
   "theorems": [
    "Sortnet.C50_is_channel_unconstrained"
   ],
   "note": ""
  },
  {
   "property": "C51",
   "status": "proved",
   "theorems": [
    "Sortnet.C51_no_deadlock",
    "Sortnet.C51_schedule_returns",
    "Sortnet.C51_unlocks",
    "Sortnet.C51_locks",
    "Sortnet.C51_example"
   ],
   "note": "Progress under strong fairness; the locks are modelled as in C46 and C47."
  },
  {
   "property": "C52",
   "status": "proved",
   "theorems": [
    "Sortnet.C52_terminates",
    "Sortnet.C52_finite",
    "Sortnet.C52_every_scheduler",
    "Sortnet.C52_total",
    "Sortnet.C52_tasks_bounded",
    "Sortnet.C52_exists",
    "Sortnet.C52_sorting_network"
   ],
   "note": "The model of C28 to C33. That the executor resumes a suspended task after one of its children has finished, and a task waiting for a lock after it was released, is the assumption Fair (or that the scheduler does not stop while some task can continue)."
  },
  {
   "property": "C53",
   "status": "proved",
   "theorems": [
    "Sortnet.C53_no_lost_wakeup",
    "Sortnet.C53_not_idle",
    "Sortnet.C53_finite",
    "Sortnet.C53_returns",
    "Sortnet.C53_total",
    "Sortnet.C53_exists",
    "Sortnet.C53_all_states"
   ],
   "note": "The model of C52 extended by the queue, the waker slot of each JoinHandle and the wakers of the lock receivers (Model/Wake.lean). The behaviour of async_task, of futures::oneshot and of Shared is part of the model; the order of the queue is arbitrary; that a worker takes a task from a non-empty queue is the assumption of C53_returns (C51 shows that the workers do not deadlock)."
  },
  {
   "property": "C54",
   "status": "proved",
   "theorems": [
    "Sortnet.C54_exact",
    "Sortnet.C54_standard",
    "Sortnet.C54_limit",
    "Sortnet.C54_total",
    "Sortnet.C54_returns",
    "Sortnet.C54_args",
    "Sortnet.C54_odd",
    "Sortnet.C54_ignored"
   ],
   "note": "cmd_search in a release build (no debug assertions, shifts modulo 64). Parsing of the command line is not modelled."
  },
  {
   "property": "C55",
   "status": "proved",
   "theorems": [
    "Sortnet.C55_teardown",
    "Sortnet.C55_not_idle",
    "Sortnet.C55_owner",
    "Sortnet.C55_result",
    "Sortnet.C55_exists"
   ],
   "note": "The model of C53. Spec/TearDown.lean lists the references between task objects: handles in variables and wakers in the slots of JoinHandles. That a task that was never scheduled is dropped with its Schedule is part of the model. Unsoundness of using the pool while it is being dropped is not covered (see DESIGN.md)."
  },
  {
   "property": "C56",
   "status": "proved",
   "theorems": [
    "Sortnet.C56_same",
    "Sortnet.C56_witness",
    "Sortnet.C56_canonical"
   ],
   "note": "Model/CanonArena.lean: the flat vector of bitmaps, the vector of data, the free list and the layers of indices. The computations on one candidate are those of Model/Canon.lean."
  },
  {
   "property": "C57",
   "status": "proved",
   "theorems": [
    "Sortnet.C57_next_width",
    "Sortnet.C57_huffman",
    "Sortnet.C57_twelve",
    "Sortnet.C57_checked",
    "Sortnet.C57_checked_twelve",
    "Sortnet.C57_search"
   ],
   "note": "The result for 12 channels is conditional on an accepted file or a finished search for 11 channels: neither fits in this model as a concrete value. The network with 39 comparators is checked by the kernel on all 4096 vectors."
  },
  {
   "property": "C58",
   "status": "proved",
   "theorems": [
    "Sortnet.C58_refines",
    "Sortnet.C58_lookup_best",
    "Sortnet.C58_insert",
    "Sortnet.C58_insertNew"
   ],
   "note": "Model/FlatIndex.lean: the vectors of tree.rs and index.rs with their strides; none is a panic, a violated precondition of an unsafe call or an overflow. For histories that mix both insertions the theorems are about those on which the index with lists of entries does not panic. Not covered: the aliasing rules for the pointers (see DESIGN.md)."
  },
  {
   "property": "C59",
   "status": "proved",
   "theorems": [
    "Sortnet.C59_atomic",
    "Sortnet.C59_no_race",
    "Sortnet.C59_no_panic",
    "Sortnet.C59_mutual_exclusion",
    "Sortnet.C59_progress",
    "Sortnet.C59_no_lost_wakeup",
    "Sortnet.C59_len",
    "Sortnet.C59_len_grows"
   ],
   "note": "Model/ConcMap.lean: RwLock per shard, calls as sequences of steps. Spec/ConcMap.lean: the map with atomic operations; the model of the search (C28-C33) uses atomic operations and this is the justification. Locks and channels are sequentially consistent; the inside of RwLock and oneshot is not modelled."
  },
  {
   "property": "C60",
   "status": "proved",
   "theorems": [
    "Sortnet.C60_reference",
    "Sortnet.C60_verified",
    "Sortnet.C60_gen_proof",
    "Sortnet.C60_example"
   ],
   "note": "Spec/Truncated.lean: accepting means that the model accepts for every choice of the values of throwing expressions. The proof gives one choice for which a part of a file is not accepted. C60_gen_proof: the files of gen_proof under the hypotheses of C41."
  },
  {
   "property": "C61",
   "status": "proved",
   "theorems": [
    "Sortnet.C61_holds",
    "Sortnet.C61_all_values",
    "Sortnet.C61_apply_comparator",
    "Sortnet.C61_swap_invert",
    "Sortnet.C61_copy_from",
    "Sortnet.C61_counts",
    "Sortnet.C61_is_sorted",
    "Sortnet.C61_tests",
    "Sortnet.C61_prune",
    "Sortnet.C61_pack",
    "Sortnet.C61_unchecked",
    "Sortnet.C61_counters",
    "Sortnet.C61_abstraction",
    "Sortnet.C61_above"
   ],
   "note": "Model/SliceSet.lean is output_set.rs again, on lists with numbers as indices and none for everything that must not happen; Spec/SliceSet.lean says when such a slice stores a set. Sums in usize and u16 are natural numbers; C13 and C19 bound them."
  },
  {
   "property": "C62",
   "status": "proved",
   "theorems": [
    "Sortnet.C62_subsumes_permuted",
    "Sortnet.C62_mismatch",
    "Sortnet.C62_above"
   ],
   "note": "Model/SliceSubsume.lean is subsume.rs again on the slices of C61; it is shown to simulate Model/Subsume.lean step by step, so C15 and C16 carry over."
  },
  {
   "property": "C63",
   "status": "proved",
   "theorems": [
    "Sortnet.C63_answer",
    "Sortnet.C63_sound",
    "Sortnet.C63_no_exception",
    "Sortnet.C63_written",
    "Sortnet.C63_incomplete",
    "Sortnet.C63_gen_proof",
    "Sortnet.C63_pipeline",
    "Sortnet.C63_short_header",
    "Sortnet.C63_api_exception"
   ],
   "note": "Model/LazyChecker.lean is the Haskell program with unevaluated expressions; none is an exception. It approximates the models of C01 and C02 from below, and is defined where the decoder is."
  },
  {
   "property": "C64",
   "status": "proved",
   "theorems": [
    "Sortnet.C64_accepts_iff",
    "Sortnet.C64_file_iff",
    "Sortnet.C64_sound",
    "Sortnet.C64_complete",
    "Sortnet.C64_width",
    "Sortnet.C64_vectors",
    "Sortnet.C64_prefix",
    "Sortnet.C64_example",
    "Sortnet.C64_example_file",
    "Sortnet.C64_not_certified"
   ],
   "note": "Spec/Accept.lean states the rules with sets of vectors, without tries, folds or the functions of the checker. Completeness builds a certificate from successor steps only."
  },
  {
   "property": "C65",
   "status": "proved",
   "theorems": [
    "Sortnet.C65_answer",
    "Sortnet.C65_no_exception",
    "Sortnet.C65_accepted_full",
    "Sortnet.C65_accepted_full_verified",
    "Sortnet.C65_written",
    "Sortnet.C65_reference_of_verified",
    "Sortnet.C65_verified_of_reference",
    "Sortnet.C65_written_verified",
    "Sortnet.C65_incomplete",
    "Sortnet.C65_gen_proof",
    "Sortnet.C65_pipeline",
    "Sortnet.C65_short_header",
    "Sortnet.C65_no_steps",
    "Sortnet.C65_file3",
    "Sortnet.C65_rejected",
    "Sortnet.C65_not_demanded",
    "Sortnet.C65_extra_bits",
    "Sortnet.C65_bound_zero"
   ],
   "note": "C65_extra_bits, C65_bound_zero and the counterexamples of C05 show that the hypotheses are needed."
  },
  {
   "property": "C66",
   "status": "partial",
   "theorems": [
    "Sortnet.C66_partial",
    "Sortnet.C66_result",
    "Sortnet.C66_false"
   ],
   "note": "The property is false: C66_false exhibits an execution in which the search has returned, the pool has been dropped, and a running task is about to spawn a child task. C66_partial says which tasks can do this."
  },
  {
   "property": "C67",
   "status": "proved",
   "theorems": [
    "Sortnet.C67_prune",
    "Sortnet.C67_prune_again",
    "Sortnet.C67_gen_again",
    "Sortnet.C67_second_search",
    "Sortnet.C67_stale"
   ],
   "note": "C67_stale shows that C43 and C44 need a directory without old .pbin files. The old contents in it are arbitrary, not those of an earlier search. Whatever happens, an accepted certificate is right (C02)."
  },
  {
   "property": "C68",
   "status": "proved",
   "theorems": [
    "Sortnet.C68_run",
    "Sortnet.C68_started",
    "Sortnet.C68_drained",
    "Sortnet.C68_pending",
    "Sortnet.C68_example",
    "Sortnet.C68_receives",
    "Sortnet.C68_receives_example"
   ],
   "note": "The model of C46, C47 and C51. Clients need not do anything. That a worker does not end is a hypothesis: it ends when the queue is disconnected, see C55. Running a task is one step; what the task does is done by other threads."
  },
  {
   "property": "C69",
   "status": "proved",
   "theorems": [
    "Sortnet.C69_running",
    "Sortnet.C69_not_blocked",
    "Sortnet.C69_not_idle",
    "Sortnet.C69_finite",
    "Sortnet.C69_returns",
    "Sortnet.C69_total",
    "Sortnet.C69_teardown",
    "Sortnet.C69_exists",
    "Sortnet.C69_example",
    "Sortnet.C69_no_workers"
   ],
   "note": "The model of C53 extended by the workers (Model/Workers.lean). FairWorkers: a worker that could always make a step makes one; for a worker that is about to take a task this is what C51 and C68 show about the code between two tasks. OrphansDropped: a task that is never scheduled is dropped together with its last reference. How the futures are polled is part of the model of async_task."
  },
  {
   "property": "C70",
   "status": "proved",
   "theorems": [
    "Sortnet.C70_complete",
    "Sortnet.C70_exists",
    "Sortnet.C70_prefix",
    "Sortnet.C70_prune",
    "Sortnet.C70_certificate",
    "Sortnet.C70_empty",
    "Sortnet.C70_stuck",
    "Sortnet.C70_unnoticed",
    "Sortnet.C70_example"
   ],
   "note": "dump_states with the buffers of its writers (Model/DumpCrash.lean): pieces of a buffer reach the file at any time, and the files of any state that is reached are what a cut leaves behind. Fewer than 2^32 states. Bytes that were written to a file are not lost (no power failure)."
  },
  {
   "property": "C71",
   "status": "proved",
   "theorems": [
    "Sortnet.C71_drawing",
    "Sortnet.C71_gnp",
    "Sortnet.C71_forest",
    "Sortnet.C71_example",
    "Sortnet.C71_example_gnp"
   ],
   "note": "Model/Dot.lean: dump_dot with the text it writes, and the loop of gnp with the files. Errors when writing are not modelled."
  },
  {
   "property": "C72",
   "status": "proved",
   "theorems": [
    "Sortnet.C72_prefix",
    "Sortnet.C72_no_repair",
    "Sortnet.C72_possible",
    "Sortnet.C72_cut_set",
    "Sortnet.C72_certificate",
    "Sortnet.C72_example",
    "Sortnet.C72_example_cut",
    "Sortnet.C72_example_certificate"
   ],
   "note": "LossStep in Model/PruneFile.lean. C72_possible shows that any prefixes can be the result. The acceptance of the certificate is claimed only if no file ends inside a set; the soundness of an accepted certificate (C01, C02, C63) does not need this."
  },
  {
   "property": "C73",
   "status": "proved",
   "theorems": [
    "Sortnet.C73_safe",
    "Sortnet.C73_same_result",
    "Sortnet.C73_ends",
    "Sortnet.concDir_groups",
    "Sortnet.C73_prune_all",
    "Sortnet.C73_destroys",
    "Sortnet.C73_example"
   ],
   "note": "PruneConc in Model/PruneCmd.lean. C73_destroys is the case that the hypothesis on the names excludes: an input with the extension .tmp."
  },
  {
   "property": "C74",
   "status": "proved",
   "theorems": [
    "Sortnet.C74_ends",
    "Sortnet.C74_progress",
    "Sortnet.C74_damage",
    "Sortnet.C74_damage_differs",
    "Sortnet.C74_example"
   ],
   "note": "PruneRace in Model/PruneRace.lean, with inodes, since the processes share open files. C74_damage is the negative part: an explicit schedule for which a damaged file is visible, and stays if a process is killed."
  },
  {
   "property": "C75",
   "status": "proved",
   "theorems": [
    "Sortnet.C75_channels",
    "Sortnet.C75_bound",
    "Sortnet.C75_lines",
    "Sortnet.C75_prune_stops",
    "Sortnet.C75_gen_stops",
    "Sortnet.C75_example"
   ],
   "note": "The forms of the lines are in Spec/IndexLine.lean. UTF-8 is that of Lean's core library, described with String.utf8EncodeChar."
  },
  {
   "property": "C76",
   "status": "proved",
   "theorems": [
    "Sortnet.C76_time",
    "Sortnet.C76_time_injective",
    "Sortnet.C76_mem",
    "Sortnet.C76_line",
    "Sortnet.C76_unknown",
    "Sortnet.C76_no_memory",
    "Sortnet.C76_example",
    "Sortnet.C76_unknown_example"
   ],
   "note": "Model/Logging.lean; the clock and the status file are inputs. env_logger and its filter are not modelled."
  },
  {
   "property": "C77",
   "status": "proved",
   "theorems": [
    "Sortnet.C77_sound",
    "Sortnet.C77_early",
    "Sortnet.C77_files",
    "Sortnet.C77_kept",
    "Sortnet.C77_again",
    "Sortnet.C77_two_bounds",
    "Sortnet.C77_example"
   ],
   "note": "The script as the composition of the models of the commands (Model/Script.lean). Compilation and directories are not modelled; a command that has ended has written all bytes (see C60, C70, C72 for lost bytes). Fewer than 2^32 states. C77_two_bounds is about a directory with correct files; it is not shown that two searches leave such files."
  },
  {
   "property": "C78",
   "status": "proved",
   "theorems": [
    "Sortnet.C78_gen_files",
    "Sortnet.C78_gen_panic",
    "Sortnet.C78_gen_again",
    "Sortnet.C78_gen_checker",
    "Sortnet.C78_fix_files",
    "Sortnet.C78_fix_blocked",
    "Sortnet.C78_fix_done",
    "Sortnet.C78_fix_runs",
    "Sortnet.C78_fix_checker",
    "Sortnet.C78_fix_missing",
    "Sortnet.C78_fix_then_gen",
    "Sortnet.C78_gen_example",
    "Sortnet.C78_fix_example",
    "Sortnet.C78_fix_blocked_example"
   ],
   "note": "Step relations for both commands with a BufWriter that hands over bytes at any time (Model/CertWrite.lean). No other process changes the files, and the power does not fail. For the checker fewer than 127 * 2^24 steps, as in C60."
  },
  {
   "property": "C79",
   "status": "proved",
   "theorems": [
    "Sortnet.C79_extraction",
    "Sortnet.C79_claim",
    "Sortnet.C79_spec",
    "Sortnet.C79_huffman",
    "Sortnet.C79_huffman_algebra",
    "Sortnet.C79_sucmax",
    "Sortnet.C79_pipeline",
    "Sortnet.C79_example"
   ],
   "note": "Model/Thy.lean transcribes the Isabelle definitions, with the library operations of HOL as those of Lean and Mathlib; Model/Checker.lean is the Haskell code. The Isabelle proofs are not modelled; their two main results, for the checker and for Huffman's algorithm in any Huffman algebra, are proved here again."
  },
  {
   "property": "C80",
   "status": "proved",
   "theorems": [
    "Sortnet.C80_verified",
    "Sortnet.C80_just",
    "Sortnet.C80_read",
    "Sortnet.C80_status",
    "Sortnet.C80_script",
    "Sortnet.C80_script_usage",
    "Sortnet.C80_words",
    "Sortnet.C80_rejected_status",
    "Sortnet.C80_reference",
    "Sortnet.C80_search_and_verify",
    "Sortnet.C80_example"
   ],
   "note": "Model/Snocheck.lean. The message after Left is a parameter. Assumed: stack compiles the program and writes nothing else to the standard output; print writes nothing if its argument throws."
  },
  {
   "property": "C81",
   "status": "proved",
   "theorems": [
    "Sortnet.C81_result",
    "Sortnet.C81_step",
    "Sortnet.C81_file",
    "Sortnet.C81_isabelle",
    "Sortnet.C81_sound",
    "Sortnet.C81_order_differs",
    "Sortnet.C81_example"
   ],
   "note": "Model/Unpatched.lean. Lists other than list_vt are evaluated together, as in Model/LazyChecker.lean. Assumed: a spark of Parallel.par has no effect unless its value is demanded."
  },
  {
   "property": "C82",
   "status": "proved",
   "theorems": [
    "Sortnet.C82_output",
    "Sortnet.C82_accepts_iff",
    "Sortnet.C82_left",
    "Sortnet.C82_status",
    "Sortnet.C82_never",
    "Sortnet.C82_main",
    "Sortnet.C82_verified",
    "Sortnet.C82_messages",
    "Sortnet.C82_example"
   ],
   "note": "Model/RefMsg.lean, Spec/RefStep.lean. The sets of the witnesses and the operations on them are those of the model of VectSet.hs."
  },
  {
   "property": "C83",
   "status": "proved",
   "theorems": [
    "Sortnet.C83_succeeds_iff",
    "Sortnet.C83_result",
    "Sortnet.C83_limit",
    "Sortnet.C83_optimal",
    "Sortnet.C83_small_bound",
    "Sortnet.C83_small",
    "Sortnet.C83_initial",
    "Sortnet.C83_prefix",
    "Sortnet.C83_hypotheses",
    "Sortnet.C83_example"
   ],
   "note": "The models of C28, C34, C36, C38, C39, C54 and C63 put together, with the invariant that only the main task changes the entry of the initial set."
  },
  {
   "property": "C84",
   "status": "proved",
   "theorems": [
    "Sortnet.C84_sizes",
    "Sortnet.C84_table",
    "Sortnet.C84_search",
    "Sortnet.C84_certificate",
    "Sortnet.C84_certificate_five",
    "Sortnet.C84_accepted",
    "Sortnet.C84_script"
   ],
   "note": "C29, C57 and C83 with certificates for five and seven channels that the model of the verified checker accepts (evaluated by the kernel)."
  },
  {
   "property": "C85",
   "status": "proved",
   "theorems": [
    "Sortnet.C85_runs",
    "Sortnet.C85_correct",
    "Sortnet.C85_progress",
    "Sortnet.C85_few",
    "Sortnet.C85_result",
    "Sortnet.C85_example"
   ],
   "note": "The model of C28 with the lines logged by the main task. Only the values of a line are modelled, not its layout."
  }
 ]
}