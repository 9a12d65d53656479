#!/usr/bin/env python3
"""Regenerates properties.jsonl (kept as code so that the list can grow)."""
import json, os
P = []
def p(id, title, statement, quantifier, why, anchors):
    P.append(dict(id=id, title=title, statement=statement, quantifier=quantifier,
                  why_tests_cant=why, anchors=anchors))

OS = "src/output_set.rs"
# ---------------------------------------------------------------- checker
p("C01", "Verified checker is sound",
  "If `check_proof_get_bound cert` returns `Just (w, b)` then every comparator network that sorts all 0/1 inputs on w channels has at least b comparators.",
  "all certificates (any length, any step function, any widths, bounds, vector lists, witness lists), all comparator networks",
  "the certificate space and the space of networks are infinite; a single accepted bogus certificate would void every published bound",
  ["checker/snocheck/src/Verified/Checker.hs:check_proof_get_bound", "checker/verified/Checker_Codegen.thy:check_proof_get_bound_spec", "checker/verified/Sorting_Network_Bound.thy:lower_size_bound"])
p("C02", "Verified `-v` pipeline is sound for every file",
  "For every byte string given to `snocheck -v`, if it prints `Just (w,b)` (header decoded, steps decoded, translated, checked) then b is a lower bound on the size of sorting networks for w channels.",
  "all byte strings, including truncated and malicious certificate files",
  "arbitrary malformed files cannot be enumerated; decoding is outside the Isabelle proof of the project",
  ["checker/snocheck/src/Main.hs:main", "checker/snocheck/src/Decode.hs:proofSteps", "checker/snocheck/src/Translate.hs:translateProofSteps"])
p("C03", "Parallel range check equals the sequential check",
  "`check_proof` accepts exactly when `check_step` accepts every step 0..n-1, each relative to strictly earlier steps, no matter how the range is split for parallel evaluation.",
  "all step counts, all step predicates",
  "the split only happens above 1000 steps and at every recursion depth",
  ["checker/snocheck/src/Verified/Checker.hs:par_range_all", "checker/snocheck/src/Check.hs:parCheckRange"])
p("C04", "Vector tries implement finite sets",
  "The checker's trie operations (list->trie, union, membership, subset, size, listing, permutation, inversion, extremal pruning) compute the corresponding operation on finite sets of Boolean vectors.",
  "all tries and lists of vectors of any width",
  "unbounded widths and sets",
  ["checker/snocheck/src/Verified/Checker.hs:vt_list", "checker/snocheck/src/Verified/Checker.hs:is_subset_vt", "checker/snocheck/src/Verified/Checker.hs:prune_extremal_vt"])
p("C05", "Reference checker is sound",
  "If `snocheck -r` accepts a certificate and reports (w,b), then b is a lower bound on the size of sorting networks on w channels.",
  "all certificates",
  "needs quantification over all certificates; the failing ones are adversarial (non-permutation witnesses)",
  ["checker/snocheck/src/Check.hs:checkProof", "checker/snocheck/src/Check.hs:getBound", "checker/snocheck/src/VectSet.hs:permute"])
p("C06", "The two checkers agree on well-formed certificates",
  "On certificates whose witnesses carry genuine permutations of the right width, the reference checker accepting implies the verified checker accepts with the same answer, and conversely.",
  "all certificates with well-formed witnesses",
  "equivalence of two independent implementations over an infinite input space",
  ["checker/snocheck/src/Check.hs:checkProof", "checker/snocheck/src/Verified/Checker.hs:check_proof_get_bound"])
# ---------------------------------------------------------------- huffman
p("C07", "max_plus_1_huffman computes the optimal merge bound",
  "For a non-empty list of values, `max_plus_1_huffman` returns the least K with sum 2^v <= 2^K (equivalently the minimum over binary trees of max(value+depth)); for an empty list it returns 0. The answer does not depend on the order of the values and is monotone in each value.",
  "all lists of values (any length, any order) for which no u8 overflow occurs",
  "all lists and all orders; optimality is over all trees",
  ["src/huffman.rs:max_plus_1_huffman"])
p("C08", "Huffman bound is a valid lower bound",
  "For every set A of 0/1 vectors and polarity, if b_c is a lower bound for the set obtained by pruning extremal channel c, then the Huffman value of (b_c)_c is a lower bound for the number of comparators needed to sort A.",
  "all channel counts, all sets of vectors, both polarities, all comparator networks",
  "quantifies over all networks",
  ["src/search.rs:Search::improve_huffman", "src/proof.rs:GenProof::huffman_step", "checker/snocheck/src/Verified/Checker.hs:check_huffman"])
p("C09", "Three Huffman implementations agree",
  "The Rust heap based bound, the extracted `sucmax_value_bound_huffman` and the reference `huffmanBound` return the same number on every non-empty list.",
  "all non-empty lists of naturals", "infinite domain, three different data structures",
  ["src/huffman.rs:max_plus_1_huffman", "checker/snocheck/src/Verified/Checker.hs:sucmax_value_bound_huffman", "checker/snocheck/src/Check.hs:huffmanBound"])
# ---------------------------------------------------------------- output set
p("C10", "apply_comparator computes the image and reports redundancy",
  "`apply_comparator([a,b])` replaces the set by its image under the comparator that moves the larger value to channel a, and returns true exactly when the set contained both a vector with (a,b)=(0,1) and one with (1,0).",
  "all channel counts, all bitmaps, all pairs of distinct channels",
  "2^(2^n) bitmaps", [OS+":apply_comparator"])
p("C11", "swap_channels and invert act as relabelling and complement",
  "`swap_channels` replaces the set by the set of vectors with the two coordinates exchanged (an involution); `invert` by the set of complemented vectors (an involution); neither changes the number of comparators required.",
  "all bitmaps, all channels", "2^(2^n) bitmaps", [OS+":swap_channels", OS+":invert"])
p("C12", "pack/unpack round trip",
  "Unpacking the packed form of an output set of any channel count gives the set back, the packed form has `packed_len_for_channels` bytes, and packing is injective on sets of equal channel count.",
  "all channel counts (including fewer than 3) and all bitmaps", "2^(2^n) bitmaps",
  [OS+":pack_into_slice", OS+":unpack_from_slice", OS+":from_packed", OS+":packed_len_for_channels"])
p("C13", "is_sorted characterises sorted output sets",
  "For output sets reachable in the tool (every vector lies on a saturated chain from all-zero to all-one inside the set), `is_sorted` returns true exactly when the set is a chain, i.e. needs no further comparator, i.e. has at most channels+1 vectors.",
  "all channel counts, all reachable output sets", "all sets of vectors",
  [OS+":is_sorted"])
p("C14", "subsumes_unpermuted is inclusion",
  "`a.subsumes_unpermuted(b)` returns true iff every vector of a is in b.", "all bitmaps of equal size", "2^(2^n) bitmaps", [OS+":subsumes_unpermuted"])
p("C15", "subsumes_permuted is sound",
  "If `a.subsumes_permuted(b)` returns `Some(perm)` then perm is a permutation of the channels and permuting a by it gives a subset of b.",
  "all channel counts, all pairs of bitmaps", "pairs of subsets of the cube; search with undo",
  [OS+":subsumes_permuted", "src/output_set/subsume.rs:Subsume::search"])
p("C16", "subsumes_permuted is complete",
  "If some channel permutation maps a into b then `a.subsumes_permuted(b)` does not return None; the search always terminates without panicking.",
  "all channel counts, all pairs of bitmaps, all permutations", "completeness quantifies over all n! permutations for all pairs",
  ["src/output_set/subsume.rs:Subsume::search", "src/output_set/subsume.rs:Subsume::filter_matching", "src/output_set/subsume.rs:Subsume::remove_matching", "src/output_set/subsume.rs:Subsume::rollback"])
p("C17", "canonicalize returns an equivalent set and its witness",
  "`canonicalize(inv)` replaces the set by the set obtained by applying the returned permutation (and, if the returned flag says so, inversion; never if inv is false), hence with the same minimum number of comparators.",
  "all channel counts, all bitmaps, all hash functions", "all bitmaps",
  [OS+":canonicalize", "src/output_set/canon.rs:Canonicalize::canonicalize"])
p("C18", "canonicalize is canonical",
  "Two sets that differ by a channel permutation (or, with inversion enabled, a permutation and complement) have identical canonical forms; canonicalize is idempotent.",
  "all channel counts, all bitmaps, all permutations, all hash functions (including colliding ones)",
  "orbits of n!*2 elements for 2^(2^n) bitmaps; hash collisions cannot be provoked by a test",
  ["src/output_set/canon.rs:Canonicalize::canonicalize"])
p("C19", "Abstraction never rejects a subsuming pair",
  "If a permuted version of a is included in b then the abstraction vector of a is pointwise <= that of b; if a permuted complemented version is, then a's is pointwise <= b's read with index xor 3. Values fit in u16 and the vector has `abstraction_len_for_channels` entries.",
  "all channel counts up to MAX_CHANNELS for the u16 claim, all for the rest; all bitmaps and permutations", "all pairs of bitmaps",
  [OS+":write_abstraction_into", OS+":channel_pair_abstraction", "src/output_set/index.rs:IndexDirection::test_abstraction"])
p("C20", "prune_extremal_channel_into",
  "For an extremal channel the call terminates, never violates the queue capacity, and produces exactly the vectors (channel removed) reachable inside the set by adding ones (zeros for the other polarity) starting from the extremal vector; this is always a subset of the vectors with that channel fixed.",
  "all channel counts, bitmaps, extremal channels, polarities", "2^(2^n) bitmaps",
  [OS+":prune_extremal_channel_into", OS+":channel_is_extremal"])
p("C21", "A single extremal channel can be removed without loss",
  "If a reachable output set has exactly one extremal channel of some polarity, the minimum number of comparators of the set equals that of the pruned set.",
  "all channel counts, all reachable sets", "quantifies over all networks",
  ["src/search.rs:Search::improve"])
p("C22", "Reachable output sets stay well formed",
  "The property that every vector lies on a saturated chain from all-zero to all-one inside the set holds for `all_values` and is preserved by apply_comparator, swap_channels, invert, canonicalize and prune_extremal_channel_into.",
  "all sequences of operations", "unbounded histories",
  [OS+":all_values", OS+":apply_comparator", OS+":prune_extremal_channel_into"])
# ---------------------------------------------------------------- index
p("C23", "Index lookup returns the best matching value",
  "After any history of insertions, `lookup_with_abstraction` returns the best (max for lower indexes, min for upper) value over all stored entries that match the query (subsume it / are subsumed by it, up to permutation and for LowerInvert complement), or None if there is none; tree pruning never changes the answer.",
  "all histories of insert calls, all queries, the three index directions", "unbounded histories; tree rebuild thresholds",
  ["src/output_set/index.rs:OutputSetIndex::lookup_with_abstraction", "src/output_set/index/tree.rs:Tree::traverse"])
p("C24", "lookup_subsuming returns a genuine witness",
  "`lookup_subsuming_with_abstraction` returns an entry that is stored with that value, together with a permutation (and invert flag) mapping the entry into the query, and its value equals the one from `lookup_with_abstraction`.",
  "all histories, all queries", "unbounded histories",
  ["src/output_set/index.rs:OutputSetIndex::lookup_subsuming_with_abstraction"])
p("C25", "insert_with_abstraction never loses information",
  "After `insert_with_abstraction(s, v)` every query is answered as if (s,v) had been added to the previous contents: answers never get worse and the answer for s is at least as good as v; the returned value is the best known value for s.",
  "all histories of insert calls and all queries", "unbounded histories, removals interleaved with tree rebuilds",
  ["src/output_set/index.rs:OutputSetIndex::insert_with_abstraction", "src/output_set/index/tree.rs:Tree::traverse_mut"])
p("C26", "Index contents are preserved by internal reorganisation",
  "`len`, `is_empty` and `for_each` report exactly the stored entries; building and merging trees neither loses nor duplicates an entry and keeps each entry's set, abstraction and value together.",
  "all histories", "merging depends on sizes; unbounded histories",
  ["src/output_set/index.rs:OutputSetIndex::insert_new_unchecked_with_abstraction", "src/output_set/index/tree.rs:Tree::build_tree", "src/output_set/index/tree.rs:Tree::partition"])
p("C27", "Index entries stay an antichain of distinct sets",
  "In an index filled only through `insert_with_abstraction`, no set is stored twice and no entry is dominated by another one (so the internal `assert!(!updated_in_place)` never fires).",
  "all histories of insert_with_abstraction", "unbounded histories",
  ["src/output_set/index.rs:OutputSetIndex::insert_with_abstraction"])
# ---------------------------------------------------------------- search
p("C28", "Stored bounds are always correct",
  "At every moment of every execution, for every output set the stored (or default) bounds [lo,hi] satisfy lo <= minimum number of comparators needed <= hi.",
  "all initial sets, all interleavings of tasks, all cancellations, all points in time", "schedules are unbounded",
  ["src/search.rs:Search::improve", "src/search.rs:Search::improve_huffman", "src/search/states.rs:StateMap::get"])
p("C29", "Search result is exact / a valid lower bound",
  "If `Search::search` returns r without limit then r is exactly the minimum number of comparators for the initial set (for all_values(n): the minimum size of a sorting network); with limit it is a valid lower bound, and either exact or >= limit.",
  "all initial reachable sets, all limits, all schedules", "schedules are unbounded; optimality is over all networks",
  ["src/search.rs:Search::search"])
p("C30", "Bounds only improve",
  "For a fixed output set the stored lower bound never decreases and the upper bound never increases, at any time, under any schedule and cancellation.",
  "all executions", "needs all interleavings",
  ["src/search.rs:Search::improve", "src/search/states.rs:StateMap::lock"])
p("C31", "Per-set lock: mutual exclusion and release",
  "At most one task holds the lock of an output set; dropping the lock (return, cancellation) wakes every waiter, removes the entry, and never panics; a waiter that is woken can retry.",
  "all histories of lock/drop calls by any number of tasks", "interleavings",
  ["src/search/states.rs:StateMap::lock", "src/search/states.rs:StateMap::get_lock", "src/search/states.rs:StateLock"])
p("C32", "Lock waiting is acyclic",
  "A task only ever waits (directly or through child tasks) for sets strictly below its own in a well-founded order, so tasks cannot wait for each other in a cycle and recursion is bounded.",
  "all channel counts, all reachable sets", "cycle freedom over all sets",
  ["src/search.rs:Search::improve", "src/search.rs:Edges::improve_next"])
p("C33", "Search log is self-justifying",
  "In the dumped log every set with lower bound b has b<=1 and is unsorted, or b is implied by the Huffman rule or the successor rule from the bounds in the same log (defaulting to 0/1 for sets not in the log).",
  "all executions", "all interleavings",
  ["src/search.rs:Search::dump_states", "src/search.rs:Search::improve"])
p("C34", "State map behaves like a map",
  "`StateMap::get` returns the last state set for exactly that output set (or the documented default), independent of the number of shards and of the hash function; different sets never interfere.",
  "all histories of set/get, all shard counts, all hash functions", "hash collisions; histories",
  ["src/search/states.rs:StateMap::get", "src/search/states.rs:StateMap::set", "src/search/states.rs:OutputSetMap"])
p("C35", "Known upper bounds table is correct",
  "For n <= 11 the default upper bound stored for an unsorted set on n channels is achievable: a sorting network of that size exists.",
  "all n in the table, all inputs", "2^n inputs per network and existence of the network",
  ["src/search/states.rs:StateMap::get"])
p("C36", "dump_states writes every state exactly once",
  "After dump_states, index.txt names each non-empty (channels, bound) group exactly once and the group file is the concatenation of the packed sets of exactly the states with those channels and lower bound; reading the group name back yields channels and bound.",
  "all state maps", "arbitrary maps", ["src/search.rs:Search::dump_states", "src/prune.rs:prune_all", "src/proof.rs:gen_proof"])
# ---------------------------------------------------------------- prune
p("C37", "Prune keeps a covering subset",
  "The pruned file of a group contains only sets of the input file, and every set of the input is subsumed (up to permutation and complement) by some set of the pruned file; no kept set is subsumed by a strictly smaller kept set.",
  "all input files, any parallel evaluation order", "arbitrary logs",
  ["src/prune.rs:prune"])
p("C38", "Prune is crash safe",
  "If the process is killed at any point during prune, re-running prune yields the same final file as an uninterrupted run; a .pbin file is never visible with partial contents.",
  "all crash points, any number of crashes", "crash points",
  ["src/prune.rs:prune"])
# ---------------------------------------------------------------- proof
p("C39", "Proof generation terminates",
  "`encode_proof` terminates on every log: witnesses never form a cycle.", "all logs", "cycles across arbitrary logs",
  ["src/proof.rs:GenProof::encode_proof", "src/proof.rs:GenProof::successor_step"])
p("C40", "Witness references point backwards",
  "Every witness id written into the certificate is smaller than the id of the step containing it, and refers to the step of the intended set; every step is written once.",
  "all logs", "arbitrary logs", ["src/proof.rs:GenProof::encode_proof"])
p("C41", "Generated certificates verify",
  "If the log contains only reachable sets with correct lower bounds, one bound per set, and for the full set a bound of at least 2, and gen_proof does not panic, then the verified checker accepts the generated certificate and reports the channel count and the logged bound of the full set. If the bound of the full set is 0 or 1 the certificate has no steps and is rejected.",
  "all such logs with fewer than 2^32 sets", "agreement of generator and checker over all logs",
  ["src/proof.rs:gen_proof", "src/proof.rs:GenProof::prove_all", "checker/snocheck/src/Verified/Checker.hs:check_proof"])
p("C42", "Certificate file round trip",
  "Decoding the bytes written by write_proof gives back exactly the steps that were encoded (channels, bound, vector set, kind, witnesses with invert flag, permutation and id).",
  "all step lists with representable sizes", "unbounded step lists", ["src/proof.rs:GenProof::write_proof", "src/proof.rs:GenProof::encode_proof", "checker/snocheck/src/Decode.hs:proofSteps"])
p("C43", "Search log plus prune is always provable",
  "On the log of a completed search (no limit) for all_values, after prune_all, gen_proof finds a proof step for every set (no 'no valid proof step found' panic, no missing root).",
  "all completed executions, channel counts >= 3", "all interleavings and logs",
  ["src/proof.rs:GenProof::prove_all", "src/prune.rs:prune_all", "src/search.rs:Search::search"])
p("C44", "End-to-end pipeline",
  "For a completed search for n channels, running prune-all, gen-proof and snocheck -v prints Just (n, b) where b is the minimum size of a sorting network on n channels.",
  "all completed executions for all n >= 3 for which sizes are representable", "end-to-end over all schedules",
  ["search_and_verify.sh", "src/search.rs:Search::search", "src/proof.rs:gen_proof", "checker/snocheck/src/Main.hs:main"])
p("C45", "fix_proof inserts the bounds",
  "For every old-format certificate whose sets are in the log, fix_proof writes a well-formed new-format certificate whose step i equals old step i with the logged bound inserted, with correct offsets and lengths.",
  "all old-format certificates", "arbitrary files", ["src/fix.rs:fix_proof"])
# ---------------------------------------------------------------- pool / gnp
p("C46", "A delayed task starts at most once",
  "For a task created by spawn_delayed, of all concurrent calls to `schedule` (by owners and by workers draining the pending queue) exactly the first returns true and enqueues the task; it is enqueued at most once and `is_scheduled` reports this faithfully.",
  "all interleavings of schedule calls", "interleavings", ["src/thread_pool.rs:Schedule::schedule", "src/thread_pool.rs:ThreadPool::scope"])
p("C47", "Pending queue: priority order and lossless garbage collection",
  "Draining the pending queue schedules the live unscheduled task with the smallest (priority, id); the periodic clean-up only drops entries whose task is already scheduled or dropped; and the pool keeps no task alive after all its Schedule objects are dropped and no worker is looking at it.",
  "all histories of add_pending / drain", "histories and thresholds (5000 entries)", ["src/thread_pool.rs:ThreadPool::scope", "src/thread_pool.rs:ThreadPool::add_pending"])
p("C48", "Generate-and-prune computes the optimum",
  "The `gnp` command for n channels terminates, and the number of the last non-empty layer equals the minimum size of a sorting network on n channels.",
  "all n >= 2, any hash-set iteration order", "layers grow without bound; quantifies over all networks", ["src/bin/sortnetopt.rs:cmd_gnp"])
p("C49", "Generalised networks, standard networks and 0-1 inputs give the same optimum",
  "The minimum size over networks with arbitrarily oriented comparators that bring all 0/1 inputs into a chain equals the minimum size of standard sorting networks (min to the lower channel) sorting all inputs from any linear order.",
  "all n, all networks, all linear orders", "quantifies over all networks", ["checker/verified/Sorting_Network_Bound.thy", "README.md"])
p("C50", "is_channel_unconstrained",
  "`is_channel_unconstrained(c)` returns true iff flipping channel c maps the set to itself.", "all bitmaps and channels", "2^(2^n) bitmaps", [OS+":is_channel_unconstrained"])
p("C51", "The locks of the thread pool",
  "Threads calling schedule, workers cleaning up and draining the pending queue never deadlock; if every thread that can run again and again does run, then every call of schedule returns, a worker that has locked the pending queue unlocks it however many entries are added meanwhile, and a worker waiting for it gets it.",
  "all interleavings, any number of threads, all fair executions", "interleavings and infinite executions", ["src/thread_pool.rs:Schedule::schedule", "src/thread_pool.rs:ThreadPool::scope"])
p("C52", "The search ends",
  "search() returns, for every initial set and every interleaving of the workers in which every task that can continue eventually does, even with spurious wakeups; without spurious wakeups it returns with every scheduler that does not stop while some task can continue. The number of tasks created is bounded by a number that depends only on the input, and the result (without a limit) is the optimal size.",
  "all initial sets with at most 11 channels, all hash functions, limits, infinite executions and schedulers", "infinite executions of an unbounded number of tasks", ["src/search.rs:search", "src/search.rs:Search::improve", "src/search.rs:Search::improve_next", "src/thread_pool.rs:ThreadPool", "src/search/states.rs:StateMap::lock"])

p("C53", "No wakeup is lost",
  "Whenever a suspended task of the search could continue, because a child task it waits for has finished or the lock it waits for has been released, it is already in the queue of the thread pool. So the workers never fall idle before search() has returned; and since tasks are not woken again and again in vain, search() returns if the workers just keep taking tasks from the queue, in any order.",
  "all initial sets with at most 11 channels, all hash functions, limits, interleavings and orders of serving the queue; any finite number of unnecessary wakeups", "a lost wakeup needs a task to finish exactly between polling and suspending, for some interleaving of an unbounded number of tasks", ["src/search.rs:Search::improve_next", "src/thread_pool.rs:Handle", "src/thread_pool.rs:Schedule", "src/search/states.rs:StateMap::lock", "src/search/states.rs:StateLock"])
p("C54", "The command search with a prefix",
  "The command `search n --prefix ...` reads the prefix as a list of comparators, each given as the channel that gets the larger value followed by the channel that gets the smaller value, and without a limit logs the minimum number of comparators that have to be added to the prefix (for a standard prefix: to get a sorting network). With a limit the result is a lower bound for this number, and equal to it if it is below the limit. A prefix with an odd number of channels is rejected; a pair with a channel that does not exist is ignored.",
  "all numbers of channels up to 11, all prefixes, limits, hash functions and interleavings", "infinitely many prefixes; a swapped channel would only show for particular networks", ["src/bin/sortnetopt.rs:cmd_search", "src/output_set.rs:OutputSet::apply_comparator", "src/search.rs:Search::search"])
p("C55", "The search is torn down",
  "When search() has its result, the tasks that are still running, queued or waiting do not keep it from returning: every task other than the main task is owned by exactly one task or has been cancelled; as long as some task has not ended the workers have something to do; eventually all tasks have ended, all locks have been released and no task object is kept alive by a cycle of references. So the workers end and the states are dumped in their final form.",
  "all initial sets with at most 11 channels, all hash functions, limits, interleavings and orders of serving the queue; any finite number of unnecessary wakeups", "tasks may be cancelled at every suspension point while others wait for the locks they hold; a hang at the end depends on the interleaving", ["src/thread_pool.rs:ThreadPool::scope", "src/thread_pool.rs:Handle", "src/search.rs:Search::search", "src/search.rs:Search::improve_next", "src/search/states.rs:StateLock"])
p("C56", "Canonicalization with recycled memory",
  "`canonicalize` stores the bitmaps of all its candidates in one vector and reuses the memory of candidates that were removed. This never changes its result: no candidate that is still needed is overwritten, no access is out of bounds, no fixed-capacity vector overflows; the result is the one obtained when every candidate has memory of its own.",
  "all output sets with any number of channels, with and without inversion, all hash functions", "which slots are reused depends on the candidates removed in every round; an overwritten candidate still gives an equivalent set, but not the canonical one", ["src/output_set/canon.rs:Canonicalize", "src/output_set/canon.rs:alloc", "src/output_set.rs:OutputSet::canonicalize"])

p("C57", "A bound for n channels gives one for n + 1 channels",
  "If every sorting network on n channels has at least b comparators, then every sorting network on n + 1 channels has at least b + ceil(log2(n + 1)); this is what max_plus_1_huffman gives for n + 1 copies of b. So a certificate for which snocheck -v prints Just (11,35), or a search on 11 channels that returns 35, makes 35 and 39 the minimum sizes of sorting networks with 11 and 12 channels, as the README claims.",
  "all n and b; all files given to snocheck -v; all executions of the search on 11 channels", "ranges over all sorting networks with n + 1 channels", ["README.md:Lower Size Bounds for Sorting Networks", "src/huffman.rs:max_plus_1_huffman", "checker/snocheck/src/Main.hs:main", "src/search.rs:Search::search"])

p("C58", "The index with its flat vectors and unsafe blocks",
  "The index keeps the points, packed sets, values and node ranges of all entries in flat vectors, moves rows with swap_nonoverlapping and copy_nonoverlapping, and unpacks every candidate into one buffer. For every sequence of insertions the preconditions of these unsafe calls hold (both ranges inside of the vector and disjoint), no slice is out of bounds, no u16 arithmetic overflows, and all answers are the ones computed from the list of the stored entries: rows of different entries are never mixed up and no candidate sees bits of an earlier one.",
  "all histories of insertions and all queries, all three kinds of index, 2 to 11 channels", "which rows are swapped depends on the whole history of insertions and removals", ["src/output_set/index/tree.rs:Tree::swap_values", "src/output_set/index/tree.rs:Tree::move_node_ranges", "src/output_set/index/tree.rs:compute_ranges", "src/output_set/index.rs:OutputSetIndex::insert_with_abstraction", "src/output_set/index.rs:OutputSetIndex::insert_new_unchecked_with_abstraction"])
p("C59", "The state map with concurrent callers",
  "Any number of threads call get, set, len, lock and drop locks on one StateMap at the same time. What they see is what they could see if there were a single map and every operation took effect in one step between its call and its return; len gives the number of states at some moment between its call and its return, and calls of len one after the other, as for the progress lines of the search, never give smaller numbers. No two callers access a shard at the same time unless both read, no call panics and no lock is poisoned (sets with 3 to 11 channels), there is never more than one StateLock for a set, there is no deadlock among the locks of the shards, and a caller that waits for a lock is woken up when it is dropped, also if the message arrives before the entry is removed.",
  "all numbers of CPUs, hash functions, callers and interleavings of their steps", "an interleaving of locks of shards and messages cannot be forced by a test, and there are infinitely many", ["src/search/states.rs:StateMap::get", "src/search/states.rs:StateMap::set", "src/search/states.rs:StateMap::len", "src/search/states.rs:StateMap::lock", "src/search/states.rs:StateMap::get_lock", "src/search/states.rs:StateLock::drop"])
p("C60", "Incomplete certificates are rejected",
  "If proof.bin is only written in part (gen_proof is killed, or the last flush of its buffer fails, which it does not report), the file that is left is not accepted: if snocheck -r, resp. snocheck -v, accepts a certificate, then it accepts no proper beginning of it, for whatever number of channels and bound; it fails or throws.",
  "all certificates that fit the format with fewer than 127 * 2^24 steps, and all lengths of the part that was written", "the cut can be at every byte of every certificate", ["src/proof.rs:GenProof::write_proof", "src/proof.rs:gen_proof", "checker/snocheck/src/Decode.hs:stepData", "checker/snocheck/src/Decode.hs:decodeProofStep", "checker/snocheck/src/Decode.hs:decodeWitnesses", "checker/snocheck/src/Check.hs:checkProof", "checker/snocheck/src/Verified/Checker.hs:check_proof_get_bound"])
p("C61", "Output sets in slices: no access out of bounds, no overflow of a buffer",
  "For output sets of up to 11 channels whose bitmap has 2^n entries, and channels below n, the operations of OutputSet never index a slice, a bitmap or a vector of fixed capacity out of bounds, with checked or unchecked accesses; no vector of fixed capacity overflows, no unsigned subtraction underflows and the loops end. Their results are those of the operations on sets of vectors: comparators, exchanging channels, inverting, copying, counting, testing for sorted sets, unconstrained and extremal channels and inclusion, pruning an extremal channel, packing and unpacking, and the counters and abstractions. pack and unpack access slices of all lengths in bounds. abstraction panics exactly for 0 channels and for more than 11 channels.",
  "all numbers of channels (up to 11 where a vector of fixed capacity is used), all sets of vectors, all channels, all contents of target buffers, all bytes", "there are 2^(2^n) sets; an unchecked access out of bounds need not be noticed by a test", ["src/output_set.rs:OutputSet::apply_comparator", "src/output_set.rs:OutputSet::prune_extremal_channel_into", "src/output_set.rs:OutputSet::pack_into_slice", "src/output_set.rs:OutputSet::unpack_from_slice", "src/output_set.rs:OutputSet::weight_histogram", "src/output_set.rs:OutputSet::is_sorted", "src/output_set.rs:OutputSet::write_abstraction_into", "src/output_set.rs:OutputSet::channel_abstraction"])
p("C62", "subsumes_permuted with its vectors, masks and buffer",
  "subsumes_permuted works on copies of the two bitmaps that it permutes and restores, on vectors of fixed capacity, on 16-bit masks, on an undo stack, and on one buffer that is not cleared between uses. For up to 11 channels no index is out of bounds, no shift or subtraction overflows, no vector overflows, the undo stack is never cut below its length, the search ends, and the answer is right: None exactly if no permutation of the channels maps the first set into the second, and otherwise the vector of such a permutation. For more channels, or different numbers of channels, the call panics.",
  "all pairs of output sets", "the state after backtracking depends on the whole history of guesses, and stale contents of the buffer on all earlier rounds", ["src/output_set/subsume.rs:Subsume::search", "src/output_set/subsume.rs:Subsume::rollback", "src/output_set/subsume.rs:Subsume::remove_matching", "src/output_set/subsume.rs:Subsume::filter_matching", "src/output_set/subsume.rs:Subsume::move_unique", "src/output_set.rs:OutputSet::subsumes_permuted"])
p("C63", "snocheck -v with exceptions and lazy evaluation",
  "Haskell evaluates only what is demanded, and an evaluated error, an index out of range or an incomplete pattern ends the program. Whenever snocheck -v prints an answer for a file, it is the answer of the exception-free checker of C01 and C02, so a printed Just (w, b) is a true lower bound. If the steps of a file can be decoded, the check throws nothing and an answer is printed; this holds for every file written by gen_proof, and after search, dump, prune and gen_proof the printed answer is Just (n, minimum size). No proper beginning of an accepted certificate is answered with Just. A file shorter than its header ends with an exception. The verified code called with vectors that are too short can throw.",
  "all files; all certificates written; all executions of the pipeline", "which expressions are demanded depends on the contents of the whole certificate", ["checker/snocheck/src/Verified/Checker.hs:check_proof_get_bound", "checker/snocheck/src/Verified/Checker.hs:get_bound", "checker/snocheck/src/Decode.hs:decodeProofStep", "checker/snocheck/src/Translate.hs:translateProofSteps", "checker/snocheck/src/Main.hs:main"])
p("C64", "Exactly which certificates are accepted",
  "The verified checker answers Just (w, b) if and only if the certificate has at least one step, every step follows from the steps before it by one of two rules, and the last step has w channels and the bound b. Successors: there are more than n + 1 vectors, the bound is positive, and after each comparator that is neither redundant nor a swap the witness shows at least the bound minus 1. Huffman: the bounds shown for the sets without an extremal channel are merged. A witness shows the bound of an earlier step whose vectors it maps into the set. The same holds for the files written by gen_proof and snocheck -v. The rules are sound and complete: for n >= 1, a lower bound on the size of sorting networks is true if and only if some certificate for it is accepted. Order and repetition of the vectors do not matter, every beginning of an accepted certificate is accepted for its last step, and no certificate is accepted for less than one channel.",
  "all certificates; all numbers of channels and bounds; all lists of steps written", "acceptance of arbitrary certificates of any length, and existence of certificates for every true bound", ["checker/snocheck/src/Verified/Checker.hs:check_proof_get_bound", "checker/snocheck/src/Verified/Checker.hs:check_step", "checker/snocheck/src/Verified/Checker.hs:get_bound", "checker/snocheck/src/Verified/Checker.hs:check_successors", "checker/snocheck/src/Verified/Checker.hs:check_huffman", "checker/snocheck/src/Main.hs:main"])
p("C65", "The reference checker with exceptions and lazy evaluation, compared with the verified checker",
  "If snocheck -r does not end with an exception, its output does not depend on what cannot be decoded. It accepts a file with steps only after decoding every step and every witness, and so does snocheck -v. Decoding the files written by write_proof causes no exceptions. Whatever snocheck -v accepts, snocheck -r accepts with the same answer, if the vectors of steps with less than three channels have no superfluous bits; this is the case for the files written by write_proof. Conversely, snocheck -v accepts what snocheck -r accepts, if also the witnesses carry genuine permutations, there are steps, and no successor step has bound 0. No proper beginning of an accepted certificate is accepted. After a search, dumping, pruning and gen_proof, both modes print the number of channels and the minimum size.",
  "all files of less than 2^60 bytes; all lists of steps written; all runs of the pipeline", "all files, including adversarial and truncated ones, and two independent implementations; where exceptions occur depends on the evaluation order", ["checker/snocheck/src/Check.hs:checkProof", "checker/snocheck/src/Check.hs:checkStep", "checker/snocheck/src/Check.hs:getBound", "checker/snocheck/src/Decode.hs:decodeProofStep", "checker/snocheck/src/Verified/Checker.hs:check_proof_get_bound", "checker/snocheck/src/Main.hs:main"])
p("C66", "No use of the thread pool after it has been dropped",
  "No task of the search calls a method of the thread pool after ThreadPool::scope has dropped it. (False of the code: a task that was cancelled while another worker executes it goes on until it is suspended, and may spawn child tasks meanwhile. What holds is that only such tasks and their descendants can do this, and the result of the search is not affected.)",
  "all initial sets, limits, hash functions and schedules", "a race between the end of the search and the workers; it needs a particular interleaving and is undefined behaviour, which a test may not notice", ["src/thread_pool.rs:ThreadPool::scope", "src/thread_pool.rs:ThreadPool::spawn_delayed", "src/thread_pool.rs:ThreadPool::add_pending", "src/thread_pool.rs:Handle::drop", "src/search.rs:Search::search"])
p("C67", "The commands can be repeated in the same directory",
  "Running prune-all again changes no file, and running gen-proof again writes the same certificate. prune-all keeps every .pbin file that exists, whatever it contains, also after a new search has been written into the directory. Then gen-proof works with the old files: if the new log has the same groups as the old one, the certificate is that of the old search; otherwise gen-proof may panic, even if the search and prune-all are complete.",
  "all searches, schedules, contents of the directory and crash points", "the contents of the log depend on the schedule, so two runs of the search need not fit together", ["src/prune.rs:prune", "src/prune.rs:prune_all", "src/proof.rs:gen_proof", "src/search.rs:Search::dump_states", "search_and_verify.sh"])

p("C68", "The workers leave no work behind",
  "If every thread that can run again and again does run, and at least one worker does not end, then every task that was started or woken is taken from the queue and run. If only finitely many tasks are created and woken, the queue of runnable tasks is eventually empty for good, and every task given to add_pending is eventually run or dropped. A worker that takes the lock of the pending queue when there are k new entries receives at most the greater of 1 and 2k entries before it goes on to choose a task, however many are added meanwhile.",
  "all numbers of workers and clients, all fair executions", "infinite executions; the property can only fail in the limit", ["src/thread_pool.rs:ThreadPool::scope", "src/thread_pool.rs:ThreadPool::add_pending", "src/thread_pool.rs:Schedule::schedule"])
p("C69", "The search with a fixed number of worker threads",
  "The search runs on a fixed number of worker threads, each of which executes one task at a time until the task is suspended or ended. With any number of workers, at least one, and whatever the order in which the queue is served: a worker that executes a task always has a next step, so no task blocks a thread; every running task is executed by exactly one worker; every execution consists of finitely many steps, whatever the schedule; and if no thread is stopped for ever, the search returns, with the number of comparators needed if there is no limit. If also the tasks that are never scheduled are dropped, all tasks end, all locks are released, all task objects are freed and the workers have nothing left to execute.",
  "all initial sets, limits, hash functions, numbers of workers and fair schedules",
  "schedules, starvation and deadlock of the threads by tasks that wait for each other",
  ["src/thread_pool.rs:ThreadPool::scope", "src/thread_pool.rs:Handle::drop", "src/search.rs:Search::search", "src/search/states.rs:StateMap::lock"])
p("C70", "A log written only in part",
  "The log can be cut off at any point: the process is killed while the states are dumped, an input or output error ends it, or the last bytes in a buffer are lost because closing a file ignores errors. At any time every file has its old contents or is the index or the file of a group with a beginning of the contents of a complete dump; and if the command gets to its end and all bytes are written, the dump is complete. After a dump into a new directory that was cut off, pruning ends only if the index has only complete names and each of their files has only complete sets. If then generating a proof does not panic, the certificate is accepted by both modes of the checker with a true lower bound for some number of channels, or it has no steps because the bound in the log is less than 2. So a cut can make the commands panic, and can go unnoticed, but never leads to a certificate with steps that is rejected or wrong.",
  "all searches, state maps, points at which the dump is cut off, and crashes of prune_all",
  "crash points",
  ["src/search.rs:Search::dump_states", "src/prune.rs:prune_all", "src/proof.rs:gen_proof"])
p("C71", "The drawings of gnp --dump-index",
  "After any history of insertions into an index of output sets, dump_dot returns without a panic, and its text draws a forest of binary trees: all nodes have different names, every edge from a node to a child is drawn once, each node has at most one incoming edge, roots have none, there are no cycles, and there are at most as many leaves as sets. With --dump-index, gnp computes and logs the same sizes, writes one such drawing for each layer in the log, named by the number of the layer, and changes no other file.",
  "all histories of calls, all numbers of channels from 2 to 11, all hash functions and orders of hash sets", "the shape of the trees depends on the history of insertions and removals", ["src/output_set/index/tree.rs:Tree::dump_dot", "src/output_set/index.rs:OutputSetIndex::dump_dot", "src/bin/sortnetopt.rs:cmd_gnp"])
p("C72", "Pruned files that have lost bytes",
  "prune does not look at the errors of the last write, so that a .pbin file may be renamed although its last bytes are missing. Whatever is lost in whichever runs of prune_all, killed and started again at any time: each .pbin file has a beginning of the complete output, all other files of the log are unchanged, and prune_all never changes a .pbin file that is there, complete or not. gen_proof does not notice a file that ends inside a set: it does what it would do if all the missing vectors were in this set. If all files end at the end of a set, and gen_proof does not panic, then its certificate is accepted by both checkers, with a bound that is true, or has no steps because the bound is less than 2.",
  "all searches at any point, all cuts of the dump, all schedules of kills and restarts of prune_all, all losses", "which bytes are lost depends on the state of the disk; all prefixes of all files have to be considered", ["src/prune.rs:prune", "src/prune.rs:prune_all", "src/proof.rs:gen_proof", "src/output_set.rs:OutputSet::from_packed", "src/output_set.rs:OutputSet::unpack_from_slice"])

p("C73", "Several prune commands at the same time",
  "Let several prune commands run at the same time for files of a directory that differ also without their extensions, where no input has the name of an output or of a temporary file, killed and started again at any time. No command panics; each .pbin file is missing or complete at any time, and complete when its command has ended; no input and no other file changes. When all have ended, the files do not depend on the schedule and the kills, and for the groups of a log they are those that prune_all leaves. Each command can always get to its end. For an input with the extension .tmp the command empties its input.",
  "all directories, all sets of commands, all interleavings of their steps, all kills and restarts", "the number of interleavings and kill points is unbounded", ["src/prune.rs:prune", "src/bin/sortnetopt.rs:main"])

p("C74", "Several processes prune the same file",
  "If several processes prune the same file at the same time and none of them is killed, then when all have ended, some perhaps with a panic, at least one has not panicked, the .pbin file is complete and the input is unchanged; each process can always get to its end. Before that, and also for ever if a process is killed, a damaged .pbin file is possible: the first part of it may consist of zeros, and prune does not replace it.",
  "all directories with the input and without the output, any number of processes, all interleavings of their system calls, all ways in which the output is split into writes", "the damage needs an interleaving of system calls of two processes that no test provokes, and its absence has to be shown for all interleavings", ["src/prune.rs:prune"])

p("C75", "Index files that are not as search writes them",
  "prune_all, gen_proof and fix_proof read the number of channels of a line of index.txt if and only if the line is valid UTF-8 and has, between its first underscore and the next one or the end, an optional plus sign and decimal digits of a number below 2^64, and then they take this number. The bound is read in the same way from the part after the second underscore, up to a dot, for numbers below 256. Lines end with a newline or a carriage return and a newline, and the last one may have no end. At the first line without a number of channels prune_all panics: it never ends normally however often it is started, and it changes no files but the .pbin and .tmp files of the lines before. gen_proof and fix_proof panic if any line has no number of channels or no bound.",
  "all byte strings as index file, all executions of prune_all with kills and restarts", "the domain is all files; the description of the accepted lines is an equivalence", ["src/prune.rs:prune_all", "src/proof.rs:gen_proof", "src/fix.rs:fix_proof"])

p("C76", "The time and the memory in the log lines",
  "Each log line begins with the time since the start: the minutes, two digits for the seconds and three for the milliseconds, which together are exactly the elapsed milliseconds, so that different times look different. With the option -m it also has the peak memory: if /proc/self/status has a line with it as Linux writes it, there is no panic, and the displayed number is the number of whole units (kilobytes, megabytes or gigabytes), with at least ten units unless the unit is kilobytes, and at most 10240 unless it is gigabytes, followed by the letter k, M or G of the unit. If there is no such line, 0 ? is displayed. Without the option only the time is displayed.",
  "all elapsed times, all contents of /proc/self/status, all sizes below 2^64 kilobytes", "the carry and rounding cases range over all times and sizes", ["src/logging.rs:setup", "src/logging.rs:get_mem_usage"])

p("C77", "search_and_verify.sh run again and again in the same directory",
  "The script can be stopped at any point, and run again with the same directory, any number of times, from 3 to 11 channels. Whatever was in the directory, a printed Just (w, b) is a true lower bound. If there were no .pbin files at first, and all earlier runs ended before prune-all was started, then neither prune-all nor gen-proof panics in the next run, and the checker prints Just (N, minimum size). If earlier runs were stopped at any point or ended, every .pbin file is correct and is kept for ever, so that a log can be made of parts of several searches: if gen-proof does not panic on it, the checker prints Just (N, minimum size) or Nothing, without an exception, and the former if no set has two bounds in the log. For correct files with two bounds of a set, both true, the certificate can be rejected.",
  "all sequences of runs, stopped at any point, all executions of the searches and initial contents of the directory",
  "histories of runs, crash points, and nondeterministic searches whose logs are mixed",
  ["search_and_verify.sh", "verify_proof_cert.sh", "src/search.rs:Search::dump_states", "src/prune.rs:prune_all", "src/proof.rs:gen_proof", "checker/snocheck/src/Main.hs:main"])

p("C78", "gen-proof and fix-proof stopped while they write a certificate",
  "gen-proof and fix-proof can be killed, or meet a write error, at any time and be started again. gen-proof changes no file but proof.bin, and at any time this is as before or a beginning of the complete certificate; if the certificate cannot be made, the old proof.bin remains; after any number of interrupted runs another run gives the complete certificate. fix-proof changes no file that exists, and what it leaves in proof.bin is a beginning of the converted certificate; once proof.bin exists, complete or not, fix-proof panics for ever and changes nothing, but gen-proof can still be used. If fix-proof ends normally, the conversion was possible and proof.bin is complete, if the last write does not fail. Nothing that either command leaves of a certificate that the checker accepts is accepted itself unless it is complete; and if a set of an old certificate is not in the log, whatever the certificate is, the file left behind is not accepted.",
  "all directories, all executions of the two commands with kills, panics, write errors and restarts, all ways in which the output is split into writes", "the number of points where the process can be stopped, and of ways to split the writes, is unbounded", ["src/proof.rs:gen_proof", "src/proof.rs:GenProof::write_proof", "src/fix.rs:fix_proof"])

p("C79", "The Haskell checker is the checker that was verified in Isabelle",
  "The function checkProofGetBound of the Haskell code used by snocheck -v, which was extracted from the Isabelle development and then patched, gives for every certificate the answer of the function check_proof_get_bound defined in the Isabelle theories, whatever values the expressions have that the logic leaves unspecified. The theorem of the Isabelle development, that an answer (width, bound) is a lower size bound, holds for that definition; and its notion of a lower size bound, for sequences over all natural numbers and comparators between any two of them, is the lower bound for comparator networks with width channels. Huffman's algorithm, as defined there, gives the least value of all expressions over the given values, in every Huffman algebra.",
  "all certificates (any integers, lists and step functions), all unspecified values", "the two functions are written in different languages over unbounded data, and the second one cannot be run", ["checker/verified/Checker.thy:check_proof_get_bound", "checker/verified/Huffman.thy:value_bound_huffman", "checker/verified/Sorting_Network_Bound.thy:lower_size_bound", "checker/verified/strict_and_parallel.patch", "checker/snocheck/src/Verified/Checker.hs:check_proof_get_bound"])

p("C80", "What snocheck and verify_proof_cert.sh print, and their exit status",
  "Whatever the arguments and the files are: if the output of snocheck begins with Just, then it was called with -v and a file, the output is the line Just (w,b) for two decimal numbers, which can be read off it, the exit status is 0, and every sorting network on w channels has at least b comparators. For a readable file snocheck -v prints Just (w,b) exactly if the checker accepts it with this answer, Nothing exactly if it rejects it, and ends with status 1 and no output exactly if there is an exception. The status is 1 only if a file cannot be read or there is an exception; a rejected certificate gives status 0, also from verify_proof_cert.sh, which prints an introduction and then the output of snocheck -v, and without a file name ends with status 1. The words None and Some of that introduction are never printed. A line Right (w,b) of snocheck -r need not be true. The last line of search_and_verify.sh in a new directory is Just (N,r) with the minimum size r for N channels, if it gets that far.",
  "all arguments, all contents of all files, all certificates", "all arguments and byte strings", ["checker/snocheck/src/Main.hs:main", "verify_proof_cert.sh", "search_and_verify.sh"])

p("C81", "strict_and_parallel.patch changes the evaluation order, but not the result",
  "The README says that the patch applied to the extracted checker only affects the evaluation order, not the result of running the program. For every certificate given to the library function, whichever of its parts throw an exception when they are evaluated, the code before the patch returns the same answer as the code after it, or both throw; so snocheck -v prints the same for every file. This is so although the order does make a difference for the tries alone: with strict fields is_subset_vt throws where it returned False before.",
  "all certificates with any of their parts undefined, all byte strings", "all certificates; tests run the patched program only", ["checker/verified/strict_and_parallel.patch", "checker/snocheck/src/Verified/Checker.hs:check_proof_get_bound", "README.md"])

p("C82", "Exactly which files snocheck -r accepts, and what its messages say",
  "For every file snocheck -r does one of three things. It prints Right (w,b), if and only if every step of the file is right: it has one witness for each of its sets, each witness is trivial or names an earlier step whose set, complemented and permuted, is contained in that set, the bounds give the bound of the step, and the last step is about w channels and bound b. Or it prints Left \"step k: message\", where k is the first step that is not right, whatever the order in which the threads check the steps, and the message is one of seven and is true of this step. Or a part of the file that it needs cannot be decoded or compared, and then it prints nothing and the exit status is 1. The eighth message, step id out of bounds, is never printed.",
  "all byte strings, all ways to distribute the range over threads", "all byte strings", ["checker/snocheck/src/Check.hs:checkProof", "checker/snocheck/src/Main.hs:main"])

p("C83", "Which searches with --limit or --prefix can be certified",
  "After any search, with any options, dump, prune-all (after any number of crashes) and gen-proof: gen-proof succeeds if and only if the set of all vectors on the largest number of channels of the log is in the state map and no other set on that many channels has the same lower bound there; then snocheck -v accepts the certificate and prints this number of channels and this bound, which is a lower bound for the size of sorting networks. After search --limit L with L at least 2 for all vectors on N channels (3 to 11) the certified bound is exactly the result of the search, and the only way to fail is another set on N channels with that bound, in which case gen-proof panics; this does not happen if the result is the least size of a sorting network, nor if it is at most q plus the binary logarithm of N, rounded up, where q is a lower bound for N - 1 channels. After a search with limit 0 or 1, or with a prefix that has a comparator on two different channels, gen-proof always panics.",
  "all limits, prefixes, schedules, hash functions, numbers of threads and crash points", "all executions of the search and all crash points of prune-all; the panic depends on bounds of other sets at the moment the limit is reached", ["src/bin/sortnetopt.rs:cmd_search", "src/search.rs:Search::search", "src/proof.rs:gen_proof", "src/prune.rs:prune_all"])
p("C84", "The results for few channels",
  "search without limit for all vectors on 0 to 8 channels returns 0, 0, 1, 3, 5, 9, 12, 16 or 19 in every execution; these are the entries of the table of upper bounds in the program, which therefore cannot be improved. After a search on 3 to 9 channels, without limit or with any limit of at least 2, unless it returned 24 for 9 channels, dump, prune-all (after any number of crashes) and gen-proof always make a certificate for which snocheck -v prints the number of channels and the result of the search, as long as fewer than 2^32 states were dumped, which is always so for up to 5 channels. No file makes snocheck -v print a pair of one of these numbers of channels (0 to 8) and a bound above the number in this list. If search_and_verify.sh for 3 to 8 channels, in a new directory, gets as far as the checker, its last line is Just (N,r) with the number in this list, and its exit status is 0.",
  "all schedules, hash functions, numbers of threads, limits, crash points and files", "all executions and all files; the minimality of the numbers is a statement about all sorting networks", ["src/search.rs:search", "src/search/states.rs:StateMap::get", "src/proof.rs:gen_proof", "checker/snocheck/src/Verified/Checker.hs"])
p("C85", "The progress lines of the search",
  "Every line 'bounds: ..' that search logs shows a lower and an upper bound for the number of comparators the initial set needs. A line follows another one only if the bounds on that one differ and its lower bound is below the limit; the new bounds are at least as good, and the lower bound has grown or the two bounds coincide. There are fewer than 35 such lines. When the search returns, the last line shows the returned bound, and it is exact or has reached the limit; a search without such lines returns 0 or 1.",
  "all initial sets on up to 11 channels, limits, schedules, hash functions, numbers of threads, and all moments of an execution", "all executions of the concurrent search; a line without progress, or a wrong bound, could depend on the schedule", ["src/search.rs:Search::search", "src/search.rs:Search::improve", "src/search/states.rs:State"])

out = os.path.join(os.path.dirname(os.path.abspath(__file__)), "..", "properties.jsonl")
with open(out, "w") as f:
    for x in P: f.write(json.dumps(x) + "\n")
print(len(P))
