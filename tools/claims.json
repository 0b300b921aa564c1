{
 "C06": {
  "status": "proved",
  "ns": "Gauche.IDeque",
  "theorems": [
   "ideque_make",
   "ideque_ofList",
   "ideque_tabulate",
   "ideque_empty",
   "ideque_addFront",
   "ideque_addBack",
   "ideque_front",
   "ideque_back",
   "ideque_removeFront",
   "ideque_removeBack",
   "ideque_reverse",
   "ideque_length",
   "ideque_ref",
   "ideque_take_drop",
   "ideque_take_drop_error",
   "ideque_append",
   "ideque_count",
   "ideque_map",
   "ideque_map2",
   "ideque_filterMap",
   "ideque_filter",
   "ideque_partition",
   "ideque_forEach",
   "ideque_fold",
   "ideque_find",
   "ideque_takeWhile",
   "ideque_span",
   "ideque_any_every",
   "ideque_eq",
   "ideque_generator"
  ],
  "note": "Each operation of data.ideque refines the list operation on ideque->list, for every reachable deque. The model is purely functional, so 'original unaffected' holds by construction (the source mutates nothing)."
 },
 "C07": {
  "status": "proved",
  "ns": "Gauche.IDeque",
  "theorems": [
   "reach_inv",
   "ideque_balanced"
  ],
  "note": "Chain-length invariant for every reachable deque."
 },
 "C08": {
  "status": "proved",
  "ns": "Gauche.SkewList",
  "theorems": [
   "skew_ofList",
   "skew_cons",
   "skew_empty",
   "skew_car",
   "skew_cdr",
   "skew_ref",
   "skew_set",
   "skew_length",
   "skew_lengthLe",
   "skew_fold",
   "skew_map",
   "skew_iterate"
  ],
  "note": ""
 },
 "C09": {
  "status": "partial",
  "ns": "Gauche.SkewList",
  "theorems": [
   "skew_take_drop_partial",
   "skew_take_raises_in_range",
   "skew_append_partial",
   "skew_append_raises_iff",
   "skew_append_empty_raises",
   "skew_equal_partial",
   "skew_append_breaks_equal"
  ],
  "note": "False of the code as stated: witnesses proved. Proved: results are right whenever returned, exact characterisation of the erroneous raises, equal? iff same elements for histories without append."
 },
 "C01": {
  "status": "proved",
  "ns": "Gauche.TreeMap",
  "theorems": [
   "treemap_init",
   "treemap_alist",
   "treemap_put",
   "treemap_adjoin",
   "treemap_replace",
   "treemap_update",
   "treemap_push",
   "treemap_pop",
   "treemap_delete",
   "treemap_clear",
   "treemap_copy",
   "treemap_bounds"
  ],
  "note": "For every reachable tree (all histories of the mutators) and any transitive, reflexive three-way comparison. put raises only at INT_MAX entries."
 },
 "C02": {
  "status": "proved",
  "ns": "Gauche.TreeMap",
  "theorems": [
   "treemap_balanced",
   "treemap_check_iff"
  ],
  "note": ""
 },
 "C03": {
  "status": "proved",
  "ns": "Gauche.TreeMap",
  "theorems": [
   "treemap_predecessor",
   "treemap_successor",
   "treemap_floor",
   "treemap_ceiling",
   "treemap_bounds"
  ],
  "note": ""
 },
 "C10": {
  "status": "proved",
  "ns": "Gauche.IMap",
  "theorems": [
   "imap_get",
   "imap_exists",
   "imap_empty",
   "imap_alist",
   "imap_folds",
   "imap_min_max",
   "imap_ofAlist"
  ],
  "note": "Persistence holds by construction: the source mutates nothing."
 },
 "C41": {
  "status": "partial",
  "ns": "Gauche.IMap",
  "theorems": [
   "imap_depth_partial",
   "imap_delete_unbalanced"
  ],
  "note": "Proved for histories of imap-put only; false of the code with imap-delete (witness proved: 5 entries at depth 5)."
 },
 "C04": {
  "status": "proved",
  "ns": "Gauche.Heap",
  "theorems": [
   "heap_make",
   "heap_build",
   "heap_num",
   "heap_push",
   "heap_findMin",
   "heap_findMax",
   "heap_popMin",
   "heap_popMax",
   "heap_swapMin",
   "heap_swapMax",
   "heap_remove",
   "heap_delete",
   "heap_clear",
   "heap_find"
  ],
  "note": "For every heap reachable by the API; heap_push is stated for heaps whose capacity slot is bound (all but copies, see C05)."
 },
 "C05": {
  "status": "partial",
  "ns": "Gauche.Heap",
  "theorems": [
   "heap_copy_partial",
   "heap_copy_push_raises"
  ],
  "note": "False of the code: binary-heap-copy misspells :capacity, so push on a copy raises (proved for every heap). All other operations agree (proved). Storage independence of the copy is by construction of the pure model."
 },
 "C42": {
  "status": "partial",
  "ns": "Gauche.Heap",
  "theorems": [
   "heap_check_iff",
   "heap_check_partial",
   "heap_check_rejects_valid"
  ],
  "note": "False of the code when two elements have equal keys (witness proved); proved when keys are pairwise different."
 },
 "C24": {
  "status": "proved",
  "ns": "Gauche.Queue",
  "theorems": [
   "C24_queue_is_list",
   "C24_make_queue",
   "C24_fifo"
  ],
  "note": "ext/data/queue.scm <queue> over an explicit cons-cell memory; arbitrary programs of all API calls"
 },
 "C25": {
  "status": "partial",
  "ns": "Gauche.MtQueue",
  "theorems": [
   "C25_at_most_once_partial",
   "C25_fifo_partial",
   "C25_bounded_partial",
   "C25_big_lock_exclusive_partial",
   "C25_no_lost_wakeup_partial",
   "C25_timeout_breaks_big_lock",
   "C25_lost_wakeup_after_close",
   "C25_zero_length_overruns",
   "C25_timeout_leaks_reader_count",
   "C25_unique_ignores_close"
  ],
  "note": "Holds for all schedules that do not mix aborted waits with big-lock operations; the mix is a bug in the code (timed-out waiter clears another thread's big lock), shown by explicit schedules. max-length 0 hand-off and wake-ups after mtqueue-close! also violate the property."
 },
 "C11": {
  "status": "proved",
  "ns": "Gauche.Utf8",
  "theorems": [
   "C11_put_is_utf8",
   "C11_roundtrip",
   "C11_get_iff",
   "C11_lengths",
   "C11_reads_only_declared",
   "C11_prefix_free",
   "C11_sequences_injective",
   "C11_backward",
   "C11_order",
   "C11_agrees_with_unicode",
   "C11_backward_accepts_garbage"
  ],
  "note": "For all codes below 2^31 (the Unicode range included); malformed input covered by C11_get_iff (iff) and C11_reads_only_declared."
 },
 "C12": {
  "status": "partial",
  "ns": "Gauche.Str",
  "theorems": [
   "C12_made_is",
   "C12_contents_unique",
   "C12_length",
   "C12_ref",
   "C12_substring_partial",
   "C12_substring_range",
   "C12_append",
   "C12_append_all",
   "C12_list_roundtrip",
   "C12_list_to_string",
   "C12_list_to_string_range_partial",
   "C12_validate",
   "C12_cursor_partial",
   "C12_substring_cursor",
   "C12_index_transparent",
   "C12_substring_end_panics",
   "C12_list_to_string_end_ignored",
   "C12_list_to_string_empty_range"
  ],
  "note": "Missing because false of the code: substring/cursor at the very end of an indexed string whose length is a multiple of the interval fails an assertion; list->string with start 0 ignores end, and with end = start > 0 returns one character. Counterexamples proved."
 },
 "C13": {
  "status": "partial",
  "ns": "Gauche.Str",
  "theorems": [
   "C13_scan",
   "C13_scan_right_partial",
   "C13_boyer_moore",
   "C13_scan_right_wrong"
  ],
  "note": "string-scan complete. string-scan-right needs the hypothesis that the byte after the text is not the pattern's last byte when Boyer-Moore is used: boyer_moore_reverse starts one position too far (counterexample proved)."
 },
 "C43": {
  "status": "proved",
  "ns": "Gauche.Str",
  "theorems": [
   "C43_equal",
   "C43_compare",
   "C43_compare_representation"
  ],
  "note": "Complete strings."
 },
 "C44": {
  "status": "proved",
  "ns": "Gauche.Str",
  "theorems": [
   "C44_join",
   "C44_split",
   "C44_split_last"
  ],
  "note": "Complete strings; string-split by a character (Scm_StringSplitByCharWithLimit)."
 },
 "C14": {
  "status": "proved",
  "ns": "Gauche.Integer",
  "theorems": [
   "C14_add_sub",
   "C14_negate_abs"
  ],
  "note": "all canonical fixnums and bignums of any size; the asm versions of the word macros and the size limit on bignums are not modelled"
 },
 "C15": {
  "status": "proved",
  "ns": "Gauche.Integer",
  "theorems": [
   "C15_mul"
  ],
  "note": "all canonical exact integers"
 },
 "C16": {
  "status": "partial",
  "ns": "Gauche.Integer",
  "theorems": [
   "C16_quotient_remainder_partial",
   "C16_modulo",
   "C16_zero_divisor_fix",
   "C16_bug_zero_divisor_big",
   "C16_bug_wrap",
   "C16_bug_fixmin"
  ],
  "note": "bignum_gdiv (Knuth D with half words), bignum_sdiv, Scm_BignumRemSI modelled word by word. The property is false for dividend -2^61 with divisor -1 or 2^61, and a bignum dividend with divisor 0 reaches a machine division by zero; both are theorems."
 },
 "C17": {
  "status": "partial",
  "ns": "Gauche.Integer",
  "theorems": [
   "C17_eqv_iff",
   "C17_computed_canonical_partial",
   "C17_computed_eqv_partial",
   "C18_bug_ash_zero"
  ],
  "note": "closed under all modelled integer operations except (ash x 0) for x in {2^61-1, 1-2^61, -2^61}, for which the code really returns a non-canonical bignum"
 },
 "C18": {
  "status": "partial",
  "ns": "Gauche.Integer",
  "theorems": [
   "C18_bits_determine",
   "C18_lognot",
   "C18_logior",
   "C18_logand_partial",
   "C18_bug_logand",
   "C18_logxor_partial",
   "C18_ash_left_partial",
   "C18_ash_right_partial",
   "C18_bug_logand_example",
   "C18_bug_logxor_example",
   "C18_bug_ash_zero",
   "C18_bug_ash_fixmin",
   "C18_bug_ash_truncated"
  ],
  "note": "lognot and logior in full; logand, logxor and ash fail on exactly characterised inputs, for which the wrong answers are proved"
 },
 "C45": {
  "status": "proved",
  "ns": "Gauche.Integer",
  "theorems": [
   "C45_compare"
  ],
  "note": ""
 },
 "C46": {
  "status": "proved",
  "ns": "Gauche.Integer",
  "theorems": [
   "C46_gcd_lcm"
  ],
  "note": "the loop of Scm_Gcd takes a fuel argument in the model; the theorem holds for every fuel above the operands"
 },
 "C47": {
  "status": "partial",
  "ns": "Gauche.Integer",
  "theorems": [
   "C47_expt_partial",
   "C47_bug_expt_zero_big"
  ],
  "note": "exponents >= 0; bignum exponents are errors except for bases 1 and -1"
 },
 "C34": {
  "status": "partial",
  "ns": "Gauche.Rational",
  "theorems": [
   "C34_canonical_unique",
   "C34_numerator_denominator",
   "C34_add_partial",
   "C34_sub_partial",
   "C34_mul_partial",
   "C34_div_partial",
   "C34_div_zero",
   "C34_unary",
   "C34_bug_div",
   "C34_bug_add"
  ],
  "note": "All exact rationals of unbounded size. Excluded from + - * /: intermediate numerator -2^61 over a multiple of 2^61, where the code is wrong (C34_bug_*). Flonums, compnums and object-+ generics not modelled."
 },
 "C48": {
  "status": "partial",
  "ns": "Gauche.Rational",
  "theorems": [
   "C48_compare",
   "C48_compare_fix_rat_partial",
   "C48_bug_compare_negative"
  ],
  "note": "Complete except fixnum against ratnum, where the code first compares doubles: proved with a monotone conversion as parameter, and shown wrong for negative ratnums whose double equals the fixnum's."
 },
 "C49": {
  "status": "partial",
  "ns": "Gauche.Rational",
  "theorems": [
   "C49_expt_partial",
   "C49_expt_zero_negative"
  ],
  "note": "Exponents outside the fixnum range (error) and base 2 with exponent >= 2^28 (error) are excluded."
 },
 "C50": {
  "status": "proved",
  "ns": "Gauche.Rational",
  "theorems": [
   "C50_round"
  ],
  "note": "Exact numbers; rounding of flonums is not modelled."
 },
 "C35": {
  "status": "proved",
  "ns": "Gauche.NumUtil",
  "theorems": [
   "C35_floor_div",
   "C35_floor_quotient",
   "C35_ceiling_div",
   "C35_truncate_div",
   "C35_euclidean_div",
   "C35_balanced_div",
   "C35_round_div",
   "C35_zero_divisor",
   "C35_exact_integer_sqrt",
   "C35_sqrt_any_estimate"
  ],
  "note": "Exact arguments. quotient/remainder are the integer ones (C16 lists where the C primitives deviate). exact-integer-sqrt assumes that the double sqrt is correctly rounded (spec in Spec/Double.lean)."
 },
 "C51": {
  "status": "partial",
  "ns": "Gauche.NumUtil",
  "theorems": [
   "C51_expt_mod",
   "C51_inverse_mod_sound",
   "C51_inverse_mod_complete_partial",
   "C51_bug_inverse_mod_negative"
  ],
  "note": "expt-mod complete. inverse-mod is sound for all arguments, complete for q >= 0 and m > 0; for negative q it can answer #f although an inverse exists (bug theorem)."
 },
 "C52": {
  "status": "partial",
  "ns": "Gauche.Rationalize",
  "theorems": [
   "C52_continued_fraction",
   "C52_continued_fraction_terms",
   "C52_real_to_rational_closed",
   "C52_rationalize",
   "C52_unique",
   "C52_bug_open_interval"
  ],
  "note": "Exact arguments. Closed intervals (rationalize) complete; with open? #t the code answers values outside the interval (bug theorem)."
 },
 "C53": {
  "status": "partial",
  "ns": "Gauche.Prime",
  "theorems": [
   "C53_primes",
   "C53_primes_complete",
   "C53_miller_rabin_round",
   "C53_small_prime_partial",
   "C53_miller_rabin_no_false_negative",
   "C53_bug_miller_rabin_two"
  ],
  "note": "Sieve complete. Primality tests: no odd prime is rejected, for any bases; that composites below the published bounds are rejected rests on published tables and is not proved. bpsw-prime? is not modelled. (miller-rabin-prime? 2) is #f."
 },
 "C54": {
  "status": "partial",
  "ns": "Gauche.Prime",
  "theorems": [
   "C54_jacobi",
   "C54_naive_factorize",
   "C54_naive_factorize_limited",
   "C54_bug_memo_limited",
   "C54_totient",
   "C54_reduced_totient"
  ],
  "note": "small-prime? enters as any sound test and primes as the sequence of all primes (C53). A call with a divisor limit spoils the memo table (bug theorem). mc-factorize is not modelled."
 },
 "C20": {
  "status": "proved",
  "ns": "Gauche.HashTable",
  "theorems": [
   "C20_programs_refine_finite_maps"
  ],
  "note": "All programs over any number of tables (make, copy, get, exists?, count, put!, adjoin!, replace!, delete!, update!, push!, pop!, clear!, prune!, map!, union!/intersection!/difference!/xor! with aliasing, compare-as-sets), any hash function and compatible equivalence, any collisions and resizes; while fewer than INT_MAX bindings exist. Iteration: C55. Hash and equality functions are pure (do not touch the table)."
 },
 "C55": {
  "status": "proved",
  "ns": "Gauche.HashTable",
  "theorems": [
   "C55_iteration",
   "C55_seek",
   "C55_pop_r7",
   "C55_insertion_breaks_iteration"
  ],
  "note": "After any program; callbacks may delete the current key (C20, prune!/intersection!). C55_insertion_breaks_iteration: a callback that inserts can make the iteration skip and repeat keys."
 },
 "C56": {
  "status": "partial",
  "ns": "Gauche.HashTable",
  "theorems": [
   "C56_update_reentrant",
   "C56_update_raise_leaves_fallback",
   "C56_update_reentrant_delete",
   "C56_too_many_entries",
   "C56_too_many_entries_reached"
  ],
  "note": "The positive half (result becomes the value if the entry survives the procedure) holds; failure atomicity does not: three negative theorems."
 },
 "C23": {
  "status": "proved",
  "ns": "Gauche.Base64",
  "theorems": [
   "C23_encode",
   "C23_decode",
   "C23_round_trip",
   "C23_output_characters",
   "C23_digits_accepted_without_round_trip"
  ],
  "note": "Full characterization of encoder and decoder (lax and strict, any text) against the RFC 4648 definition in Spec/Radix.lean; round trip for all alphabets with two distinct printable extra digits; the library also accepts some digits for which it fails (last theorem)."
 },
 "C57": {
  "status": "partial",
  "ns": "Gauche.Base64",
  "theorems": [
   "C57_encode32",
   "C57_decode32_partial",
   "C57_round_trip32_partial",
   "C57_encode16",
   "C57_decode16",
   "C57_round_trip16",
   "C57_bug_base32_decoder_loops",
   "C57_bug_round_trip_line_width_7"
  ],
  "note": "base16 complete. base32: the decoder loops for ever exactly on texts with an ignorable character before the eighth digit of a group (bug theorems), otherwise it is right."
 },
 "C22": {
  "status": "proved",
  "ns": "Gauche.CharSet",
  "theorems": [
   "C22_sets"
  ],
  "note": "Every program of make/add-range/union/complement/copy/freeze/freeze! refines the set-theoretic specification Spec/CharProg.lean: same failures, same memberships, same mutability."
 },
 "C58": {
  "status": "proved",
  "ns": "Gauche.CharSet",
  "theorems": [
   "C58_equal",
   "C58_subset",
   "C58_ranges",
   "C58_size"
  ],
  "note": "For all sets reachable by programs, mutable or frozen."
 },
 "C59": {
  "status": "proved",
  "ns": "Gauche.CharSet",
  "theorems": [
   "C59_binary_search"
  ],
  "note": "Any linear order, any record width, any vector with strictly increasing keys; never reads outside the vector."
 },
 "C61": {
  "status": "partial",
  "ns": "Gauche.CharSet",
  "theorems": [
   "C61_exact",
   "C61_round_trip_partial",
   "C61_bug_three_characters"
  ],
  "note": "False in general: a run of exactly three large characters is written without its dash. C61_exact says exactly which members are lost, for every set and every choice of escaped characters."
 },
 "C60": {
  "status": "partial",
  "ns": "Gauche.CharSet",
  "theorems": [
   "C60_sound",
   "C60_immutable",
   "C60_complete_partial",
   "C60_first_two_runs_partial",
   "C60_bug_members_not_folded"
  ],
  "note": "Completeness is false in general: the loop modifies the tree it iterates over and ends early when the next node is absorbed. Proved complete when no mapping yields a new character just below a higher one, and for the first two runs always; case mappings are arbitrary functions."
 },
 "C30": {
  "status": "proved",
  "ns": "Gauche.C3",
  "theorems": [
   "C30_merge",
   "C30_merge_choice",
   "C30_hierarchy",
   "C30_error_iff",
   "C30_bug_false_element"
  ],
  "note": "Every program of class definitions over the two root classes; merge of arbitrary proper lists. Class redefinition and module import (which also use the merge) are not modelled. monotonic-merge itself fails if an element is #f (theorem C30_bug_false_element)."
 },
 "C39": {
  "status": "proved",
  "ns": "Gauche.Toposort",
  "theorems": [
   "C39_topological_sort",
   "C39_details",
   "C39_terminates",
   "C39_bug_repeated_entry"
  ],
  "note": "Graphs with one entry per node (repeated successors allowed), equality = identity; termination for any equality procedure. With two entries for a node the sort can report a cycle that does not exist (C39_bug_repeated_entry). The optional vector of node names is not modelled."
 },
 "C38": {
  "status": "partial",
  "ns": "Gauche.RingBuffer",
  "theorems": [
   "C38_refines_deque",
   "C38_contract",
   "C38_doubler",
   "C38_iterate",
   "C38_insert_all_grow",
   "C38_bug_reverse_iterator",
   "C38_bug_insert_all_room",
   "C38_bug_insert_all_loses",
   "C38_bug_insert_all_exact"
  ],
  "note": "Deque refinement is proved for every history and every overflow handler obeying its contract. False of the code, and proved so: ring-buffer-insert-all! with room loses elements, with an exactly fitting storage it leaves a buffer that refuses additions, and the reverse iterator delivers nothing. Element conversion of uvectors is not modelled."
 },
 "C40": {
  "status": "proved",
  "ns": "Gauche.Lcs",
  "theorems": [
   "C40_with_positions",
   "C40_lcs",
   "C40_fold",
   "C40_edit_list"
  ],
  "note": "For every equality procedure and every pair of sequences. lcs-edit-list/context and lcs-edit-list/unified are not modelled."
 },
 "C26": {
  "status": "proved",
  "ns": "Gauche.MergeSort",
  "theorems": [
   "C26_sort_array",
   "C26_sort_list_x",
   "C26_stable_sort_x",
   "C26_stable_sort_by_x",
   "C26_stable_sort",
   "C26_stable_sort_by",
   "C26_stable_sort_vector_x",
   "C26_stable_sort_vector_by",
   "C26_stable_sort_vector",
   "C26_merge",
   "C26_merge_x",
   "C26_sorted"
  ],
  "note": "For every comparison procedure (rearrangement, no access outside, same pairs) and every strict weak order (sorted, stable). Effects and errors raised inside comparison or key procedures, strings and other generic sequences, and arrays beyond 2^30 elements are not modelled."
 },
 "C33": {
  "status": "proved",
  "ns": "Gauche.Cache",
  "theorems": [
   "C33_refines",
   "C33_policy",
   "C33_capacity",
   "C33_latest",
   "C33_ttl",
   "C33_bug_write_existing",
   "C33_capacity_zero",
   "C33_bug_evict_renumber"
  ],
  "note": "Every history, FIFO/LRU/TTL/TTLR, any initial dictionary with distinct numbers; numbers may wrap at the greatest fixnum unless cache-evict! is used (then it is an error: C33_bug_evict_renumber). Writing an existing key to a full cache also discards the oldest entry (C33_bug_write_existing). The counting cache, errors inside value procedures and threads are not modelled."
 },
 "C31": {
  "status": "partial",
  "ns": "Gauche.Promise",
  "theorems": [
   "C31_same_value",
   "C31_never_changes",
   "C31_never_changes_atomic",
   "C31_settle",
   "C31_chain",
   "C31_bug_torn",
   "C31_bug_changes",
   "C31_bug_raise_values",
   "C31_bug_not_shared"
  ],
  "note": "Every interleaving at the granularity of memory accesses (sequentially consistent) without delay-force; with delay-force proved when critical sections do not overlap, and false otherwise (C31_bug_torn, C31_bug_changes: force_cc reads the other promise without its mutex). Chains by one thread: termination, sharing, constant results. Parameterization and dynamic handlers are not modelled."
 },
 "C62": {
  "status": "partial",
  "ns": "Gauche.LazyPair",
  "theorems": [
   "C62_once",
   "C62_same_pair",
   "C62_returns_pair",
   "C62_never_changes",
   "C62_recursive",
   "C62_force",
   "C62_fail",
   "C62_wait_ends",
   "C62_bug_lazy"
  ],
  "note": "Every interleaving of any number of threads at the granularity of memory accesses (sequentially consistent). Without errors of the generator the full property holds; after such an error a waiting thread may return while the object is still a lazy pair (C62_bug_lazy). Pair attributes and lcons generators that return pairs are abstracted into the result of the generator."
 },
 "C29": {
  "status": "partial",
  "ns": "Gauche.OutPort",
  "theorems": [
   "C29_in_order",
   "C29_flush",
   "C29_outcomes",
   "C29_modes",
   "C29_modes_char",
   "C29_closed",
   "C29_bug_assertion",
   "C29_bug_twice",
   "C29_bug_close"
  ],
  "note": "Byte-level model of buffer memory, bufport_flush/write, file_flusher, Putb/Putc/Puts/Putz/Flush/close, any write(2) lengths. Holds for writes that do not fail. False otherwise, and proved so: write-char asserts room after one unforced flush (a short write ends the process); a write error in the middle of a flush makes the next flush write bytes twice; close after an error drops what waits. The flushers of gauche.vport are not modelled."
 },
 "C28": {
  "status": "partial",
  "ns": "Gauche.InPort",
  "theorems": [
   "C28_chunk_independent",
   "C28_defined",
   "C28_reads_bytes",
   "C28_string_port",
   "C28_string_defined",
   "C28_spec_bytes",
   "C28_spec_chars",
   "C28_blocks",
   "C28_bug_last_byte",
   "C28_bug_line_then_block",
   "C28_bug_eof_byte",
   "C28_bug_vport",
   "C28_bug_line_number",
   "C28_bug_peek_invalid",
   "C28_bug_lost",
   "C28_bug_cut"
  ],
  "note": "Buffer memory, bufport_fill/read, the two fillers and Getb/Getc/Peekb/Peekc/Getz/ReadLine over any chunking of the file. Chunk independence holds for every program and all bytes on file ports (block reads: full buffering); the content is the specified one. False, and proved so: character reads on gauche.vport buffered ports depend on the chunks; a block read after a peek (or after read-line stopped at a CR) at the end of the file loses the last byte or invents byte 255; peek-char of malformed bytes consumes them; read-line counts a line twice."
 },
 "C36": {
  "status": "proved",
  "ns": "Gauche.ListPrim",
  "theorems": [
   "C36_shapes",
   "C36_classify",
   "C36_length",
   "C36_length_plus",
   "C36_pairs",
   "C36_num_pairs",
   "C36_compare_lists",
   "C36_compare_number",
   "C36_compare_bignum_partial",
   "C36_bug_compare_bignum",
   "C36_list_copy",
   "C36_alist_copy",
   "C36_last_pair",
   "C36_append",
   "C36_append_error",
   "C36_append_none",
   "C36_append2",
   "C36_reverse",
   "C36_append_x",
   "C36_append2_x",
   "C36_reverse_x",
   "C36_list_tail",
   "C36_list_ref",
   "C36_member",
   "C36_assoc",
   "C36_delete",
   "C36_alist_delete",
   "C36_delete_x",
   "C36_alist_delete_x_partial",
   "C36_bug_alist_delete_x",
   "C36_delete_duplicates",
   "C36_delete_duplicates_x"
  ],
  "note": "src/list.c and src/liblist.scm on every cons graph, with addresses, so that sharing, freshness and mutation are stated. Comparison is any predicate of the objects; lazy and immutable pairs are not modelled. Beyond the listed operations: alist-delete! leaves an entry when two in a row are to go, and a dotted list compared with a bignum is found longer (both proved); so these two have partial theorems."
 },
 "C21": {
  "status": "proved",
  "ns": "Gauche.SpVec",
  "theorems": [
   "C21_general_vector",
   "C21_uniform_vector",
   "C21_matrix_index",
   "C21_matrix_index_injective",
   "C21_general_matrix",
   "C21_uniform_matrix",
   "C21_exists_out_of_range",
   "C21_bug_inc",
   "C21_bug_ref_out_of_range",
   "C21_bug_matrix_ref_out_of_range"
  ],
  "note": "ext/sparse/ctrie.c, spvec.c and the index procedures of sparse.scm: all histories on all 64-bit indices (pairs of 32-bit ones for matrices), general and uniform element types with any conversion. Nodes and leaves are values, not addresses; the popcount and lowest/highest bit of bits_inline.h are given by what they compute. inc! is covered for contents but makes the entry count wrong (proved)."
 },
 "C19": {
  "status": "proved",
  "ns": "Gauche.NumText",
  "theorems": [
   "C19_print",
   "C19_print_bad_base",
   "C19_read",
   "C19_read_integer",
   "C19_round_trip",
   "C19_print_injective",
   "C19_bug_minus_i",
   "C19_bug_fixmin_fraction",
   "C19_bug_radix_overflow"
  ],
  "note": "Every exact integer and ratnum, radix 2..36, upper/plus/radix flags; the reader's grammar (prefixes, signs, fractions, underscores, strict mode) is characterised exactly, including the word-size accumulator and its double-computed tables. The round trip as first stated is false for -18 in radixes above 18 (printed as -i and read as the imaginary unit, proved as a finding), so the property excludes it. Decimals, exponents, complex and inexact results are not modelled."
 },
 "C27": {
  "status": "proved",
  "ns": "Gauche.DynWind",
  "theorems": [
   "C27_history",
   "C27_context",
   "C27_finished",
   "C27_alternate",
   "C27_inside_iff",
   "C27_same_place",
   "C27_after",
   "C27_normal",
   "C27_capture",
   "C27_jump",
   "C27_walks",
   "C27_all_runs",
   "C27_bug_abort"
  ],
  "note": "Abstract machine of vm.c (frames, denv, handler chain, escape points, prompts) running every program of a call-by-value language with closures, multiple values, boxes, continuation marks, dynamic-wind, call/cc, prompts and aborts, including jumps inside before/after thunks. Programs without abort-current-continuation: all runs. With aborts: runs in which no abort looks for its prompt beneath a throw in progress (C27_bug_abort shows the machine breaking otherwise). The order theorem for a jump (C27_jump) assumes the thunks on the path return; C27_after/history/alternate need no such assumption. reset/shift and crossing C stacks are not modelled."
 },
 "C32": {
  "status": "proved",
  "ns": "Gauche.Mutex",
  "theorems": [
   "C32_histories",
   "C32_exclusion",
   "C32_abandoned",
   "C32_abandoned_once",
   "C32_progress",
   "C32_release_wait",
   "C32_bug_intr",
   "C32_bug_abandoned_waiter"
  ],
  "note": "One mutex, any number of threads and condition variables, every interleaving of lock, timed lock, unlock, unlock with condition variable, signal, broadcast, timeouts, spurious wakeups and thread termination. Trusted: pthread mutexes make each critical section atomic and a condition wait releases and blocks in one step. The positive theorems exclude SCM_INTERNAL_COND_INTR; C32_bug_intr shows what happens with it. C32_bug_abandoned_waiter: terminating the owner does not wake a blocked locker."
 },
 "C37": {
  "status": "partial",
  "ns": "Gauche.Regex",
  "theorems": [
   "C37_compile_partial",
   "C37_from_ast_partial",
   "C37_match_partial",
   "C37_first_match_partial",
   "C37_language",
   "C37_optimizer",
   "C37_bug_complement",
   "C37_bug_nested_star",
   "C37_bug_fold_distinct",
   "C37_bug_fold_star",
   "C37_bug_prefix_backref",
   "C37_bug_backref_overrun",
   "C37_bug_lookahead_group",
   "C37_bug_long_literal",
   "C37_bug_empty_loop"
  ],
  "note": "Optimizer, code generator, byte-code matcher and search of src/regexp.c, for all texts and all syntax trees in `ok` (and, with the optimizer, `plain` and `Separate`): the search answers with the first way of the backtracking semantics from the leftmost place, with its submatches, or runs out of stack, and does not with enough of it; for patterns without standalone and lookahead parts that is a match of the textbook relation, at the leftmost place where there is one. The property as stated is false of the code: C37_bug_* give patterns with wrong answers. Missing: the parser, lookbehind, conditionals, graphemes, groups inside lookahead and standalone patterns, the optimizer where case is folded, back references where case is folded."
 },
 "C63": {
  "status": "proved",
  "ns": "Gauche.FloText",
  "theorems": [
   "C63_round_trip",
   "C63_text"
  ],
  "note": "Every flonum (negative zero, subnormals, infinities, NaN included) in the default format of number->string, radix 10, with or without a plus sign; string->number in both strict and lax mode. Assumed: log10 of the C library is right to within 0.05, exact integer arithmetic is exact (C14-C18) and the double operations used by the reader round to nearest even. Not modelled: explicit precision, rounding modes, other radixes."
 },
 "C64": {
  "status": "partial",
  "ns": "Gauche.FloText",
  "theorems": [
   "C64_read_decimal_partial",
   "C64_bug_underflow",
   "C64_bug_overflow",
   "C64_bug_exponent",
   "C64_bug_loop",
   "C64_bug_nul"
  ],
  "note": "Any number of digits, with point, exponent, sign and underscores. Correct for zero, normal numbers up to 1.797e308 and numbers that round to the infinity, when the exponent that is written is below 325. Outside of this the code is wrong or does not terminate, as the bug theorems show."
 },
 "C65": {
  "status": "partial",
  "ns": "Gauche.FloText",
  "theorems": [
   "C65_integer",
   "C65_ratio_partial",
   "C65_short_ratio",
   "C65_bug_subnormal"
  ],
  "note": "All exact integers; all ratios that are not subnormal, and all ratios of two integers of 53 significant bits. For other ratios in the subnormal range the code is wrong, as the bug theorem shows."
 },
 "C66": {
  "status": "partial",
  "ns": "Gauche.NumCmp",
  "theorems": [
   "C66_exact",
   "C66_round_trip_partial",
   "C66_bug_subnormal"
  ],
  "note": "exact of every finite flonum rounds to the flonum (complete). The round trip through inexact is proved for all flonums that are not subnormal and shown false for a subnormal one."
 },
 "C67": {
  "status": "partial",
  "ns": "Gauche.NumCmp",
  "theorems": [
   "C67_order_partial",
   "C67_transitive_partial",
   "C67_bug_near",
   "C67_bug_minus_one"
  ],
  "note": "Exact integers of any size, ratios, flonums and infinities in any mix. Excluded: ratios below 2^-1022, and pairs of a negative fixnum (or a flonum equal to one) with a ratio that rounds to the same flonum; C67_bug_near shows what the code answers for all those pairs."
 },
 "C68": {
  "status": "partial",
  "ns": "Gauche.Sexp",
  "theorems": [
   "C68_read_write_partial",
   "C68_injective_partial",
   "C68_bug_digit",
   "C68_bug_dot"
  ],
  "note": "All shapes of data (lists, vectors, quoting forms, labels, atoms), any size. Symbols with a non-ASCII decimal digit or a spacing/enclosing mark are excluded, and C68_bug_* show that write/read fail for them. The meaning of labels is C70."
 },
 "C69": {
  "status": "proved",
  "ns": "Gauche.Sexp",
  "theorems": [
   "C69_string",
   "C69_string_datum",
   "C69_char",
   "C69_escaped"
  ],
  "note": "For any character tables and any characters (Unicode scalar values)."
 },
 "C70": {
  "status": "partial",
  "ns": "Gauche.Sexp",
  "theorems": [
   "C70_never_wrong",
   "C70_read_write_partial",
   "C70_bug_hang"
  ],
  "note": "Any finite graph of pairs, vectors and strings, both for write and write-shared. write always comes to an end and, if read does, the result is a copy (C70_never_wrong). read comes to an end for all graphs without circular lists; C70_bug_hang: for a graph with a circular list, read loops for ever on the text of write."
 },
 "C71": {
  "status": "partial",
  "ns": "Gauche.Sexp",
  "theorems": [
   "C71_shared_partial",
   "C71_never_wrong"
  ],
  "note": "Exact sharing for every finite graph; partial for the same reason as C70 (read may not come to an end for circular lists)."
 },
 "C72": {
  "status": "proved",
  "ns": "Gauche.SynRules",
  "theorems": [
   "C72_first_match",
   "C72_error_iff",
   "C72_identifier_use",
   "C72_bug_underscore"
  ],
  "note": "For all rules that the definition accepts. C72_identifier_use covers uses that are a bare identifier, with the quirk that (_ . _) matches these too (C72_bug_underscore)."
 },
 "C73": {
  "status": "partial",
  "ns": "Gauche.SynRules",
  "theorems": [
   "C73_expansion_partial",
   "C73_spec_unique",
   "C73_bug_vector"
  ],
  "note": "Missing: patterns with a vector ending in an ellipsis below another ellipsis, where the code is wrong (C73_bug_vector), and templates that iterate over variables of different lengths."
 },
 "C74": {
  "status": "partial",
  "ns": "Gauche.SynRules",
  "theorems": [
   "C74_fuel",
   "C74_terminates_partial",
   "C74_index_partial",
   "C74_bug_forever",
   "C74_bug_index"
  ],
  "note": "False in general: C74_bug_forever (x ... ... over a variable of depth 1 never ends), C74_bug_index (one cell beyond the array for 10 levels). Proved for templates without consecutive ellipses, and for all numbers of levels other than 10."
 },
 "C75": {
  "status": "partial",
  "ns": "Gauche.Prog",
  "theorems": [
   "C75_compiled_code_partial",
   "C75_one_result",
   "C75_bug_head_heavy"
  ],
  "note": "Simulation of a big-step semantics with a store by the VM running the code that pass 5 generates, for all programs of the modelled forms, including closures, set!, letrec, rest arguments, tail calls and all contexts. Missing: calls whose operator is a let and that have an assigned variable as an operand, which are compiled wrong (C75_bug_head_heavy), and programs without a value."
 },
 "C76": {
  "status": "partial",
  "ns": "Gauche.Prog",
  "theorems": [
   "C76_bug_unbounded"
  ],
  "note": "False: the theorem shows that there is no bound on how far the stack pointer can go beyond the checked limit. No positive part is proved."
 },
 "C77": {
  "status": "partial",
  "ns": "Gauche.Dispatch",
  "theorems": [
   "C77_call_order",
   "C77_order_unique",
   "C77_apply_partial",
   "C77_bug_apply",
   "C77_bug_overflow"
  ],
  "note": "Proved for direct calls of generic functions whose methods have fewer than 32 required arguments, and for apply except when the arguments before the list are exactly as many as the largest number of required arguments; there the code selects a method that does not accept the arguments (C77_bug_apply). From 32 required arguments on an array is overrun (C77_bug_overflow). Class redefinition and user-defined metaobject protocol are not modelled."
 },
 "C78": {
  "status": "partial",
  "ns": "Gauche.Dispatch",
  "theorems": [
   "C78_dispatcher_partial",
   "C78_bug_shadow",
   "C78_bug_four_arguments",
   "C78_bug_redefine",
   "C78_bug_deleted",
   "C78_bug_axis"
  ],
  "note": "Proved for the first axis, additions of methods of new signatures only, and calls where a method specialized exactly on the class is applicable (or none is there); the counterexamples show that the accelerator changes the meaning of the other calls."
 },
 "C79": {
  "status": "partial",
  "ns": "Gauche.Bits",
  "theorems": [
   "C79_count_word",
   "C79_any_every",
   "C79_count",
   "C79_highest",
   "C79_lowest_partial",
   "C79_bug_lowest_below_start",
   "C79_fill_partial",
   "C79_bug_fill_past_end",
   "C79_copy_partial",
   "C79_bug_copy_overlap",
   "C79_operate_partial",
   "C79_operate_multi_partial",
   "C79_bug_operate_one_word",
   "C79_compare_partial",
   "C79_bug_compare_one_word"
  ],
  "note": "any, every, count and highest are proved for all ranges. lowest, operate, equal and includes are false for ranges that start inside a word (lowest: and end in another; the others: and end in the same word); fill up to the last bit of the array touches the word after it; copying inside one array to higher bit numbers smears bits. The _bug_ theorems show each; the _partial ones prove the rest."
 },
 "C80": {
  "status": "partial",
  "ns": "Gauche.Bits",
  "theorems": [
   "C80_make",
   "C80_text_round_trip",
   "C80_text_reject",
   "C80_ref_set",
   "C80_copy",
   "C80_copy_into",
   "C80_bug_copy_overlap",
   "C80_bitwise",
   "C80_query",
   "C80_any_every",
   "C80_shift",
   "C80_rotate",
   "C80_field",
   "C80_bug_field_immutable",
   "C80_equal"
  ],
  "note": "bitvector-copy! inside one vector towards higher indices is wrong (C80_bug_copy_overlap) and the field mutators change literals (C80_bug_field_immutable). bitvector iteration procedures written in Scheme and the sharing with uniform vectors are not modelled."
 },
 "C81": {
  "status": "partial",
  "ns": "Gauche.Equal",
  "theorems": [
   "C81_terminates",
   "C81_false",
   "C81_decides_partial",
   "C81_circular_pure",
   "C81_interleave",
   "C81_bug_circular"
  ],
  "note": "Proved for all heaps of pairs, vectors, strings, symbols, exact integers and flonums other than NaN, and for every stream of random numbers: equal? terminates, its answer #f is always right, its answer is right unless both arguments are circular lists, it is right for circular lists that come back to their first pair, and the Scheme routine %interleave-equal? is right for all data. Missing: circular lists with a non-circular beginning, where the C loop is wrong (C81_bug_circular: (equal? '(a a b . #0=(a a b a . #0#)) '#1=(a a b . #1#)) is #t). Not modelled: identifiers, uniform vectors, objects with their own comparison."
 },
 "C82": {
  "status": "partial",
  "ns": "Gauche.Hash",
  "theorems": [
   "C82_platform",
   "C82_platform_integer",
   "C82_platform_combine",
   "C82_equal_hash_partial",
   "C82_bug_compnum",
   "C82_bug_f64vector"
  ],
  "note": "Platform independence of portable-hash and combine-hash-value is proved for all finite data of the model. equal? data have equal hash values unless a complex number or an f64vector contains a negative zero; there the implication is false (C82_bug_compnum: (eqv? 0.0+1.0i -0.0+1.0i) is #t and all hash values differ; C82_bug_f64vector). Not modelled: f16/f32 and complex uniform vectors, identifiers, objects with their own hash method; siphash is a parameter."
 },
 "C83": {
  "status": "proved",
  "ns": "Gauche.Csv",
  "theorems": [
   "C83_roundtrip",
   "C83_roundtrip_default",
   "C83_roundtrip_notrim",
   "C83_plain_text",
   "C83_progress",
   "C83_eof",
   "C83_bug_backslash_quote",
   "C83_bug_after_quote",
   "C83_bug_crlf_notrim",
   "C83_bug_trim_not_special"
  ],
  "note": "The round trip holds for every quote character but the backslash (C83_bug_backslash_quote) and every trim set within the special characters (C83_bug_trim_not_special shows the condition is needed); a row of no fields comes back as one empty field. string-trim-both is modelled after SRFI-13, its source is not in the tree. The middle-level API (header parsers) is not modelled."
 },
 "C84": {
  "status": "proved",
  "ns": "Gauche.Digest",
  "theorems": [
   "C84_sha256",
   "C84_sha512",
   "C84_md5",
   "C84_chunks",
   "C84_spec_unique",
   "C84_bug_md5_4g"
  ],
  "note": "For SHA-1/224/256, SHA-384/512 and MD5 with an arbitrary compression function. MD5 needs pieces shorter than 2^32 bytes (C84_bug_md5_4g: a longer one is truncated). The compression functions, SHA-3 and the copying of the state into the digest string are not modelled."
 },
 "C85": {
  "status": "proved",
  "ns": "Gauche.Comb",
  "theorems": [
   "C85_permutations",
   "C85_permutations_mem",
   "C85_permutations_for_each",
   "C85_bug_for_each_empty",
   "C85_permutations_star",
   "C85_combinations",
   "C85_combinations_mem",
   "C85_combinations_star",
   "C85_power_set",
   "C85_power_set_binary",
   "C85_power_set_star",
   "C85_cartesian",
   "C85_cartesian_order"
  ],
  "note": "The -for-each forms are modelled by the sequence of calls of their procedure. The starred forms need an equality that compares keys (an equivalence relation). On the empty list the permutation -for-each procedures do not call their procedure although (permutations '()) is (()): C85_bug_for_each_empty."
 },
 "C86": {
  "status": "partial",
  "ns": "Gauche.Lev",
  "theorems": [
   "C86_l_distances",
   "C86_l_steps",
   "C86_re_distances",
   "C86_re_bounds",
   "C86_bug_re_first"
  ],
  "note": "l-distances: full, for every comparison and cutoff, whatever the reused rows contain. re-distances does not compute the restricted edit distance: transpositions at the beginning of either sequence are not recognized, and the example of the manual (re-distance \"cat\" \"act\") gives 2 instead of 1 (C86_bug_re_first); proved is what it does compute, and that it is at most one more. dl-distances is not modelled; that the indexes are in range is not modelled."
 },
 "C87": {
  "status": "partial",
  "ns": "Gauche.Dominator",
  "theorems": [
   "C87_dominators_partial",
   "C87_no_error",
   "C87_bug_not_immediate"
  ],
  "note": "Soundness: the node given is another node on every path from the start. That it is the immediate dominator is false, because update intersects with the dominator of an upstream node instead of the node itself (C87_bug_not_immediate: the result depends on the order of the upstream nodes). The postorder numbering is an assumption (numbers in range, every node but the start has an upstream with a larger number); that the iterations end is not proved."
 },
 "C88": {
  "status": "partial",
  "ns": "Gauche.QP",
  "theorems": [
   "C88_binary",
   "C88_text",
   "C88_width",
   "C88_chars",
   "C88_bug_binary_width",
   "C88_bug_cr"
  ],
  "note": "The line width is exceeded in binary mode, since an encoded CR or LF is counted as one character (C88_bug_binary_width); a text ending with CR is an error (C88_text, C88_bug_cr). Proved for text mode and all round trips."
 },
 "C89": {
  "status": "partial",
  "ns": "Gauche.UriCode",
  "theorems": [
   "C89_round_trip",
   "C89_chars",
   "C89_plain",
   "C89_query",
   "C89_bug_empty_part"
  ],
  "note": "The query round trip excludes a parameter with empty name and no value: the string it gives, and every query string beginning or ending with &, is an error to take apart (C89_bug_empty_part). Conversion between encodings is not modelled."
 },
 "C90": {
  "status": "proved",
  "ns": "Gauche.Unify",
  "theorems": [
   "C90_terminates",
   "C90_dictionary",
   "C90_false",
   "C90_most_general",
   "C90_decides",
   "C90_merge"
  ],
  "note": "The procedures given by the user are a comparison of variables and values by identity and a tuple-fold that goes through the elements from left to right and gives #f on tuples of different lengths; the tuple-fold of the manual, which is fold, stops at the end of the shorter one, so it takes a list and its prefix to unify."
 },
 "C91": {
  "status": "partial",
  "ns": "Gauche.UriMerge",
  "theorems": [
   "C91_merge",
   "C91_more_partial",
   "C91_dots",
   "C91_empty_segment",
   "C91_bug_empty_segment",
   "C91_bug_empty_base"
  ],
  "note": "Proved for hierarchical references in lower-case schemes whose paths have no empty segments inside. With an empty segment inside, what follows is not normalized (C91_bug_empty_segment; C91_empty_segment says exactly what comes out). With more than two arguments an intermediate URI without path is an error or gives #f (C91_bug_empty_base). Relative bases and relative paths after a scheme (mailto:x) are not in the theorems."
 },
 "C92": {
  "status": "partial",
  "ns": "Gauche.ModSearch",
  "theorems": [
   "C92_own",
   "C92_stay",
   "C92_search",
   "C92_first_import",
   "C92_lookup",
   "C92_options_partial",
   "C92_import_visible_partial",
   "C92_bug_cycle",
   "C92_bug_prefix_only",
   "C92_bug_transitive"
  ],
  "note": "The order of the search is proved for all heaps (C92_search, C92_first_import: what is not looked up a second time makes no difference). The options of import are proved to be the import sets of R7RS for every list of options in which no :only or :rename comes right after an :only or :except that had a :prefix (there it is an error, C92_bug_prefix_only), for modules whose exported bindings have values. When a module exports names it does not define, :only finds names that are not exported (C92_bug_transitive) and two modules that import each other make the search endless (C92_bug_cycle)."
 },
 "C93": {
  "status": "partial",
  "ns": "Gauche.Compare",
  "theorems": [
   "C93_refl",
   "C93_swap",
   "C93_eq",
   "C93_trans",
   "C93_types",
   "C93_lists",
   "C93_vectors",
   "C93_strings",
   "C93_reals",
   "C93_circular_partial",
   "C93_circular_equal_partial",
   "C93_circular_ends",
   "C93_bug_circular"
  ],
  "note": "Complete for trees of lists, vectors, booleans, characters, strings, symbols, numbers, uniform vectors and instances of other classes with an order of their own. Numbers are compared by value (C48 and C67 say where the code's comparison of numbers is wrong). Two different circular lists may be found to be equal (C93_bug_circular); proved is that the loop ends for all of them, that an answer other than 0 is right, and that 0 is right for lists that come back to their first pairs. Complex uniform vectors, character sets and NaN are not modelled."
 },
 "C94": {
  "status": "partial",
  "ns": "Gauche.Trie",
  "theorems": [
   "C94_map",
   "C94_exists",
   "C94_get",
   "C94_bug_false_value",
   "C94_size",
   "C94_fold_partial",
   "C94_prefix",
   "C94_longest",
   "C94_partial_key_complete",
   "C94_partial_key_partial",
   "C94_bug_partial_deleted",
   "C94_bug_update_error",
   "C94_bug_fold_false"
  ],
  "note": "The map, the size, the collection of entries under a prefix and the longest match hold for all histories. What does not hold in the code is stated as C94_bug_*: trie-get takes a value #f for no entry; a fold loses a result #f; trie-partial-key? stays #t after trie-delete! and becomes #t after a failing trie-update!, so its meaning is proved for histories without these. Element sequences are lists of numbers compared by equality and a procedure of trie-update! does not change the trie itself."
 },
 "C95": {
  "status": "proved",
  "ns": "Gauche.GapBuffer",
  "theorems": [
   "C95_run",
   "C95_history",
   "C95_make",
   "C95_from_string",
   "C95_read",
   "C95_string",
   "C95_whole_string",
   "C95_contains",
   "C95_looking_at",
   "C95_undo",
   "C95_bug_from_end",
   "C95_bug_negative_delete"
  ],
  "note": "For the positions from the end that string->gap-buffer takes (C95_bug_from_end says that the negative ones of the manual are errors), numbers of characters to delete that are not negative (C95_bug_negative_delete), and bounds of a search that are in the text. The buffer is a list of code points; vector copies raise an error exactly when a range is out of bounds. Text with bounds given to string->gap-buffer and gap-buffer-set! are not modelled."
 },
 "C96": {
  "status": "proved",
  "ns": "Gauche.Temporal",
  "theorems": [
   "C96_exclusive",
   "C96_relate",
   "C96_inverse",
   "C96_inverse_inverse",
   "C96_relate_point"
  ],
  "note": "For comparison procedures of a linear order. The meaning of the relations is that of Allen's for intervals whose lesser point is before the greater one; that exchanged intervals have the inverse relation holds for all."
 },
 "C97": {
  "status": "partial",
  "ns": "Gauche.Tr",
  "theorems": [
   "C97_table",
   "C97_tr_partial",
   "C97_squeeze",
   "C97_image",
   "C97_range_partial",
   "C97_bug_range",
   "C97_bug_range_tr",
   "C97_complement_partial",
   "C97_bug_complement"
  ],
  "note": "For character arrays as the parser makes them; of the parser only the making of ranges is modelled. C97_tr_partial is the output without :squeeze, C97_squeeze the one with it. The complement is right for arrays whose parts do not overlap (C97_bug_complement says what happens otherwise). Ranges that cross the table size are wrong in the code (C97_bug_range)."
 }
}