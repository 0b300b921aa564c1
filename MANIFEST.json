{
 "claims": [
  {
   "property": "C01",
   "status": "proved",
   "theorems": [
    "Gauche.TreeMap.treemap_init",
    "Gauche.TreeMap.treemap_alist",
    "Gauche.TreeMap.treemap_put",
    "Gauche.TreeMap.treemap_adjoin",
    "Gauche.TreeMap.treemap_replace",
    "Gauche.TreeMap.treemap_update",
    "Gauche.TreeMap.treemap_push",
    "Gauche.TreeMap.treemap_pop",
    "Gauche.TreeMap.treemap_delete",
    "Gauche.TreeMap.treemap_clear",
    "Gauche.TreeMap.treemap_copy",
    "Gauche.TreeMap.treemap_bounds"
   ],
   "note": "For every reachable tree (all histories of the mutators) and any transitive, reflexive three-way comparison. put raises only at INT_MAX entries."
  },
  {
   "property": "C02",
   "status": "proved",
   "theorems": [
    "Gauche.TreeMap.treemap_balanced",
    "Gauche.TreeMap.treemap_check_iff"
   ],
   "note": ""
  },
  {
   "property": "C03",
   "status": "proved",
   "theorems": [
    "Gauche.TreeMap.treemap_predecessor",
    "Gauche.TreeMap.treemap_successor",
    "Gauche.TreeMap.treemap_floor",
    "Gauche.TreeMap.treemap_ceiling",
    "Gauche.TreeMap.treemap_bounds"
   ],
   "note": ""
  },
  {
   "property": "C04",
   "status": "proved",
   "theorems": [
    "Gauche.Heap.heap_make",
    "Gauche.Heap.heap_build",
    "Gauche.Heap.heap_num",
    "Gauche.Heap.heap_push",
    "Gauche.Heap.heap_findMin",
    "Gauche.Heap.heap_findMax",
    "Gauche.Heap.heap_popMin",
    "Gauche.Heap.heap_popMax",
    "Gauche.Heap.heap_swapMin",
    "Gauche.Heap.heap_swapMax",
    "Gauche.Heap.heap_remove",
    "Gauche.Heap.heap_delete",
    "Gauche.Heap.heap_clear",
    "Gauche.Heap.heap_find"
   ],
   "note": "For every heap reachable by the API; heap_push is stated for heaps whose capacity slot is bound (all but copies, see C05)."
  },
  {
   "property": "C05",
   "status": "partial",
   "theorems": [
    "Gauche.Heap.heap_copy_partial",
    "Gauche.Heap.heap_copy_push_raises"
   ],
   "note": "False of the code: binary-heap-copy misspells :capacity, so push on a copy raises (proved for every heap). All other operations agree (proved). Storage independence of the copy is by construction of the pure model."
  },
  {
   "property": "C06",
   "status": "proved",
   "theorems": [
    "Gauche.IDeque.ideque_make",
    "Gauche.IDeque.ideque_ofList",
    "Gauche.IDeque.ideque_tabulate",
    "Gauche.IDeque.ideque_empty",
    "Gauche.IDeque.ideque_addFront",
    "Gauche.IDeque.ideque_addBack",
    "Gauche.IDeque.ideque_front",
    "Gauche.IDeque.ideque_back",
    "Gauche.IDeque.ideque_removeFront",
    "Gauche.IDeque.ideque_removeBack",
    "Gauche.IDeque.ideque_reverse",
    "Gauche.IDeque.ideque_length",
    "Gauche.IDeque.ideque_ref",
    "Gauche.IDeque.ideque_take_drop",
    "Gauche.IDeque.ideque_take_drop_error",
    "Gauche.IDeque.ideque_append",
    "Gauche.IDeque.ideque_count",
    "Gauche.IDeque.ideque_map",
    "Gauche.IDeque.ideque_map2",
    "Gauche.IDeque.ideque_filterMap",
    "Gauche.IDeque.ideque_filter",
    "Gauche.IDeque.ideque_partition",
    "Gauche.IDeque.ideque_forEach",
    "Gauche.IDeque.ideque_fold",
    "Gauche.IDeque.ideque_find",
    "Gauche.IDeque.ideque_takeWhile",
    "Gauche.IDeque.ideque_span",
    "Gauche.IDeque.ideque_any_every",
    "Gauche.IDeque.ideque_eq",
    "Gauche.IDeque.ideque_generator"
   ],
   "note": "Each operation of data.ideque refines the list operation on ideque->list, for every reachable deque. The model is purely functional, so 'original unaffected' holds by construction (the source mutates nothing)."
  },
  {
   "property": "C07",
   "status": "proved",
   "theorems": [
    "Gauche.IDeque.reach_inv",
    "Gauche.IDeque.ideque_balanced"
   ],
   "note": "Chain-length invariant for every reachable deque."
  },
  {
   "property": "C08",
   "status": "proved",
   "theorems": [
    "Gauche.SkewList.skew_ofList",
    "Gauche.SkewList.skew_cons",
    "Gauche.SkewList.skew_empty",
    "Gauche.SkewList.skew_car",
    "Gauche.SkewList.skew_cdr",
    "Gauche.SkewList.skew_ref",
    "Gauche.SkewList.skew_set",
    "Gauche.SkewList.skew_length",
    "Gauche.SkewList.skew_lengthLe",
    "Gauche.SkewList.skew_fold",
    "Gauche.SkewList.skew_map",
    "Gauche.SkewList.skew_iterate"
   ],
   "note": ""
  },
  {
   "property": "C09",
   "status": "partial",
   "theorems": [
    "Gauche.SkewList.skew_take_drop_partial",
    "Gauche.SkewList.skew_take_raises_in_range",
    "Gauche.SkewList.skew_append_partial",
    "Gauche.SkewList.skew_append_raises_iff",
    "Gauche.SkewList.skew_append_empty_raises",
    "Gauche.SkewList.skew_equal_partial",
    "Gauche.SkewList.skew_append_breaks_equal"
   ],
   "note": "False of the code as stated: witnesses proved. Proved: results are right whenever returned, exact characterisation of the erroneous raises, equal? iff same elements for histories without append."
  },
  {
   "property": "C10",
   "status": "proved",
   "theorems": [
    "Gauche.IMap.imap_get",
    "Gauche.IMap.imap_exists",
    "Gauche.IMap.imap_empty",
    "Gauche.IMap.imap_alist",
    "Gauche.IMap.imap_folds",
    "Gauche.IMap.imap_min_max",
    "Gauche.IMap.imap_ofAlist"
   ],
   "note": "Persistence holds by construction: the source mutates nothing."
  },
  {
   "property": "C11",
   "status": "proved",
   "theorems": [
    "Gauche.Utf8.C11_put_is_utf8",
    "Gauche.Utf8.C11_roundtrip",
    "Gauche.Utf8.C11_get_iff",
    "Gauche.Utf8.C11_lengths",
    "Gauche.Utf8.C11_reads_only_declared",
    "Gauche.Utf8.C11_prefix_free",
    "Gauche.Utf8.C11_sequences_injective",
    "Gauche.Utf8.C11_backward",
    "Gauche.Utf8.C11_order",
    "Gauche.Utf8.C11_agrees_with_unicode",
    "Gauche.Utf8.C11_backward_accepts_garbage"
   ],
   "note": "For all codes below 2^31 (the Unicode range included); malformed input covered by C11_get_iff (iff) and C11_reads_only_declared."
  },
  {
   "property": "C12",
   "status": "partial",
   "theorems": [
    "Gauche.Str.C12_made_is",
    "Gauche.Str.C12_contents_unique",
    "Gauche.Str.C12_length",
    "Gauche.Str.C12_ref",
    "Gauche.Str.C12_substring_partial",
    "Gauche.Str.C12_substring_range",
    "Gauche.Str.C12_append",
    "Gauche.Str.C12_append_all",
    "Gauche.Str.C12_list_roundtrip",
    "Gauche.Str.C12_list_to_string",
    "Gauche.Str.C12_list_to_string_range_partial",
    "Gauche.Str.C12_validate",
    "Gauche.Str.C12_cursor_partial",
    "Gauche.Str.C12_substring_cursor",
    "Gauche.Str.C12_index_transparent",
    "Gauche.Str.C12_substring_end_panics",
    "Gauche.Str.C12_list_to_string_end_ignored",
    "Gauche.Str.C12_list_to_string_empty_range"
   ],
   "note": "Missing because false of the code: substring/cursor at the very end of an indexed string whose length is a multiple of the interval fails an assertion; list->string with start 0 ignores end, and with end = start > 0 returns one character. Counterexamples proved."
  },
  {
   "property": "C13",
   "status": "partial",
   "theorems": [
    "Gauche.Str.C13_scan",
    "Gauche.Str.C13_scan_right_partial",
    "Gauche.Str.C13_boyer_moore",
    "Gauche.Str.C13_scan_right_wrong"
   ],
   "note": "string-scan complete. string-scan-right needs the hypothesis that the byte after the text is not the pattern's last byte when Boyer-Moore is used: boyer_moore_reverse starts one position too far (counterexample proved)."
  },
  {
   "property": "C14",
   "status": "proved",
   "theorems": [
    "Gauche.Integer.C14_add_sub",
    "Gauche.Integer.C14_negate_abs"
   ],
   "note": "all canonical fixnums and bignums of any size; the asm versions of the word macros and the size limit on bignums are not modelled"
  },
  {
   "property": "C15",
   "status": "proved",
   "theorems": [
    "Gauche.Integer.C15_mul"
   ],
   "note": "all canonical exact integers"
  },
  {
   "property": "C16",
   "status": "partial",
   "theorems": [
    "Gauche.Integer.C16_quotient_remainder_partial",
    "Gauche.Integer.C16_modulo",
    "Gauche.Integer.C16_zero_divisor_fix",
    "Gauche.Integer.C16_bug_zero_divisor_big",
    "Gauche.Integer.C16_bug_wrap",
    "Gauche.Integer.C16_bug_fixmin"
   ],
   "note": "bignum_gdiv (Knuth D with half words), bignum_sdiv, Scm_BignumRemSI modelled word by word. The property is false for dividend -2^61 with divisor -1 or 2^61, and a bignum dividend with divisor 0 reaches a machine division by zero; both are theorems."
  },
  {
   "property": "C17",
   "status": "partial",
   "theorems": [
    "Gauche.Integer.C17_eqv_iff",
    "Gauche.Integer.C17_computed_canonical_partial",
    "Gauche.Integer.C17_computed_eqv_partial",
    "Gauche.Integer.C18_bug_ash_zero"
   ],
   "note": "closed under all modelled integer operations except (ash x 0) for x in {2^61-1, 1-2^61, -2^61}, for which the code really returns a non-canonical bignum"
  },
  {
   "property": "C18",
   "status": "partial",
   "theorems": [
    "Gauche.Integer.C18_bits_determine",
    "Gauche.Integer.C18_lognot",
    "Gauche.Integer.C18_logior",
    "Gauche.Integer.C18_logand_partial",
    "Gauche.Integer.C18_bug_logand",
    "Gauche.Integer.C18_logxor_partial",
    "Gauche.Integer.C18_ash_left_partial",
    "Gauche.Integer.C18_ash_right_partial",
    "Gauche.Integer.C18_bug_logand_example",
    "Gauche.Integer.C18_bug_logxor_example",
    "Gauche.Integer.C18_bug_ash_zero",
    "Gauche.Integer.C18_bug_ash_fixmin",
    "Gauche.Integer.C18_bug_ash_truncated"
   ],
   "note": "lognot and logior in full; logand, logxor and ash fail on exactly characterised inputs, for which the wrong answers are proved"
  },
  {
   "property": "C19",
   "status": "proved",
   "theorems": [
    "Gauche.NumText.C19_print",
    "Gauche.NumText.C19_print_bad_base",
    "Gauche.NumText.C19_read",
    "Gauche.NumText.C19_read_integer",
    "Gauche.NumText.C19_round_trip",
    "Gauche.NumText.C19_print_injective",
    "Gauche.NumText.C19_bug_minus_i",
    "Gauche.NumText.C19_bug_fixmin_fraction",
    "Gauche.NumText.C19_bug_radix_overflow"
   ],
   "note": "Every exact integer and ratnum, radix 2..36, upper/plus/radix flags; the reader's grammar (prefixes, signs, fractions, underscores, strict mode) is characterised exactly, including the word-size accumulator and its double-computed tables. The round trip as first stated is false for -18 in radixes above 18 (printed as -i and read as the imaginary unit, proved as a finding), so the property excludes it. Decimals, exponents, complex and inexact results are not modelled."
  },
  {
   "property": "C20",
   "status": "proved",
   "theorems": [
    "Gauche.HashTable.C20_programs_refine_finite_maps"
   ],
   "note": "All programs over any number of tables (make, copy, get, exists?, count, put!, adjoin!, replace!, delete!, update!, push!, pop!, clear!, prune!, map!, union!/intersection!/difference!/xor! with aliasing, compare-as-sets), any hash function and compatible equivalence, any collisions and resizes; while fewer than INT_MAX bindings exist. Iteration: C55. Hash and equality functions are pure (do not touch the table)."
  },
  {
   "property": "C21",
   "status": "proved",
   "theorems": [
    "Gauche.SpVec.C21_general_vector",
    "Gauche.SpVec.C21_uniform_vector",
    "Gauche.SpVec.C21_matrix_index",
    "Gauche.SpVec.C21_matrix_index_injective",
    "Gauche.SpVec.C21_general_matrix",
    "Gauche.SpVec.C21_uniform_matrix",
    "Gauche.SpVec.C21_exists_out_of_range",
    "Gauche.SpVec.C21_bug_inc",
    "Gauche.SpVec.C21_bug_ref_out_of_range",
    "Gauche.SpVec.C21_bug_matrix_ref_out_of_range"
   ],
   "note": "ext/sparse/ctrie.c, spvec.c and the index procedures of sparse.scm: all histories on all 64-bit indices (pairs of 32-bit ones for matrices), general and uniform element types with any conversion. Nodes and leaves are values, not addresses; the popcount and lowest/highest bit of bits_inline.h are given by what they compute. inc! is covered for contents but makes the entry count wrong (proved)."
  },
  {
   "property": "C22",
   "status": "proved",
   "theorems": [
    "Gauche.CharSet.C22_sets"
   ],
   "note": "Every program of make/add-range/union/complement/copy/freeze/freeze! refines the set-theoretic specification Spec/CharProg.lean: same failures, same memberships, same mutability."
  },
  {
   "property": "C23",
   "status": "proved",
   "theorems": [
    "Gauche.Base64.C23_encode",
    "Gauche.Base64.C23_decode",
    "Gauche.Base64.C23_round_trip",
    "Gauche.Base64.C23_output_characters",
    "Gauche.Base64.C23_digits_accepted_without_round_trip"
   ],
   "note": "Full characterization of encoder and decoder (lax and strict, any text) against the RFC 4648 definition in Spec/Radix.lean; round trip for all alphabets with two distinct printable extra digits; the library also accepts some digits for which it fails (last theorem)."
  },
  {
   "property": "C24",
   "status": "proved",
   "theorems": [
    "Gauche.Queue.C24_queue_is_list",
    "Gauche.Queue.C24_make_queue",
    "Gauche.Queue.C24_fifo"
   ],
   "note": "ext/data/queue.scm <queue> over an explicit cons-cell memory; arbitrary programs of all API calls"
  },
  {
   "property": "C25",
   "status": "partial",
   "theorems": [
    "Gauche.MtQueue.C25_at_most_once_partial",
    "Gauche.MtQueue.C25_fifo_partial",
    "Gauche.MtQueue.C25_bounded_partial",
    "Gauche.MtQueue.C25_big_lock_exclusive_partial",
    "Gauche.MtQueue.C25_no_lost_wakeup_partial",
    "Gauche.MtQueue.C25_timeout_breaks_big_lock",
    "Gauche.MtQueue.C25_lost_wakeup_after_close",
    "Gauche.MtQueue.C25_zero_length_overruns",
    "Gauche.MtQueue.C25_timeout_leaks_reader_count",
    "Gauche.MtQueue.C25_unique_ignores_close"
   ],
   "note": "Holds for all schedules that do not mix aborted waits with big-lock operations; the mix is a bug in the code (timed-out waiter clears another thread's big lock), shown by explicit schedules. max-length 0 hand-off and wake-ups after mtqueue-close! also violate the property."
  },
  {
   "property": "C26",
   "status": "proved",
   "theorems": [
    "Gauche.MergeSort.C26_sort_array",
    "Gauche.MergeSort.C26_sort_list_x",
    "Gauche.MergeSort.C26_stable_sort_x",
    "Gauche.MergeSort.C26_stable_sort_by_x",
    "Gauche.MergeSort.C26_stable_sort",
    "Gauche.MergeSort.C26_stable_sort_by",
    "Gauche.MergeSort.C26_stable_sort_vector_x",
    "Gauche.MergeSort.C26_stable_sort_vector_by",
    "Gauche.MergeSort.C26_stable_sort_vector",
    "Gauche.MergeSort.C26_merge",
    "Gauche.MergeSort.C26_merge_x",
    "Gauche.MergeSort.C26_sorted"
   ],
   "note": "For every comparison procedure (rearrangement, no access outside, same pairs) and every strict weak order (sorted, stable). Effects and errors raised inside comparison or key procedures, strings and other generic sequences, and arrays beyond 2^30 elements are not modelled."
  },
  {
   "property": "C27",
   "status": "proved",
   "theorems": [
    "Gauche.DynWind.C27_history",
    "Gauche.DynWind.C27_context",
    "Gauche.DynWind.C27_finished",
    "Gauche.DynWind.C27_alternate",
    "Gauche.DynWind.C27_inside_iff",
    "Gauche.DynWind.C27_same_place",
    "Gauche.DynWind.C27_after",
    "Gauche.DynWind.C27_normal",
    "Gauche.DynWind.C27_capture",
    "Gauche.DynWind.C27_jump",
    "Gauche.DynWind.C27_walks",
    "Gauche.DynWind.C27_all_runs",
    "Gauche.DynWind.C27_bug_abort"
   ],
   "note": "Abstract machine of vm.c (frames, denv, handler chain, escape points, prompts) running every program of a call-by-value language with closures, multiple values, boxes, continuation marks, dynamic-wind, call/cc, prompts and aborts, including jumps inside before/after thunks. Programs without abort-current-continuation: all runs. With aborts: runs in which no abort looks for its prompt beneath a throw in progress (C27_bug_abort shows the machine breaking otherwise). The order theorem for a jump (C27_jump) assumes the thunks on the path return; C27_after/history/alternate need no such assumption. reset/shift and crossing C stacks are not modelled."
  },
  {
   "property": "C28",
   "status": "partial",
   "theorems": [
    "Gauche.InPort.C28_chunk_independent",
    "Gauche.InPort.C28_defined",
    "Gauche.InPort.C28_reads_bytes",
    "Gauche.InPort.C28_string_port",
    "Gauche.InPort.C28_string_defined",
    "Gauche.InPort.C28_spec_bytes",
    "Gauche.InPort.C28_spec_chars",
    "Gauche.InPort.C28_blocks",
    "Gauche.InPort.C28_bug_last_byte",
    "Gauche.InPort.C28_bug_line_then_block",
    "Gauche.InPort.C28_bug_eof_byte",
    "Gauche.InPort.C28_bug_vport",
    "Gauche.InPort.C28_bug_line_number",
    "Gauche.InPort.C28_bug_peek_invalid",
    "Gauche.InPort.C28_bug_lost",
    "Gauche.InPort.C28_bug_cut"
   ],
   "note": "Buffer memory, bufport_fill/read, the two fillers and Getb/Getc/Peekb/Peekc/Getz/ReadLine over any chunking of the file. Chunk independence holds for every program and all bytes on file ports (block reads: full buffering); the content is the specified one. False, and proved so: character reads on gauche.vport buffered ports depend on the chunks; a block read after a peek (or after read-line stopped at a CR) at the end of the file loses the last byte or invents byte 255; peek-char of malformed bytes consumes them; read-line counts a line twice."
  },
  {
   "property": "C29",
   "status": "partial",
   "theorems": [
    "Gauche.OutPort.C29_in_order",
    "Gauche.OutPort.C29_flush",
    "Gauche.OutPort.C29_outcomes",
    "Gauche.OutPort.C29_modes",
    "Gauche.OutPort.C29_modes_char",
    "Gauche.OutPort.C29_closed",
    "Gauche.OutPort.C29_bug_assertion",
    "Gauche.OutPort.C29_bug_twice",
    "Gauche.OutPort.C29_bug_close"
   ],
   "note": "Byte-level model of buffer memory, bufport_flush/write, file_flusher, Putb/Putc/Puts/Putz/Flush/close, any write(2) lengths. Holds for writes that do not fail. False otherwise, and proved so: write-char asserts room after one unforced flush (a short write ends the process); a write error in the middle of a flush makes the next flush write bytes twice; close after an error drops what waits. The flushers of gauche.vport are not modelled."
  },
  {
   "property": "C30",
   "status": "proved",
   "theorems": [
    "Gauche.C3.C30_merge",
    "Gauche.C3.C30_merge_choice",
    "Gauche.C3.C30_hierarchy",
    "Gauche.C3.C30_error_iff",
    "Gauche.C3.C30_bug_false_element"
   ],
   "note": "Every program of class definitions over the two root classes; merge of arbitrary proper lists. Class redefinition and module import (which also use the merge) are not modelled. monotonic-merge itself fails if an element is #f (theorem C30_bug_false_element)."
  },
  {
   "property": "C31",
   "status": "partial",
   "theorems": [
    "Gauche.Promise.C31_same_value",
    "Gauche.Promise.C31_never_changes",
    "Gauche.Promise.C31_never_changes_atomic",
    "Gauche.Promise.C31_settle",
    "Gauche.Promise.C31_chain",
    "Gauche.Promise.C31_bug_torn",
    "Gauche.Promise.C31_bug_changes",
    "Gauche.Promise.C31_bug_raise_values",
    "Gauche.Promise.C31_bug_not_shared"
   ],
   "note": "Every interleaving at the granularity of memory accesses (sequentially consistent) without delay-force; with delay-force proved when critical sections do not overlap, and false otherwise (C31_bug_torn, C31_bug_changes: force_cc reads the other promise without its mutex). Chains by one thread: termination, sharing, constant results. Parameterization and dynamic handlers are not modelled."
  },
  {
   "property": "C32",
   "status": "proved",
   "theorems": [
    "Gauche.Mutex.C32_histories",
    "Gauche.Mutex.C32_exclusion",
    "Gauche.Mutex.C32_abandoned",
    "Gauche.Mutex.C32_abandoned_once",
    "Gauche.Mutex.C32_progress",
    "Gauche.Mutex.C32_release_wait",
    "Gauche.Mutex.C32_bug_intr",
    "Gauche.Mutex.C32_bug_abandoned_waiter"
   ],
   "note": "One mutex, any number of threads and condition variables, every interleaving of lock, timed lock, unlock, unlock with condition variable, signal, broadcast, timeouts, spurious wakeups and thread termination. Trusted: pthread mutexes make each critical section atomic and a condition wait releases and blocks in one step. The positive theorems exclude SCM_INTERNAL_COND_INTR; C32_bug_intr shows what happens with it. C32_bug_abandoned_waiter: terminating the owner does not wake a blocked locker."
  },
  {
   "property": "C33",
   "status": "proved",
   "theorems": [
    "Gauche.Cache.C33_refines",
    "Gauche.Cache.C33_policy",
    "Gauche.Cache.C33_capacity",
    "Gauche.Cache.C33_latest",
    "Gauche.Cache.C33_ttl",
    "Gauche.Cache.C33_bug_write_existing",
    "Gauche.Cache.C33_capacity_zero",
    "Gauche.Cache.C33_bug_evict_renumber"
   ],
   "note": "Every history, FIFO/LRU/TTL/TTLR, any initial dictionary with distinct numbers; numbers may wrap at the greatest fixnum unless cache-evict! is used (then it is an error: C33_bug_evict_renumber). Writing an existing key to a full cache also discards the oldest entry (C33_bug_write_existing). The counting cache, errors inside value procedures and threads are not modelled."
  },
  {
   "property": "C34",
   "status": "partial",
   "theorems": [
    "Gauche.Rational.C34_canonical_unique",
    "Gauche.Rational.C34_numerator_denominator",
    "Gauche.Rational.C34_add_partial",
    "Gauche.Rational.C34_sub_partial",
    "Gauche.Rational.C34_mul_partial",
    "Gauche.Rational.C34_div_partial",
    "Gauche.Rational.C34_div_zero",
    "Gauche.Rational.C34_unary",
    "Gauche.Rational.C34_bug_div",
    "Gauche.Rational.C34_bug_add"
   ],
   "note": "All exact rationals of unbounded size. Excluded from + - * /: intermediate numerator -2^61 over a multiple of 2^61, where the code is wrong (C34_bug_*). Flonums, compnums and object-+ generics not modelled."
  },
  {
   "property": "C35",
   "status": "proved",
   "theorems": [
    "Gauche.NumUtil.C35_floor_div",
    "Gauche.NumUtil.C35_floor_quotient",
    "Gauche.NumUtil.C35_ceiling_div",
    "Gauche.NumUtil.C35_truncate_div",
    "Gauche.NumUtil.C35_euclidean_div",
    "Gauche.NumUtil.C35_balanced_div",
    "Gauche.NumUtil.C35_round_div",
    "Gauche.NumUtil.C35_zero_divisor",
    "Gauche.NumUtil.C35_exact_integer_sqrt",
    "Gauche.NumUtil.C35_sqrt_any_estimate"
   ],
   "note": "Exact arguments. quotient/remainder are the integer ones (C16 lists where the C primitives deviate). exact-integer-sqrt assumes that the double sqrt is correctly rounded (spec in Spec/Double.lean)."
  },
  {
   "property": "C36",
   "status": "proved",
   "theorems": [
    "Gauche.ListPrim.C36_shapes",
    "Gauche.ListPrim.C36_classify",
    "Gauche.ListPrim.C36_length",
    "Gauche.ListPrim.C36_length_plus",
    "Gauche.ListPrim.C36_pairs",
    "Gauche.ListPrim.C36_num_pairs",
    "Gauche.ListPrim.C36_compare_lists",
    "Gauche.ListPrim.C36_compare_number",
    "Gauche.ListPrim.C36_compare_bignum_partial",
    "Gauche.ListPrim.C36_bug_compare_bignum",
    "Gauche.ListPrim.C36_list_copy",
    "Gauche.ListPrim.C36_alist_copy",
    "Gauche.ListPrim.C36_last_pair",
    "Gauche.ListPrim.C36_append",
    "Gauche.ListPrim.C36_append_error",
    "Gauche.ListPrim.C36_append_none",
    "Gauche.ListPrim.C36_append2",
    "Gauche.ListPrim.C36_reverse",
    "Gauche.ListPrim.C36_append_x",
    "Gauche.ListPrim.C36_append2_x",
    "Gauche.ListPrim.C36_reverse_x",
    "Gauche.ListPrim.C36_list_tail",
    "Gauche.ListPrim.C36_list_ref",
    "Gauche.ListPrim.C36_member",
    "Gauche.ListPrim.C36_assoc",
    "Gauche.ListPrim.C36_delete",
    "Gauche.ListPrim.C36_alist_delete",
    "Gauche.ListPrim.C36_delete_x",
    "Gauche.ListPrim.C36_alist_delete_x_partial",
    "Gauche.ListPrim.C36_bug_alist_delete_x",
    "Gauche.ListPrim.C36_delete_duplicates",
    "Gauche.ListPrim.C36_delete_duplicates_x"
   ],
   "note": "src/list.c and src/liblist.scm on every cons graph, with addresses, so that sharing, freshness and mutation are stated. Comparison is any predicate of the objects; lazy and immutable pairs are not modelled. Beyond the listed operations: alist-delete! leaves an entry when two in a row are to go, and a dotted list compared with a bignum is found longer (both proved); so these two have partial theorems."
  },
  {
   "property": "C37",
   "status": "partial",
   "theorems": [
    "Gauche.Regex.C37_compile_partial",
    "Gauche.Regex.C37_from_ast_partial",
    "Gauche.Regex.C37_match_partial",
    "Gauche.Regex.C37_first_match_partial",
    "Gauche.Regex.C37_language",
    "Gauche.Regex.C37_optimizer",
    "Gauche.Regex.C37_bug_complement",
    "Gauche.Regex.C37_bug_nested_star",
    "Gauche.Regex.C37_bug_fold_distinct",
    "Gauche.Regex.C37_bug_fold_star",
    "Gauche.Regex.C37_bug_prefix_backref",
    "Gauche.Regex.C37_bug_backref_overrun",
    "Gauche.Regex.C37_bug_lookahead_group",
    "Gauche.Regex.C37_bug_long_literal",
    "Gauche.Regex.C37_bug_empty_loop"
   ],
   "note": "Optimizer, code generator, byte-code matcher and search of src/regexp.c, for all texts and all syntax trees in `ok` (and, with the optimizer, `plain` and `Separate`): the search answers with the first way of the backtracking semantics from the leftmost place, with its submatches, or runs out of stack, and does not with enough of it; for patterns without standalone and lookahead parts that is a match of the textbook relation, at the leftmost place where there is one. The property as stated is false of the code: C37_bug_* give patterns with wrong answers. Missing: the parser, lookbehind, conditionals, graphemes, groups inside lookahead and standalone patterns, the optimizer where case is folded, back references where case is folded."
  },
  {
   "property": "C38",
   "status": "partial",
   "theorems": [
    "Gauche.RingBuffer.C38_refines_deque",
    "Gauche.RingBuffer.C38_contract",
    "Gauche.RingBuffer.C38_doubler",
    "Gauche.RingBuffer.C38_iterate",
    "Gauche.RingBuffer.C38_insert_all_grow",
    "Gauche.RingBuffer.C38_bug_reverse_iterator",
    "Gauche.RingBuffer.C38_bug_insert_all_room",
    "Gauche.RingBuffer.C38_bug_insert_all_loses",
    "Gauche.RingBuffer.C38_bug_insert_all_exact"
   ],
   "note": "Deque refinement is proved for every history and every overflow handler obeying its contract. False of the code, and proved so: ring-buffer-insert-all! with room loses elements, with an exactly fitting storage it leaves a buffer that refuses additions, and the reverse iterator delivers nothing. Element conversion of uvectors is not modelled."
  },
  {
   "property": "C39",
   "status": "proved",
   "theorems": [
    "Gauche.Toposort.C39_topological_sort",
    "Gauche.Toposort.C39_details",
    "Gauche.Toposort.C39_terminates",
    "Gauche.Toposort.C39_bug_repeated_entry"
   ],
   "note": "Graphs with one entry per node (repeated successors allowed), equality = identity; termination for any equality procedure. With two entries for a node the sort can report a cycle that does not exist (C39_bug_repeated_entry). The optional vector of node names is not modelled."
  },
  {
   "property": "C40",
   "status": "proved",
   "theorems": [
    "Gauche.Lcs.C40_with_positions",
    "Gauche.Lcs.C40_lcs",
    "Gauche.Lcs.C40_fold",
    "Gauche.Lcs.C40_edit_list"
   ],
   "note": "For every equality procedure and every pair of sequences. lcs-edit-list/context and lcs-edit-list/unified are not modelled."
  },
  {
   "property": "C41",
   "status": "partial",
   "theorems": [
    "Gauche.IMap.imap_depth_partial",
    "Gauche.IMap.imap_delete_unbalanced"
   ],
   "note": "Proved for histories of imap-put only; false of the code with imap-delete (witness proved: 5 entries at depth 5)."
  },
  {
   "property": "C42",
   "status": "partial",
   "theorems": [
    "Gauche.Heap.heap_check_iff",
    "Gauche.Heap.heap_check_partial",
    "Gauche.Heap.heap_check_rejects_valid"
   ],
   "note": "False of the code when two elements have equal keys (witness proved); proved when keys are pairwise different."
  },
  {
   "property": "C43",
   "status": "proved",
   "theorems": [
    "Gauche.Str.C43_equal",
    "Gauche.Str.C43_compare",
    "Gauche.Str.C43_compare_representation"
   ],
   "note": "Complete strings."
  },
  {
   "property": "C44",
   "status": "proved",
   "theorems": [
    "Gauche.Str.C44_join",
    "Gauche.Str.C44_split",
    "Gauche.Str.C44_split_last"
   ],
   "note": "Complete strings; string-split by a character (Scm_StringSplitByCharWithLimit)."
  },
  {
   "property": "C45",
   "status": "proved",
   "theorems": [
    "Gauche.Integer.C45_compare"
   ],
   "note": ""
  },
  {
   "property": "C46",
   "status": "proved",
   "theorems": [
    "Gauche.Integer.C46_gcd_lcm"
   ],
   "note": "the loop of Scm_Gcd takes a fuel argument in the model; the theorem holds for every fuel above the operands"
  },
  {
   "property": "C47",
   "status": "partial",
   "theorems": [
    "Gauche.Integer.C47_expt_partial",
    "Gauche.Integer.C47_bug_expt_zero_big"
   ],
   "note": "exponents >= 0; bignum exponents are errors except for bases 1 and -1"
  },
  {
   "property": "C48",
   "status": "partial",
   "theorems": [
    "Gauche.Rational.C48_compare",
    "Gauche.Rational.C48_compare_fix_rat_partial",
    "Gauche.Rational.C48_bug_compare_negative"
   ],
   "note": "Complete except fixnum against ratnum, where the code first compares doubles: proved with a monotone conversion as parameter, and shown wrong for negative ratnums whose double equals the fixnum's."
  },
  {
   "property": "C49",
   "status": "partial",
   "theorems": [
    "Gauche.Rational.C49_expt_partial",
    "Gauche.Rational.C49_expt_zero_negative"
   ],
   "note": "Exponents outside the fixnum range (error) and base 2 with exponent >= 2^28 (error) are excluded."
  },
  {
   "property": "C50",
   "status": "proved",
   "theorems": [
    "Gauche.Rational.C50_round"
   ],
   "note": "Exact numbers; rounding of flonums is not modelled."
  },
  {
   "property": "C51",
   "status": "partial",
   "theorems": [
    "Gauche.NumUtil.C51_expt_mod",
    "Gauche.NumUtil.C51_inverse_mod_sound",
    "Gauche.NumUtil.C51_inverse_mod_complete_partial",
    "Gauche.NumUtil.C51_bug_inverse_mod_negative"
   ],
   "note": "expt-mod complete. inverse-mod is sound for all arguments, complete for q >= 0 and m > 0; for negative q it can answer #f although an inverse exists (bug theorem)."
  },
  {
   "property": "C52",
   "status": "partial",
   "theorems": [
    "Gauche.Rationalize.C52_continued_fraction",
    "Gauche.Rationalize.C52_continued_fraction_terms",
    "Gauche.Rationalize.C52_real_to_rational_closed",
    "Gauche.Rationalize.C52_rationalize",
    "Gauche.Rationalize.C52_unique",
    "Gauche.Rationalize.C52_bug_open_interval"
   ],
   "note": "Exact arguments. Closed intervals (rationalize) complete; with open? #t the code answers values outside the interval (bug theorem)."
  },
  {
   "property": "C53",
   "status": "partial",
   "theorems": [
    "Gauche.Prime.C53_primes",
    "Gauche.Prime.C53_primes_complete",
    "Gauche.Prime.C53_miller_rabin_round",
    "Gauche.Prime.C53_small_prime_partial",
    "Gauche.Prime.C53_miller_rabin_no_false_negative",
    "Gauche.Prime.C53_bug_miller_rabin_two"
   ],
   "note": "Sieve complete. Primality tests: no odd prime is rejected, for any bases; that composites below the published bounds are rejected rests on published tables and is not proved. bpsw-prime? is not modelled. (miller-rabin-prime? 2) is #f."
  },
  {
   "property": "C54",
   "status": "partial",
   "theorems": [
    "Gauche.Prime.C54_jacobi",
    "Gauche.Prime.C54_naive_factorize",
    "Gauche.Prime.C54_naive_factorize_limited",
    "Gauche.Prime.C54_bug_memo_limited",
    "Gauche.Prime.C54_totient",
    "Gauche.Prime.C54_reduced_totient"
   ],
   "note": "small-prime? enters as any sound test and primes as the sequence of all primes (C53). A call with a divisor limit spoils the memo table (bug theorem). mc-factorize is not modelled."
  },
  {
   "property": "C55",
   "status": "proved",
   "theorems": [
    "Gauche.HashTable.C55_iteration",
    "Gauche.HashTable.C55_seek",
    "Gauche.HashTable.C55_pop_r7",
    "Gauche.HashTable.C55_insertion_breaks_iteration"
   ],
   "note": "After any program; callbacks may delete the current key (C20, prune!/intersection!). C55_insertion_breaks_iteration: a callback that inserts can make the iteration skip and repeat keys."
  },
  {
   "property": "C56",
   "status": "partial",
   "theorems": [
    "Gauche.HashTable.C56_update_reentrant",
    "Gauche.HashTable.C56_update_raise_leaves_fallback",
    "Gauche.HashTable.C56_update_reentrant_delete",
    "Gauche.HashTable.C56_too_many_entries",
    "Gauche.HashTable.C56_too_many_entries_reached"
   ],
   "note": "The positive half (result becomes the value if the entry survives the procedure) holds; failure atomicity does not: three negative theorems."
  },
  {
   "property": "C57",
   "status": "partial",
   "theorems": [
    "Gauche.Base64.C57_encode32",
    "Gauche.Base64.C57_decode32_partial",
    "Gauche.Base64.C57_round_trip32_partial",
    "Gauche.Base64.C57_encode16",
    "Gauche.Base64.C57_decode16",
    "Gauche.Base64.C57_round_trip16",
    "Gauche.Base64.C57_bug_base32_decoder_loops",
    "Gauche.Base64.C57_bug_round_trip_line_width_7"
   ],
   "note": "base16 complete. base32: the decoder loops for ever exactly on texts with an ignorable character before the eighth digit of a group (bug theorems), otherwise it is right."
  },
  {
   "property": "C58",
   "status": "proved",
   "theorems": [
    "Gauche.CharSet.C58_equal",
    "Gauche.CharSet.C58_subset",
    "Gauche.CharSet.C58_ranges",
    "Gauche.CharSet.C58_size"
   ],
   "note": "For all sets reachable by programs, mutable or frozen."
  },
  {
   "property": "C59",
   "status": "proved",
   "theorems": [
    "Gauche.CharSet.C59_binary_search"
   ],
   "note": "Any linear order, any record width, any vector with strictly increasing keys; never reads outside the vector."
  },
  {
   "property": "C61",
   "status": "partial",
   "theorems": [
    "Gauche.CharSet.C61_exact",
    "Gauche.CharSet.C61_round_trip_partial",
    "Gauche.CharSet.C61_bug_three_characters"
   ],
   "note": "False in general: a run of exactly three large characters is written without its dash. C61_exact says exactly which members are lost, for every set and every choice of escaped characters."
  },
  {
   "property": "C60",
   "status": "partial",
   "theorems": [
    "Gauche.CharSet.C60_sound",
    "Gauche.CharSet.C60_immutable",
    "Gauche.CharSet.C60_complete_partial",
    "Gauche.CharSet.C60_first_two_runs_partial",
    "Gauche.CharSet.C60_bug_members_not_folded"
   ],
   "note": "Completeness is false in general: the loop modifies the tree it iterates over and ends early when the next node is absorbed. Proved complete when no mapping yields a new character just below a higher one, and for the first two runs always; case mappings are arbitrary functions."
  },
  {
   "property": "C62",
   "status": "partial",
   "theorems": [
    "Gauche.LazyPair.C62_once",
    "Gauche.LazyPair.C62_same_pair",
    "Gauche.LazyPair.C62_returns_pair",
    "Gauche.LazyPair.C62_never_changes",
    "Gauche.LazyPair.C62_recursive",
    "Gauche.LazyPair.C62_force",
    "Gauche.LazyPair.C62_fail",
    "Gauche.LazyPair.C62_wait_ends",
    "Gauche.LazyPair.C62_bug_lazy"
   ],
   "note": "Every interleaving of any number of threads at the granularity of memory accesses (sequentially consistent). Without errors of the generator the full property holds; after such an error a waiting thread may return while the object is still a lazy pair (C62_bug_lazy). Pair attributes and lcons generators that return pairs are abstracted into the result of the generator."
  },
  {
   "property": "C63",
   "status": "proved",
   "theorems": [
    "Gauche.FloText.C63_round_trip",
    "Gauche.FloText.C63_text"
   ],
   "note": "Every flonum (negative zero, subnormals, infinities, NaN included) in the default format of number->string, radix 10, with or without a plus sign; string->number in both strict and lax mode. Assumed: log10 of the C library is right to within 0.05, exact integer arithmetic is exact (C14-C18) and the double operations used by the reader round to nearest even. Not modelled: explicit precision, rounding modes, other radixes."
  },
  {
   "property": "C64",
   "status": "partial",
   "theorems": [
    "Gauche.FloText.C64_read_decimal_partial",
    "Gauche.FloText.C64_bug_underflow",
    "Gauche.FloText.C64_bug_overflow",
    "Gauche.FloText.C64_bug_exponent",
    "Gauche.FloText.C64_bug_loop",
    "Gauche.FloText.C64_bug_nul"
   ],
   "note": "Any number of digits, with point, exponent, sign and underscores. Correct for zero, normal numbers up to 1.797e308 and numbers that round to the infinity, when the exponent that is written is below 325. Outside of this the code is wrong or does not terminate, as the bug theorems show."
  },
  {
   "property": "C65",
   "status": "partial",
   "theorems": [
    "Gauche.FloText.C65_integer",
    "Gauche.FloText.C65_ratio_partial",
    "Gauche.FloText.C65_short_ratio",
    "Gauche.FloText.C65_bug_subnormal"
   ],
   "note": "All exact integers; all ratios that are not subnormal, and all ratios of two integers of 53 significant bits. For other ratios in the subnormal range the code is wrong, as the bug theorem shows."
  },
  {
   "property": "C66",
   "status": "partial",
   "theorems": [
    "Gauche.NumCmp.C66_exact",
    "Gauche.NumCmp.C66_round_trip_partial",
    "Gauche.NumCmp.C66_bug_subnormal"
   ],
   "note": "exact of every finite flonum rounds to the flonum (complete). The round trip through inexact is proved for all flonums that are not subnormal and shown false for a subnormal one."
  },
  {
   "property": "C67",
   "status": "partial",
   "theorems": [
    "Gauche.NumCmp.C67_order_partial",
    "Gauche.NumCmp.C67_transitive_partial",
    "Gauche.NumCmp.C67_bug_near",
    "Gauche.NumCmp.C67_bug_minus_one"
   ],
   "note": "Exact integers of any size, ratios, flonums and infinities in any mix. Excluded: ratios below 2^-1022, and pairs of a negative fixnum (or a flonum equal to one) with a ratio that rounds to the same flonum; C67_bug_near shows what the code answers for all those pairs."
  },
  {
   "property": "C68",
   "status": "partial",
   "theorems": [
    "Gauche.Sexp.C68_read_write_partial",
    "Gauche.Sexp.C68_injective_partial",
    "Gauche.Sexp.C68_bug_digit",
    "Gauche.Sexp.C68_bug_dot"
   ],
   "note": "All shapes of data (lists, vectors, quoting forms, labels, atoms), any size. Symbols with a non-ASCII decimal digit or a spacing/enclosing mark are excluded, and C68_bug_* show that write/read fail for them. The meaning of labels is C70."
  },
  {
   "property": "C69",
   "status": "proved",
   "theorems": [
    "Gauche.Sexp.C69_string",
    "Gauche.Sexp.C69_string_datum",
    "Gauche.Sexp.C69_char",
    "Gauche.Sexp.C69_escaped"
   ],
   "note": "For any character tables and any characters (Unicode scalar values)."
  },
  {
   "property": "C70",
   "status": "partial",
   "theorems": [
    "Gauche.Sexp.C70_never_wrong",
    "Gauche.Sexp.C70_read_write_partial",
    "Gauche.Sexp.C70_bug_hang"
   ],
   "note": "Any finite graph of pairs, vectors and strings, both for write and write-shared. write always comes to an end and, if read does, the result is a copy (C70_never_wrong). read comes to an end for all graphs without circular lists; C70_bug_hang: for a graph with a circular list, read loops for ever on the text of write."
  },
  {
   "property": "C71",
   "status": "partial",
   "theorems": [
    "Gauche.Sexp.C71_shared_partial",
    "Gauche.Sexp.C71_never_wrong"
   ],
   "note": "Exact sharing for every finite graph; partial for the same reason as C70 (read may not come to an end for circular lists)."
  },
  {
   "property": "C72",
   "status": "proved",
   "theorems": [
    "Gauche.SynRules.C72_first_match",
    "Gauche.SynRules.C72_error_iff",
    "Gauche.SynRules.C72_identifier_use",
    "Gauche.SynRules.C72_bug_underscore"
   ],
   "note": "For all rules that the definition accepts. C72_identifier_use covers uses that are a bare identifier, with the quirk that (_ . _) matches these too (C72_bug_underscore)."
  },
  {
   "property": "C73",
   "status": "partial",
   "theorems": [
    "Gauche.SynRules.C73_expansion_partial",
    "Gauche.SynRules.C73_spec_unique",
    "Gauche.SynRules.C73_bug_vector"
   ],
   "note": "Missing: patterns with a vector ending in an ellipsis below another ellipsis, where the code is wrong (C73_bug_vector), and templates that iterate over variables of different lengths."
  },
  {
   "property": "C74",
   "status": "partial",
   "theorems": [
    "Gauche.SynRules.C74_fuel",
    "Gauche.SynRules.C74_terminates_partial",
    "Gauche.SynRules.C74_index_partial",
    "Gauche.SynRules.C74_bug_forever",
    "Gauche.SynRules.C74_bug_index"
   ],
   "note": "False in general: C74_bug_forever (x ... ... over a variable of depth 1 never ends), C74_bug_index (one cell beyond the array for 10 levels). Proved for templates without consecutive ellipses, and for all numbers of levels other than 10."
  },
  {
   "property": "C75",
   "status": "partial",
   "theorems": [
    "Gauche.Prog.C75_compiled_code_partial",
    "Gauche.Prog.C75_one_result",
    "Gauche.Prog.C75_bug_head_heavy"
   ],
   "note": "Simulation of a big-step semantics with a store by the VM running the code that pass 5 generates, for all programs of the modelled forms, including closures, set!, letrec, rest arguments, tail calls and all contexts. Missing: calls whose operator is a let and that have an assigned variable as an operand, which are compiled wrong (C75_bug_head_heavy), and programs without a value."
  },
  {
   "property": "C76",
   "status": "partial",
   "theorems": [
    "Gauche.Prog.C76_bug_unbounded"
   ],
   "note": "False: the theorem shows that there is no bound on how far the stack pointer can go beyond the checked limit. No positive part is proved."
  },
  {
   "property": "C77",
   "status": "partial",
   "theorems": [
    "Gauche.Dispatch.C77_call_order",
    "Gauche.Dispatch.C77_order_unique",
    "Gauche.Dispatch.C77_apply_partial",
    "Gauche.Dispatch.C77_bug_apply",
    "Gauche.Dispatch.C77_bug_overflow"
   ],
   "note": "Proved for direct calls of generic functions whose methods have fewer than 32 required arguments, and for apply except when the arguments before the list are exactly as many as the largest number of required arguments; there the code selects a method that does not accept the arguments (C77_bug_apply). From 32 required arguments on an array is overrun (C77_bug_overflow). Class redefinition and user-defined metaobject protocol are not modelled."
  },
  {
   "property": "C78",
   "status": "partial",
   "theorems": [
    "Gauche.Dispatch.C78_dispatcher_partial",
    "Gauche.Dispatch.C78_bug_shadow",
    "Gauche.Dispatch.C78_bug_four_arguments",
    "Gauche.Dispatch.C78_bug_redefine",
    "Gauche.Dispatch.C78_bug_deleted",
    "Gauche.Dispatch.C78_bug_axis"
   ],
   "note": "Proved for the first axis, additions of methods of new signatures only, and calls where a method specialized exactly on the class is applicable (or none is there); the counterexamples show that the accelerator changes the meaning of the other calls."
  },
  {
   "property": "C79",
   "status": "partial",
   "theorems": [
    "Gauche.Bits.C79_count_word",
    "Gauche.Bits.C79_any_every",
    "Gauche.Bits.C79_count",
    "Gauche.Bits.C79_highest",
    "Gauche.Bits.C79_lowest_partial",
    "Gauche.Bits.C79_bug_lowest_below_start",
    "Gauche.Bits.C79_fill_partial",
    "Gauche.Bits.C79_bug_fill_past_end",
    "Gauche.Bits.C79_copy_partial",
    "Gauche.Bits.C79_bug_copy_overlap",
    "Gauche.Bits.C79_operate_partial",
    "Gauche.Bits.C79_operate_multi_partial",
    "Gauche.Bits.C79_bug_operate_one_word",
    "Gauche.Bits.C79_compare_partial",
    "Gauche.Bits.C79_bug_compare_one_word"
   ],
   "note": "any, every, count and highest are proved for all ranges. lowest, operate, equal and includes are false for ranges that start inside a word (lowest: and end in another; the others: and end in the same word); fill up to the last bit of the array touches the word after it; copying inside one array to higher bit numbers smears bits. The _bug_ theorems show each; the _partial ones prove the rest."
  },
  {
   "property": "C80",
   "status": "partial",
   "theorems": [
    "Gauche.Bits.C80_make",
    "Gauche.Bits.C80_text_round_trip",
    "Gauche.Bits.C80_text_reject",
    "Gauche.Bits.C80_ref_set",
    "Gauche.Bits.C80_copy",
    "Gauche.Bits.C80_copy_into",
    "Gauche.Bits.C80_bug_copy_overlap",
    "Gauche.Bits.C80_bitwise",
    "Gauche.Bits.C80_query",
    "Gauche.Bits.C80_any_every",
    "Gauche.Bits.C80_shift",
    "Gauche.Bits.C80_rotate",
    "Gauche.Bits.C80_field",
    "Gauche.Bits.C80_bug_field_immutable",
    "Gauche.Bits.C80_equal"
   ],
   "note": "bitvector-copy! inside one vector towards higher indices is wrong (C80_bug_copy_overlap) and the field mutators change literals (C80_bug_field_immutable). bitvector iteration procedures written in Scheme and the sharing with uniform vectors are not modelled."
  },
  {
   "property": "C81",
   "status": "partial",
   "theorems": [
    "Gauche.Equal.C81_terminates",
    "Gauche.Equal.C81_false",
    "Gauche.Equal.C81_decides_partial",
    "Gauche.Equal.C81_circular_pure",
    "Gauche.Equal.C81_interleave",
    "Gauche.Equal.C81_bug_circular"
   ],
   "note": "Proved for all heaps of pairs, vectors, strings, symbols, exact integers and flonums other than NaN, and for every stream of random numbers: equal? terminates, its answer #f is always right, its answer is right unless both arguments are circular lists, it is right for circular lists that come back to their first pair, and the Scheme routine %interleave-equal? is right for all data. Missing: circular lists with a non-circular beginning, where the C loop is wrong (C81_bug_circular: (equal? '(a a b . #0=(a a b a . #0#)) '#1=(a a b . #1#)) is #t). Not modelled: identifiers, uniform vectors, objects with their own comparison."
  },
  {
   "property": "C82",
   "status": "partial",
   "theorems": [
    "Gauche.Hash.C82_platform",
    "Gauche.Hash.C82_platform_integer",
    "Gauche.Hash.C82_platform_combine",
    "Gauche.Hash.C82_equal_hash_partial",
    "Gauche.Hash.C82_bug_compnum",
    "Gauche.Hash.C82_bug_f64vector"
   ],
   "note": "Platform independence of portable-hash and combine-hash-value is proved for all finite data of the model. equal? data have equal hash values unless a complex number or an f64vector contains a negative zero; there the implication is false (C82_bug_compnum: (eqv? 0.0+1.0i -0.0+1.0i) is #t and all hash values differ; C82_bug_f64vector). Not modelled: f16/f32 and complex uniform vectors, identifiers, objects with their own hash method; siphash is a parameter."
  },
  {
   "property": "C83",
   "status": "proved",
   "theorems": [
    "Gauche.Csv.C83_roundtrip",
    "Gauche.Csv.C83_roundtrip_default",
    "Gauche.Csv.C83_roundtrip_notrim",
    "Gauche.Csv.C83_plain_text",
    "Gauche.Csv.C83_progress",
    "Gauche.Csv.C83_eof",
    "Gauche.Csv.C83_bug_backslash_quote",
    "Gauche.Csv.C83_bug_after_quote",
    "Gauche.Csv.C83_bug_crlf_notrim",
    "Gauche.Csv.C83_bug_trim_not_special"
   ],
   "note": "The round trip holds for every quote character but the backslash (C83_bug_backslash_quote) and every trim set within the special characters (C83_bug_trim_not_special shows the condition is needed); a row of no fields comes back as one empty field. string-trim-both is modelled after SRFI-13, its source is not in the tree. The middle-level API (header parsers) is not modelled."
  },
  {
   "property": "C84",
   "status": "proved",
   "theorems": [
    "Gauche.Digest.C84_sha256",
    "Gauche.Digest.C84_sha512",
    "Gauche.Digest.C84_md5",
    "Gauche.Digest.C84_chunks",
    "Gauche.Digest.C84_spec_unique",
    "Gauche.Digest.C84_bug_md5_4g"
   ],
   "note": "For SHA-1/224/256, SHA-384/512 and MD5 with an arbitrary compression function. MD5 needs pieces shorter than 2^32 bytes (C84_bug_md5_4g: a longer one is truncated). The compression functions, SHA-3 and the copying of the state into the digest string are not modelled."
  },
  {
   "property": "C85",
   "status": "proved",
   "theorems": [
    "Gauche.Comb.C85_permutations",
    "Gauche.Comb.C85_permutations_mem",
    "Gauche.Comb.C85_permutations_for_each",
    "Gauche.Comb.C85_bug_for_each_empty",
    "Gauche.Comb.C85_permutations_star",
    "Gauche.Comb.C85_combinations",
    "Gauche.Comb.C85_combinations_mem",
    "Gauche.Comb.C85_combinations_star",
    "Gauche.Comb.C85_power_set",
    "Gauche.Comb.C85_power_set_binary",
    "Gauche.Comb.C85_power_set_star",
    "Gauche.Comb.C85_cartesian",
    "Gauche.Comb.C85_cartesian_order"
   ],
   "note": "The -for-each forms are modelled by the sequence of calls of their procedure. The starred forms need an equality that compares keys (an equivalence relation). On the empty list the permutation -for-each procedures do not call their procedure although (permutations '()) is (()): C85_bug_for_each_empty."
  },
  {
   "property": "C86",
   "status": "partial",
   "theorems": [
    "Gauche.Lev.C86_l_distances",
    "Gauche.Lev.C86_l_steps",
    "Gauche.Lev.C86_re_distances",
    "Gauche.Lev.C86_re_bounds",
    "Gauche.Lev.C86_bug_re_first"
   ],
   "note": "l-distances: full, for every comparison and cutoff, whatever the reused rows contain. re-distances does not compute the restricted edit distance: transpositions at the beginning of either sequence are not recognized, and the example of the manual (re-distance \"cat\" \"act\") gives 2 instead of 1 (C86_bug_re_first); proved is what it does compute, and that it is at most one more. dl-distances is not modelled; that the indexes are in range is not modelled."
  },
  {
   "property": "C87",
   "status": "partial",
   "theorems": [
    "Gauche.Dominator.C87_dominators_partial",
    "Gauche.Dominator.C87_no_error",
    "Gauche.Dominator.C87_bug_not_immediate"
   ],
   "note": "Soundness: the node given is another node on every path from the start. That it is the immediate dominator is false, because update intersects with the dominator of an upstream node instead of the node itself (C87_bug_not_immediate: the result depends on the order of the upstream nodes). The postorder numbering is an assumption (numbers in range, every node but the start has an upstream with a larger number); that the iterations end is not proved."
  },
  {
   "property": "C88",
   "status": "partial",
   "theorems": [
    "Gauche.QP.C88_binary",
    "Gauche.QP.C88_text",
    "Gauche.QP.C88_width",
    "Gauche.QP.C88_chars",
    "Gauche.QP.C88_bug_binary_width",
    "Gauche.QP.C88_bug_cr"
   ],
   "note": "The line width is exceeded in binary mode, since an encoded CR or LF is counted as one character (C88_bug_binary_width); a text ending with CR is an error (C88_text, C88_bug_cr). Proved for text mode and all round trips."
  },
  {
   "property": "C89",
   "status": "partial",
   "theorems": [
    "Gauche.UriCode.C89_round_trip",
    "Gauche.UriCode.C89_chars",
    "Gauche.UriCode.C89_plain",
    "Gauche.UriCode.C89_query",
    "Gauche.UriCode.C89_bug_empty_part"
   ],
   "note": "The query round trip excludes a parameter with empty name and no value: the string it gives, and every query string beginning or ending with &, is an error to take apart (C89_bug_empty_part). Conversion between encodings is not modelled."
  },
  {
   "property": "C90",
   "status": "proved",
   "theorems": [
    "Gauche.Unify.C90_terminates",
    "Gauche.Unify.C90_dictionary",
    "Gauche.Unify.C90_false",
    "Gauche.Unify.C90_most_general",
    "Gauche.Unify.C90_decides",
    "Gauche.Unify.C90_merge"
   ],
   "note": "The procedures given by the user are a comparison of variables and values by identity and a tuple-fold that goes through the elements from left to right and gives #f on tuples of different lengths; the tuple-fold of the manual, which is fold, stops at the end of the shorter one, so it takes a list and its prefix to unify."
  },
  {
   "property": "C91",
   "status": "partial",
   "theorems": [
    "Gauche.UriMerge.C91_merge",
    "Gauche.UriMerge.C91_more_partial",
    "Gauche.UriMerge.C91_dots",
    "Gauche.UriMerge.C91_empty_segment",
    "Gauche.UriMerge.C91_bug_empty_segment",
    "Gauche.UriMerge.C91_bug_empty_base"
   ],
   "note": "Proved for hierarchical references in lower-case schemes whose paths have no empty segments inside. With an empty segment inside, what follows is not normalized (C91_bug_empty_segment; C91_empty_segment says exactly what comes out). With more than two arguments an intermediate URI without path is an error or gives #f (C91_bug_empty_base). Relative bases and relative paths after a scheme (mailto:x) are not in the theorems."
  },
  {
   "property": "C92",
   "status": "partial",
   "theorems": [
    "Gauche.ModSearch.C92_own",
    "Gauche.ModSearch.C92_stay",
    "Gauche.ModSearch.C92_search",
    "Gauche.ModSearch.C92_first_import",
    "Gauche.ModSearch.C92_lookup",
    "Gauche.ModSearch.C92_options_partial",
    "Gauche.ModSearch.C92_import_visible_partial",
    "Gauche.ModSearch.C92_bug_cycle",
    "Gauche.ModSearch.C92_bug_prefix_only",
    "Gauche.ModSearch.C92_bug_transitive"
   ],
   "note": "The order of the search is proved for all heaps (C92_search, C92_first_import: what is not looked up a second time makes no difference). The options of import are proved to be the import sets of R7RS for every list of options in which no :only or :rename comes right after an :only or :except that had a :prefix (there it is an error, C92_bug_prefix_only), for modules whose exported bindings have values. When a module exports names it does not define, :only finds names that are not exported (C92_bug_transitive) and two modules that import each other make the search endless (C92_bug_cycle)."
  },
  {
   "property": "C93",
   "status": "partial",
   "theorems": [
    "Gauche.Compare.C93_refl",
    "Gauche.Compare.C93_swap",
    "Gauche.Compare.C93_eq",
    "Gauche.Compare.C93_trans",
    "Gauche.Compare.C93_types",
    "Gauche.Compare.C93_lists",
    "Gauche.Compare.C93_vectors",
    "Gauche.Compare.C93_strings",
    "Gauche.Compare.C93_reals",
    "Gauche.Compare.C93_circular_partial",
    "Gauche.Compare.C93_circular_equal_partial",
    "Gauche.Compare.C93_circular_ends",
    "Gauche.Compare.C93_bug_circular"
   ],
   "note": "Complete for trees of lists, vectors, booleans, characters, strings, symbols, numbers, uniform vectors and instances of other classes with an order of their own. Numbers are compared by value (C48 and C67 say where the code's comparison of numbers is wrong). Two different circular lists may be found to be equal (C93_bug_circular); proved is that the loop ends for all of them, that an answer other than 0 is right, and that 0 is right for lists that come back to their first pairs. Complex uniform vectors, character sets and NaN are not modelled."
  },
  {
   "property": "C94",
   "status": "partial",
   "theorems": [
    "Gauche.Trie.C94_map",
    "Gauche.Trie.C94_exists",
    "Gauche.Trie.C94_get",
    "Gauche.Trie.C94_bug_false_value",
    "Gauche.Trie.C94_size",
    "Gauche.Trie.C94_fold_partial",
    "Gauche.Trie.C94_prefix",
    "Gauche.Trie.C94_longest",
    "Gauche.Trie.C94_partial_key_complete",
    "Gauche.Trie.C94_partial_key_partial",
    "Gauche.Trie.C94_bug_partial_deleted",
    "Gauche.Trie.C94_bug_update_error",
    "Gauche.Trie.C94_bug_fold_false"
   ],
   "note": "The map, the size, the collection of entries under a prefix and the longest match hold for all histories. What does not hold in the code is stated as C94_bug_*: trie-get takes a value #f for no entry; a fold loses a result #f; trie-partial-key? stays #t after trie-delete! and becomes #t after a failing trie-update!, so its meaning is proved for histories without these. Element sequences are lists of numbers compared by equality and a procedure of trie-update! does not change the trie itself."
  },
  {
   "property": "C95",
   "status": "proved",
   "theorems": [
    "Gauche.GapBuffer.C95_run",
    "Gauche.GapBuffer.C95_history",
    "Gauche.GapBuffer.C95_make",
    "Gauche.GapBuffer.C95_from_string",
    "Gauche.GapBuffer.C95_read",
    "Gauche.GapBuffer.C95_string",
    "Gauche.GapBuffer.C95_whole_string",
    "Gauche.GapBuffer.C95_contains",
    "Gauche.GapBuffer.C95_looking_at",
    "Gauche.GapBuffer.C95_undo",
    "Gauche.GapBuffer.C95_bug_from_end",
    "Gauche.GapBuffer.C95_bug_negative_delete"
   ],
   "note": "For the positions from the end that string->gap-buffer takes (C95_bug_from_end says that the negative ones of the manual are errors), numbers of characters to delete that are not negative (C95_bug_negative_delete), and bounds of a search that are in the text. The buffer is a list of code points; vector copies raise an error exactly when a range is out of bounds. Text with bounds given to string->gap-buffer and gap-buffer-set! are not modelled."
  },
  {
   "property": "C96",
   "status": "proved",
   "theorems": [
    "Gauche.Temporal.C96_exclusive",
    "Gauche.Temporal.C96_relate",
    "Gauche.Temporal.C96_inverse",
    "Gauche.Temporal.C96_inverse_inverse",
    "Gauche.Temporal.C96_relate_point"
   ],
   "note": "For comparison procedures of a linear order. The meaning of the relations is that of Allen's for intervals whose lesser point is before the greater one; that exchanged intervals have the inverse relation holds for all."
  },
  {
   "property": "C97",
   "status": "partial",
   "theorems": [
    "Gauche.Tr.C97_table",
    "Gauche.Tr.C97_tr_partial",
    "Gauche.Tr.C97_squeeze",
    "Gauche.Tr.C97_image",
    "Gauche.Tr.C97_range_partial",
    "Gauche.Tr.C97_bug_range",
    "Gauche.Tr.C97_bug_range_tr",
    "Gauche.Tr.C97_complement_partial",
    "Gauche.Tr.C97_bug_complement"
   ],
   "note": "For character arrays as the parser makes them; of the parser only the making of ranges is modelled. C97_tr_partial is the output without :squeeze, C97_squeeze the one with it. The complement is right for arrays whose parts do not overlap (C97_bug_complement says what happens otherwise). Ranges that cross the table size are wrong in the code (C97_bug_range)."
  }
 ]
}