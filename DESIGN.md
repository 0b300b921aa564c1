# Formal model of Gauche in Lean 4

## Layout
* `lean/Verif/Model/*.lean`  - the model: total computable functions, each citing file and lines of /repo.
* `lean/Verif/Proof/*.lean`  - helper lemmas.
* `lean/Verif/Props/*.lean`  - the property theorems, their small independent specifications, and
  non-vacuity examples.
* `seeded/LOG.jsonl` - log of seeded-bug experiments against the model.

## Trusted base
* Lean 4.33.0 kernel. Every property theorem depends at most on `propext`, `Classical.choice`,
  `Quot.sound` (checked with `#print axioms`). No axioms are added.
* The reading of the C / Scheme sources: the model is hand-written, nothing is extracted. The code was
  never run. Every definition cites the lines it models and states its simplifications.
* Allocation never fails, GC never frees reachable objects; the C compiler implements the language.

## Plan per property (initial)
| id | what is modelled | proof shape |
|----|------------------|-------------|
| C01-C03 | `treemap.c` as a functional red-black tree with an explicit parent path (zipper) | refinement to a sorted association list; RB invariant by induction on the path |
| C04-C05 | `data/heap.scm` min-max heap over a function/array storage | invariant (level order) + multiset refinement |
| C06-C07 | `data/ideque.scm` | refinement to `List` |
| C08-C09 | `data/skew-list.scm` | refinement to `List`; disproof by witness where the code deviates |
| C10 | `data/imap.scm` | refinement to finite map |
| C11-C13 | UTF-8 macros, string positions, search | round trip; search soundness and minimality |
| C14-C18 | `bignum.c` over lists of 64-bit digits | value homomorphism to `Int` |
| C19 | digit output and parsing | round trip |
| C20 | `hash.c` chained table with resizing | refinement to finite map |
| C21 | `ctrie.c` compact trie | refinement to finite map |
| C22 | `char.c` bitmap + range tree | membership homomorphism |
| C23 | `rfc/base64.scm` | round trip |
| C24-C25 | `data/queue.scm` | refinement to list; labelled transition system for the mt part |
| C26 | `compare.c`, merge sort | permutation, sortedness, stability |
| C27 | `vm.c` dynamic-wind, call/cc, throw, prompts as an abstract machine over frames, denv and handler chain | invariant `Inside` (continuation determines chain) over a tree of entries; history replay; path of a jump |
| C28-C29 | `port.c`/`portapi.c` buffers | refinement to byte stream |
| C30 | `Scm_MonotonicMerge` | soundness and completeness |
| C31-C32 | `lazy.c`, `mutex.c` | labelled transition systems, invariants over all interleavings |
| C33 | `data/cache.scm` | refinement |
| C34-C35 | `number.c`, `numutil.scm` | equations in `Int`/`Rat` |
| C36 | `list.c` over a cons heap | termination + classification |
| C37 | `regexp.c`: optimizer, code generator, byte-code matcher, search | each piece of code implements the list of ways of its tree (compiler correctness with continuations); optimizer keeps the first way; lookahead set, anchors and the simple prefix skip only places without a match |
| C38-C40 | ring buffer, toposort, lcs | refinement / optimality |
| C41-C42 | depth of imap trees; `binary-heap-check` | invariant, witness where false |
| C43-C44 | `string.c` comparison, join, split over UTF-8 bytes | UTF-8 order isomorphism; list equations |
| C45-C50 | `number.c` on fixnum/bignum/ratnum representations: compare, gcd, expt, round | value homomorphism to `Int`/`Rat` |
| C51-C54 | `numutil.scm`, `math/prime.scm` | number theory from Mathlib; loop invariants |
| C55-C56 | `hash.c` iterator, `hash-table-update!` | refinement; witness for nested update |
| C57 | base32/base16 | round trip |
| C58-C61 | char-sets: compare, case folding, print/read | extensionality; round trip |
| C59 | `%binary-search` | interval invariant |
| C62 | `Scm_ForceLazyPair` | labelled transition system over all interleavings |
| C63-C65 | `number.c`: `print_double` (Burger-Dybvig), `read_real` (Clinger AlgorithmR), `Scm_BignumToDouble`, `Scm_GetDouble`; doubles are pairs (m, k), rounding is a relation to `Rat` | digit generation invariant; correction loop reaches the rounding; round trip through shortest interval |
| C66-C67 | `Scm_Exact` (via `real->rational`), `Scm_NumCmp` on fixnum/bignum/ratnum/flonum | exact result stays inside the rounding interval; comparison equals the order of exact values outside a listed set of pairs |
| C68-C69 | `write_rec` on trees, `Scm__WritePrimitive`, `write_char`, `string_putc`, `Scm_WriteSymbolName`; `read_internal` and everything below it for these data; character categories are a parameter | induction on the tree: text of a datum is read by `read_internal`, text of a list tail by `read_list_int`; automata of the string and symbol readers against the escapes of the writers |
| C70-C71 | `%write-walk-rec`, `write_rec` as the explicit stack machine with its table of labels, `write_ss`; `read_num_prefixed`, `read_list_int`, `read_vector` on a heap with read references, `read_context_flush` | the walk ends and cuts every cycle with a label (measure: objects not in the table); the machine writes the text of a tree (big-step `emit`); simulation between `emit` and the reader's heap: each new object stands for one object of the graph; filling in leaves no reference (paths along cdrs from pending lists); exact sharing by counting references that are still to come |
| C72-C74 | src/macro.c: `compile_rule1` for patterns and templates, `match_synrule`, `match_subpattern`, `enter_subpattern`/`exit_subpattern`, `realize_template`, `realize_template_rec`, `synrule_expand`; identifiers are numbers, `same_identifier` a parameter, the unbounded loop of the template expander has fuel | relational specification of R7RS 4.3.2 on surface syntax (Verif.Spec.SynRules); the compiled pattern matches exactly what the surface pattern matches; the tree of matches, with the reversals, represents the binding; the expander realises `Inst` with the renaming given by its table; fuel is bounded by the number of matches |
| C75-C76 | `Model/Prog.lean`: pass 5 of the compiler (contexts, boxes, frames, branches, calls, stack depth) as a function from IForm terms to instructions at absolute addresses, and the VM with its registers, frames, continuations, boxes, closures | `Spec/Prog.lean`: big-step semantics with a store; forward simulation by induction on the derivation, with a relation between locations and boxes/slots; determinism of the machine. Stack: a family of programs that exceeds every bound |
| C77-C78 | Generic functions: the method list, applicability, `method_more_specific`, the shell sort, `Scm_AddMethod`/`Scm_DeleteMethod`, the VM's call and next-method, and the dispatch accelerator's hash table, as functions (`Model/Dispatch`). `Spec/Dispatch` defines applicability, the specificity order and the set of live methods on their own. | The comparison is a strict order, total on applicable methods of distinct signatures; the last pass of the shell sort is an insertion sort; invariants over histories. For the accelerator: triangular probing visits all slots of a power-of-two table (injectivity of triangular numbers mod 2^e), the table represents a map, and the most specific method is among the leaves of the entry. |
| C79-C80 | `Model/Bits.lean`: src/bits.c on 64-bit words (arrays are word lists, an access outside is the result `none`), the bit tricks of bits_inline.h as written, and the bitvector primitives of vector.c, libvec.scm and bitvector.scm. Spec: bit `i` of an array, lists of booleans. | word lemmas by bytes (population count) and by lowest-bit isolation; range scans by segments of words; updates by a pointwise description of every word written |
| C81 | Heap of pairs and vectors with leaves; `Scm_EqualP` (list loop with tortoise and hare, vector loop, fallback) and `%interleave?` with its union-find table and random restarts, function by function (`Model/Equal`). Spec: equality of all paths in the unfolding. Proof: bisimulation up to the classes of the table; termination by a measure of classes and `k`; Fine-Wilf argument for purely circular lists; counterexample for circular lists with a beginning. |
| C82 | `equal_hash_common` and `number_hash` with the word size as a parameter, siphash and symbol addresses abstract (`Model/Hash`). Proof: all steps commute with reduction modulo 2^32; the sum over 64-bit words of both halves is the sum over 32-bit words. |
| C83 | lib/text/csv.scm: reader state machine and writer, over lists of code points | the reader is run on the text of a field (plain or quoted) by induction; rows by induction on the fields; progress by induction on the input |
| C84 | ext/digest/sha2.c and md5c.c: update and final, buffers as byte lists, counters with their word sizes, compression function as a parameter | invariant: state = fold over the full blocks, buffer starts with the rest, counter = bits modulo 2^64 or 2^128; padding computed from it; uniqueness of the padded blocks |
| C85 | lib/util/combinations.scm, all the procedures; the `-for-each` forms by the sequence of calls | induction on the size: membership, length, lexicographic order of positions; the starred forms by comparing keys |
| C86 | lib/util/levenshtein.scm: l-base and re-base with their rotating rows, early exit and rows reused between sequences | rows are functions; invariant: row j holds the distances of all prefixes to the first j elements; alignment specification, equal to chains of edits; row minima do not decrease |
| C87 | lib/util/dominator.scm from the numbered graph on: intersect, update, iterate! | invariant: set entries point to larger numbers; in a pass without change, following the entries of a node is following those of each upstream; induction on paths | 
| C88 | lib/rfc/quoted-printable.scm: encoder with line count, decoder with all its permissive cases | induction on the input; width by a predicate on the rest of a line |
| C89 | lib/rfc/uri.scm: percent encoding, query strings; string-split by a set of characters | induction on the input; encoded text has no delimiter |
| C90 | `unify`, `unify-merge` of lib/util/unification.scm, for trees of variables, values and tuples, with a `tuple-fold` that is false on tuples of different lengths. | Every result means the same set of assignments (induction on the depth of the recursion); the dictionary stays acyclic (ranks, from the occurs check), so it has a solution, which is most general; termination by unbound variables, then the size of the solved trees, then ranks. |
| C91 | `uri-merge`, `uri-scheme&specific` and `uri-decompose-hierarchical` of lib/rfc/uri.scm on texts, each regular expression as a function. | The components are read back from the text; the loop of `canonicalize` computes the segments' normal form (induction on the segments, the output being a stack); counterexamples by computation. |
| C92 | `search_binding` with the loops over imported and parent modules and the visited modules, `process-import` with the wrapper modules, aliases and hidden bindings, on a heap of modules. | The visited modules are shown to be dead ends (invariant of the loop); the options by induction on their list with the invariant that the current module with the pending prefix exports the set; counterexamples by computation and, for the endless search, by induction on the depth. |
| C93 | `Scm_Compare` with `vector_compare`, `symbol_compare`, `Scm_StringCmp` and the comparison of uniform vectors, on trees; the loop over two circular lists on its own. | Every datum gets a key, a list of rationals no key is a prefix of another of, and `compare` is shown to be the lexicographic order of the keys (mutual induction on data and lists of data); equality by a second induction; the counterexample by computation. |
| C94 | libsrc/data/trie.scm: nodes as a nested inductive type, tables as lists in the order of their fold; all accessors, changes and prefix operations. | The terminals at each path are what a change changes; from that the map by induction over histories. An invariant (terminals carry their path, classes differ, no element twice in a table, size) gives the enumeration by mutual induction on nodes and tables, and from it the size, the prefix operations and the meaning of partial keys. |
| C95 | libsrc/text/gap-buffer.scm without regexps and `gap-buffer-set!`: the vector, the gap and all copies; search; the edit commands. | The buffer is split into the part before the gap, the gap and the part after it; every call keeps such a split (copies into the middle of a list), and the text before and after the gap changes as in a text with a position. Undo follows from the parts that an edit leaves. |
| C96 | lib/util/temporal-relation.scm: `relate`, `relate-point` and `inverse`, on the end points and with any comparison procedure of a linear order. | Case analysis over the comparisons; two relations exclude each other by the laws of a linear order. |
| C97 | libsrc/text/tr.scm: the table (vector and list), splitting and reading of character arrays, the ranges that the parser makes, the complement and the output loop; the rest of the parser is not modelled. | Character arrays are expanded to lists of characters; filling a table is followed by induction over the array, with lemmas for the vector and for the list. |

## Disagreements between properties and code (found by proof attempts)
* **data.skew-list** (C09): `skew-list-take/drop/split-at` raise a match error for in-range `k` when the
  forest starts with two weight-1 trees and `k` is not a prefix sum; `skew-list-append` raises when a later
  argument is empty and the first has >= 2 elements; `append` can build a non-canonical forest so `equal?`
  fails on equal sequences; the generator with `start` = length raises.
* **data.imap** (C41): `imap-delete` does not restore the red-black balance; depth bound violated.
* **data.heap** (C05): `binary-heap-copy` passes `:capaticy` (typo), so the copy's capacity slot is unbound.
* **treemap.c / treeutil.scm**: `node_cleared_p` is true of a singleton root, so an iterator moved forward
  then backward on a one-element tree loses its element; `%tree-map-seek` ignores its `backward` argument,
  so `tree-map-seek-right` searches from the smallest key; `tree-map-update!` leaves the fallback entry
  behind when the procedure raises (`Scm_TreeCoreSearch` with CREATE happens first).
* **data.heap** (C42): `binary-heap-find` cannot distinguish a found #f from not found.
* **data.queue mtqueue** (C25): a waiter that times out (or is interrupted) in `*/wait!` executes
  `MTQ_LOCKER := #f` even when another thread took the big lock meanwhile, so `remove-from-queue!` etc. lose
  exclusion (elements lost or delivered twice); `dequeue!` that pops only the close marker does not notify writers
  (lost wake-up); a timed-out `dequeue/wait!` never decrements the waiting-reader count; with max-length 0 several
  writers complete on one waiting reader; `enqueue-unique!`/`queue-push-unique!` ignore `closed`;
  `queue-push/wait!` has the two close codes swapped.
* **char.c** (C11): the lead-byte table gives 0 (not -1) for continuation bytes, so `SCM_CHAR_BACKWARD` never
  answers NULL on garbage.
* **string.c** (C12): `index2ptr` with an index fails its assertion (`array_off < index_size`) for the end position
  when the length is a positive multiple of the interval: `(substring s len len)`, `string-index->cursor s len` abort;
  `list->string` ignores `end` when `start` is 0 and returns one character when `end = start > 0`.
* **string.c** (C13): `boyer_moore_reverse` starts at `siz1-siz2+1`, one past the last position; on a substring that
  shares storage, `string-scan-right` reports a match that sticks out by one byte.
* **number.c / bignum.c** (C16): `(quotient (- (expt 2 61)) -1)` wraps to `-2^61`; quotient and remainder of the fixnum `-2^61` by the
  bignum `2^61` give 0 and `-2^61`; a bignum dividend with divisor 0 reaches a machine division by zero.
* **number.c / bignum.c** (C17, C18): `(ash x 0)` for `x` = `2^61-1`, `1-2^61`, `-2^61` returns a bignum holding a fixnum value;
  `logand` of two negatives whose result is `-2^(64k)` with both operands above it returns 0, `logxor` inherits it (`(logxor 1 (- 1 (expt 2 64)))`
  is 0); `(ash (- -1 (expt 2 61)) -61)` is -1 instead of -2; `Scm_BignumAsh` takes an `int`, so a count below `-2^31` is
  truncated (`(ash (expt 2 64) (- (expt 2 32)))` is `2^64`).
* **number.c** (C47): `(expt 0 y)` for a bignum `y` is an error.
* **number.c** (C34, C48): `Scm_ReduceRational` and the normalisers return 0 for `(/ (- (expt 2 61)) (expt 2 61))` and can leave a
  ratnum `0/2` (theorems `C34_bug_*`); `Scm_NumCmp` on a fixnum against a negative ratnum whose doubles coincide always answers "less"
  (`C48_bug_compare_negative`; the literal `2.0e-52` was presumably meant as 2^-52); `SCM_EQ(SCM_INT_VALUE(0), arg0)` is never true
  and the duplicated test `EXACT_ONE_P(dx)||EXACT_ONE_P(dx)` is harmless.
* **numutil.scm** (C51): `(inverse-mod -1 7)` is #f. (C52): `real->rational` with `open?` true answers 3/2 for the interval (2, 23/10) and for
  (17/10, 2).
* **math/prime.scm** (C53): `(miller-rabin-prime? 2)` is #f. (C54): `(naive-factorize 31209 10)` stores the incomplete factorization (3 10403) in the
  memo table, and later calls without a limit answer it.
* **hash.c / libhash.scm** (C56): when the procedure given to `hash-table-update!` raises, the fallback stays bound to a formerly absent key; when the
  procedure deletes the key its result is lost; at INT_MAX entries the new entry is linked, with a null value, before "Too many entries" is raised.
  (C55): inserting during an iteration can make it skip keys and deliver others twice.
* **rfc/base64.scm** (C57): state `d7` of `%base32-decode` skips a character by calling itself on the same character, so a line break before the last
  digit of a group makes the decoder loop for ever (e.g. text encoded with `:line-width 7`). (C23): `:digits` accepts a space, twice the same character
  and (encoder only) control characters; such texts do not decode.
- Char sets (C22, C58, C59): the bitmap is a function from code to bit; the union `large` and the IMMUTABLE flag
  are one constructor. `char-set-freeze!` of a set without large ranges leaves the tree's words in the union, and
  the frozen size is then the tree's root pointer; the model returns an error unless that tree is empty, and the
  programs theorem shows it always is.
- **C61 is false as stated.** `charset_print` writes a large range with a dash only if its ends are more than two
  apart (the bitmap part uses the right test), so `#[あ-う]`-like sets of exactly three consecutive large characters
  are written as their two end points and lose the middle one when read. `C61_exact` characterizes the loss.
  Not modelled: `\x`, class names and `[:...:]` in the reader (the printer never writes them), strict-r7 mode (which
  rejects the printer's `\u` escapes), and the lifetime of the buffer `prefetched` points into.
- **C60 is false as stated.** `Scm_CharSetCaseFold` iterates over the tree of ranges while adding to it. The iterator has
  already fetched the next node; adding the character just below that node deletes it, and a deleted node has no
  successor, so the iteration ends after it: folding {U+0100, U+0102, U+0200} never adds U+0201. The model
  identifies nodes by key (justified by `key_gone`) and keeps the last value of the two nodes the iterator holds.
- C30 (`Model/C3`): `Scm_MonotonicMerge` uses `#f` both as an element and as "no candidate", so a merge whose next
  element is `#f` answers `#f` (no order) although an order exists (`C30_bug_false_element`); classes are never `#f`.
  The sequences are modelled as proper lists compared by `eq?`.  Class redefinition and `Scm_ExtendModule` are not
  modelled (the latter stores `module->parents` before the merge that may fail).
- C39 (`Model/Toposort`): a node listed in two entries of the graph (`((0 1) (0 2))`) makes `topological-sort` report a
  cycle although there is none, because `assoc` only ever finds the first entry (`C39_bug_repeated_entry`).
- C38 (`Model/RingBuffer`): `ring-buffer-insert-all!` with room ignores the head, shifts in the wrong direction and never
  changes the number of entries, so it loses elements (`C38_bug_insert_all_room`, `C38_bug_insert_all_loses`); in its
  growing branch a storage of exactly the needed size leaves the tail index equal to the capacity, after which
  `ring-buffer-add-back!` fails although there is room (`C38_bug_insert_all_exact`).  The end test of the reverse
  iterator is inverted (`C38_bug_reverse_iterator`), so `fold-right` over a ring buffer returns the seed.
  The overflow handler is an arbitrary answer per call; handlers that modify the buffer are not modelled.
- C26: `sort`/`sort!` without a comparison procedure use the C quicksort/heapsort hybrid, which is not stable (not claimed); with
  a procedure they are the stable merge sort.  While `stable-sort!` runs with a key, the sequence holds pairs (element . key);
  an error raised by the key or comparison procedure would leave it so (errors are not modelled).
- **C33** `cache-write!` on a FIFO/LRU cache that is full discards the oldest entry even if the key written is already present (`%fifo-add!` looks only at the size); the manual says `cache-write!` is like `cache-evict!` then `cache-through!`, which would discard nothing: `C33_bug_write_existing`.
- **C33** `cache-renumber-entries!` calls `dict-update!` on every key of the queue, but `cache-evict!` leaves the key of the evicted entry in the queue: with such a key, the insertion that reaches the greatest fixnum is an error: `C33_bug_evict_renumber`.
- **C31** `force_cc` copies `code` and then `state` of the promise a `delay-force` thunk delivered without holding that promise's mutex. A second thread that fulfills it in between makes `force` return the thunk as values (`C31_bug_torn`), or makes a promise that already delivered a value unfulfilled again (`C31_bug_changes`).
- **C31** `force_exc_handler` raises `c->code` even if the promise was meanwhile fulfilled with values, so `force` raises a list of values (`C31_bug_raise_values`). With reentrant forcing, `(delay-force r)` and `r` may deliver different values (`C31_bug_not_shared`).
- **C62** In `Scm_ForceLazyPair` a waiting thread leaves the inner loop when the owner word is 0 and then tests it again to decide whether to retry; if a third thread takes the pair in between, the waiter returns although the object is still a lazy pair, and `SCM_CAR` of it is the tag word (`C62_bug_lazy`; needs an error of the generator). The waiting path returns `SCM_OBJ(lp)`, the address of the hidden word, not `&lp->data`; no caller uses the result.
- **C29** `Scm_Putc` asks for an unforced flush when the buffer has no room for the character and then asserts that there is room; if write(2) takes fewer bytes than the character needs, the assertion fails and the process ends (`C29_bug_assertion`). `file_flusher` raises its error without telling `bufport_flush` how much it had written: the bytes stay in the buffer and are written again by the next flush (`C29_bug_twice`). After a write error `close-port` drops the buffer silently (`C29_bug_close`).
- **C28 (buffered input).** Model/InPort.lean has the buffer memory, `bufport_fill`, `bufport_read` and the readers of src/portapi.c over a file whose
  reads return any number of bytes. `C28_chunk_independent` is the property as stated, for every program of reads on any bytes. Disagreements found, each
  a theorem: `getz_scratch` adds EOF (-1) to the number of bytes, so a block read loses the last byte of the file when it was peeked at
  (`C28_bug_last_byte`), even by `read-line` looking past a CR (`C28_bug_line_then_block`), and makes up a byte 255 after a peek at the end
  (`C28_bug_eof_byte`); `bport_fill` of gauche.vport stores each chunk at the start of the buffer, so a character split over two chunks is wrong
  (`C28_bug_vport`); `read-line` counts a line feed twice (`C28_bug_line_number`); `peek-char` on malformed bytes consumes them
  (`C28_bug_peek_invalid`); `getc_scratch` drops bytes after `peek-char`, `read-byte`, `read-char` (`C28_bug_lost`); a character cut by the end of the data
  leaves different bytes on string and file ports (`C28_bug_cut`). Not modelled: locking, `char-ready?`, `byte-ready?`, coding conversion.
- C36: `alist-delete!` (Scm_AssocDeleteX) sets `prev` to the pair just deleted, so of two matching entries in a row after a kept one the second stays
  (`C36_bug_alist_delete_x`); `length<?` etc. of a dotted list and a bignum answer as for a circular list (`C36_bug_compare_bignum`);
  Scm_Append2X of a dotted list returns the second list and drops the first without an error (part of `C36_append2_x`).
- **C21** `sparse-vector-inc!` does not count the entry it creates when the leaf exists already (`SparseVectorInc` ignores what `desc->set` returns): `C21_bug_inc`; after deleting all entries `sparse-vector-num-entries` is 2^64-1. `sparse-vector-ref` and `sparse-matrix-ref` ignore the fallback when the index is out of range (`C21_bug_ref_out_of_range`, `C21_bug_matrix_ref_out_of_range`), although the manual says the fallback suppresses the error. `SCM_DICT_NO_CREATE` of `SparseTableSet` is ignored when another key has the same hash value (`C21_bug_no_create`; no caller).
- C19: `number->string` of -18 in a radix above 18 is `-i`, and `read_number` takes any two-character text `-i`/`+i` for the imaginary unit before it looks at the radix. `C19_bug_minus_i` proves it for every radix 19..36; the round-trip theorem excludes exactly this number.
- C19: `-2305843009213693952/d` with `2^61` dividing `d` is read wrongly (as 0 for `d = 2^61`) because of the quotient coincidence already recorded under C16. The overflow test in `Scm_ParseDigitsAsLong` lets `long` overflow for `#9223372036854775808r…`.
- C19 (not modelled): hexadecimal flonum literals with more than 53 bits are rounded on a 54-bit prefix (`lobits == 3`), so sticky bits below it are ignored.
- C27: `abort-current-continuation` looks for its prompt in `vm->cont`, and while a continuation is being thrown that register still holds the abandoned continuation with the `throw_cont_cc` frame on top. An after thunk run by a jump that aborts to a prompt inside its own dynamic-wind body therefore resumes a body whose extent has been left; returning from it pops an empty handler chain (`C27_bug_abort`, a nine-line program). `vm_abort_cc` would also run the after thunks of all outer winds, since the prompt's chain is not an end of the current one.
- C32: an interrupted timed `mutex-lock!` (`SCM_INTERNAL_COND_INTR`) leaves the loop with `r` still true and takes a mutex that another live thread holds (`C32_bug_intr`); on POSIX `pthread_cond_timedwait` does not return `EINTR`, so the branch is dormant there.
- C32: a thread blocked in `mutex-lock!` when the owner terminates is not woken: only a later `mutex-unlock!` (or a spurious wakeup) lets it see that the mutex is abandoned (`C32_bug_abandoned_waiter`).
- C37 (regexp.c): the property is false of the code for some patterns; each is a theorem. `is_distinct` negates the answer for `[^..]` (`[^ab]*[bc]` is not found in `cc`); a greedy repetition of one character at the end of the body of another repetition never gives back, because `rest` is what follows the outer repetition (`^(?:bab*)*c` is not found in `babbac`); the optimizer ignores case folding (`A*(?i:a)`), and `MATCH1R`/`MATCHR` have no case-folding version (`#/a*b/i` finds `B` in `AB`); the simple-prefix skip is wrong with back references (`(a+)b\1` is not found in `aaba`); `BACKREF` does not look at the end of the input (`(.)\1` is found in a string of one NUL, ending outside of it); submatches set in a lookahead are not undone on failure; a loop with an empty body recurses until the stack check fails; where `CHAR_MAX` is 255 a literal of 256 to 260 bytes gets a wrong length byte.
- C37: also differing from other regexp engines but taken as the specification here: `\b` is true at both ends of the text whatever is there; `x{m,n}` tries all ways of the largest number of copies before the next smaller number; `$` inside the first copies of a repeated group counts as last.
- C64 (`read_real`): the property is false of the code for some texts; each is a theorem. `2.4703283e-324` reads as 0.0 although the nearest flonum is the least positive one (`C64_bug_underflow`); `1.797693134862315700e308` reads as the infinity (`C64_bug_overflow`); an exponent of magnitude 325 or more decides the result whatever the digits are (`C64_bug_exponent`); on the text of the exact midpoint `(2^53-1)*2^-1075` the correction loop alternates between two neighbours and never ends (`C64_bug_loop`); a NUL byte is taken for an exponent marker because `strchr` finds the terminator (`C64_bug_nul`).
- C65: a ratio whose value is below `2^-1022` is rounded twice and can come out one unit off (`C65_bug_subnormal`).
- C63-C65 assume of the C library only what is named in the model: `log10` used for the first estimate of the decimal exponent is within the bound stated there, `ldexp`/`frexp` exact, `+ - * /` correctly rounded to nearest even.
- C66: `(inexact (exact x))` differs from `x` for the subnormal flonum 1781658995061769 * 2^-1074 (`C66_bug_subnormal`): the ratio is read back with a double rounding (C65).
- C67: in `Scm_NumCmp` for a fixnum and a ratnum, the tolerance `err` has the sign of the ratnum, so for a negative ratnum whose double is that of the fixnum the first test `r < -err` always succeeds: `(< -1 (- -1 (expt 2 -60)))` is true (`C67_bug_near`, `C67_bug_minus_one`). The comparison of -1.0 with such a ratnum goes the same way. `2.0e-52` is presumably meant to be 2^-52. The test for zero compares the object with the C integer 0 and is never true.
- C68: `escape_required_p` (src/symbol.c, via `Scm_CharLexerCategoryP`) lets characters of the categories Nd, Mc and Me stand unescaped inside a symbol, but `char_word_constituent` (src/read.c) does not take them as part of a word: the symbol `a٣` is written `a٣` and read back as `a`, with `٣` left over (`C68_bug_digit`); the list of `a` and the symbol `.٣` is written `(a .٣)` and read back as a dotted pair (`C68_bug_dot`).
- C68: the reader does not check the first character of a symbol, so a control character outside brackets is read as a symbol; the writer never writes such a text. A keyword `|:foo bar|` is identified with the symbol of that name in the model.
- C70: `read_context_flush` follows the cdrs of each pending list and stops at a read reference; if the list was already filled in from another pending list, it is circular by then and the loop never stops. `#0=(#0# . #1=(a . #1#))`, which `write` produces, cannot be read (`C70_bug_hang`).
- C71: `write-shared` keeps objects that are met once in its table, so quoting forms are written in full, `(quote q)`, not `'q`; both are read as the same datum. Empty strings and vectors are never labelled, so their identity is lost.
- C72: a pattern `(_ . _)` also matches a use of the macro as a bare identifier, since the compiled rest is `_`, the same object that stands for a rule that is a sole identifier (`C72_bug_underscore`).
- C73: a vector pattern that ends in an ellipsis and is below another ellipsis loses empty repetitions: with `(_ (n #(a ...)) ...)` and `((n a ...) ...)`, `(foo (x #(1 2)) (y #()) (z #(3)))` gives `((x 1 2) (y 3))` (`C73_bug_vector`).
- C74: `(_ x ...)` with the template `(x ... ...)` is accepted, and the expansion never ends (`C74_bug_forever`).
- C74: `realize_template` uses an array of 10 indices on the stack if `maxLevel` is at most 10, but the cells are 0 to `maxLevel`: with 10 levels the last one is outside (`C74_bug_index`).
* **C75** (`C75_bug_head_heavy`): `pass5/head-heavy-call` evaluates the operator first and
  then pushes the arguments, relying on them not to change VAL0. `all-args-simple?`
  accepts every `$LREF`, but an assigned variable is compiled to `LREF-UNBOX` and `PUSH`,
  which puts its value into VAL0. `((let ((f g)) f) x)`, or a named `let` in operator
  position, applied to a variable `x` that is `set!` somewhere, calls the value of `x`.
* **C76** (`C76_bug_unbounded`): `POP-LOCAL-ENV` does not pop the frame from the stack, so
  `n` statements that are `let` forms use `n` frames, while `$SEQ` announces the maximum of
  its statements. (Also: `pass5/prepare-args` does not add the number of the arguments
  already pushed for the last one; `if-eq` ignores the pushed operand; `$LET` in a top
  context ignores the continuation frame for the initial values.)
- C77: `(apply gf a ... list)` with exactly as many arguments before a non-empty list as `maxReqargs`: `nsel` is 0 and the loop
  that counts the arguments in the list is skipped (`if (applyargs && nsel)`), so methods are selected for too small a
  number of arguments. With `(define-method f ((x <integer>)) ..)` and `(define-method f ((x <integer>) . r) ..)`, `(f 1 1)`
  works and `(apply f 1 '(1))` fails (`C77_bug_apply`).
- C77: the loop that fills `typev` runs while `nsel >= 0`, so it writes `maxReqargs + 1` elements of an array of
  `maxReqargs` (or 32) elements (`C77_bug_overflow`, from 32 required arguments on).
- C78: the accelerator uses the leaf methods of the entry even if none of them is applicable; then no method is found although
  less specific ones are applicable (`C78_bug_shadow`; `ref` and `object-apply` have the accelerator). Methods
  with optional arguments are entered for fewer than 4 arguments only, but 4 are looked up (`C78_bug_four_arguments`).
  `mhash_delete` tests `SCM_NULLP(ml)` twice instead of `ml` and `mn`, which loses non-leaf methods (`C78_bug_redefine`). In
  `mhash_insert_1` and `mhash_delete`, `continue` at a deleted bin does not advance `j`, so entries behind it are not found
  (`C78_bug_deleted`). Axes other than 0 contradict the left-to-right order (`C78_bug_axis`).
- C79: `Scm_BitsLowest1/0` restart their word loop at the first word without its mask, `Scm_BitsFill` touches the word after the array when `end` is its last bit (`(make-bitvector 64 #t)` does this; the allocator's rounding hides it), `Scm_BitsOperate/Equal/Includes` ignore the end of a range inside one word that does not start at bit 0, and `Scm_BitsCopyX` always copies upwards.
- C80: hence `(bitvector-copy! v 1 v 0 3)` smears the first bit, unlike `vector-copy!`; `bitvector-field-set!`, `-clear!`, `-flip!` change literal bitvectors.
- C81: the loop for flat lists in `Scm_EqualP` answers `#t` as soon as it has seen that both lists are circular, but by then it may not have compared enough elements: `(equal? '(a a b . #0=(a a b a . #0#)) '#1=(a a b . #1#))` is `#t` although the ninth elements differ (`C81_bug_circular`). Lists that are circular from their first pair are compared right (`C81_circular_pure`).
- C82: `eqv?` and `equal?` compare the parts of complex numbers and the elements of `f64vector`s with `==`, but the hash functions distinguish the two zeros: `0.0+1.0i` and `-0.0+1.0i` are `eqv?` and have different hash values (`C82_bug_compnum`), `#f64(0.0)` and `#f64(-0.0)` are `equal?` and have different hash values (`C82_bug_f64vector`). The comment in src/hash.c:344 promises equal(x,y) => hash(x) = hash(y).
- C83: `make-csv-writer` with `#\\` as the quote character does not double it (lib/text/csv.scm:121-138: the doubled quote is used as the replacement string of `regexp-replace-all`, where a backslash escapes), so fields with a backslash are cut when read back (C83_bug_backslash_quote). The reader drops anything between a closing quote and the next separator (C83_bug_after_quote), and keeps the return of a `\r\n` in an unquoted last field when it does not trim (C83_bug_crlf_notrim).
- C84: `MD5_Update` (ext/digest/md5c.c:56) takes an `unsigned` length, so `%md5-update` on a string or u8vector of 2^32 bytes or more hashes only the length modulo 2^32 (C84_bug_md5_4g).
- `permutations-for-each` and `permutations*-for-each` never call their procedure on the empty list, although `(permutations '())` is `(())` and `combinations-for-each` with size 0 calls its procedure on `()` (C85_bug_for_each_empty).
- `re-distance` does not see a transposition at the beginning of either sequence (`(and (> i 1) (> j 1) …)` with indexes from 0, lib/util/levenshtein.scm:196): the example of the manual, `(re-distance "cat" "act")` ⇒ 1, gives 2 (C86_bug_re_first, C86_re_bounds).
- `calculate-dominators` intersects with the dominator of an upstream node instead of the upstream node (lib/util/dominator.scm:87-90, unlike the paper it cites), so the result may be a dominator further away than the immediate one and depends on the order of the upstream nodes (C87_bug_not_immediate: 3→2→1→0 and 2→0).
- `quoted-printable-encode` in binary mode counts an encoded CR or LF (three characters) as one, so lines get longer than the line width (lib/rfc/quoted-printable.scm:61-62; C88_bug_binary_width: 220 characters with width 76). A text that ends with CR is an error, because `(= c1 #x0a)` gets the end of file, and so is decoding a text that ends with `=` and CR (C88_bug_cr). The clause for spaces at the end of a line (58-60) cannot be reached.
- `uri-decompose-query` raises an error for a query string that begins or ends with `&`, since splitting the empty part at `=` gives the empty list (lib/rfc/uri.scm:205-206; C89_bug_empty_part).
- C90: the example of the manual passes `fold` for `tuple-fold`; `fold` stops at the end of the shorter list, so `(1)` and `(1 2)` are then taken to unify. The theorems are about a `tuple-fold` that gives `#f` there.
- C91: `canonicalize` stops at an empty segment (`//`) that is not the last one and leaves the rest of the path as it is, dot segments included. With three or more arguments `uri-merge` takes an intermediate result without path apart to `#f`, which is then written as `#f` or makes `string-null?` raise an error.
- C92: after an `:only` or `:except` with a `:prefix` before it, an `:only` or `:rename` raises an error for names that exist, since `search_binding` ignores the prefix of the module it starts from (src/module.c:305-323; C92_bug_prefix_only). With `:only` or `:rename`, names that the module only imports and does not export are found too, since the external search goes on in the imports (C92_bug_transitive). Two modules that import each other and export the same undefined name make the search recur without end (src/module.c:351; C92_bug_cycle).
- C93: `compare` returns 0 for some circular lists that are different: it stops when both have been found to be circular, before all combinations of positions have been seen (src/compare.c:119; C93_bug_circular).
- C94: `trie-get` raises an error or gives the fallback for a key whose value is `#f` (libsrc/data/trie.scm:251-255; C94_bug_false_value). `%trie-node-fold` takes a result `#f` of the fold over the nodes below for none and goes on with the old seed (lines 297-309; C94_bug_fold_false). `trie-partial-key?` is `#t` for prefixes of deleted keys and of keys for which `trie-update!` raised an error (C94_bug_partial_deleted, C94_bug_update_error).
- C95: `string->gap-buffer` subtracts a position from the end instead of adding it, so a negative position, as the manual shows it (doc/modutil.texi:31363), is an error, while `gap-buffer-move!` adds it (libsrc/text/gap-buffer.scm:131, 179; C95_bug_from_end). `gap-buffer-delete!` takes a negative size and brings characters back that were deleted (lines 228-233; C95_bug_negative_delete).
- C97: a range in a character specification that crosses the size of the table (256 by default) lacks its last character, so that this one is not replaced and the images after it are shifted (libsrc/text/tr.scm:125: `(- toi table-size)` should be one more; C97_bug_range, C97_bug_range_tr). With `:complement`, a specification in which a range contains a character that is given again later in the sorted array, as `a-zc`, makes the characters of the range behind it members of the complement (line 187: the loop goes on from `hi` even if that is smaller than the index; C97_bug_complement). A range like `b-a`, backwards by one, is taken for an empty one and not reported (line 121).
