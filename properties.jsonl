{"id": "C01", "title": "tree-map behaves as a finite ordered map", "statement": "After any sequence of tree-map-put!/tree-map-delete!/tree-map-clear!/pop-min!/pop-max! on a <tree-map> whose comparator is a total order, tree-map-get returns exactly the value last put and not since deleted, tree-map-num-entries is the number of live keys, and tree-map->alist lists each live key once in ascending order.", "quantifier": "every total-order comparator, every finite history of operations, every key", "why_tests_cant": "Rebalancing has dozens of shape-dependent cases; the bug-triggering tree shape is history dependent and unbounded.", "anchors": ["src/treemap.c:core_ref", "src/treemap.c:balance_tree", "src/treemap.c:delete_node1", "src/treemap.c:swap_node"]}
{"id": "C02", "title": "tree-map stays balanced", "statement": "After any history of insertions and deletions the red-black invariants checked by tree-map's consistency checker hold, hence lookup depth is at most 2*log2(n+1).", "quantifier": "every history of puts, deletes and pops", "why_tests_cant": "Balance is an invariant of all reachable states; tests only visit some.", "anchors": ["src/treemap.c:balance_tree", "src/treemap.c:delete_node1", "src/treemap.c:Scm_TreeCoreCheckConsistency"]}
{"id": "C03", "title": "tree-map floor/ceiling/predecessor/successor", "statement": "tree-map-floor/ceiling/predecessor/successor, min and max return the entry with the greatest key <= / least key >= / greatest key < / least key > the argument, and #f exactly when none exists.", "quantifier": "every tree state reachable from empty, every probe key", "why_tests_cant": "Needs every tree shape and every gap position between keys.", "anchors": ["src/treemap.c:core_ref (TREE_NEAR)", "src/treemap.c:next_node", "src/treemap.c:prev_node"]}
{"id": "C04", "title": "binary heap is a double-ended priority queue", "statement": "For every history of binary-heap-push!/pop-min!/pop-max!/swap-min!/swap-max!/remove!, the heap's contents equal the abstract multiset; find-min/pop-min! return a least element and find-max/pop-max! a greatest element; push onto a full heap is an error that changes nothing.", "quantifier": "every strict weak order, every history of operations, every capacity", "why_tests_cant": "The min-max heap shape depends on history and the number of elements; errors appear only for particular depth/level parities.", "anchors": ["lib/data/heap.scm:bh-bubble-up", "lib/data/heap.scm:bh-trickle-down", "lib/data/heap.scm:binary-heap-pop-max!", "lib/data/heap.scm:binary-heap-remove!"]}
{"id": "C05", "title": "a copied binary heap is an independent equal heap", "statement": "(binary-heap-copy h) yields a heap that accepts the same operations with the same results as h, and operations on either do not affect the other.", "quantifier": "every heap and every later history on the copy", "why_tests_cant": "Requires all later histories of the copy.", "anchors": ["lib/data/heap.scm:binary-heap-copy"]}
{"id": "C06", "title": "ideque refines an immutable sequence", "statement": "Every ideque operation (add/remove/peek at both ends, take, drop, split, append, reverse, map, filter, span, ref, length, =) returns what the same operation on the list ideque->list gives, the original deque is unaffected, and errors occur exactly on empty/out-of-range arguments.", "quantifier": "every deque reachable by any history of operations, every argument", "why_tests_cant": "Correctness relies on a balance invariant between front and rear chains that depends on history.", "anchors": ["lib/data/ideque.scm:check", "lib/data/ideque.scm:ideque-remove-front", "lib/data/ideque.scm:%ideque-take", "lib/data/ideque.scm:ideque="]}
{"id": "C07", "title": "ideque stays balanced", "statement": "After any history neither chain of the deque exceeds 3 times the other plus 1, so front/back/remove touch at most one element beyond an amortised rebalance and never lose elements when one chain is empty.", "quantifier": "every history", "why_tests_cant": "Invariant of all reachable states.", "anchors": ["lib/data/ideque.scm:check"]}
{"id": "C08", "title": "skew-list is a random-access list", "statement": "skew-list-cons/car/cdr/ref/set/length/fold/map/->list/list-> agree with the ordinary list operations; out-of-range references raise an error or give the fallback.", "quantifier": "every list, every index, every history of cons/cdr/set", "why_tests_cant": "Tree-forest shape depends on the length in skew-binary notation; all lengths must be covered.", "anchors": ["lib/data/skew-list.scm:skew-list-cons", "lib/data/skew-list.scm:skew-list-ref", "lib/data/skew-list.scm:list*->skew-list"]}
{"id": "C09", "title": "skew-list take/drop/split/append agree with lists", "statement": "skew-list-take, -drop, -split-at and -append give the same elements as take/drop/split-at/append on the lists, for every in-range k and every pair of lists; and two skew-lists with equal elements are equal?.", "quantifier": "every skew-list, every 0<=k<=length, every second list", "why_tests_cant": "There are special-case sharing paths for particular k and shapes; tests hit only a few.", "anchors": ["lib/data/skew-list.scm:%skew-list-splitter", "lib/data/skew-list.scm:%skew-list-append2"]}
{"id": "C10", "title": "imap is a persistent ordered map", "statement": "imap-put/imap-delete/imap-get/imap-exists?/imap-min/imap-max/fold behave as a finite ordered map, and no operation changes any previously obtained imap.", "quantifier": "every comparator that is a total order, every history", "why_tests_cant": "All tree shapes.", "anchors": ["lib/data/imap.scm:insert", "lib/data/imap.scm:delete", "lib/data/imap.scm:balance"]}
{"id": "C11", "title": "UTF-8 encode/decode round trip", "statement": "Every character code up to #x10FFFF written to a string and read back is the same character; the number of bytes equals the lead-byte table's length; decoding never reads beyond the declared length; distinct characters have distinct encodings and no encoding is a proper prefix of another.", "quantifier": "every code point; every byte sequence for the rejecting direction", "why_tests_cant": "1.1M code points times arbitrary malformed byte sequences.", "anchors": ["src/gauche/char_utf_8.h", "src/char_utf_8.c", "src/gauche/char_utf_8.h:SCM_CHAR_PUT"]}
{"id": "C12", "title": "character-index and byte-index agree in strings", "statement": "string-length, string-ref, substring and string-append on strings with multibyte characters agree with the same operations on the list of characters.", "quantifier": "every sequence of characters and every pair of indices", "why_tests_cant": "Multi-byte boundaries for all strings.", "anchors": ["src/string.c:forward_pos", "src/string.c:substring", "src/string.c:Scm_StringAppend2"]}
{"id": "C13", "title": "string search finds the first/last occurrence", "statement": "string-scan / string-scan-right return the leftmost (rightmost) index at which the pattern occurs, #f iff it does not occur, for every text and pattern, including the Boyer-Moore fast path.", "quantifier": "every text and every pattern over bytes", "why_tests_cant": "Shift-table bugs only show for particular self-overlapping patterns.", "anchors": ["src/string.c:boyer_moore", "src/string.c:string_search"]}
{"id": "C14", "title": "bignum addition and subtraction are exact", "statement": "(+ a b) and (- a b) over exact integers represented by sign and 64-bit digit vectors give the mathematically exact sum/difference for all sizes and signs, with no digit lost to carry/borrow.", "quantifier": "all pairs of integers of any size", "why_tests_cant": "Carry chains of arbitrary length; infinite domain.", "anchors": ["src/bignum.c:bignum_add_int", "src/bignum.c:bignum_sub_int"]}
{"id": "C15", "title": "bignum multiplication is exact", "statement": "(* a b) over exact integers of any size equals the mathematical product.", "quantifier": "all pairs of integers", "why_tests_cant": "Infinite domain.", "anchors": ["src/bignum.c:bignum_mul", "src/bignum.c:bignum_mul_word"]}
{"id": "C16", "title": "bignum division is exact", "statement": "quotient and remainder of bignums satisfy a = q*b + r, |r| < |b|, sign r = sign a (truncating division) for all sizes; division by zero is an error.", "quantifier": "all pairs of integers with nonzero divisor", "why_tests_cant": "Knuth D's rare add-back correction step occurs with probability about 2/2^32.", "anchors": ["src/bignum.c:bignum_gdiv", "src/bignum.c:bignum_sdiv"]}
{"id": "C17", "title": "exact integers have one representation", "statement": "Every integer-producing operation returns a fixnum when the value fits a fixnum and otherwise a bignum with no leading zero digit, so eqv? and = coincide on exact integers.", "quantifier": "all results of integer arithmetic", "why_tests_cant": "Boundary values at every digit length.", "anchors": ["src/bignum.c:Scm_NormalizeBignum"]}
{"id": "C18", "title": "bitwise operations follow two's complement", "statement": "logand, logior, logxor, lognot and ash on exact integers of any sign and size equal the operations on infinite two's-complement bit strings.", "quantifier": "all integers, all shift amounts, all bit positions", "why_tests_cant": "Borrow propagation through arbitrarily many zero words for negative numbers.", "anchors": ["src/bignum.c:Scm_BignumLogAnd", "src/bignum.c:Scm_BignumAsh"]}
{"id": "C19", "title": "text round trip of exact numbers", "statement": "(string->number (number->string x r) r) = x for every exact integer or rational x and radix 2..36, except x = -18 with r > 18, which prints as -i and is read as the imaginary unit. number->string prints sign, digits without leading zeros, and a fraction in lowest terms; string->number accepts as exact numbers exactly the texts of the documented grammar.", "quantifier": "all exact numbers, all radixes, all texts", "why_tests_cant": "Infinite domain.", "anchors": ["src/number.c:print_number", "src/bignum.c:Scm_BignumToString", "src/number.c:read_uint", "src/number.c:read_real", "src/number.c:read_number"]}
{"id": "C20", "title": "hash table behaves as a finite map", "statement": "For any history of hash-table-put!/delete!/clear!/update!, hash-table-get returns the last value put and not deleted, the entry count is exact and iteration visits each live entry exactly once, regardless of collisions and of when the table is resized.", "quantifier": "every hash function, every equivalence used as key comparison compatible with it, every history", "why_tests_cant": "Collision patterns and resize points.", "anchors": ["src/hash.c:insert_entry", "src/hash.c:general_access", "src/hash.c:delete_entry"]}
{"id": "C21", "title": "sparse vector/table trie behaves as a map", "statement": "sparse-vector-set!/ref/delete!/clear! behave as a finite map from index to value for all 64-bit indices, with exact entry counts.", "quantifier": "every history of operations, every index", "why_tests_cant": "Trie split/merge cases for arbitrary sets of keys.", "anchors": ["ext/sparse/ctrie.c:CompactTrieAdd", "ext/sparse/ctrie.c:CompactTrieDelete"]}
{"id": "C22", "title": "character sets are sets", "statement": "char-set-contains? after any composition of char-set from characters/ranges, char-set-union (add), char-set-complement equals the boolean combination of memberships, for every character.", "quantifier": "every sequence of range additions and every character", "why_tests_cant": "Range merging has many overlap cases.", "anchors": ["src/char.c:Scm_CharSetAddRange", "src/char.c:Scm_CharSetComplement", "src/char.c:Scm_CharSetContains"]}
{"id": "C23", "title": "base64 round trip", "statement": "base64-decode of base64-encode of any byte sequence is that byte sequence, for every line width and for the url-safe alphabet; the encoder's output uses only alphabet characters, padding and newlines.", "quantifier": "every byte sequence, every line width", "why_tests_cant": "Infinite domain; tail-length and line-break positions interact.", "anchors": ["lib/rfc/base64.scm"]}
{"id": "C24", "title": "queue is FIFO", "statement": "For any history of enqueue!/queue-push!/dequeue!/queue-pop! the <queue> delivers elements in order, never loses or duplicates one and reports its length correctly.", "quantifier": "every history", "why_tests_cant": "Head/tail pointer aliasing at the empty/singleton boundary in arbitrary histories.", "anchors": ["ext/data/queue.scm"]}
{"id": "C25", "title": "mtqueue bounded hand-off", "statement": "Under any interleaving of producers and consumers every element enqueued to an <mtqueue> is dequeued at most once, in FIFO order, the queue never holds more than max-length elements, and no wake-up is lost.", "quantifier": "every schedule of threads", "why_tests_cant": "Schedules cannot be enumerated by tests.", "anchors": ["ext/data/queue.scm:enqueue/wait!", "ext/data/queue.scm:dequeue/wait!"]}
{"id": "C26", "title": "sort is a stable sorted permutation", "statement": "sort/stable-sort return a permutation of the input in non-decreasing order; stable-sort keeps the relative order of equivalent elements; merge likewise.", "quantifier": "every list and strict weak order", "why_tests_cant": "All inputs.", "anchors": ["src/compare.c:sort_q", "src/compare.c:sort_h", "lib/gauche/sort.orig.scm"]}
{"id": "C27", "title": "dynamic-wind entry/exit discipline", "statement": "For any program composed of dynamic-wind and first-class continuation jumps, the before/after thunks run along the path from the old to the new dynamic context: afters innermost first up to the common ancestor, then befores outermost first, each exactly once, each in the dynamic context of its own dynamic-wind call.", "quantifier": "every nesting of winds, every pair of source and target contexts", "why_tests_cant": "All control flows.", "anchors": ["src/vm.c:Scm_VMThrowException", "src/vm.c:throw_cont_calculate_handlers", "src/vm.c:Scm_VMDynamicWind"]}
{"id": "C28", "title": "buffered port input is chunk independent", "statement": "The sequence of bytes/chars/lines delivered by read-byte/read-char/peek-char/read-line on a buffered port equals that of the whole underlying byte stream, no matter how the underlying reader chops it into chunks.", "quantifier": "every byte stream and every chunking, every interleaving of the read operations", "why_tests_cant": "Chunk boundary can fall inside any multibyte char or after a CR.", "anchors": ["src/port.c:bufport_read", "src/portapi.c:Scm_Getc", "src/portapi.c:Scm_Peekc"]}
{"id": "C29", "title": "buffered output preserves bytes and order", "statement": "Bytes written to a buffered port are delivered to the sink exactly once in order, whatever the buffering mode, sizes of writes and partial flushes; after flush/close everything has been delivered.", "quantifier": "every sequence of writes and every partial-write behaviour of the sink", "why_tests_cant": "All write-size sequences and short writes.", "anchors": ["src/port.c:bufport_write", "src/port.c:bufport_flush"]}
{"id": "C30", "title": "class precedence list is a C3 linearization", "statement": "The computed class precedence list contains each superclass exactly once, preserves the order of every superclass's own CPL and the local direct-superclass order, and an error is raised exactly when no such order exists.", "quantifier": "every finite acyclic class hierarchy", "why_tests_cant": "All hierarchies.", "anchors": ["src/list.c:Scm_MonotonicMerge", "src/class.c:Scm_ComputeCPL"]}
{"id": "C31", "title": "promise is forced at most to one value", "statement": "force returns the same value every time and from every thread; once fulfilled a promise never changes; chains of delay-force run in constant space and share the result.", "quantifier": "every chain of delay/delay-force and every interleaving of forcing threads", "why_tests_cant": "Reentrancy and thread interleavings.", "anchors": ["src/lazy.c:Scm_VMForce"]}
{"id": "C32", "title": "mutex exclusion", "statement": "mutex-lock!/mutex-unlock! guarantee at most one owner; only blocked or fresh lockers acquire; an abandoned mutex raises exactly once to the next locker; unlock with condition variable releases and waits atomically.", "quantifier": "every interleaving", "why_tests_cant": "Schedules.", "anchors": ["src/mutex.c:Scm_MutexLock", "src/mutex.c:Scm_MutexUnlock"]}
{"id": "C33", "title": "cache eviction policy", "statement": "A <fifo-cache>/<lru-cache> of capacity n never exposes more than n live entries, returns only the latest written value for a key, and evicts the oldest-inserted / least-recently-used key first.", "quantifier": "every history of cache operations", "why_tests_cant": "History-dependent queue/dictionary desynchronisation.", "anchors": ["lib/data/cache.scm"]}
{"id": "C34", "title": "rational arithmetic is exact and canonical", "statement": "+,-,*,/ on exact rationals yield the exact value in lowest terms with positive denominator, integers when the denominator is 1.", "quantifier": "all pairs of rationals", "why_tests_cant": "Infinite domain.", "anchors": ["src/number.c:Scm_MakeRational", "src/number.c:Scm_ReduceRational", "src/number.c:Scm_RatnumAddSub"]}
{"id": "C35", "title": "integer division families", "statement": "floor/, truncate/, ceiling/, round/, euclidean/ and exact-integer-sqrt satisfy their defining equations and remainder ranges for all integer arguments.", "quantifier": "all integers with nonzero divisor", "why_tests_cant": "Infinite domain; sign and tie cases.", "anchors": ["lib/gauche/numutil.scm", "src/number.c:Scm_Quotient"]}
{"id": "C36", "title": "list primitives on arbitrary lists", "statement": "length/list? terminate and classify proper, dotted and circular lists correctly; reverse, append, list-tail, memq/assq, delete, delete-duplicates match their specifications.", "quantifier": "every finite cons graph", "why_tests_cant": "Circular structures of every shape.", "anchors": ["src/list.c:Scm_Length", "src/list.c:Scm_Reverse2", "src/list.c:Scm_Append2", "src/list.c:Scm_Delete"]}
{"id": "C37", "title": "regexp matching agrees with its mathematical semantics", "statement": "rxmatch reports a match iff some substring belongs to the language denoted by the regexp, it picks the leftmost start, and reported spans really match.", "quantifier": "every regexp in the modelled syntax and every string", "why_tests_cant": "All patterns and inputs; backtracking paths.", "anchors": ["src/regexp.c:rc3_rec", "src/regexp.c:rex_rec"]}
{"id": "C38", "title": "ring buffer refines a deque", "statement": "A <ring-buffer> delivers elements added at front/back in deque order, grows or errors or overwrites per its overflow handler, never losing elements otherwise.", "quantifier": "every history and capacity", "why_tests_cant": "Wrap-around arithmetic.", "anchors": ["libsrc/data/ring-buffer.scm"]}
{"id": "C39", "title": "topological sort", "statement": "topological-sort returns every node exactly once with each node before its successors, and raises an error iff the graph has a cycle.", "quantifier": "every finite graph given as an adjacency list with one entry per node (successors may repeat)", "why_tests_cant": "All graphs.", "anchors": ["lib/util/toposort.scm:topological-sort", "lib/srfi/234.scm:topological-sort-impl/details"]}
{"id": "C40", "title": "longest common subsequence", "statement": "lcs returns a common subsequence of maximal length of its two arguments.", "quantifier": "every pair of sequences", "why_tests_cant": "Optimality over all subsequences.", "anchors": ["lib/util/lcs.scm"]}
{"id": "C41", "title": "imap lookups take logarithmic depth", "statement": "After any history of imap-put and imap-delete, an imap with n entries finds any key within 2*log2(n+1) comparisons.", "quantifier": "all histories of imap-put/imap-delete, all key types with a total order", "why_tests_cant": "The balance must hold after every history; tests sample a few insertion orders.", "anchors": ["lib/data/imap.scm: balance, insert, delete"]}
{"id": "C42", "title": "binary-heap-check accepts every heap the API builds", "statement": "(binary-heap-check h) succeeds for every heap obtained by the binary-heap API.", "quantifier": "all histories of heap operations, all element types and comparators", "why_tests_cant": "The checker's verdict must agree with the real invariant on every reachable heap.", "anchors": ["lib/data/heap.scm: binary-heap-check"]}
{"id": "C43", "title": "string comparison is code point order", "statement": "string=? holds exactly for strings with the same characters; string<? and friends order strings lexicographically by character code; neither depends on storage sharing or an index.", "quantifier": "every two strings, however they were made", "why_tests_cant": "The code compares raw bytes; that this is the code point order is a property of all encodings of all lengths.", "anchors": ["src/string.c:Scm_StringCmp", "src/string.c:Scm_StringEqual"]}
{"id": "C44", "title": "string-join and string-split", "statement": "string-join in each grammar concatenates the strings with the delimiter between/after/before each (error for strict-infix of none); string-split by a character returns pieces which joined by the character give back the string, no piece but possibly the last contains the character, and the number of splits is the number of occurrences or the limit.", "quantifier": "every list of strings, delimiter, character and limit", "why_tests_cant": "All lists and all lengths.", "anchors": ["src/string.c:Scm_StringJoin", "src/string.c:Scm_StringSplitByCharWithLimit"]}
{"id": "C45", "title": "comparison of exact integers", "statement": "=, <, >, zero?, negative?, odd? on exact integers of any representation decide the order, sign and parity of the integers.", "quantifier": "all pairs of exact integers", "why_tests_cant": "Infinite domain; the comparison walks digit vectors of any length and sign.", "anchors": ["src/number.c:Scm_NumCmp", "src/bignum.c:Scm_BignumCmp"]}
{"id": "C46", "title": "gcd and lcm", "statement": "(gcd x y) is a nonnegative common divisor that every common divisor divides; (lcm x y) is a nonnegative common multiple that divides every common multiple; for all signs and sizes.", "quantifier": "all pairs of exact integers", "why_tests_cant": "Infinite domain; four code paths by operand size.", "anchors": ["src/number.c:Scm_Gcd", "src/libnum.scm:gcd"]}
{"id": "C47", "title": "exact integer powers", "statement": "(expt x y) for exact integers with y >= 0 is x multiplied with itself y times.", "quantifier": "all exact integers x and nonnegative y", "why_tests_cant": "Infinite domain; special cases for bases 1, -1, 2, 10.", "anchors": ["src/number.c:Scm_ExactIntegerExpt"]}
{"id": "C48", "title": "exact rationals are totally ordered by value", "statement": "=, <, > on exact rationals (any mix of fixnums, bignums and ratnums) agree with the order of the rational numbers.", "quantifier": "all pairs of exact rationals of any size", "why_tests_cant": "unbounded numerators and denominators; shortcut branches depend on sign and size combinations and on floating-point coincidences", "anchors": ["src/number.c:Scm_NumCmp"]}
{"id": "C49", "title": "exact rational powers", "statement": "(expt x n) for an exact rational x and exact integer n is the exact canonical value x^n; a negative power of 0 is an error.", "quantifier": "all exact rationals x, all exact integers n in the fixnum range", "why_tests_cant": "unbounded base and exponent", "anchors": ["src/number.c:Scm_ExactIntegerExpt", "src/number.c:reciprocal"]}
{"id": "C50", "title": "rounding exact rationals", "statement": "floor, ceiling, truncate and round of an exact rational return the mathematically defined integer; round breaks ties to even.", "quantifier": "all exact rationals", "why_tests_cant": "unbounded numerators and denominators; tie cases", "anchors": ["src/number.c:scm_round"]}
{"id": "C51", "title": "modular exponentiation and inverse", "statement": "(expt-mod n e m) equals (modulo (expt n e) m); (inverse-mod q m) returns an x with q*x = 1 mod m in the range of modulo, and #f exactly when there is none.", "quantifier": "all integers n, q, m and exponents e >= 0 of any size", "why_tests_cant": "unbounded integers; the number of loop rounds grows with the exponent", "anchors": ["lib/gauche/numutil.scm:expt-mod", "lib/gauche/numutil.scm:inverse-mod"]}
{"id": "C52", "title": "rationalize returns the simplest rational", "statement": "(rationalize x e) and (real->rational x dx+ dx-) return the rational within the given bounds that has the smallest numerator and denominator; a continued fraction has the number as its value.", "quantifier": "all exact rationals and bounds", "why_tests_cant": "minimality quantifies over every rational in the interval, and the interval over all of Q", "anchors": ["lib/gauche/numutil.scm:real->rational", "lib/gauche/numutil.scm:continued-fraction", "src/libnum.scm:rationalize"]}
{"id": "C53", "title": "the sequence of primes and primality tests", "statement": "(primes) is exactly the ascending sequence of all primes; a primality test never rejects a prime, whatever random bases are drawn.", "quantifier": "all numbers, any number of generated segments, any random bases", "why_tests_cant": "the sequence is infinite and the random bases range over all values", "anchors": ["lib/math/prime.scm:segment-sieve!", "lib/math/prime.scm:primes", "lib/math/prime.scm:miller-rabin-test", "lib/math/prime.scm:small-prime?"]}
{"id": "C54", "title": "factorization, Jacobi symbol and totients", "statement": "(naive-factorize n) returns the prime factors of n in ascending order, whatever was factorized before; (jacobi a n) is the Jacobi symbol; (totient n) and (reduced-totient n) are Euler's and Carmichael's functions.", "quantifier": "all integers and all histories of the memo table", "why_tests_cant": "unbounded integers; the memo table makes the answer depend on the history", "anchors": ["lib/math/prime.scm:naive-factorize", "lib/math/prime.scm:jacobi", "lib/math/prime.scm:totient", "lib/math/prime.scm:reduced-totient"]}
{"id": "C55", "title": "hash table iteration", "statement": "hash-table->alist, hash-table-keys, hash-table-values, hash-table-fold and hash-table-seek deliver every binding of the table exactly once, in one common order, after any history of operations; hash-table-pop! (R7RS form) removes and returns one existing binding.", "quantifier": "every history of operations on any number of tables, every hash function and compatible equality, every callback", "why_tests_cant": "The visiting order depends on the collision pattern and the points of resizing in the history.", "anchors": ["src/hash.c:Scm_HashIterInit", "src/hash.c:Scm_HashIterNext", "src/libhash.scm:hash-table-fold"]}
{"id": "C56", "title": "hash-table-update! is atomic with respect to its procedure", "statement": "hash-table-update! binds the key to the result of the procedure whatever the procedure does to the table meanwhile, and leaves the table as it was when the procedure raises or the table is full.", "quantifier": "every table, key, fallback and every procedure, including ones that raise or modify the table", "why_tests_cant": "Ranges over arbitrary re-entrant procedures and over tables of the maximal size.", "anchors": ["src/libhash.scm:hash-table-update!", "src/libhash.scm:hash-table-update-cc", "src/hash.c:insert_entry"]}
{"id": "C57", "title": "base32 and base16 round trip", "statement": "base32-decode/base32hex-decode/base16-decode of the corresponding encoder's output give the original bytes for every byte sequence, line width and padding mode; the encoders write the RFC 4648 text; the decoders terminate on every text, ignore non-digits when not strict and report them when strict.", "quantifier": "every byte sequence, line width, padding and strictness option, every text given to a decoder", "why_tests_cant": "Unbounded inputs; the positions of line breaks relative to digit groups vary with the width.", "anchors": ["lib/rfc/base64.scm:%base32-decode", "lib/rfc/base64.scm:%base32-encode", "lib/rfc/base64.scm:base16-decode", "lib/rfc/base64.scm:base16-encode"]}
{"id": "C58", "title": "char-set equality, inclusion, ranges and size are extensional", "statement": "For any two char-sets built by any sequence of operations, mutable or frozen, char-set=? holds exactly when they have the same members, char-set<=? exactly when the first is included in the second; char-set-ranges lists disjoint non-adjacent increasing ranges whose union is the set, and char-set-size is the number of members.", "quantifier": "every pair of char-sets produced by any program", "why_tests_cant": "Equality compares representations (bitmap, tree, flat vector), so it is right only if representations are canonical after every history.", "anchors": ["src/char.c:Scm_CharSetEq", "src/char.c:Scm_CharSetLE", "src/char.c:Scm_CharSetRanges", "src/libchar.scm:char-set-size"]}
{"id": "C59", "title": "vector binary search", "statement": "binary search of a sorted uniform vector of fixed-size records finds the record with the key if there is one, and otherwise reports the index of the last record below the key and the first above it (or none), without reading outside the vector, and terminates.", "quantifier": "every sorted vector, record size and key", "why_tests_cant": "All lengths and positions; the midpoint updates have boundary cases.", "anchors": ["src/libvec.scm:%binary-search"]}
{"id": "C61", "title": "char-sets survive write and read", "statement": "Reading the text that write prints for a char-set gives a char-set with the same members, and leaves the input just after the closing bracket.", "quantifier": "every char-set produced by any program, every classification of characters as printable, every following text", "why_tests_cant": "All sets; the run-length and escaping cases combine (the rule fails for runs of one particular length only).", "anchors": ["src/char.c:charset_print", "src/char.c:Scm_CharSetRead", "src/read.c:Scm_ReadXdigitsFromPort", "src/read.c:read_charset"]}
{"id": "C60", "title": "case folding of char-sets", "statement": "Folding a char-set (the flag i of a regexp, %char-set-case-fold!) leaves a set that contains its members and both cases of each of them, and nothing that case mappings do not reach from its members.", "quantifier": "every mutable char-set and every pair of case mappings", "why_tests_cant": "The loop inserts into, and deletes from, the tree it is iterating over; the outcome depends on which ranges merge.", "anchors": ["src/char.c:Scm_CharSetCaseFold", "src/treemap.c:Scm_TreeIterNext", "src/regexp.c:rc_casefold"]}
{"id": "C62", "title": "A lazy pair is forced once, and all threads see the same pair", "statement": "When any number of threads look at a lazy pair (pair?, car, cdr, ...), its generator is run to its end at most once, every one of them that gets a pair gets the same car and cdr, and that pair never changes by itself afterwards. A generator that looks at its own pair gets an error instead of waiting for itself. If the generator fails, the pair stays lazy and can be forced again, and every call that returns has found a pair.", "quantifier": "every schedule of any number of threads, every number of failing runs of the generator, every generator result", "why_tests_cant": "The windows between the atomic steps are a few instructions wide and depend on the scheduler; a test sees a handful of the schedules.", "anchors": ["src/lazy.c:Scm_ForceLazyPair", "src/lazy.c:Scm_PairP", "src/lazy.c:make_lazy_pair"]}
{"id": "C63", "title": "Flonums survive being written and read", "statement": "number->string of any flonum gives a text that string->number reads back as the same flonum (0.0 and -0.0 are told apart, NaN is read as NaN), and that any correctly rounding reader reads as the same number.", "quantifier": "all flonums, with and without an explicit plus sign, strict and lax reader", "why_tests_cant": "There are 2^64 doubles, and the digit generation fails, where it fails, on isolated values such as powers of two at the ends of the exponent range.", "anchors": ["src/number.c: print_double", "src/number.c: read_real", "src/number.c: algorithmR"]}
{"id": "C64", "title": "Decimal numbers are read as the nearest flonum", "statement": "string->number of a decimal number with a point or an exponent gives the flonum that is nearest to the number denoted, ties to even, and terminates.", "quantifier": "all decimal texts, with any number of digits", "why_tests_cant": "The digits are unbounded and the hard cases are arbitrarily close to the middle between two flonums.", "anchors": ["src/number.c: read_real", "src/number.c: raise_pow10", "src/number.c: algorithmR", "src/number.c: read_exponent"]}
{"id": "C65", "title": "Exact numbers are converted to the nearest flonum", "statement": "inexact applied to an exact integer or ratio gives the nearest flonum, ties to even; an infinity only if the number is out of range.", "quantifier": "all exact integers and ratios of any size", "why_tests_cant": "Numerator and denominator are unbounded, and double rounding shows only for values next to a midpoint.", "anchors": ["src/bignum.c: Scm_BignumToDouble", "src/number.c: Scm_GetDouble", "src/number.c: double_precision"]}
{"id": "C66", "title": "exact and inexact are inverse on flonums", "statement": "(exact x) of a finite flonum is an exact number for which x is the nearest flonum, and (inexact (exact x)) is x.", "quantifier": "all finite flonums", "why_tests_cant": "There are 2^64 doubles; the rational is found by a continued fraction search whose end cases depend on the neighbours of the flonum.", "anchors": ["src/number.c: Scm_Exact", "lib/gauche/numutil.scm: real->rational", "src/number.c: Scm_GetDouble"]}
{"id": "C67", "title": "Real numbers of different representations are totally ordered", "statement": "Comparing two real numbers, exact or inexact, agrees with the order of their exact values (an infinity is beyond all others), so that <, =, > exclude each other and are transitive.", "quantifier": "all pairs and triples of fixnums, bignums, ratnums and flonums other than NaN", "why_tests_cant": "The code compares through doubles first; errors show only for exact numbers that round to the same flonum, a vanishing fraction of an infinite domain.", "anchors": ["src/number.c: Scm_NumCmp", "src/number.c: Scm_Exact", "src/number.c: double_precision"]}
{"id": "C68", "title": "What write writes, read reads back", "statement": "Writing a datum and reading the text gives an equal datum and consumes exactly that text, so that different data have different texts.", "quantifier": "all data made of lists, vectors, quoting forms, labels, booleans, characters, strings, symbols, exact and inexact real numbers, of any size and depth, and all following texts", "why_tests_cant": "Data are unbounded trees over unbounded strings and numbers; whether a symbol has to be written with bars depends on the character tables of two different files.", "anchors": ["src/write.c: write_rec", "src/write.c: Scm__WritePrimitive", "src/read.c: read_internal", "src/read.c: read_list_int", "src/symbol.c: escape_required_p", "src/read.c: char_word_constituent"]}
{"id": "C69", "title": "Strings, characters and symbols between bars survive write and read", "statement": "Every string and every character is written as a text that is read back as the same string or character; every name written between bars is read as the symbol of that name.", "quantifier": "all strings, all characters, all names, all character tables", "why_tests_cant": "Strings are unbounded, and the escapes of the writer and the reader are written independently.", "anchors": ["src/string.c: string_putc", "src/read.c: read_string", "src/write.c: write_char", "src/read.c: read_char", "src/symbol.c: Scm_WriteSymbolName", "src/read.c: read_escaped_symbol"]}
{"id": "C70", "title": "Shared and circular data survive write and read", "statement": "write of any data, circular in any way, comes to an end, and reading its text gives a copy: the same as the original to every depth, and without any sharing that the original does not have.", "quantifier": "all finite graphs of pairs, vectors and strings with any sharing and cycles, write and write-shared, all following texts", "why_tests_cant": "Graphs are unbounded and so are the ways in which cycles interleave; labels are decided by a walk, placed by an explicit stack machine, and resolved by back-patching.", "anchors": ["src/libio.scm: %write-walk-rec", "src/write.c: write_rec", "src/write.c: write_ss", "src/read.c: read_num_prefixed", "src/read.c: read_context_flush", "src/read.c: read_list"]}
{"id": "C71", "title": "write-shared and read preserve identity", "statement": "After write-shared and read, two places of the copy hold the same object exactly if the two places of the original do (except for empty strings and vectors).", "quantifier": "all finite graphs of pairs, vectors and strings with any sharing and cycles", "why_tests_cant": "It relates the number of references counted by the walk to all objects that the writer will meet later, for unbounded graphs.", "anchors": ["src/libio.scm: %write-walk-rec", "src/write.c: write_rec", "src/read.c: read_context_flush"]}
{"id": "C72", "title": "syntax-rules uses the first rule that matches", "statement": "A use of a syntax-rules macro is expanded with the first rule whose pattern matches the use in the sense of R7RS (ellipses at any depth, followed by more elements, in vectors and dotted lists, literals, underscore), as if it were the only rule; it is an error exactly when no pattern matches.", "quantifier": "all macros that the definition accepts, all uses, all ellipsis identifiers and sets of literals, with and without matching the head", "why_tests_cant": "Patterns nest without bound, and the matcher counts elements before each ellipsis and collects matches into trees by reversal; R7RS defines matching declaratively.", "anchors": ["src/macro.c: match_synrule", "src/macro.c: match_subpattern", "src/macro.c: compile_rule1", "src/macro.c: synrule_expand"]}
{"id": "C73", "title": "syntax-rules expansion is the instantiated template", "statement": "The expansion is the template of the chosen rule with each pattern variable replaced by what it matched, ellipses replaced by all the repetitions (also x ... ... and (... ...)), and each inserted identifier renamed to a new one, the same one for the same identifier and different ones for different identifiers.", "quantifier": "all macros that the definition accepts, all uses for which R7RS defines the expansion", "why_tests_cant": "Templates nest without bound; the expander iterates with an array of indices into trees of matches until one of them ends.", "anchors": ["src/macro.c: realize_template_rec", "src/macro.c: realize_template", "src/macro.c: get_pvref_value", "src/macro.c: compile_rule1", "src/macro.c: add_pvar"]}
{"id": "C74", "title": "syntax-rules expansion ends and stays within its memory", "statement": "Expanding a use of a macro comes to an end, with an expansion or with an error that no rule matches, and never touches memory outside of its array of indices.", "quantifier": "all macros that the definition accepts, all uses", "why_tests_cant": "An unbounded loop is only ended by a variable that runs out of matches; nesting depth is unbounded.", "anchors": ["src/macro.c: realize_template_rec", "src/macro.c: realize_template", "src/macro.c: compile_rule1"]}
{"id": "C75", "title": "Compiled code computes the value of the program", "statement": "When a program (constants, local and global variables, set!, if, let, letrec, lambda with rest parameters, sequences, calls, inlined operations) has a value and a final state of the global variables under the usual semantics, with operands evaluated from left to right before the operator, then the code that the compiler's last pass generates for it, run on the virtual machine, ends with that value and that state, and has no other result.", "quantifier": "all programs, all nestings and contexts, all built-in procedures, all initial global variables", "why_tests_cant": "The code for a form depends on its context (tail, statement, bottom of the stack), on which variables are assigned anywhere, and on the shape of its subforms; programs nest and recur without bound.", "anchors": ["src/compile-5.scm: pass5/rec", "src/compile-5.scm: pass5/$LET", "src/compile-5.scm: pass5/$CALL", "src/compile-5.scm: pass5/if-final", "src/vminsn.scm: LOCAL-ENV-CLOSURES", "src/vm.c: POP_CONT", "src/vmcall.c: ADJUST_ARGUMENT_FRAME"]}
{"id": "C76", "title": "A procedure stays within the stack that was checked for it", "statement": "While a compiled procedure runs, the stack never grows beyond what was checked to be available when the procedure was entered, so the unchecked pushes do not leave the stack area.", "quantifier": "all programs, all points of their execution", "why_tests_cant": "The compiler computes the bound by recursion over the form, the machine uses the stack along an execution; programs nest without bound.", "anchors": ["src/compile-5.scm: pass5/prepare-args", "src/compile-5.scm: pass5/$SEQ", "src/vminsn.scm: POP-LOCAL-ENV", "src/vm.c: CHECK_STACK"]}
{"id": "C77", "title": "A generic function calls its methods in the order of specificity", "statement": "After any sequence of method definitions, redefinitions and deletions, a call of a generic function (direct or by apply) runs the most specific of the methods that are applicable to the arguments, each next-method call runs the next one in the order of specificity (first by the class precedence lists of the arguments from left to right, then by more required arguments, then by having no optional arguments), and when there is none left the 'no applicable method' fallback is called; the order of definition has no influence.", "quantifier": "all class hierarchies, all histories of add-method! and delete-method!, all argument lists, all numbers of next-method calls", "why_tests_cant": "The outcome depends on the whole set of methods, the precedence lists of all argument classes and the order of definition; the sort is an unstable in-place sort that is right only if the comparison is a strict total order on the applicable methods.", "anchors": ["src/class.c: Scm_ComputeApplicableMethods", "src/class.c: Scm_MethodApplicableForClasses", "src/class.c: method_more_specific", "src/class.c: Scm_SortMethods", "src/class.c: Scm_AddMethod", "src/class.c: Scm_DeleteMethod", "src/vmcall.c: DO_METHOD_CALL"]}
{"id": "C78", "title": "The method dispatch accelerator does not change what a call does", "statement": "When the accelerator of a generic function has been built (as it is for ref and object-apply), a call runs the same methods as it would run without it, whatever methods are defined, redefined and deleted before and after.", "quantifier": "all hash functions (addresses of classes), class hierarchies, histories, axes and argument lists", "why_tests_cant": "The accelerator is an open-addressing hash table keyed by addresses of classes, updated by every method definition; which slots collide differs from run to run.", "anchors": ["src/dispatch.c: mhash_probe", "src/dispatch.c: mhash_insert", "src/dispatch.c: mhash_delete", "src/dispatch.c: add_method_to_dispatcher", "src/dispatch.c: Scm__BuildMethodDispatcher", "src/class.c: Scm_ComputeApplicableMethods", "src/libomega.scm: generic-build-dispatcher!"]}
{"id": "C79", "title": "Range operations on packed bit arrays touch exactly the bits of the range", "statement": "For every array and every range inside it, filling, copying, combining, comparing, counting and searching a range of bits reads and writes exactly the bits of that range and no memory outside the array, and gives the result computed bit by bit.", "quantifier": "all arrays of words, all start and end positions inside them, all sixteen connectives, source and target equal or different", "why_tests_cant": "the word and mask cases depend on the residues of start and end modulo 64 and on the contents of every word; the tests only use a few positions, almost all starting at zero", "anchors": ["src/bits.c:Scm_BitsFill", "src/bits.c:Scm_BitsCopyX", "src/bits.c:Scm_BitsOperate", "src/bits.c:Scm_BitsEqual", "src/bits.c:Scm_BitsAny", "src/bits.c:Scm_BitsCount1", "src/bits.c:Scm_BitsLowest1", "src/bits.c:Scm_BitsHighest1", "src/gauche/bits_inline.h:Scm__CountBitsInWord", "src/gauche/bits.h:SCM_BITS_MASK"]}
{"id": "C80", "title": "Bitvectors behave as lists of booleans", "statement": "Every bitvector operation (construction, text conversion in both directions, reference, assignment, copying, bitwise connectives, counting, runs, first and last bit, logical shift, rotation, field operations, equality) gives the result of the corresponding operation on the list of its bits, signals an error for indices out of range, and never changes a literal bitvector.", "quantifier": "all bitvectors of all sizes, all index arguments, all shift and rotate counts", "why_tests_cant": "the bits are packed in words and equality compares whole words, so stray bits after the end would make equal vectors unequal after some history of operations; tests sample a few short vectors", "anchors": ["src/vector.c:Scm_MakeBitvector", "src/vector.c:Scm_StringToBitvector", "src/vector.c:Scm_BitvectorCopyX", "src/vector.c:bitvector_compare", "ext/gauche/bitvector.scm:bitvector-logical-shift", "ext/gauche/bitvector.scm:bitvector-field-rotate", "ext/gauche/bitvector.scm:%bv-op", "src/libvec.scm:bitvector-any-value?"]}
{"id": "C81", "title": "equal? decides whether two data unfold to the same tree and always terminates", "statement": "For any two data built from pairs, vectors, strings, symbols and numbers, with any sharing and any cycles, (equal? x y) returns, and it returns #t exactly when the (possibly infinite) trees that x and y unfold to are the same, whatever the random number generator returns.", "quantifier": "all finite heaps of pairs and vectors with arbitrary sharing and cycles, all pairs of values, all sequences of random numbers", "why_tests_cant": "The graphs are unbounded, the algorithm switches between a fast and a table-driven mode after hundreds of steps with random restarts, and correctness of the table needs a bisimulation argument over all merges.", "anchors": ["src/boolean.c: Scm_EqualP, Scm_EqvP", "src/libbool.scm: %interleave-equal?, %interleave?, %union-find"]}
{"id": "C82", "title": "Equal data have equal hash values, and portable hash values do not depend on the platform", "statement": "If (equal? x y) then default-hash and portable-hash give the same value for x and y, and if (eqv? x y) then eqv-hash does; portable-hash and combine-hash-value give the same number on 32-bit and 64-bit platforms for the same data and salt.", "quantifier": "all finite data built from exact integers of any size, ratnums, flonums, complex numbers, characters, strings, symbols, pairs, vectors and uniform vectors; all salts; both word sizes", "why_tests_cant": "The domain of data is unbounded, one test run has only one word size, and a violation shows only as a lookup that misses.", "anchors": ["src/hash.c: equal_hash_common, number_hash, flonum_hash, internal_uvector_hash, Scm_PortableHash, Scm_DefaultHash, Scm_EqvHash, Scm_CombineHashValue", "src/boolean.c: Scm_EqvP", "src/number.c: Scm_NumEq, Scm_DecodeFlonum", "src/vector.c: DEF_CMP"]}
{"id": "C83", "title": "CSV rows written are CSV rows read", "statement": "Rows of arbitrary strings written with a csv writer are read back by a csv reader with the same separator and quote character, field by field, and after them the reader sees the end of file; text without quotes is cut at the separators and every piece is trimmed; every row read consumes input.", "quantifier": "all lists of rows of all strings, all separators and quote characters, trim sets and newline strings that meet the stated conditions, all inputs", "why_tests_cant": "The fields, the separators and the quoting characters they contain range over all strings; a round trip can break on one combination of quotes, white space and newlines.", "anchors": ["lib/text/csv.scm: make-csv-reader, csv-reader, make-csv-writer", "src/librx.scm: %regexp-parse-subpattern, %regexp-replace-rec"]}
{"id": "C84", "title": "Message digests do not depend on how the data are cut into pieces", "statement": "Feeding a message to a digest object in any pieces gives the digest of the concatenation: the compression function is applied to the blocks of the padded message (a byte 128, zeros, the length in bits), for SHA-1, SHA-2 and MD5.", "quantifier": "all lists of byte strings of any lengths (below 2^32 each for MD5), all compression functions and initial states", "why_tests_cant": "The buffering depends on the residues of all prefix lengths modulo the block size, and the counters carry only after 2^29 or 2^61 bytes.", "anchors": ["ext/digest/sha2.c: SHA1_Update, SHA256_Update, SHA512_Update, SHA256_Internal_Last, SHA512_Internal_Last, ADDINC128", "ext/digest/md5c.c: MD5_Update, MD5_Final"]}
{"id": "C85", "title": "util.combinations enumerates everything exactly once, in order", "statement": "permutations, combinations, power-set and cartesian-product list every permutation, every sublist of the given length, every sublist, and every choice of one element per list, each exactly once (counting positions) and in lexicographic order of positions; the starred forms list every arrangement that differs by the given equality and none twice; every -for-each form calls its procedure on the same lists in the same order (for the permutations of a list that is not empty).", "quantifier": "all lists, all sizes, all equivalence relations given as eq, all procedures", "why_tests_cant": "The number of cases grows factorially and the code has hand-unrolled cases up to four elements, so that testing small lists does not reach the general code and large lists cannot be tested.", "anchors": ["lib/util/combinations.scm: permutations, permutations*, permutations-for-each, permutations*-for-each, combinations, combinations*, combinations-for-each, combinations*-for-each, power-set, power-set*, power-set-binary, cartesian-product, cartesian-product-right"]}
{"id": "C86", "title": "Edit distances are the least cost of turning one sequence into the other", "statement": "l-distance is the least number of insertions, deletions and substitutions, anywhere and in any order, that turn one sequence into the other; re-distance the least cost of an alignment that may also exchange adjacent elements; with a cutoff, #f exactly when the distance exceeds it; and l-distances/re-distances give the same as the single calls.", "quantifier": "all pairs and lists of sequences, all comparison procedures, all cutoffs", "why_tests_cant": "The minimum ranges over all edit sequences, and the early exit by the cutoff has to be right for every row.", "anchors": ["lib/util/levenshtein.scm: l-base, l-distance, l-distances, re-base, re-distance, re-distances"]}
{"id": "C87", "title": "calculate-dominators gives the immediate dominators", "statement": "For a graph, calculate-dominators gives for every node reachable from the start its immediate dominator: the last node other than it that is on every path from the start to it; it ends without error.", "quantifier": "all finite graphs, all orders of the upstream and downstream nodes", "why_tests_cant": "Dominance quantifies over all paths of a graph, and the result depends on the order in which the edges are listed.", "anchors": ["lib/util/dominator.scm: calculate-dominators"]}
{"id": "C88", "title": "Quoted-printable encoding round trip and line width", "statement": "Decoding the quoted-printable encoding of a byte string gives it back (in text mode, with its line breaks as CR LF), for every line width; the encoding has only printing ASCII characters and line breaks, and no line longer than the line width.", "quantifier": "all byte strings, all line widths, both modes", "why_tests_cant": "Where lines are broken depends on the position of every byte and the width.", "anchors": ["lib/rfc/quoted-printable.scm: quoted-printable-encode, quoted-printable-decode"]}
{"id": "C89", "title": "Percent encoding and query strings round trip", "statement": "uri-decode-string of uri-encode-string gives the string back, for every set of unescaped characters without % (and + with cgi-decode); uri-decompose-query of uri-compose-query gives the parameters back; decoding never fails.", "quantifier": "all byte strings, all sets of unescaped characters, all lists of parameters", "why_tests_cant": "Any byte may be a delimiter of one of the levels, and must be escaped wherever it occurs.", "anchors": ["lib/rfc/uri.scm: uri-encode, uri-decode, uri-compose-query, uri-decompose-query", "src/libstr.scm: string-split"]}
{"id": "C90", "title": "Unification decides unifiability and gives a most general unifier", "statement": "unify returns a dictionary exactly when some assignment of trees to variables makes the two trees the same, and then the assignments that do are exactly those that respect the dictionary; unify-merge returns the common tree under a most general such assignment. Both always return.", "quantifier": "all pairs of trees", "why_tests_cant": "Unifiability is a statement about all assignments, and the substitution is built from chains of bindings made in any order.", "anchors": ["lib/util/unification.scm: unify, unify-merge"]}
{"id": "C91", "title": "Relative URI resolution follows RFC 3986", "statement": "The result of uri-merge is the URI that RFC 3986 section 5.2 prescribes for the reference relative to the base, with all . and .. segments resolved; with more references, each is resolved relative to the result for those before.", "quantifier": "all bases, all references, all numbers of references", "why_tests_cant": "Which components are taken from the base depends on which ones are there, and the dot segments may come in any number and order.", "anchors": ["lib/rfc/uri.scm: uri-merge, uri-scheme&specific, uri-decompose-hierarchical"]}
{"id": "C92", "title": "Names are looked up in the module, then in its imports, then in its parents; import options select and rename exactly", "statement": "A global name refers to the binding defined in the current module if there is one, else to the one exported by the module imported last that exports it, else to that of the first parent that has it. An import with :only, :except, :rename and :prefix options makes exactly the names visible that result from applying the options one after the other to the exported names, and a name not exported stays invisible. The search always ends.", "quantifier": "all sets of modules with all imports and exports, all lists of options, all names", "why_tests_cant": "The modules form an arbitrary graph, and options may be given in any number and order.", "anchors": ["src/module.c: search_binding, Scm_FindBinding, Scm_ImportModule, Scm__MakeWrapperModule, Scm_AliasBinding, Scm_HideBinding", "src/compile-1.scm: process-import", "src/symbol.c: Scm_SymbolSansPrefix"]}
{"id": "C93", "title": "compare is a total order", "statement": "(compare x y) is 0 exactly for the same data, changes its sign when the arguments are exchanged, and is transitive, so that any list of data can be sorted. Types come in the order of SRFI 114; lists are in lexicographic order, vectors are ordered by length and then lexicographically.", "quantifier": "all data of the ordered types, nested in any way", "why_tests_cant": "Transitivity is about all triples of data of any size and of any mix of types.", "anchors": ["src/compare.c: Scm_Compare", "src/vector.c: vector_compare", "src/symbol.c: symbol_compare", "src/string.c: Scm_StringCmp"]}
{"id": "C94", "title": "A trie is a map whose prefix operations agree with it", "statement": "After any history of trie-put!, trie-update! and trie-delete!, trie-get, trie-exists? and trie-num-entries give what a map from keys does, where keys of different classes with the same elements are different. trie-common-prefix gives every key that begins with the prefix exactly once with its value, trie-longest-match the longest key that is a prefix of its argument, and trie-partial-key? is #t for the proper prefixes of keys.", "quantifier": "all histories of changes, keys of any length and class, and prefixes", "why_tests_cant": "The properties are about all histories, and nodes are left behind by deletions whose effect shows only in later calls.", "anchors": ["libsrc/data/trie.scm: trie-put!, trie-update!, trie-delete!, trie-get, trie-longest-match, trie-partial-key?, %trie-node-fold"]}
{"id": "C95", "title": "A gap buffer is a text with a position", "statement": "After any history of gap-buffer-move!, gap-buffer-insert!, gap-buffer-delete!, gap-buffer-replace!, gap-buffer-clear! and gap-buffer-edit!, with errors in between, a gap buffer has the characters and the position that a plain text with a position has, whatever its capacity; gap-buffer-ref, gap-buffer->string, gap-buffer-contains and gap-buffer-looking-at? answer as for that text; and the command that gap-buffer-edit! returns undoes the edit.", "quantifier": "all initial strings, capacities, positions and histories of calls", "why_tests_cant": "The position of the gap and the free space depend on the whole history, and every call has to be right for every position of the gap.", "anchors": ["libsrc/text/gap-buffer.scm: gap-buffer-move!, gap-buffer-insert!, %gap-buffer-extend!, gap-buffer-delete!, gap-buffer-edit!, gap-buffer-contains"]}
{"id": "C96", "title": "The relation of two intervals is the one that holds", "statement": "For intervals whose lesser point is before the greater one exactly one of the thirteen relations of Allen holds, and relate returns it. Exchanging the intervals gives the inverse of the relation, and relate-point returns the relation of an interval and a point.", "quantifier": "all types of points with a linear order, and all intervals", "why_tests_cant": "The relation is claimed for all orders and all positions of the end points.", "anchors": ["lib/util/temporal-relation.scm: relate, relate-point, inverse"]}
{"id": "C97", "title": "Transliteration replaces characters by those at the same place", "statement": "tr and string-tr replace every character by the one at the place of its first occurrence in the first specification, leave characters alone that are not in it, and drop those without a counterpart with :delete, whatever the table size is and however the specifications are cut into ranges and repetitions.", "quantifier": "all character arrays, table sizes and inputs", "why_tests_cant": "The vector, the list of the table and the cutting of ranges depend on the codes and lengths of all parts of both specifications.", "anchors": ["libsrc/text/tr.scm: fill-tr-table, fill-tr-vector, fill-tr-sparse, split-char-array, tr-table-ref, build-char-array, complement-char-array, build-transliterator"]}
