import Verif.Model.Utf8

/-!
# Strings

Model of `src/string.c`: string bodies, construction, comparison, indexed reference (with and without the
optional index built by `string-build-index!`), substring, append, join, cursors, search, split.

* `const char *` is a function from the offset to the byte (`Utf8.Mem`), so sharing of the storage of a
  body between a string and its substrings, and reads past the end, are expressible.  An address within
  a body is its offset from the start of the body.
* A `ScmStringBody` has `mem` for `start`; of the flags only `SCM_STRING_INCOMPLETE` is modelled
  (`SCM_STRING_TERMINATED` and `SCM_STRING_IMMUTABLE` do not influence any result modelled here).
* `none` is a raised error (or a failed `SCM_ASSERT`, where the comment says so).
* The upper limits `SCM_STRING_MAX_SIZE` / `SCM_STRING_MAX_LENGTH` (2^61-1 on 64 bit machines) are not
  modelled: sizes are unbounded.
-/

namespace Gauche.Str
open Gauche.Utf8

/-- src/gauche/priv/stringP.h:90-126 `ScmStringIndex`.  The signature word is decoded: `width` is the number of
bits of an entry (STRING_INDEX_TYPE), `shift` is STRING_INDEX_SHIFT.  `vec` is the array, `vec[0]` being
the signature (the model stores 0) and `vec[1]` the size of the array. -/
structure Index where
  width : Nat
  shift : Nat
  vec : List Nat

/-- src/gauche/string.h `ScmStringBody`. -/
structure Body where
  mem : Mem
  size : Nat
  len : Nat
  incomplete : Bool
  index : Option Index

/-- The pointer `p + n`. -/
def adv (p : Mem) (n : Nat) : Mem := fun i => p (n + i)

/-- src/gauche/string.h:141 `SCM_STRING_BODY_SINGLE_BYTE_P`. -/
def singleByteP (b : Body) : Bool := b.size == b.len

/-- src/string.c:60-83 `make_str`.  `len` may be negative. -/
def makeStr (len : Int) (siz : Nat) (p : Mem) (incomplete : Bool) (index : Option Index) : Option Body :=
  let inc := incomplete || decide (len < 0)
  let l : Int := if inc then siz else len
  if l > siz then none else some ⟨p, siz, l.toNat, inc, index⟩

/-- src/string.c:162-177 `count_length`.  `none` is -1. -/
def countLength (p : Mem) (size : Nat) : Option Nat :=
  match size with
  | 0 => some 0
  | size + 1 =>
    let i := nfollows (p 0)
    if i > size then none
    else match charGet p with
      | none => none
      | some _ => (countLength (adv p (i + 1)) (size - i)).map (· + 1)
termination_by size

/-- src/string.c:253-280 `Scm_MakeString`.  Only the case `size >= 0` without SCM_STRING_LIMIT_SIZE is modelled (a
negative `size` means "scan a NUL terminated C string"; the model answers `none`). -/
def makeString (str : Mem) (size len : Int) (incomplete : Bool) : Option Body :=
  if size < 0 then none
  else
    let l : Int := if len < 0 then (match countLength str size.toNat with | some n => (n : Int) | none => -1) else len
    makeStr l size.toNat str incomplete none

/-- Storing the bytes `l` into freshly allocated memory (`SCM_NEW_ATOMIC2` and stores; the byte after the
contents is the terminating NUL the constructors write). -/
def ofBytes (l : List Nat) : Mem := fun i => l.getD i 0

/-- src/string.c:282-294 `Scm_MakeFillString`. -/
def makeFillString (len : Nat) (fill : Nat) : Option Body :=
  makeStr len (nbytes fill * len) (ofBytes (List.replicate len (charPut fill)).flatten) false none

/-- First loop of src/string.c:303-350 `Scm_ListToStringFull`: `(size, len)`. -/
def ltsCount (maxlen : Int) : List Nat → Nat → Nat → Nat × Nat
  | [], size, len => (size, len)
  | c :: cs, size, len =>
    let size := size + nbytes c
    let len := len + 1
    if maxlen ≥ 0 ∧ (len : Int) ≥ maxlen then (size, len) else ltsCount maxlen cs size len

/-- Second loop of src/string.c:303-350 `Scm_ListToStringFull`: the bytes stored and the final `len`. -/
def ltsStore (maxlen : Int) : List Nat → Nat → List Nat × Nat
  | [], len => ([], len)
  | c :: cs, len =>
    let len := len + 1
    if maxlen ≥ 0 ∧ (len : Int) ≥ maxlen then (charPut c, len)
    else
      let r := ltsStore maxlen cs len
      (charPut c ++ r.1, r.2)

/-- src/string.c:303-350 `Scm_ListToStringFull` (`list->string`).  The elements are characters; improper lists and
non-character elements are not modelled.  `Scm_ListTail(chars, start, SCM_FALSE)` is `drop`, with the
fallback when the list is shorter than `start`. -/
def listToStringFull (chars : List Nat) (start end_ : Int) : Option Body :=
  if start < 0 ∨ (end_ ≥ 0 ∧ end_ < start) then none
  else if start ≠ 0 ∧ chars.length < start.toNat then none
  else
    let chars := if start ≠ 0 then chars.drop start.toNat else chars
    let maxlen : Int := if start ≠ 0 then end_ - start else -1
    let size := (ltsCount maxlen chars 0 0).1
    let r := ltsStore maxlen chars 0
    makeString (ofBytes r.1) size r.2 false

/-- `memcmp`: the order of the first differing byte (bytes are unsigned). -/
def memcmp (p q : Mem) : Nat → Ordering
  | 0 => .eq
  | n + 1 =>
    match compare (p 0) (q 0) with
    | .eq => memcmp (adv p 1) (adv q 1) n
    | r => r

/-- src/string.c:471-484 `Scm_StringEqual`. -/
def stringEqual (x y : Body) : Bool :=
  if x.incomplete != y.incomplete then false
  else if x.size ≠ y.size then false
  else memcmp x.mem y.mem x.size == .eq

/-- src/string.c:486-511 `Scm_StringCmp`. -/
def stringCmp (x y : Body) : Ordering :=
  let siz := if x.size < y.size then x.size else y.size
  match memcmp x.mem y.mem siz with
  | .eq =>
    if x.size = y.size then
      if x.incomplete then (if y.incomplete then .eq else .gt)
      else (if y.incomplete then .lt else .eq)
    else if x.size < y.size then .lt else .gt
  | r => r

/-- The loop of src/string.c:576-590 `forward_pos`: the offset reached from `cur` after `n` characters. -/
def fwd (p : Mem) (cur : Nat) : Nat → Nat
  | 0 => cur
  | n + 1 => fwd p (cur + (nfollows (p cur) + 1)) n

/-- src/string.c:576-590 `forward_pos`. -/
def forwardPos (b : Body) (cur nchars : Nat) : Nat :=
  if singleByteP b || b.incomplete then cur + nchars else fwd b.mem cur nchars

/-- src/string.c:593-631 `index2ptr`.  `none` is a failed `SCM_ASSERT(array_off < index_size)`, which is a panic.
The array access is in range of the allocated array whenever the assertion holds. -/
def index2ptr (b : Body) (nchars : Nat) : Option Nat :=
  match b.index with
  | none => some (forwardPos b 0 nchars)
  | some ix =>
    let arrayOff := (nchars >>> ix.shift) + 1
    let rest := nchars &&& ((1 <<< ix.shift) - 1)
    if arrayOff > 1 then
      if arrayOff < ix.vec.getD 1 0 then some (forwardPos b (ix.vec.getD arrayOff 0) rest) else none
    else some (forwardPos b 0 rest)

/-- src/string.c:642-674 `Scm_StringRef`, `range_error` TRUE (`string-ref` without fallback). -/
def stringRef (b : Body) (pos : Int) : Option Nat :=
  if b.incomplete then none
  else if pos < 0 ∨ pos ≥ b.len then none
  else if singleByteP b then some (b.mem pos.toNat)
  else (index2ptr b pos.toNat).bind fun off => charGet (adv b.mem off)

/-- src/string.c:680-691 `Scm_StringByteRef`, `range_error` TRUE. -/
def stringByteRef (b : Body) (offset : Int) : Option Nat :=
  if offset < 0 ∨ offset ≥ b.size then none else some (b.mem offset.toNat)

/-- src/string.c:699-705 `Scm_StringBodyPosition`. -/
def bodyPosition (b : Body) (offset : Int) : Option Nat :=
  if offset < 0 ∨ offset > b.len then none else index2ptr b offset.toNat

/-- src/string.c:1581-1586 `string_body_index_needed`. -/
def indexNeeded (b : Body) : Bool := !singleByteP b && !b.incomplete && decide (b.size ≥ 64)

/-- src/string.c:1594-1601 `compute_index_size`. -/
def computeIndexSize (b : Body) (interval : Nat) : Nat := ((b.len + interval - 1) / interval) + 1

/-- The `for` loop of `BUILD_ARRAY` in src/string.c:1603-1655 `build_index_array`: `n` entries, the first one being
`interval` characters after `p`. -/
def buildLoop (b : Body) (width interval : Nat) (p : Nat) : Nat → List Nat
  | 0 => []
  | n + 1 =>
    let q := forwardPos b p interval
    (q % 2 ^ width) :: buildLoop b width interval q n

/-- `BUILD_ARRAY` in src/string.c:1603-1655 `build_index_array`. -/
def buildArray (b : Body) (width shift : Nat) : Index :=
  let interval := 1 <<< shift
  let isize := computeIndexSize b interval
  ⟨width, shift, 0 :: (isize % 2 ^ width) :: buildLoop b width interval 0 (isize - 2)⟩

/-- src/string.c:1603-1655 `build_index_array` (SIZEOF_LONG is 8). -/
def buildIndexArray (b : Body) : Index :=
  if b.size < 256 then buildArray b 8 4
  else if b.size < 8192 then buildArray b 16 5
  else if b.size < 65536 then buildArray b 16 6
  else if b.size < 2 ^ 32 then buildArray b 32 7
  else buildArray b 64 8

/-- src/string.c:1657-1662 `Scm_StringBodyBuildIndex` (`string-build-index!`). -/
def buildIndex (b : Body) : Body :=
  if !indexNeeded b || b.index.isSome then b else { b with index := some (buildIndexArray b) }

/-- src/gauche/collection.h:68-81 `SCM_CHECK_START_END`. -/
def checkStartEnd (start end_ : Int) (len : Nat) : Option (Nat × Nat) :=
  if start < 0 ∨ start > len then none
  else if end_ < 0 then some (start.toNat, len)
  else if end_ > len then none
  else if end_ < start then none
  else some (start.toNat, end_.toNat)

/-- src/string.c:930-964 `substring`. -/
def substring (xb : Body) (start end_ : Int) (byterange : Bool) : Option Body :=
  let len := if byterange then xb.size else xb.len
  (checkStartEnd start end_ len).bind fun se =>
    if byterange then makeStr ((se.2 : Int) - se.1) (se.2 - se.1) (adv xb.mem se.1) true none
    else
      (index2ptr xb se.1).bind fun s =>
        (if len = se.2 then some xb.size
         else if se.1 > 0 ∧ xb.index.isNone then some (forwardPos xb s (se.2 - se.1))
         else index2ptr xb se.2).bind fun e =>
          makeStr ((se.2 : Int) - se.1) (e - s) (adv xb.mem s) xb.incomplete none

/-- src/string.c:719-740 `Scm_StringAppend2`. -/
def append2 (x y : Body) : Option Body :=
  makeStr ((x.len : Int) + y.len) (x.size + y.size)
    (fun i => if i < x.size then x.mem i else if i < x.size + y.size then y.mem (i - x.size) else 0)
    (x.incomplete || y.incomplete) none

/-- The copying loop of src/string.c:768-816 `Scm_StringAppend`: the contents of `buf`. -/
def appendBytes : List Body → List Nat
  | [] => []
  | b :: bs => (List.range b.size).map b.mem ++ appendBytes bs

/-- src/string.c:768-816 `Scm_StringAppend`. -/
def append (strs : List Body) : Option Body :=
  let size := (strs.map (·.size)).sum
  let len : Nat := (strs.map (·.len)).sum
  makeStr len size (ofBytes (appendBytes strs)) (strs.any (·.incomplete)) none

/-- src/gauche/string.h:302-307, the grammars of `string-join`. -/
inductive Grammar | infix | strictInfix | suffix | prefix
  deriving DecidableEq

/-- The copying loop of src/string.c:818-897 `Scm_StringJoin`. -/
def joinBytes (d : List Nat) : List Body → List Nat
  | [] => []
  | [b] => (List.range b.size).map b.mem
  | b :: bs => (List.range b.size).map b.mem ++ d ++ joinBytes d bs

/-- src/string.c:818-897 `Scm_StringJoin`. -/
def join (strs : List Body) (delim : Body) (g : Grammar) : Option Body :=
  if strs.length = 0 then
    if g = .strictInfix then none else makeStr 0 0 (ofBytes []) false none
  else
    let d := (List.range delim.size).map delim.mem
    let ndelim := if g = .infix ∨ g = .strictInfix then strs.length - 1 else strs.length
    let size := (strs.map (·.size)).sum + delim.size * ndelim
    let len : Nat := (strs.map (·.len)).sum + delim.len * ndelim
    let bytes := (if g = .prefix then d else []) ++ joinBytes d strs ++ (if g = .suffix then d else [])
    makeStr len size (ofBytes bytes) (delim.incomplete || strs.any (·.incomplete)) none

/-! ## Cursors

A cursor is a byte offset (src/string.c:1724-1746 `make_string_cursor`; the two representations, and the check that a
large cursor is used with its own string, are not distinguished). -/

/-- src/string.c:1724-1746 `make_string_cursor`: the range check. -/
def makeCursor (b : Body) (off : Int) : Option Nat :=
  if off < 0 ∨ off > b.size then none else some off.toNat

/-- src/string.c:1748-1756 `Scm_MakeStringCursorFromIndex`. -/
def cursorFromIndex (b : Body) (index : Int) : Option Nat :=
  if index < 0 ∨ index > b.len then none
  else (index2ptr b index.toNat).bind fun p => makeCursor b p

/-- The loop of src/string.c:1781-1811 `Scm_StringCursorIndex`: `(index, current)`. -/
def cursorIndexLoop (p : Mem) (len ptr : Nat) : Nat → Nat → Nat → Nat × Nat
  | 0, index, current => (index, current)
  | fuel + 1, index, current =>
    if index < len ∧ current < ptr then
      cursorIndexLoop p len ptr fuel (index + 1) (current + (nfollows (p current) + 1))
    else (index, current)

/-- src/string.c:1781-1811 `Scm_StringCursorIndex` for a cursor argument. -/
def cursorIndex (b : Body) (sc : Nat) : Option Nat :=
  if sc > b.size then none
  else if singleByteP b || b.incomplete then some sc
  else
    let r := cursorIndexLoop b.mem b.len sc b.len 0 0
    if r.2 ≠ sc then none else some r.1

/-- src/string.c:1859-1875 `Scm_StringCursorForward` for a cursor argument. -/
def cursorForward (b : Body) (sc nchars : Nat) : Option Nat :=
  if sc > b.size then none else makeCursor b (forwardPos b sc nchars)

/-- The loop of src/string.c:1877-1908 `Scm_StringCursorBack`.  At offset 0 the macro reads before the buffer and then
either fails or yields a position before the start, which is rejected afterwards: an error either way. -/
def backLoop (p : Mem) (ptr : Nat) : Nat → Option Nat
  | 0 => some ptr
  | n + 1 => (backward p ptr).bind fun prev => backLoop p prev n

/-- src/string.c:1877-1908 `Scm_StringCursorBack` for a cursor argument. -/
def cursorBack (b : Body) (sc nchars : Nat) : Option Nat :=
  if sc > b.size then none
  else if singleByteP b || b.incomplete then makeCursor b ((sc : Int) - nchars)
  else (backLoop b.mem sc nchars).bind fun p => makeCursor b p

/-- src/string.c:1910-1937 `Scm_StringRefCursor` for a cursor argument, `range_error` TRUE. -/
def refCursor (b : Body) (sc : Nat) : Option Nat :=
  if b.incomplete then none
  else if sc > b.size then none
  else if sc = b.size then none
  else charGet (adv b.mem sc)

/-- src/string.c:966-999 `substring_cursor`, on positions. -/
def substringCursor (b : Body) (start end_ : Nat) : Option Body :=
  if start > b.size then none
  else if end_ > b.size then none
  else if end_ < start then none
  else
    let len : Int := if singleByteP b then (end_ : Int) - start
      else match countLength (adv b.mem start) (end_ - start) with | some n => (n : Int) | none => -1
    makeStr len (end_ - start) (adv b.mem start) b.incomplete none

/-! ## Conversion to a list -/

/-- The loop of src/string.c:1372-1388 `Scm_StringToList`. -/
def toListLoop (p : Mem) (off : Nat) : Nat → Option (List Nat)
  | 0 => some []
  | n + 1 => (charGet (adv p off)).bind fun ch => (toListLoop p (off + nbytes ch) n).map (ch :: ·)

/-- src/string.c:1372-1388 `Scm_StringToList` (`string->list`). -/
def stringToList (b : Body) : Option (List Nat) :=
  if b.incomplete then none else toListLoop b.mem 0 b.len

/-! ## Search -/

/-- `memcmp(p, q, n) == 0`. -/
def eqBytes (p q : Mem) (n : Nat) : Bool := (List.range n).all fun i => p i == q i

/-- `memchr`: the first of the `n` bytes of `p` from `off` on that equals `c`. -/
def memchr (p : Mem) (c : Nat) (off : Nat) : Nat → Option Nat
  | 0 => none
  | n + 1 => if p off = c then some off else memchr p c (off + 1) n

/-- src/string.c:1088-1095 `my_memrchr`.  (The bytes compared are both of type `char`, so comparing them as
sign-extended `int`s is comparing bytes.) -/
def memrchr (p : Mem) (c : Nat) : Nat → Option Nat
  | 0 => none
  | n + 1 => if p n = c then some n else memrchr p c n

/-- The shift table of src/string.c:1036-1051 `boyer_moore` (`unsigned char` entries).  The first loop gives every entry
`siz2`, the second one, for ascending `j`, sets the entry of the `j`th byte. -/
def bmShift (s2 : Mem) (siz2 : Nat) : Nat → Nat :=
  (List.range (siz2 - 1)).foldl (fun t j => fun c => if c = s2 j then (siz2 - j - 1) % 256 else t c)
    (fun _ => siz2 % 256)

/-- The inner loop of src/string.c:1036-1051 `boyer_moore`: `n` is `j+1`, `k1` is `k+1`; the result is the value
returned when `j` reaches -1. -/
def bmInner (s1 s2 : Mem) : Nat → Nat → Option Nat
  | 0, k1 => some k1
  | n + 1, k1 => if s1 (k1 - 1) = s2 n then bmInner s1 s2 n (k1 - 1) else none

/-- The outer loop of src/string.c:1036-1051 `boyer_moore`; `fuel` bounds the number of iterations. -/
def bmLoop (s1 : Mem) (siz1 : Nat) (s2 : Mem) (siz2 : Nat) (shift : Nat → Nat) : Nat → Nat → Option Nat
  | 0, _ => none
  | fuel + 1, i =>
    if i < siz1 then
      match bmInner s1 s2 siz2 (i + 1) with
      | some r => some r
      | none => bmLoop s1 siz1 s2 siz2 shift fuel (i + shift (s1 i))
    else none

/-- src/string.c:1036-1051 `boyer_moore`. -/
def boyerMoore (s1 : Mem) (siz1 : Nat) (s2 : Mem) (siz2 : Nat) : Option Nat :=
  bmLoop s1 siz1 s2 siz2 (bmShift s2 siz2) (siz1 + 1) (siz2 - 1)

/-- The shift table of src/string.c:1053-1068 `boyer_moore_reverse`: the second loop runs over descending `j >= 1`. -/
def bmrShift (s2 : Mem) (siz2 : Nat) : Nat → Nat :=
  (List.range (siz2 - 1)).foldr (fun j t => fun c => if c = s2 (j + 1) then (j + 1) % 256 else t c)
    (fun _ => siz2 % 256)

/-- The inner loop of src/string.c:1053-1068 `boyer_moore_reverse`: `n` is `siz2 - j`; tells if `j` reaches `siz2`. -/
def bmrInner (s1 s2 : Mem) : Nat → Nat → Nat → Bool
  | 0, _, _ => true
  | n + 1, j, k => if s1 k = s2 j then bmrInner s1 s2 n (j + 1) (k + 1) else false

/-- The outer loop of src/string.c:1053-1068 `boyer_moore_reverse`. -/
def bmrLoop (s1 s2 : Mem) (siz2 : Nat) (shift : Nat → Nat) : Nat → Nat → Option Nat
  | 0, _ => none
  | fuel + 1, i =>
    if bmrInner s1 s2 siz2 0 i then some i
    else if shift (s1 i) ≤ i then bmrLoop s1 s2 siz2 shift fuel (i - shift (s1 i))
    else none

/-- src/string.c:1053-1068 `boyer_moore_reverse`.  The scan starts at `siz1-siz2+1`, one position after the last one
where `s2` fits in `s1`; there the inner loop may read `ss1[siz1]`. -/
def boyerMooreReverse (s1 : Mem) (siz1 : Nat) (s2 : Mem) (siz2 : Nat) : Option Nat :=
  bmrLoop s1 s2 siz2 (bmrShift s2 siz2) (siz1 + 2) (siz1 - siz2 + 1)

/-- The brute-force loop of src/string.c:1098-1132 `string_search`: `n` candidates from `i` upwards. -/
def bruteFwd (s1 s2 : Mem) (siz2 : Nat) (i : Nat) : Nat → Option Nat
  | 0 => none
  | n + 1 => if eqBytes s2 (adv s1 i) siz2 then some i else bruteFwd s1 s2 siz2 (i + 1) n

/-- The brute-force loop of src/string.c:1135-1170 `string_search_reverse`: candidates `n-1` down to 0. -/
def bruteRev (s1 s2 : Mem) (siz2 : Nat) : Nat → Option Nat
  | 0 => none
  | n + 1 => if eqBytes s2 (adv s1 n) siz2 then some n else bruteRev s1 s2 siz2 n

/-- Result of a searcher: byte index and, for FOUND_BOTH_INDEX, the character index as well. -/
structure Found where
  bi : Nat
  ci : Nat
  both : Bool

/-- src/string.c:1098-1132 `string_search`. -/
def stringSearch (s1 : Mem) (siz1 _len1 : Nat) (s2 : Mem) (siz2 _len2 : Nat) : Option Found :=
  if siz2 = 0 then some ⟨0, 0, true⟩
  else if siz2 = 1 then (memchr s1 (s2 0) 0 siz1).map fun z => ⟨z, z, false⟩
  else if siz1 < siz2 then none
  else if siz1 < 256 ∨ siz2 ≥ 256 then
    (bruteFwd s1 s2 siz2 0 (siz1 - siz2 + 1)).map fun i => ⟨i, i, false⟩
  else (boyerMoore s1 siz1 s2 siz2).map fun i => ⟨i, i, false⟩

/-- src/string.c:1135-1170 `string_search_reverse`. -/
def stringSearchReverse (s1 : Mem) (siz1 len1 : Nat) (s2 : Mem) (siz2 _len2 : Nat) : Option Found :=
  if siz2 = 0 then some ⟨siz1, len1, true⟩
  else if siz2 = 1 then (memrchr s1 (s2 0) siz1).map fun z => ⟨z, z, false⟩
  else if siz1 < siz2 then none
  else if siz1 < 256 ∨ siz2 ≥ 256 then
    (bruteRev s1 s2 siz2 (siz1 - siz2 + 1)).map fun i => ⟨i, i, false⟩
  else (boyerMooreReverse s1 siz1 s2 siz2).map fun i => ⟨i, i, false⟩

/-- Result of `string-scan`, by return mode (src/gauche/string.h:325-337). -/
inductive Scan where
  | index (i : Int)
  | cursor (off : Nat)
  | one (s : Body)
  | two (a b : Body)

/-- src/gauche/string.h:325-337, the return modes. -/
inductive Mode | index | before | after | before2 | after2 | both | cursor
  deriving DecidableEq

/-- The type of `string_search` and `string_search_reverse`. -/
abbrev Searcher := Mem → Nat → Nat → Mem → Nat → Nat → Option Found

/-- The prefilter and the call of the searcher in src/string.c:1190-1271 `string_scan`, then the computation of the
character index: `(bi, ci)`, `none` for NOT_FOUND.  (`ci` is not computed in the cursor mode, where it is
not used; the model computes it always.)  `count_length` answering -1 is kept as -1. -/
def scanFind (b : Body) (s2 : Mem) (siz2 len2 : Nat) (incomplete : Bool) (searcher : Searcher) : Option (Nat × Int) :=
  if !incomplete && b.size == b.len && siz2 != len2 then none
  else (searcher b.mem b.size b.len s2 siz2 len2).map fun f =>
    (f.bi, if !f.both && !incomplete then
        (match countLength b.mem f.bi with | some n => (n : Int) | none => -1) else f.ci)

/-- src/string.c:1190-1271 `string_scan`.  The outer `none` is a raised error, the inner one `#f`. -/
def stringScan (b : Body) (s2 : Mem) (siz2 len2 : Nat) (incomplete2 : Bool) (mode : Mode) (searcher : Searcher) :
    Option (Option Scan) :=
  let incomplete := b.incomplete || incomplete2
  match scanFind b s2 siz2 len2 incomplete searcher with
  | none => some none
  | some (bi, ci) =>
    let before := makeString b.mem bi ci incomplete
    let after := makeString (adv b.mem (bi + siz2)) ((b.size : Int) - bi - siz2) (b.len - ci - len2) incomplete
    let fromMatch := makeString (adv b.mem bi) ((b.size : Int) - bi) (b.len - ci) incomplete
    let uptoMatch := makeString b.mem (bi + siz2) (ci + len2) incomplete
    match mode with
    | .index => some (some (.index ci))
    | .cursor => (makeCursor b bi).map fun o => some (.cursor o)
    | .before => before.map fun a => some (.one a)
    | .after => after.map fun a => some (.one a)
    | .before2 => before.bind fun a => fromMatch.map fun c => some (.two a c)
    | .after2 => uptoMatch.bind fun a => after.map fun c => some (.two a c)
    | .both => before.bind fun a => after.map fun c => some (.two a c)

/-- src/string.c:1273-1285 `Scm_StringScan`. -/
def scan (s1 s2 : Body) (mode : Mode) : Option (Option Scan) :=
  stringScan s1 s2.mem s2.size s2.len s2.incomplete mode stringSearch

/-- src/string.c:1298-1310 `Scm_StringScanRight`. -/
def scanRight (s1 s2 : Body) (mode : Mode) : Option (Option Scan) :=
  stringScan s1 s2.mem s2.size s2.len s2.incomplete mode stringSearchReverse

/-- src/string.c:1287-1296 `Scm_StringScanChar`. -/
def scanChar (s1 : Body) (ch : Nat) (mode : Mode) : Option (Option Scan) :=
  stringScan s1 (ofBytes (charPut ch)) (nbytes ch) 1 false mode stringSearch

/-- src/string.c:1335-1359 `Scm_StringSplitByCharWithLimit`: the loop.  `limit` negative is "no limit".  `fuel` bounds
the number of iterations. -/
def splitLoop (ch : Nat) : Nat → Body → Int → Option (List Body)
  | 0, _, _ => none
  | fuel + 1, str, limit =>
    match scanChar str ch .both with
    | some (some (.two v1 v2)) =>
      if limit - 1 = 0 then some [v1, v2] else (splitLoop ch fuel v2 (limit - 1)).map (v1 :: ·)
    | some _ => some [str]
    | none => none

/-- src/string.c:1335-1359 `Scm_StringSplitByCharWithLimit`. -/
def splitByChar (str : Body) (ch : Nat) (limit : Int) : Option (List Body) :=
  if limit = 0 then some [str] else splitLoop ch (str.size + 1) str limit

end Gauche.Str
