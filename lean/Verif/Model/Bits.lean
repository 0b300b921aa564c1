import Verif.Spec.BitArray
import Verif.Model.Bignum
/-
Model of src/bits.c, src/gauche/bits.h, src/gauche/bits_inline.h on a machine with
64-bit `unsigned long`.

An array of words is a list; reading or writing outside it is the result `none`
(in C: undefined behaviour).  `ScmSmallInt` bit numbers are natural numbers (every
caller passes `0 ≤ start ≤ end`); the `int` results are mathematical integers.
-/
namespace Gauche.Bits
open Spec (Op)

abbrev Word := BitVec 64
abbrev Arr := List Word

/-- `a[i] = v`; `none` outside the array. -/
def wr (a : Arr) (i : Nat) (v : Word) : Option Arr := if i < a.length then some (a.set i v) else none

/-- `(1UL<<k) - 1` -/
def below (k : Nat) : Word := ((1#64) <<< k) - 1#64

/-- src/gauche/bits.h:77-78 `SCM_BITS_MASK` -/
def maskSE (s e : Nat) : Word := (if e ≠ 0 then below e else BitVec.allOnes 64) &&& ~~~ (below s)

/-- src/gauche/bits.h:57-58 `SCM_BITS_NUM_WORDS` -/
def numWords (size : Nat) : Nat := (size + 64 - 1) / 64

/-- src/gauche/bits.h:60 `SCM_BITS_TEST_IN_WORD`, src/gauche/bits.h:64-65 `SCM_BITS_TEST` -/
def testBit (a : Arr) (i : Nat) : Option Bool :=
  (a[i / 64]?).map fun w => (w &&& ((1#64) <<< (i % 64))) != 0#64

/-- src/gauche/bits.h:67-68 `SCM_BITS_SET` -/
def setBit (a : Arr) (i : Nat) : Option Arr :=
  (a[i / 64]?).bind fun w => wr a (i / 64) (w ||| ((1#64) <<< (i % 64)))

/-- src/gauche/bits.h:70-71 `SCM_BITS_RESET` -/
def resetBit (a : Arr) (i : Nat) : Option Arr :=
  (a[i / 64]?).bind fun w => wr a (i / 64) (w &&& ~~~ ((1#64) <<< (i % 64)))

/-- src/gauche/bits_inline.h:49-64 `Scm__CountBitsInWord` (the 64-bit branch) -/
def countWord (w : Word) : Nat :=
  let w := (w &&& 0x5555555555555555#64) + ((w >>> 1) &&& 0x5555555555555555#64)
  let w := (w &&& 0x3333333333333333#64) + ((w >>> 2) &&& 0x3333333333333333#64)
  let w := (w &&& 0x0f0f0f0f0f0f0f0f#64) + ((w >>> 4) &&& 0x0f0f0f0f0f0f0f0f#64)
  let w := w * 0x0101010101010101#64
  (w >>> 56).toNat

/-- src/gauche/bits_inline.h:75-95 `Scm__LowestBitNumber` (shared with the bignum model) -/
def lowest (w : Word) : Nat := Bignum.lowestBit w.toNat

/-- src/gauche/bits_inline.h:99-118 `Scm__HighestBitNumber` (shared with the bignum model) -/
def highest (w : Word) : Nat := Bignum.highestBit w.toNat

/-- src/bits.c:43-49 `Scm_MakeBits` -/
def makeBits (numbits : Nat) : Arr := List.replicate (numWords numbits) 0#64

/-! ## Copy and fill -/

/-- src/bits.c:58-61: the word loop of `Scm_BitsCopyX`.  `src = none` means that the source
is the target array itself. -/
def copyWords (src : Option Arr) : Nat → Nat → Nat → Arr → Option Arr
  | 0, _, _, t => some t
  | n + 1, tw, sw, t => ((src.getD t)[sw]?).bind fun w => (wr t tw w).bind (copyWords src n (tw + 1) (sw + 1))

/-- src/bits.c:64-69: the bit loop of `Scm_BitsCopyX`. -/
def copyBits (src : Option Arr) : Nat → Nat → Nat → Arr → Option Arr
  | 0, _, _, t => some t
  | n + 1, ti, si, t => (testBit (src.getD t) si).bind fun b =>
      (if b then setBit t ti else resetBit t ti).bind (copyBits src n (ti + 1) (si + 1))

/-- src/bits.c:51-70 `Scm_BitsCopyX` -/
def copyX (t : Arr) (tstart : Nat) (src : Option Arr) (sstart send : Nat) : Option Arr :=
  if tstart % 64 = 0 ∧ sstart % 64 = 0 ∧ send % 64 = 0 then
    copyWords src (send / 64 - sstart / 64) (tstart / 64) (sstart / 64) t
  else copyBits src (send - sstart) tstart sstart t

/-- src/bits.c:86-89: the whole words of `Scm_BitsFill`. -/
def fillWords (b : Bool) : Nat → Nat → Arr → Option Arr
  | 0, _, a => some a
  | n + 1, sw, a => (wr a sw (if b then ~~~ (0#64) else 0#64)).bind (fillWords b n (sw + 1))

/-- src/bits.c:72-93 `Scm_BitsFill` -/
def fill (a : Arr) (start en : Nat) (b : Bool) : Option Arr :=
  let sw := start / 64
  let ew := en / 64
  let sb := start % 64
  let eb := en % 64
  if sw = ew then
    let mask := below eb &&& ~~~ (below sb)
    (a[sw]?).bind fun w => wr a sw (if b then w ||| mask else w &&& ~~~ mask)
  else
    (a[sw]?).bind fun w =>
    (wr a sw (if b then w ||| ~~~ (below sb) else w &&& below sb)).bind fun a1 =>
    (fillWords b (ew - (sw + 1)) (sw + 1) a1).bind fun a2 =>
    (a2[ew]?).bind fun w2 => wr a2 ew (if b then w2 ||| below eb else w2 &&& ~~~ (below eb))

/-! ## Bitwise operations -/

/-- src/bits.c:107-124: the `switch (op)` of `Scm_BitsOperate`; `a w` and `b w` are read only
where the case reads them. -/
def opWord (op : Op) (a b : Option Word) : Option Word :=
  match op with
  | .and => a.bind fun x => b.map fun y => x &&& y
  | .ior => a.bind fun x => b.map fun y => x ||| y
  | .xor => a.bind fun x => b.map fun y => x ^^^ y
  | .nand => a.bind fun x => b.map fun y => ~~~ (x &&& y)
  | .nor => a.bind fun x => b.map fun y => ~~~ (x ||| y)
  | .eqv => a.bind fun x => b.map fun y => ~~~ (x ^^^ y)
  | .andc1 => a.bind fun x => b.map fun y => ~~~ x &&& y
  | .andc2 => a.bind fun x => b.map fun y => x &&& ~~~ y
  | .iorc1 => a.bind fun x => b.map fun y => ~~~ x ||| y
  | .iorc2 => a.bind fun x => b.map fun y => x ||| ~~~ y
  | .xorc1 => a.bind fun x => b.map fun y => ~~~ x ^^^ y
  | .xorc2 => a.bind fun x => b.map fun y => x ^^^ ~~~ y
  | .src1 => a
  | .src2 => b
  | .not1 => a.map fun x => ~~~ x
  | .not2 => b.map fun y => ~~~ y

/-- src/bits.c:105-128: the loop of `Scm_BitsOperate`.  The result array `r` may be the
array `a` (`a = none`) or `b` (`b = none`) itself, as all callers use it. -/
def operateLoop (op : Op) (a b : Option Arr) (sw sb ew eb : Nat) : Nat → Nat → Arr → Option Arr
  | 0, _, r => some r
  | n + 1, w, r => (opWord op (a.getD r)[w]? (b.getD r)[w]?).bind fun z =>
      (wr r w (if w = sw ∧ sb ≠ 0 then z &&& ~~~ (below sb)
               else if w = ew then z &&& below eb else z)).bind
        (operateLoop op a b sw sb ew eb n (w + 1))

/-- src/bits.c:95-129 `Scm_BitsOperate` -/
def operate (r : Arr) (op : Op) (a b : Option Arr) (s e : Nat) : Option Arr :=
  operateLoop op a b (s / 64) (s % 64) (e / 64) (e % 64)
    (e / 64 + (if e % 64 ≠ 0 then 1 else 0) - s / 64) (s / 64) r

/-! ## Comparison -/

/-- `for (;sw < ew; sw++) if (test) return FALSE;  return TRUE` (src/bits.c:150-153, 172-175) -/
def allWords (p : Word → Word → Bool) (a b : Arr) : Nat → Nat → Option Bool
  | 0, _ => some true
  | n + 1, w => (a[w]?).bind fun x => (b[w]?).bind fun y =>
      if p x y then some false else allWords p a b n (w + 1)

/-- The common shape of `Scm_BitsEqual` and `Scm_BitsIncludes`: `d x y` is the word of the
disagreeing bits (src/bits.c:134-176). -/
def compareBits (d : Word → Word → Word) (a b : Arr) (s e : Nat) : Option Bool :=
  let sw := s / 64
  let sb := s % 64
  let ew := e / 64
  let eb := e % 64
  let rest (sw : Nat) : Option Bool :=
    if eb ≠ 0 then
      (a[ew]?).bind fun x => (b[ew]?).bind fun y =>
        if (d x y &&& below eb) != 0#64 then some false
        else allWords (fun x y => d x y != 0#64) a b (ew - sw) sw
    else allWords (fun x y => d x y != 0#64) a b (ew - sw) sw
  if sb ≠ 0 then
    (a[sw]?).bind fun x => (b[sw]?).bind fun y =>
      if (d x y &&& ~~~ (below sb)) != 0#64 then some false else rest (sw + 1)
  else rest sw

/-- src/bits.c:135-154 `Scm_BitsEqual` -/
def equal (a b : Arr) (s e : Nat) : Option Bool := compareBits (fun x y => x ^^^ y) a b s e

/-- src/bits.c:157-176 `Scm_BitsIncludes` -/
def includes (a b : Arr) (s e : Nat) : Option Bool := compareBits (fun x y => x ^^^ (x ||| y)) a b s e

/-! ## Checking -/

/-- `for (; sw < ew; sw++) if (bits[sw]) return TRUE;` then the continuation (src/bits.c:193, 209) -/
def anyWords (a : Arr) (k : Option Bool) : Nat → Nat → Option Bool
  | 0, _ => k
  | n + 1, w => (a[w]?).bind fun x => if x != 0#64 then some true else anyWords a k n (w + 1)

/-- src/bits.c:182-196 `Scm_BitsAny` -/
def any (a : Arr) (start en : Nat) : Option Bool :=
  let sw := start / 64
  let ew := (en - 1) / 64
  let sb := start % 64
  let eb := en % 64
  if start = en then some false
  else if sw = ew then (a[sw]?).map fun x => (x &&& maskSE sb eb) != 0#64
  else (a[sw]?).bind fun x =>
    if (x &&& maskSE sb 0) != 0#64 then some true
    else anyWords a ((a[ew]?).map fun y => (y &&& maskSE 0 eb) != 0#64) (ew - (sw + 1)) (sw + 1)

/-- `for (; sw < ew; sw++) if (~bits[sw]) return FALSE;` then the continuation (src/bits.c:209) -/
def everyWords (a : Arr) (k : Option Bool) : Nat → Nat → Option Bool
  | 0, _ => k
  | n + 1, w => (a[w]?).bind fun x => if ~~~ x != 0#64 then some false else everyWords a k n (w + 1)

/-- src/bits.c:198-212 `Scm_BitsEvery` -/
def every (a : Arr) (start en : Nat) : Option Bool :=
  let sw := start / 64
  let ew := (en - 1) / 64
  let sb := start % 64
  let eb := en % 64
  if start = en then some true
  else if sw = ew then (a[sw]?).map fun x => !((~~~ x &&& maskSE sb eb) != 0#64)
  else (a[sw]?).bind fun x =>
    if (~~~ x &&& maskSE sb 0) != 0#64 then some false
    else everyWords a ((a[ew]?).map fun y => !((~~~ y &&& maskSE 0 eb) != 0#64)) (ew - (sw + 1)) (sw + 1)

/-! ## Counting.  `c` is the identity for the `1` variants and the complement for the `0`
variants, which are the same text with `~` before each word read. -/

/-- The word `bits[w]`, or `~bits[w]` in the `0` variants. -/
def rdw (v : Bool) (a : Arr) (w : Nat) : Option Word := (a[w]?).map fun x => if v then x else ~~~ x

/-- `for (; sw < ew; sw++) num += count_bits(bits[sw]);` (src/bits.c:233, 248) -/
def countWords (v : Bool) (a : Arr) : Nat → Nat → Nat → Option Nat
  | 0, _, num => some num
  | n + 1, w, num => (rdw v a w).bind fun x => countWords v a n (w + 1) (num + countWord x)

/-- src/bits.c:222-235 `Scm_BitsCount1` (`v = true`), src/bits.c:237-250 `Scm_BitsCount0` (`v = false`) -/
def count (v : Bool) (a : Arr) (start en : Nat) : Option Nat :=
  let sw := start / 64
  let ew := (en - 1) / 64
  let sb := start % 64
  let eb := en % 64
  if start = en then some 0
  else if sw = ew then (rdw v a sw).map fun x => countWord (x &&& maskSE sb eb)
  else (rdw v a sw).bind fun x =>
    (countWords v a (ew - (sw + 1)) (sw + 1) (countWord (x &&& maskSE sb 0))).bind fun num =>
    (rdw v a ew).map fun y => num + countWord (y &&& maskSE 0 eb)

/-! ## Finding -/

/-- `if (w) return lowest(w) + sw*SCM_WORD_BITS;` then the continuation. -/
def orLow (x : Word) (w : Nat) (k : Option Int) : Option Int :=
  if x != 0#64 then some ((lowest x + w * 64 : Nat) : Int) else k

/-- `if (w) return highest(w) + sw*SCM_WORD_BITS;` then the continuation. -/
def orHigh (x : Word) (w : Nat) (k : Option Int) : Option Int :=
  if x != 0#64 then some ((highest x + w * 64 : Nat) : Int) else k

/-- `for (;sw < ew; sw++) if (bits[sw]) return lowest(bits[sw])+sw*SCM_WORD_BITS;` (src/bits.c:276-278, 300-302) -/
def lowWords (v : Bool) (a : Arr) (k : Option Int) : Nat → Nat → Option Int
  | 0, _ => k
  | n + 1, w => (rdw v a w).bind fun x => orLow x w (lowWords v a k n (w + 1))

/-- src/bits.c:261-283 `Scm_BitsLowest1` (`v = true`), src/bits.c:285-307 `Scm_BitsLowest0` (`v = false`).
The word loop starts again at the first word, as written. -/
def lowestBit (v : Bool) (a : Arr) (start en : Nat) : Option Int :=
  let sw := start / 64
  let sb := start % 64
  let ew := (en - 1) / 64
  let eb := en % 64
  if start = en then some (-1)
  else if ew = sw then (rdw v a sw).bind fun x => orLow (x &&& maskSE sb eb) sw (some (-1))
  else (rdw v a sw).bind fun x => orLow (x &&& maskSE sb 0) sw
    (lowWords v a ((rdw v a ew).bind fun y => orLow (y &&& maskSE 0 eb) ew (some (-1))) (ew - sw) sw)

/-- `for (ew--;sw < ew; ew--) …`: words `ew-1` down to `sw+1`; the second argument is the
current `ew` (src/bits.c:326-328, 350-352). -/
def highWords (v : Bool) (a : Arr) (k : Option Int) : Nat → Nat → Option Int
  | 0, _ => k
  | n + 1, w => (rdw v a w).bind fun x => orHigh x w (highWords v a k n (w - 1))

/-- src/bits.c:311-333 `Scm_BitsHighest1` (`v = true`), src/bits.c:335-357 `Scm_BitsHighest0` (`v = false`). -/
def highestBit (v : Bool) (a : Arr) (start en : Nat) : Option Int :=
  let sw := start / 64
  let sb := start % 64
  let ew := (en - 1) / 64
  let eb := en % 64
  if start = en then some (-1)
  else if ew = sw then (rdw v a sw).bind fun x => orHigh (x &&& maskSE sb eb) sw (some (-1))
  else (rdw v a ew).bind fun x => orHigh (x &&& maskSE 0 eb) ew
    (highWords v a ((rdw v a sw).bind fun y => orHigh (y &&& maskSE sb 0) sw (some (-1)))
      ((ew - 1) - sw) (ew - 1))

/-! ## Bitvectors -/

/-- src/gauche/vector.h:402-407 `ScmBitvectorRec`: the size in bits, the words, and whether it is a literal constant. -/
structure Bv where
  size : Nat
  bits : Arr
  immutable : Bool := false
deriving DecidableEq, Repr

/-- The ways a call can end. -/
inductive Res (α : Type) | ok (x : α) | err (msg : String) | ub
deriving DecidableEq, Repr

def Res.ofOption {α : Type} : Option α → Res α
  | some x => .ok x
  | none => .ub

def Res.bind {α β : Type} (x : Res α) (f : α → Res β) : Res β :=
  match x with
  | .ok x => f x
  | .err m => .err m
  | .ub => .ub

/-- src/vector.c:943-957 `Scm_MakeBitvector`.  `Scm_BitsFill` may touch the word after the array
(theorem `C79_bug_fill_past_end`), which the allocator's rounding hides; the model gives
`MakeBits` one spare word and drops it again. -/
def makeBv (size : Nat) (init : Bool) : Res Bv :=
  (Res.ofOption (fill (makeBits size ++ [0#64]) 0 size init)).bind fun a =>
    .ok { size := size, bits := a.take (numWords size) }

/-- `SCM_CHECK_START_END` (src/gauche/collection.h:68-81); an omitted end is -1. -/
def checkRange (start en : Int) (len : Nat) : Res (Nat × Nat) :=
  if start < 0 ∨ start > len then .err "start argument out of range"
  else if en < 0 then .ok (start.toNat, len)
  else if en > len then .err "end argument out of range"
  else if en < start then .err "end argument must be greater than or equal to the start argument"
  else .ok (start.toNat, en.toNat)

/-- the element loop of src/vector.c:959-975 `Scm_ListToBitvector` -/
def listGo : List Bool → Nat → Arr → Option Arr
  | [], _, a => some a
  | b :: bs, i, a => (if b then setBit a i else resetBit a i).bind (listGo bs (i + 1))

/-- src/vector.c:959-975 `Scm_ListToBitvector` on a proper list of bits -/
def ofList (l : List Bool) : Res Bv :=
  (makeBv l.length false).bind fun v => (Res.ofOption (listGo l 0 v.bits)).bind fun a =>
    .ok { v with bits := a }

/-- src/vector.c:883-890 `bitvector_write_int`: `n` more characters from bit `i`. -/
def writeGo (a : Arr) : Nat → Nat → Option (List Char)
  | 0, _ => some []
  | n + 1, i => (testBit a i).bind fun b => (writeGo a n (i + 1)).map fun cs => (if b then '1' else '0') :: cs

/-- `bitvector->string`: src/vector.c:1004-1009 `Scm_BitvectorToString` with the prefix -/
def toStr (v : Bv) : Res (List Char) :=
  (Res.ofOption (writeGo v.bits v.size 0)).bind fun cs => .ok ('#' :: '*' :: cs)

/-- the loop of src/vector.c:980-1002 `Scm_StringToBitvector`: `none` outside means not parsable. -/
def parseGo : List Char → Nat → Arr → Option (Option Arr)
  | [], _, a => some (some a)
  | c :: cs, i, a =>
    if c = '0' then (resetBit a i).bind (parseGo cs (i + 1))
    else if c = '1' then (setBit a i).bind (parseGo cs (i + 1))
    else some none

/-- `string->bitvector`: src/vector.c:980-1002 `Scm_StringToBitvector` on a single-byte string with
the prefix required -/
def ofStr (s : List Char) : Res (Option Bv) :=
  if s.length < 2 then .ok none
  else if s.take 2 ≠ ['#', '*'] then .ok none
  else (makeBv (s.length - 2) false).bind fun v =>
    (Res.ofOption (parseGo (s.drop 2) 0 v.bits)).bind fun r => .ok (r.map fun a => { v with bits := a })

/-- `bitvector-ref/bool` without fallback (src/libvec.scm:726-733) -/
def bvRef (v : Bv) (i : Int) : Res Bool :=
  if i < 0 ∨ i ≥ v.size then .err "bitvector index out of range"
  else Res.ofOption (testBit v.bits i.toNat)

/-- `bitvector-set!` (src/libvec.scm:707-713) -/
def bvSet (v : Bv) (i : Int) (b : Bool) : Res Bv :=
  if i < 0 ∨ i ≥ v.size then .err "bitvector index out of range"
  else if v.immutable then .err "bitvector is immutable"
  else (Res.ofOption (if b then setBit v.bits i.toNat else resetBit v.bits i.toNat)).bind fun a =>
    .ok { v with bits := a }

/-- src/vector.c:1011-1018 `Scm_BitvectorCopy` -/
def bvCopy (v : Bv) (start en : Int) : Res Bv :=
  (checkRange start en v.size).bind fun p =>
  (makeBv (p.2 - p.1) false).bind fun vv =>
  (Res.ofOption (copyX vv.bits 0 (some v.bits) p.1 p.2)).bind fun a => .ok { vv with bits := a }

/-- src/vector.c:1020-1036 `Scm_BitvectorCopyX`; `src = none` when source and destination are the
same bitvector. -/
def bvCopyX (dest : Bv) (dstart : Int) (src : Option Bv) (start en : Int) : Res Bv :=
  if dest.immutable then .err "bitvector is immutable"
  else (checkRange start en (src.getD dest).size).bind fun p =>
    if dstart > dest.size ∨ dstart < 0 ∨ dstart + p.2 - p.1 > dest.size then
      .err "destination index out of range"
    else (Res.ofOption (copyX dest.bits dstart.toNat (src.map Bv.bits) p.1 p.2)).bind fun a =>
      .ok { dest with bits := a }

/-- `%bv-op` (ext/gauche/bitvector.scm:625-636) -/
def bvOp (op : Op) (v1 v2 : Bv) : Res Bv :=
  if v1.immutable then .err "bitvector is immutable"
  else if v1.size ≠ v2.size then .err "Bitvector sizes don't match"
  else (Res.ofOption (operate v1.bits op none (some v2.bits) 0 v1.size)).bind fun a =>
    .ok { v1 with bits := a }

/-- `bitvector-not` (ext/gauche/bitvector.scm:638-640): a copy, then `%bv-op` NOT1 on itself. -/
def bvNot (v : Bv) : Res Bv :=
  (bvCopy v 0 (-1)).bind fun w =>
  (Res.ofOption (operate w.bits .not1 none none 0 w.size)).bind fun a => .ok { w with bits := a }

/-- the functional `bitvector-and` … of two arguments: `%bv-op` on a copy of the first
(ext/gauche/bitvector.scm:642-690) -/
def bvBin (op : Op) (v1 v2 : Bv) : Res Bv := (bvCopy v1 0 (-1)).bind fun w => bvOp op w v2

/-- `bitvector-count` (ext/gauche/bitvector.scm:698-701) -/
def bvCount (b : Bool) (v : Bv) : Res Nat := Res.ofOption (count b v.bits 0 v.size)

/-- the loop of `bitvector-count-run` (ext/gauche/bitvector.scm:703-715) -/
def runGo (b : Bool) (a : Arr) : Nat → Nat → Nat → Option Nat
  | 0, _, c => some c
  | n + 1, i, c => (testBit a i).bind fun x =>
      if x then (if b then runGo b a n (i + 1) (c + 1) else some c)
      else (if b then some c else runGo b a n (i + 1) (c + 1))

/-- `bitvector-count-run` (ext/gauche/bitvector.scm:703-715) -/
def bvCountRun (b : Bool) (v : Bv) (i : Int) : Res Nat :=
  if ¬ (0 ≤ i ∧ i ≤ v.size) then .err "bitvector index out of range"
  else Res.ofOption (runGo b v.bits (v.size - i.toNat) i.toNat 0)

/-- the word loop of `bitvector-if` (ext/gauche/bitvector.scm:735-738) -/
def ifGo (bi bt be : Arr) : Nat → Nat → Arr → Option Arr
  | 0, _, r => some r
  | n + 1, i, r => (bi[i]?).bind fun x => (bt[i]?).bind fun y => (be[i]?).bind fun z =>
      (wr r i ((x &&& y) ||| (~~~ x &&& z))).bind (ifGo bi bt be n (i + 1))

/-- `bitvector-if` (ext/gauche/bitvector.scm:717-739) -/
def bvIf (vi vt ve : Bv) : Res Bv :=
  (makeBv vi.size false).bind fun r =>
  if vt.size ≠ vi.size then .err "lengths of bv-if and bv-then differ"
  else if ve.size ≠ vi.size then .err "lengths of bv-if and bv-else differ"
  else (Res.ofOption (ifGo vi.bits vt.bits ve.bits (numWords vi.size) 0 r.bits)).bind fun a =>
    .ok { r with bits := a }

/-- `bitvector-first-bit` (ext/gauche/bitvector.scm:740-743) -/
def bvFirst (b : Bool) (v : Bv) : Res Int := Res.ofOption (lowestBit b v.bits 0 v.size)

/-- `bitvector-last-bit` (ext/gauche/bitvector.scm:746-749) -/
def bvLast (b : Bool) (v : Bv) : Res Int := Res.ofOption (highestBit b v.bits 0 v.size)

/-- `bitvector-any-value?` (src/libvec.scm:674-682) -/
def bvAny (v : Bv) (b : Bool) (start en : Int) : Res Bool :=
  (checkRange start en v.size).bind fun p =>
    if b then Res.ofOption (any v.bits p.1 p.2)
    else (Res.ofOption (every v.bits p.1 p.2)).bind fun r => .ok (!r)

/-- `bitvector-every-value?` (src/libvec.scm:684-692) -/
def bvEvery (v : Bv) (b : Bool) (start en : Int) : Res Bool :=
  (checkRange start en v.size).bind fun p =>
    if b then Res.ofOption (every v.bits p.1 p.2)
    else (Res.ofOption (any v.bits p.1 p.2)).bind fun r => .ok (!r)

/-- `bitvector-logical-shift` (ext/gauche/bitvector.scm:689-696) -/
def bvShift (v : Bv) (count : Int) (bit : Bool) : Res Bv :=
  (makeBv v.size bit).bind fun r =>
    if (v.size : Int) ≤ count then .ok r
    else if 0 ≤ count then bvCopyX r 0 (some v) count (-1)
    else if -(v.size : Int) < count then bvCopyX r (-count) (some v) 0 (v.size + count)
    else .ok r

/-- `bitvector-field-rotate` (ext/gauche/bitvector.scm:801-819), within its `assume`d ranges -/
def bvRotate (v : Bv) (count : Int) (start en : Nat) : Res Bv :=
  if count = 0 ∨ start = en then .ok v
  else (bvCopy v 0 (-1)).bind fun r =>
    let size : Int := en - start
    let shift : Int := count % size
    (bvCopyX r start (some v) (start + shift) en).bind fun r =>
    bvCopyX r (en - shift) (some v) start (start + shift)

/-- The per-bit loop of `bitvector-field-set!`, `bitvector-field-clear!`,
`bitvector-field-flip!` (ext/gauche/bitvector.scm:760-771, 776-786, 824-835): `f` is the new
value from the old one. -/
def fieldGo (f : Bool → Bool) : Nat → Nat → Arr → Option Arr
  | 0, _, a => some a
  | n + 1, i, a => (testBit a i).bind fun b => (if f b then setBit a i else resetBit a i).bind (fieldGo f n (i + 1))

/-- `bitvector-field-set!` (`f = fun _ => true`), `bitvector-field-clear!` (`fun _ => false`),
`bitvector-field-flip!` (`not`).  None of them tests the immutable flag
(ext/gauche/bitvector.scm:760-786, 824-835). -/
def bvField (f : Bool → Bool) (v : Bv) (start en : Int) : Res Bv :=
  (checkRange start en v.size).bind fun p =>
  (Res.ofOption (fieldGo f (p.2 - p.1) p.1 v.bits)).bind fun a => .ok { v with bits := a }

/-- the word loop of src/vector.c:899-918 `bitvector_compare` -/
def compareGo (a b : Arr) : Nat → Nat → Option Int
  | 0, _ => some 0
  | n + 1, i => (a[i]?).bind fun x => (b[i]?).bind fun y =>
      if x.toNat < y.toNat then some (-1) else if x.toNat > y.toNat then some 1 else compareGo a b n (i + 1)

/-- src/vector.c:899-918 `bitvector_compare`: `equal?` is the result 0. -/
def bvCompare (x y : Bv) : Res Int :=
  if x.size < y.size then .ok (-1)
  else if x.size > y.size then .ok 1
  else Res.ofOption (compareGo x.bits y.bits (numWords x.size) 0)

end Gauche.Bits
