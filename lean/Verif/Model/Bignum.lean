/-
Model of src/bignum.c (64-bit build) and of the portable word macros of src/gauche/priv/arith.h.

A `u_long` is a `Nat` below 2^64; every C operation on `u_long` that can wrap is written with `% W64`.
The digit vector `values[0..size-1]` is a `List Nat`, least significant word first; `size` is the length of the
list.  Writes are `List.set`, reads are `getD _ 0`; every theorem that gives the value of a result needs the
indices to be in range.  The upper limit on the number of words (`SCM_BIGNUM_MAX_DIGITS`, an error "too large
bignum" in `make_bignum`) is not modelled.  The assembler versions of UADD/USUB/UMUL are not modelled.
-/
namespace Gauche.Bignum

/-- 2^64: one more than the largest word (`WORD_BITS`, src/gauche/priv/arith.h:48). -/
scoped notation "W64" => (18446744073709551616 : Nat)
/-- `HALF_WORD` = 2^32 (src/gauche/priv/arith.h:50). -/
scoped notation "H32" => (4294967296 : Nat)

/-- `ScmBignum`: sign and digit vector (src/gauche/number.h, bignumP.h). -/
structure Big where
  sign : Int
  vals : List Nat
deriving DecidableEq, Repr

/-- An exact integer object: fixnum or bignum. -/
inductive Num where
  | fix (n : Int)
  | big (b : Big)
deriving DecidableEq, Repr

/-- What a C routine does: return, raise a Scheme error, or run into undefined behaviour (a machine division
by zero: SIGFPE on x86). -/
inductive Res (α : Type) where
  | ok (a : α)
  | err
  | ub
deriving DecidableEq, Repr

/-- Sequencing of `Res`. -/
def Res.bind {α β : Type} : Res α → (α → Res β) → Res β
  | .ok a, f => f a
  | .err, _ => .err
  | .ub, _ => .ub

/-! ### words -/

/-- src/gauche/priv/arith.h:87-91 `UADD` portable version (the asm versions are not modelled): new word and new carry. -/
def uadd (x y c : Nat) : Nat × Nat :=
  let r := (x + y + c) % W64
  (r, if r < x ∨ (r = x ∧ (y > 0 ∨ c > 0)) then 1 else 0)

/-- `USUB` portable version (src/gauche/priv/arith.h:141-145): new word and new borrow. -/
def usub (x y c : Nat) : Nat × Nat :=
  let r := (x + (W64 - y) + (W64 - c)) % W64
  (r, if r > x ∨ (r = x ∧ (y > 0 ∨ c > 0)) then 1 else 0)

/-- `LO` (src/gauche/priv/arith.h:61). -/
def lo (w : Nat) : Nat := w % H32
/-- `HI` (src/gauche/priv/arith.h:62). -/
def hi (w : Nat) : Nat := w / H32 % H32

/-- `UMUL` portable version (src/gauche/priv/arith.h:194-208): `(hi, lo)` of the product. -/
def umul (x y : Nat) : Nat × Nat :=
  let l := lo x * lo y % W64
  let t1 := lo x * hi y % W64
  let t2 := hi x * lo y % W64
  let h := hi x * hi y % W64
  let t3 := (t1 + t2) % W64
  let h := if t3 < t1 then (h + H32) % W64 else h
  let h := (h + hi t3) % W64
  let t4 := lo t3 * H32 % W64
  let l := (l + t4) % W64
  let h := if l < t4 then (h + 1) % W64 else h
  (h, l)

/-- `UMULOV` (src/gauche/priv/arith.h:219-227): result and overflow flag. -/
def umulov (x y : Nat) : Nat × Bool :=
  if x = 0 ∨ y = 0 then (0, false) else ((umul x y).2, (umul x y).1 ≠ 0)

/-- `-x` converted to `u_long`, or the magnitude `(x < 0)? -x : x` of a `long`. -/
def ulabs (x : Int) : Nat := (if x < 0 then -x else x).toNat % W64

/-- `SMULOV` portable version (src/gauche/priv/arith.h:238-262): result, overflow flag (the sign of the flag is
not used by the callers modelled). -/
def smulov (x y : Int) : Int × Bool :=
  let t := umulov (ulabs x) (ulabs y)
  if (x ≥ 0) = (y ≥ 0) then
    if t.2 || t.1 > 9223372036854775807 then (0, true) else ((t.1 : Int), false)
  else
    if t.2 || t.1 > 9223372036854775808 then (0, true) else (-(t.1 : Int), false)

/-- `SCM_MAKE_INT`/`SCM_INT_VALUE` round trip (src/gauche.h:367-368): the value is shifted left by two bits in a
64-bit word, so it is kept modulo 2^62. -/
def makeInt (n : Int) : Num := .fix (Int.bmod n 4611686018427387904)

/-- `SCM_SMALL_INT_MAX` (src/gauche/number.h:54-55). -/
scoped notation "FIXMAX" => (2305843009213693951 : Int)
/-- `SCM_SMALL_INT_MIN` (src/gauche/number.h:56). -/
scoped notation "FIXMIN" => (-2305843009213693952 : Int)

/-! ### construction and normalization -/

/-- `make_bignum`: sign 1, all words zero (src/bignum.c:112-122). -/
def zeros (n : Nat) : List Nat := List.replicate n 0

/-- src/bignum.c:138-155 `Scm_MakeBignumFromSI`.  `LONG_MIN` takes the same magnitude. -/
def fromSI (v : Int) : Big := if v < 0 then ⟨-1, [ulabs v]⟩ else ⟨1, [ulabs v]⟩

/-- src/bignum.c:157-163 `Scm_MakeBignumFromUI`. -/
def fromUI (v : Nat) : Big := ⟨1, [v]⟩

/-- The loop of `Scm_NormalizeBignum` (src/bignum.c:231-234): the index of the top word kept. -/
def trimIdx (l : List Nat) : Nat → Nat
  | 0 => 0
  | i + 1 => if l.getD (i + 1) 0 = 0 then trimIdx l i else i + 1

/-- src/bignum.c:227-248 `Scm_NormalizeBignum`.  A digit vector of size 0 is returned as it is. -/
def normalize (b : Big) : Num :=
  if b.vals = [] then .big b
  else
    let i := trimIdx b.vals (b.vals.length - 1)
    if i = 0 ∧ b.sign = 0 then makeInt 0
    else if i = 0 ∧ b.sign > 0 ∧ b.vals.getD 0 0 ≤ 2305843009213693951 then makeInt (b.vals.getD 0 0)
    else if i = 0 ∧ b.sign < 0 ∧ b.vals.getD 0 0 ≤ 2305843009213693952 then makeInt (-(b.vals.getD 0 0 : Int))
    else .big ⟨b.sign, b.vals.take (i + 1)⟩

/-- src/bignum.c:430-435 `Scm_BignumNegate`. -/
def bignumNegate (b : Big) : Num := normalize ⟨-b.sign, b.vals⟩

/-! ### comparison -/

/-- The word loop shared by the comparison routines (src/bignum.c:449-452, 461-464): words `i-1 .. 0`. -/
def cmpWords (x y : List Nat) : Nat → Int
  | 0 => 0
  | i + 1 =>
    if x.getD i 0 < y.getD i 0 then -1
    else if x.getD i 0 > y.getD i 0 then 1
    else cmpWords x y i

/-- src/bignum.c:442-454 `Scm_BignumCmp`. -/
def bignumCmp (x y : Big) : Int :=
  if x.sign < y.sign then -1
  else if x.sign > y.sign then 1
  else if x.vals.length < y.vals.length then (if x.sign > 0 then -1 else 1)
  else if x.vals.length > y.vals.length then (if x.sign > 0 then 1 else -1)
  else if x.sign > 0 then cmpWords x.vals y.vals x.vals.length
  else -cmpWords x.vals y.vals x.vals.length

/-- src/bignum.c:457-466 `Scm_BignumAbsCmp`. -/
def bignumAbsCmp (x y : List Nat) : Int :=
  if x.length < y.length then -1
  else if x.length > y.length then 1
  else cmpWords x y x.length

/-! ### addition and subtraction -/

/-- src/bignum.c:528-541 `bignum_safe_size_for_add`. -/
def safeSize (x y : List Nat) : Nat :=
  if x.length > y.length then
    if x.getD (x.length - 1) 0 = W64 - 1 then x.length + 1 else x.length
  else if y.length > x.length then
    if y.getD (y.length - 1) 0 = W64 - 1 then y.length + 1 else y.length
  else x.length + 1

/-- The loop of `bignum_2scmpl` (src/bignum.c:548-551) over the words, least significant first. -/
def cmplGo : List Nat → Nat → List Nat
  | [], _ => []
  | w :: ws, c => (uadd (W64 - 1 - w) 0 c).1 :: cmplGo ws (uadd (W64 - 1 - w) 0 c).2

/-- src/bignum.c:544-553 `bignum_2scmpl` on the digit vector. -/
def twosCmpl (l : List Nat) : List Nat := cmplGo l 1

/-- The loop of `bignum_add_int` (src/bignum.c:571-589): `n` words of the result starting at index `i`.  A word beyond
an operand's size is 0. -/
def addGo (x y : List Nat) : Nat → Nat → Nat → List Nat
  | 0, _, _ => []
  | n + 1, i, c =>
    (uadd (x.getD i 0) (y.getD i 0) c).1 :: addGo x y n (i + 1) (uadd (x.getD i 0) (y.getD i 0) c).2

/-- src/bignum.c:563-591 `bignum_add_int` with a result of `rsize` words. -/
def addInt (rsize : Nat) (x y : List Nat) : List Nat := addGo x y rsize 0 0

/-- The loop of `bignum_sub_int` (src/bignum.c:603-621); also returns the final borrow. -/
def subGo (x y : List Nat) : Nat → Nat → Nat → List Nat × Nat
  | 0, _, c => ([], c)
  | n + 1, i, c =>
    let r := subGo x y n (i + 1) (usub (x.getD i 0) (y.getD i 0) c).2
    ((usub (x.getD i 0) (y.getD i 0) c).1 :: r.1, r.2)

/-- src/bignum.c:595-627 `bignum_sub_int` with a result of `rsize` words and initial sign `sign`. -/
def subInt (rsize : Nat) (sign : Int) (x y : List Nat) : Big :=
  let r := subGo x y rsize 0 0
  if r.2 ≠ 0 then ⟨0 - sign, twosCmpl r.1⟩ else ⟨sign, r.1⟩

/-- src/bignum.c:630-641 `bignum_add`. -/
def bigAdd (x y : Big) : Big :=
  if x.sign = y.sign then ⟨x.sign, addInt (safeSize x.vals y.vals) x.vals y.vals⟩
  else subInt (safeSize x.vals y.vals) x.sign x.vals y.vals

/-- src/bignum.c:644-655 `bignum_sub`. -/
def bigSub (x y : Big) : Big :=
  if x.sign = y.sign then subInt (safeSize x.vals y.vals) x.sign x.vals y.vals
  else ⟨x.sign, addInt (safeSize x.vals y.vals) x.vals y.vals⟩

/-- The loops of `bignum_add_si` (src/bignum.c:666-677): words of `bx` with `yabs` added to (or, if `sub`, subtracted
from) the first; the last word is the final carry. -/
def addSiGo (sub : Bool) : List Nat → Nat → Nat → List Nat
  | [], _, c => [c]
  | w :: ws, y, c =>
    let r := if sub then usub w y c else uadd w y c
    r.1 :: addSiGo sub ws 0 r.2

/-- src/bignum.c:658-679 `bignum_add_si`. -/
def addSi (x : Big) (y : Int) : Big :=
  let ysign : Int := if y < 0 then -1 else 1
  ⟨x.sign, addSiGo (x.sign ≠ ysign) x.vals (ulabs y) 0⟩

/-- src/bignum.c:681-684 `Scm_BignumAdd`. -/
def bignumAdd (x y : Big) : Num := normalize (bigAdd x y)
/-- src/bignum.c:686-689 `Scm_BignumSub`. -/
def bignumSub (x y : Big) : Num := normalize (bigSub x y)
/-- src/bignum.c:691-695 `Scm_BignumAddSI`. -/
def bignumAddSI (x : Big) (y : Int) : Num := if y = 0 then .big x else normalize (addSi x y)
/-- src/bignum.c:697-701 `Scm_BignumSubSI`. -/
def bignumSubSI (x : Big) (y : Int) : Num := if y = 0 then .big x else normalize (addSi x (-y))

/-! ### shifts -/

/-- The last branch of `bignum_rshift` (src/bignum.c:724-731): words of the result from index `i` of `bx`, the rest of
`bx` given as a list.  The top word is shifted without a neighbour. -/
def rshiftGo (nbits : Nat) : List Nat → List Nat
  | [] => []
  | [w] => [w >>> nbits]
  | w :: w' :: ws => ((w' <<< (64 - nbits) % W64) ||| (w >>> nbits)) :: rshiftGo nbits (w' :: ws)

/-- src/bignum.c:709-734 `bignum_rshift`.  `br` gets exactly `bx->size - nwords` words.  In the calls where `br` and `bx` are the
same object each word is read before it is overwritten, because the index written never exceeds the index read. -/
def rshift (x : List Nat) (amount : Nat) : List Nat :=
  let nwords := amount / 64
  let nbits := amount % 64
  if x.length ≤ nwords then []
  else if nbits = 0 then x.drop nwords
  else rshiftGo nbits (x.drop nwords)

/-- The main loop of `bignum_lshift` for `nbits ≠ 0` (src/bignum.c:755-758), index `i` down to 1. -/
def lshiftGo (x : List Nat) (nwords nbits : Nat) : Nat → List Nat → List Nat
  | 0, br => br
  | i + 1, br =>
    let w := (x.getD (i + 1) 0 <<< nbits % W64) ||| (x.getD i 0 >>> (64 - nbits))
    lshiftGo x nwords nbits i (if br.length > i + 1 + nwords then br.set (i + 1 + nwords) w else br)

/-- The copy loop of `bignum_lshift` for `nbits = 0` (src/bignum.c:745-747), indices below `i`. -/
def lshiftCopy (x : List Nat) (nwords : Nat) : Nat → List Nat → List Nat
  | 0, br => br
  | i + 1, br => lshiftCopy x nwords i (if br.length > i + nwords then br.set (i + nwords) (x.getD i 0) else br)

/-- src/bignum.c:738-766 `bignum_lshift` into a fresh `br` of `rsize` words (already zero, so the loops that clear the low
`nwords` words change nothing and are left out). -/
def lshift (rsize : Nat) (x : List Nat) (amount : Nat) : List Nat :=
  let nwords := amount / 64
  let nbits := amount % 64
  let br := zeros rsize
  if nbits = 0 then lshiftCopy x nwords x.length br
  else
    let br := if rsize > x.length + nwords then
        br.set (x.length + nwords) (x.getD (x.length - 1) 0 >>> (64 - nbits)) else br
    let br := lshiftGo x nwords nbits (x.length - 1) br
    br.set nwords (x.getD 0 0 <<< nbits % W64)

/-! ### multiplication -/

/-- The carry loop of `bignum_mul_word` (src/bignum.c:790-794) from index `j`; `n` bounds the number of words left. -/
def mulCarry : Nat → List Nat → Nat → Nat → List Nat
  | 0, br, _, _ => br
  | n + 1, br, j, c =>
    if c ≠ 0 ∧ j < br.length then
      mulCarry n (br.set j (uadd (br.getD j 0) 0 c).1) (j + 1) (uadd (br.getD j 0) 0 c).2
    else br

/-- The loop of `bignum_mul_word` (src/bignum.c:776-795); the remaining words of `bx`, and `k = i + off`. -/
def mulWordGo (y : Nat) : List Nat → Nat → List Nat → List Nat
  | [], _, br => br
  | x :: xs, k, br =>
    let p := umul x y
    let a := uadd (br.getD k 0) p.2 0
    let br := br.set k a.1
    let b := uadd (br.getD (k + 1) 0) p.1 a.2
    let br := br.set (k + 1) b.1
    mulWordGo y xs (k + 1) (mulCarry br.length br (k + 2) b.2)

/-- src/bignum.c:773-797 `bignum_mul_word`: `br += bx * (y << off*WORD_BITS)`. -/
def mulWord (br x : List Nat) (y off : Nat) : List Nat := mulWordGo y x off br

/-- The loop of `bignum_mul` (src/bignum.c:803-805). -/
def mulGo (x : List Nat) : List Nat → Nat → List Nat → List Nat
  | [], _, br => br
  | y :: ys, i, br => mulGo x ys (i + 1) (mulWord br x y i)

/-- src/bignum.c:800-808 `bignum_mul`. -/
def bigMul (x y : Big) : Big :=
  ⟨x.sign * y.sign, mulGo x.vals y.vals 0 (zeros (x.vals.length + y.vals.length))⟩

/-- `y & (y-1)` is zero, for a `long` `y` other than 0 (src/bignum.c:820). -/
def isPow2 (y : Int) : Bool :=
  (BitVec.ofInt 64 y &&& BitVec.ofInt 64 (y - 1)) == 0#64

/-- `Scm__LowestBitNumber` of a nonzero word (src/gauche/bits_inline.h:75-95), word-mask version. -/
def lowestBit (w : Nat) : Nat :=
  let w := w ^^^ (w &&& (w - 1))
  (if w &&& 0xffffffff00000000 ≠ 0 then 32 else 0) + (if w &&& 0xffff0000ffff0000 ≠ 0 then 16 else 0)
  + (if w &&& 0xff00ff00ff00ff00 ≠ 0 then 8 else 0) + (if w &&& 0xf0f0f0f0f0f0f0f0 ≠ 0 then 4 else 0)
  + (if w &&& 0xcccccccccccccccc ≠ 0 then 2 else 0) + (if w &&& 0xaaaaaaaaaaaaaaaa ≠ 0 then 1 else 0)

/-- src/bignum.c:811-832 `bignum_mul_si`. -/
def mulSi (x : Big) (y : Int) : Big :=
  if y = -1 then ⟨-x.sign, x.vals⟩
  else if isPow2 y then ⟨x.sign, lshift (x.vals.length + 1) x.vals (lowestBit (y % 18446744073709551616).toNat)⟩
  else
    let r := mulWord (zeros (x.vals.length + 1)) x.vals (ulabs y) 0
    if y < 0 then ⟨-x.sign, r⟩ else ⟨x.sign, r⟩

/-- src/bignum.c:834-838 `Scm_BignumMul`. -/
def bignumMul (x y : Big) : Num := normalize (bigMul x y)
/-- src/bignum.c:840-845 `Scm_BignumMulSI`. -/
def bignumMulSI (x : Big) (y : Int) : Num :=
  if y = 1 then .big x else if y = 0 then makeInt 0 else normalize (mulSi x y)

/-- src/bignum.c:1293-1314 `Scm_BignumAccMultAddUI` on the digit vectors: `acc * coef + c`. -/
def accMultAdd (acc : List Nat) (coef c : Nat) : List Nat :=
  let r := mulWord ((zeros (acc.length + 1)).set 0 c) acc coef 0
  if r.getD acc.length 0 = 0 then r.take acc.length else r ++ zeros 3

/-! ### division -/

/-- src/bignum.c:852-861 `div_normalization_factor`: the mask `b` is `1 << i` for `i` from 63 down; 64 stands for the panic. -/
def normFactorGo (w : Nat) : Nat → Nat
  | 0 => 64
  | i + 1 => if w.testBit i then 63 - i else normFactorGo w i
/-- src/bignum.c:852-861 `div_normalization_factor`. -/
def normFactor (w : Nat) : Nat := normFactorGo w 64

/-- `DIGIT` (src/bignum.c:875): the `n`-th half word. -/
def digit (l : List Nat) (n : Nat) : Nat :=
  if n % 2 = 1 then hi (l.getD (n / 2) 0) else lo (l.getD (n / 2) 0)
/-- `DIGIT2` (src/bignum.c:876-879): the word starting at half word `n`. -/
def digit2 (l : List Nat) (n : Nat) : Nat :=
  if n % 2 = 1 then (lo (l.getD (n / 2 + 1) 0) * H32 % W64) ||| hi (l.getD (n / 2) 0) else l.getD (n / 2) 0
/-- `w & HIMASK`. -/
def himask (w : Nat) : Nat := w / H32 * H32
/-- `SETDIGIT` (src/bignum.c:880-883). -/
def setDigit (l : List Nat) (n v : Nat) : List Nat :=
  if n % 2 = 1 then l.set (n / 2) (lo (l.getD (n / 2) 0) ||| (v * H32 % W64))
  else l.set (n / 2) (himask (l.getD (n / 2) 0) ||| lo v)
/-- `SETDIGIT2` (src/bignum.c:884-888). -/
def setDigit2 (l : List Nat) (n v : Nat) : List Nat :=
  if n % 2 = 1 then
    let l := l.set (n / 2) (lo (l.getD (n / 2) 0) ||| (v * H32 % W64))
    l.set (n / 2 + 1) (himask (l.getD (n / 2 + 1) 0) ||| hi v)
  else l.set (n / 2) v

/-- The first correction loop of the quotient digit (src/bignum.c:922). -/
def qhat1 (vn1 qq rr : Nat) : Nat × Nat :=
  if h : H32 ≤ qq then qhat1 vn1 (qq - 1) ((rr + vn1) % W64) else (qq, rr)
termination_by qq
decreasing_by omega

/-- The second correction loop (src/bignum.c:923-925); `d` is `DIGIT(u, j+n-2)`. -/
def qhat2 (vn1 vn2 d qq rr : Nat) : Nat × Nat :=
  if h : qq * vn2 % W64 > (rr * H32 % W64 + d) % W64 ∧ rr < H32 then
    qhat2 vn1 vn2 d (qq - 1) ((rr + vn1) % W64)
  else (qq, rr)
termination_by qq
decreasing_by
  rcases Nat.eq_zero_or_pos qq with h0 | h0
  · subst h0; simp at h
  · omega

/-- The multiply-and-subtract loop (src/bignum.c:930-937): `n` half words left, from `k`, borrow `cy`. -/
def subLoop (v : List Nat) (qq j : Nat) : Nat → Nat → Nat → List Nat → List Nat × Nat
  | 0, _, cy, u => (u, cy)
  | n + 1, k, cy, u =>
    let vv := qq * digit v k % W64
    let uj := digit2 u (j + k)
    let uj2 := (uj + (W64 - vv) + (W64 - cy)) % W64
    subLoop v qq j n (k + 1) (if uj2 > uj then H32 else 0) (setDigit2 u (j + k) uj2)

/-- The add-back loop (src/bignum.c:945-951). -/
def addLoop (v : List Nat) (j : Nat) : Nat → Nat → Nat → List Nat → List Nat × Nat
  | 0, _, cy, u => (u, cy)
  | n + 1, k, cy, u =>
    let uj := (digit u (j + k) + digit v k + cy) % W64
    addLoop v j n (k + 1) (if uj ≥ H32 then 1 else 0) (setDigit u (j + k) uj)

/-- One iteration of the main loop of `bignum_gdiv` (src/bignum.c:914-957): new `u` and the quotient digit. -/
def gdivStep (v : List Nat) (n vn1 vn2 j : Nat) (u : List Nat) : List Nat × Nat :=
  let uu := (digit u (j + n) * H32 + digit u (j + n - 1)) % W64
  let p := qhat1 vn1 (uu / vn1) (uu % vn1)
  let p := qhat2 vn1 vn2 (digit u (j + n - 2)) p.1 p.2
  let s := subLoop v p.1 j n 0 0 u
  if s.2 ≠ 0 then
    let a := addLoop v j n 0 0 s.1
    (setDigit a.1 (j + n) ((digit a.1 (j + n) + a.2) % W64), p.1 - 1)
  else (s.1, p.1)

/-- The main loop of `bignum_gdiv` (src/bignum.c:914-957) for `j-1 .. 0`. -/
def gdivLoop (v : List Nat) (n vn1 vn2 : Nat) : Nat → List Nat → List Nat → List Nat × List Nat
  | 0, u, q => (u, q)
  | j + 1, u, q =>
    let s := gdivStep v n vn1 vn2 j u
    gdivLoop v n vn1 vn2 j s.1 (setDigit q j s.2)

/-- src/bignum.c:867-964 `bignum_gdiv`: quotient words (written into the given vector) and remainder words. -/
def gdiv (dividend divisor q : List Nat) : List Nat × List Nat :=
  let d0 := normFactor (divisor.getD (divisor.length - 1) 0)
  let d := if d0 ≥ 32 then d0 - 32 else d0
  let n := if d0 ≥ 32 then divisor.length * 2 - 1 else divisor.length * 2
  let m := dividend.length * 2 - n
  let u := lshift (dividend.length + 1) dividend d
  let v := lshift divisor.length divisor d
  let r := gdivLoop v n (digit v (n - 1)) (digit v (n - 2)) (m + 1) u q
  (r.2, rshift r.1 d)

/-- The loop of `bignum_sdiv` (src/bignum.c:974-985), from the top word down, on the reversed digit vector.  `q0` is the
pending quotient part, `w` is `pu[n]` and the list holds the words below it. -/
def sdivGo (divisor : Nat) : Nat → Nat → List Nat → List Nat × Nat
  | q0, w, [] => ([(w / divisor + q0) % W64], w % divisor)
  | q0, w, w' :: ws =>
    let r1 := ((w % divisor) * H32 % W64 + hi w') % W64
    let r := sdivGo divisor (r1 / divisor * H32 % W64) (((r1 % divisor) * H32 % W64 + lo w') % W64) ws
    ((w / divisor + q0) % W64 :: r.1, r.2)

/-- src/bignum.c:968-986 `bignum_sdiv`: quotient words and remainder. -/
def sdiv (x : List Nat) (divisor : Nat) : List Nat × Nat :=
  match x.reverse with
  | [] => ([], 0)
  | w :: ws => ((sdivGo divisor 0 w ws).1.reverse, (sdivGo divisor 0 w ws).2)

/-- src/bignum.c:989-1011 `Scm_BignumDivSI`: quotient and remainder.  A zero divisor reaches the machine division in
`bignum_sdiv`. -/
def divSI (x : Big) (divisor : Int) : Res (Num × Int) :=
  let dd := ulabs divisor
  let dsign : Int := if divisor < 0 then -1 else 1
  let rem (rr : Nat) : Int := if x.sign < 0 then -(rr : Int) else rr
  if dd = 0 then .ub
  else if dd < H32 then
    let r := sdiv x.vals dd
    .ok (normalize ⟨x.sign * dsign, r.1⟩, rem r.2)
  else
    let r := gdiv x.vals [dd] (zeros (x.vals.length + 1))
    .ok (normalize ⟨x.sign * dsign, r.1⟩, rem (r.2.getD 0 0))

/-- The inner loop of `Scm_BignumRemSI` (src/bignum.c:1040-1047), `t` = `total_shift`.  A zero `shift` (divisor of 64 bits)
would not terminate; the model then stops. -/
def remShift (dd shift t m x : Nat) : Nat :=
  if t < 64 then
    if t + shift < 64 then
      if 0 < shift then
        remShift dd shift (t + shift) (((m <<< shift % W64) ||| (x >>> (64 - shift))) % dd) (x <<< shift % W64)
      else m
    else
      remShift dd shift 64 (((m <<< (64 - t) % W64) ||| (x >>> t)) % dd) (x <<< (64 - t) % W64)
  else m
termination_by 64 - t

/-- src/bignum.c:1015-1051 `Scm_BignumRemSI` 64-bit branch, on the reversed digit vector. -/
def remGo (dd shift : Nat) : List Nat → Nat → Nat
  | [], m => m
  | x :: xs, m => remGo dd shift xs (remShift dd shift 0 m x)

/-- One line of `Scm__HighestBitNumber`: `if ((z = word&m) != 0) { n += k; word = z; }` (src/gauche/bits_inline.h:99-120). -/
def hbStep (k m : Nat) (p : Nat × Nat) : Nat × Nat := if p.2 &&& m ≠ 0 then (p.1 + k, p.2 &&& m) else p

/-- `Scm__HighestBitNumber` of a nonzero word (src/gauche/bits_inline.h:99-120). -/
def highestBit (w : Nat) : Nat :=
  let p := hbStep 2 0xcccccccccccccccc (hbStep 4 0xf0f0f0f0f0f0f0f0 (hbStep 8 0xff00ff00ff00ff00
    (hbStep 16 0xffff0000ffff0000 (hbStep 32 0xffffffff00000000 (0, w)))))
  if p.2 &&& 0xaaaaaaaaaaaaaaaa ≠ 0 then p.1 + 1 else p.1

/-- src/bignum.c:1015-1051 `Scm_BignumRemSI`. -/
def remSI (x : Big) (divisor : Int) : Res Int :=
  let dd := ulabs divisor
  if dd = 0 then .ub
  else .ok ((remGo dd (64 - highestBit dd - 1) x.vals.reverse 0 : Int) * x.sign)

/-- src/bignum.c:1055-1068 `Scm_BignumDivRem`. -/
def divRem (x y : Big) : Num × Num :=
  if bignumAbsCmp x.vals y.vals < 0 then (makeInt 0, .big x)
  else
    let r := gdiv x.vals y.vals (zeros (x.vals.length - y.vals.length + 1))
    (normalize ⟨x.sign * y.sign, r.1⟩, normalize ⟨x.sign, r.2⟩)

/-! ### bitwise operations -/

/-- src/bignum.c:1107-1121 `bignum_and`: `op` on the common words, then the tail of `x` up to `xsize` or of `y` up to `ysize`. -/
def zipWords (op : Nat → Nat → Nat) (x y : List Nat) (comm xsize ysize : Nat) : List Nat :=
  let z := (List.range comm).map fun i => op (x.getD i 0) (y.getD i 0)
  if comm < xsize then z ++ (x.drop comm).take (xsize - comm)
  else if comm < ysize then z ++ (y.drop comm).take (ysize - comm)
  else z

/-- src/bignum.c:1123-1157 `Scm_BignumLogAnd`. -/
def bignumLogAnd (x y : Big) : Num :=
  let xs := x.vals.length
  let ys := y.vals.length
  let mn := min xs ys
  if x.sign > 0 then
    if y.sign > 0 then normalize ⟨1, zipWords (· &&& ·) x.vals y.vals mn 0 0⟩
    else normalize ⟨1, zipWords (· &&& ·) x.vals (twosCmpl y.vals) mn xs 0⟩
  else
    if y.sign > 0 then normalize ⟨1, zipWords (· &&& ·) (twosCmpl x.vals) y.vals mn 0 ys⟩
    else normalize ⟨-1, twosCmpl (zipWords (· &&& ·) (twosCmpl x.vals) (twosCmpl y.vals) mn xs ys)⟩

/-- src/bignum.c:1178-1216 `Scm_BignumLogIor` (and `bignum_ior`, src/bignum.c:1162-1176, the same shape as `bignum_and`). -/
def bignumLogIor (x y : Big) : Num :=
  let xs := x.vals.length
  let ys := y.vals.length
  let mn := min xs ys
  if x.sign ≥ 0 then
    if y.sign ≥ 0 then normalize ⟨1, zipWords (· ||| ·) x.vals y.vals mn xs ys⟩
    else normalize ⟨-1, twosCmpl (zipWords (· ||| ·) x.vals (twosCmpl y.vals) mn 0 ys)⟩
  else
    if y.sign ≥ 0 then normalize ⟨-1, twosCmpl (zipWords (· ||| ·) (twosCmpl x.vals) y.vals mn xs 0)⟩
    else normalize ⟨-1, twosCmpl (zipWords (· ||| ·) (twosCmpl x.vals) (twosCmpl y.vals) mn 0 0)⟩

/-! ### printing -/

/-- Dropping leading zero words in `Scm_BignumToString` (src/bignum.c:1257): on the reversed vector. -/
def dropZeros : List Nat → List Nat
  | [] => []
  | w :: ws => if w = 0 then dropZeros ws else w :: ws

/-- The loop of `Scm_BignumToString` (src/bignum.c:1253-1259): digits, least significant first.  `fuel` bounds the number
of iterations (64 per word suffice). -/
def toDigits (radix : Nat) : Nat → List Nat → List Nat
  | 0, _ => []
  | fuel + 1, q =>
    if q = [] then []
    else
      let r := sdiv q radix
      r.2 :: toDigits radix fuel (dropZeros r.1.reverse).reverse

/-- src/bignum.c:1244-1262 `Scm_BignumToString` as a list of characters. -/
def bignumToString (b : Big) (radix : Nat) (upper : Bool) : Option (List Char) :=
  if radix < 2 ∨ radix > 36 then none
  else
    let tab := (if upper then "0123456789ABCDEFGHIJKLMNOPQRSTUVWXYZ" else "0123456789abcdefghijklmnopqrstuvwxyz").toList
    let ds := (toDigits radix (64 * b.vals.length + 1) b.vals).map fun d => tab.getD d '?'
    some ((if b.sign < 0 then ds ++ ['-'] else ds).reverse)

end Gauche.Bignum
