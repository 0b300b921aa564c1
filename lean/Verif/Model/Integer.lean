import Verif.Model.Bignum
/-
Model of the exact-integer part of src/number.c (64-bit build): arithmetic, division, gcd, powers, comparison, shifts and
bitwise operations on fixnums and bignums.  Flonum, ratnum and compnum branches and the generic fallbacks are not in this
file.  A C `long` is an `Int`; the operands modelled are fixnum values, so sums and differences cannot leave the range of
`long`; results stored with `SCM_MAKE_INT` go through `makeInt`, which wraps like the C code.
-/
namespace Gauche.Integer
open Gauche.Bignum

/-- src/number.c:1100-1107 `Scm_MakeInteger`. -/
def makeInteger (i : Int) : Num := if FIXMIN ≤ i ∧ i ≤ FIXMAX then makeInt i else .big (fromSI i)

/-- src/number.c:1109-1113 `Scm_MakeIntegerU`. -/
def makeIntegerU (i : Nat) : Num := if i ≤ 2305843009213693951 then makeInt i else .big (fromUI i)

/-- src/number.c:1704-1737 `scm_abs`, exact integers. -/
def scmAbs : Num → Num
  | .fix v => if v < 0 then (if v = FIXMIN then .big (fromSI (-v)) else makeInt (-v)) else .fix v
  | .big b => if b.sign < 0 then .big ⟨1, b.vals⟩ else .big b

/-- src/number.c:1743-1765 `Scm_Sign`, exact integers. -/
def scmSign : Num → Int
  | .fix r => if r = 0 then 0 else if r > 0 then 1 else -1
  | .big b => b.sign

/-- src/number.c:1767-1790 `negate`, exact integers. -/
def scmNegate : Num → Num
  | .fix v => if v = FIXMIN then .big (fromSI (-v)) else makeInt (-v)
  | .big b => bignumNegate b

/-- src/number.c:1896-2019 `scm_add`, exact integers. -/
def scmAdd : Num → Num → Num
  | .fix a, .fix b => makeInteger (a + b)
  | .fix a, .big b => if a = 0 then .big b else bignumAddSI b a
  | .big a, .fix b => if b = 0 then .big a else bignumAddSI a b
  | .big a, .big b => bignumAdd a b

/-- src/number.c:2023-2140 `scm_sub`, exact integers. -/
def scmSub : Num → Num → Num
  | .fix a, .fix b => makeInteger (a - b)
  | .fix a, .big b => bignumSub (fromSI a) b
  | .big a, .fix b => if b = 0 then .big a else bignumSubSI a b
  | .big a, .big b => bignumSub a b

/-- src/number.c:2147-2293 `scm_mul`, exact integers. -/
def scmMul : Num → Num → Num
  | .fix a, .fix b =>
    let r := smulov a b
    if r.2 = true ∨ ¬ (r.1 ≤ FIXMAX ∧ FIXMIN ≤ r.1) then bignumMulSI (fromSI a) b else makeInteger r.1
  | .fix a, .big b => if a = 0 then .fix a else if a = 1 then .big b else bignumMulSI b a
  | .big a, .fix b => if b = 0 then .fix b else if b = 1 then .big a else bignumMulSI a b
  | .big a, .big b => bignumMul a b

/-- src/number.c:2600-2686 `Scm_Quotient`, exact integers: quotient and remainder.  C `/` and `%` on `long` are `Int.tdiv`, `Int.tmod`. -/
def scmQuotient (x y : Num) : Res (Num × Num) :=
  if y = .fix 1 then .ok (x, makeInt 0)
  else
    match x, y with
    | .fix a, .fix b => if b = 0 then .err else .ok (makeInt (Int.tdiv a b), makeInt (Int.tmod a b))
    | .fix a, .big _ => .ok (makeInt 0, .fix a)
    | .big a, .fix b => (divSI a b).bind fun r => .ok (r.1, makeInt r.2)
    | .big a, .big b => .ok (divRem a b)

/-- src/number.c:2693-2794 `Scm_Modulo`, exact integers; `remp` selects `remainder`. -/
def scmModulo (x y : Num) (remp : Bool) : Res Num :=
  match x, y with
  | .fix a, .fix b =>
    if b = 0 then .err
    else
      let r := Int.tmod a b
      if remp = false ∧ r ≠ 0 ∧ ((a > 0 ∧ b < 0) ∨ (a < 0 ∧ b > 0)) then .ok (makeInt (r + b)) else .ok (makeInt r)
  | .fix a, .big b =>
    if remp then .ok (.fix a)
    else if (a < 0 ∧ b.sign > 0) ∨ (a > 0 ∧ b.sign < 0) then .ok (bignumAddSI b a)
    else .ok (.fix a)
  | .big a, .fix b =>
    (remSI a b).bind fun rem =>
      if remp = false ∧ rem ≠ 0 ∧ ((a.sign < 0 ∧ b > 0) ∨ (a.sign > 0 ∧ b < 0)) then .ok (makeInt (b + rem))
      else .ok (makeInt rem)
  | .big a, .big b =>
    let rem := (divRem a b).2
    if remp = false ∧ rem ≠ .fix 0 ∧ a.sign * b.sign < 0 then
      match rem with
      | .big r => .ok (bignumAdd b r)
      | .fix r => .ok (bignumAddSI b r)
    else .ok rem

/-- src/number.c:3120-3245 `Scm_NumCmp`, exact integers. -/
def scmNumCmp : Num → Num → Int
  | .fix a, .fix b => if a - b < 0 then -1 else if a - b > 0 then 1 else 0
  | .fix a, .big b => bignumCmp (fromSI a) b
  | .big a, .fix b => bignumCmp a (fromSI b)
  | .big a, .big b => bignumCmp a b

/-! ### gcd -/

/-- src/number.c:2801-2809 `gcd_fixfix`. -/
def gcdFixFix (x y : Nat) : Nat := if h : 0 < y then gcdFixFix y (x % y) else x
termination_by y
decreasing_by exact Nat.mod_lt _ h

/-- src/bignum.c:251-276 `Scm_BignumToSI` and src/number.c:1133-1165 `Scm_GetIntegerClamp` with `SCM_CLAMP_NONE`: the value, or `none` when the
out-of-range flag is set. -/
def toLong : Num → Option Int
  | .fix n => some n
  | .big b =>
    if b.sign ≥ 0 then
      if b.vals.getD 0 0 > 9223372036854775807 ∨ b.vals.length ≥ 2 then none else some (b.vals.getD 0 0)
    else
      if b.vals.getD 0 0 > 9223372036854775808 ∨ b.vals.length ≥ 2 then none else some (-(b.vals.getD 0 0 : Int))

/-- src/number.c:2827-2833 `gcd_bigfix`. -/
def gcdBigFix (x : Big) (y : Nat) : Res Nat :=
  (divSI x (y : Int)).bind fun r => .ok (gcdFixFix y (ulabs r.2))

/-- The bignum loop of `Scm_Gcd` (src/number.c:2888-2892).  `fuel` bounds the number of iterations. -/
def gcdLoop : Nat → Num → Num → Res Num
  | 0, _, _ => .err
  | fuel + 1, x, y => if y = .fix 0 then .ok x else (scmModulo x y true).bind fun r => gcdLoop fuel y r

/-- src/number.c:2836-2893 `Scm_Gcd`, exact integers.  The value of `fuel` only has to exceed the number of iterations; a theorem shows
that the one given does.  A failed `SCM_ASSERT` is `err`. -/
def scmGcd (x y : Num) (fuel : Nat) : Res Num :=
  if x = .fix 0 then .ok y
  else if y = .fix 0 then .ok x
  else
    match toLong x, toLong y with
    | some ix, some iy =>
      let ux := ulabs ix
      let uy := ulabs iy
      .ok (makeIntegerU (if ux ≥ uy then gcdFixFix ux uy else gcdFixFix uy ux))
    | ox, oy =>
      if oy ≠ none ∧ oy ≠ some (-9223372036854775808) then
        match x with
        | .big b => (gcdBigFix b (ulabs (oy.getD 0))).bind fun r => .ok (makeIntegerU r)
        | .fix _ => .err
      else if ox ≠ none ∧ ox ≠ some (-9223372036854775808) then
        match y with
        | .big b => (gcdBigFix b (ulabs (ox.getD 0))).bind fun r => .ok (makeIntegerU r)
        | .fix _ => .err
      else
        let x := scmAbs x
        let y := scmAbs y
        if scmNumCmp x y < 0 then gcdLoop fuel y x else gcdLoop fuel x y

/-- `gcd` of two arguments: src/libnum.scm:408-419 `gcd` takes absolute values and then calls `%gcd` = `Scm_Gcd`. -/
def schemeGcd (x y : Num) (fuel : Nat) : Res Num := scmGcd (scmAbs x) (scmAbs y) fuel

/-- `lcm` of two arguments: src/libnum.scm:421-435 `lcm`. -/
def schemeLcm (x y : Num) (fuel : Nat) : Res Num :=
  let u := scmAbs x
  let v := scmAbs y
  (scmGcd u v fuel).bind fun g =>
    if scmSign u = 0 then .ok (.fix 0) else (scmQuotient u g).bind fun q => .ok (scmMul q.1 v)

/-! ### shifts -/

/-- A left shift by `cnt ≥ 0` in `Scm_BignumAsh` (src/bignum.c:1076-1081). -/
def bigAshLeft (x : Big) (cnt : Nat) : Num :=
  if cnt = 0 then .big x
  else normalize ⟨x.sign, lshift (x.vals.length + (cnt + 63) / 64) x.vals cnt⟩

/-- `Scm_Ash` of a fixnum by `cnt ≥ 0` (src/number.c:3432-3462). -/
def fixAshLeft (ix : Int) (cnt : Nat) : Res Num :=
  if cnt ≥ 268435456 then .err
  else if cnt < 61 ∧ (if ix < 0 then -ix < FIXMAX >>> cnt else ix < FIXMAX >>> cnt) then .ok (makeInteger (ix * 2 ^ cnt))
  else .ok (bigAshLeft (fromSI ix) cnt)

/-- src/bignum.c:1074-1102 `Scm_BignumAsh`.  `cnt` is a C `int`, so the caller's value is truncated to 32 bits. -/
def bigAsh (x : Big) (cnt64 : Int) : Res Num :=
  let cnt := Int.bmod cnt64 4294967296
  if cnt = 0 then .ok (.big x)
  else if cnt > 0 then .ok (bigAshLeft x cnt.toNat)
  else
    let n := (-cnt).toNat
    if x.vals.length ≤ n / 64 then .ok (if x.sign < 0 then makeInt (-1) else makeInt 0)
    else if x.sign < 0 then
      (fixAshLeft 1 n).bind fun d => (scmQuotient (scmAdd (.big x) (.fix 1)) d).bind fun q => .ok (scmAdd q.1 (.fix (-1)))
    else .ok (normalize ⟨1, rshift x.vals n⟩)

/-- src/number.c:3427-3471 `Scm_Ash`.  `~((~ix) >> n)` on a negative `long` is `-((-ix-1)/2^n) - 1`. -/
def scmAsh (x : Num) (cnt : Int) : Res Num :=
  if cnt ≥ 268435456 then .err
  else
    match x with
    | .fix ix =>
      if cnt ≤ -64 then .ok (makeInteger (if ix < 0 then -1 else 0))
      else if cnt < 0 then
        .ok (makeInteger (if ix < 0 then -((-ix - 1) / 2 ^ (-cnt).toNat) - 1 else ix / 2 ^ (-cnt).toNat))
      else fixAshLeft ix cnt.toNat
    | .big b => bigAsh b cnt

/-! ### powers -/

/-- The table `iexpt10_n` (src/number.c:2907-2920 `iexpt10_init`). -/
def iexpt10 : Nat → Num
  | 0 => makeInt 1
  | 1 => makeInt 10
  | 2 => makeInt 100
  | 3 => makeInt 1000
  | 4 => makeInt 10000
  | 5 => makeInt 100000
  | 6 => makeInt 1000000
  | n + 7 => scmMul (iexpt10 (n + 6)) (makeInt 10)

/-- The square-and-multiply loop of `Scm_ExactIntegerExpt` (src/number.c:2954-2960). -/
def exptLoop (r x : Num) (iy : Nat) : Num :=
  if h0 : iy = 0 then r
  else if h1 : iy = 1 then scmMul r x
  else exptLoop (if iy % 2 = 1 then scmMul r x else r) (scmMul x x) (iy / 2)
termination_by iy
decreasing_by omega

/-- src/number.c:1651-1665 `Scm_OddP`, exact integers. -/
def scmOddP : Num → Bool
  | .fix n => decide (n % 2 = 1)
  | .big b => decide (b.vals.getD 0 0 % 2 = 1)

/-- src/number.c:2926-2960 `Scm_ExactIntegerExpt` for exact integers `x` and `y ≥ 0`; a negative exponent, which goes on to
`Scm_Reciprocal`, is modelled in `Model/Rational.lean`. -/
def exactExpt (x y : Num) : Res Num :=
  if scmSign y = 0 then .ok (makeInt 1)
  else if x = .fix 1 then .ok (makeInt 1)
  else if x = .fix (-1) then .ok (if scmOddP y then makeInt (-1) else makeInt 1)
  else
    match y with
    | .big _ => .err
    | .fix iy =>
      if x = .fix 10 ∧ iy > 0 ∧ iy < 341 then .ok (iexpt10 iy.toNat)
      else if x = .fix 2 ∧ iy > 0 then scmAsh (makeInt 1) iy
      else .ok (exptLoop (makeInt 1) x iy.natAbs)

/-! ### bitwise operations -/

/-- A bitwise operation on `long` operands: on the 64-bit two's complement words, read back as signed. -/
def longOp (op : Nat → Nat → Nat) (a b : Int) : Int :=
  Int.bmod (op (a % 18446744073709551616).toNat (b % 18446744073709551616).toNat : Nat) 18446744073709551616

/-- src/number.c:3473-3482 `Scm_LogNot`. -/
def scmLogNot : Num → Num
  | .fix n => makeInt (-n - 1)
  | .big b => scmNegate (bignumAddSI b 1)

/-- src/number.c:3484-3502 `Scm_LogAnd`. -/
def scmLogAnd : Num → Num → Num
  | .fix a, .fix b => makeInt (longOp (· &&& ·) a b)
  | .fix a, .big b =>
    if a ≥ 0 ∧ b.sign ≥ 0 then makeInteger (longOp (· &&& ·) a (b.vals.getD 0 0)) else bignumLogAnd (fromSI a) b
  | .big a, .fix b =>
    if b ≥ 0 ∧ a.sign ≥ 0 then makeInteger (longOp (· &&& ·) b (a.vals.getD 0 0)) else bignumLogAnd a (fromSI b)
  | .big a, .big b => bignumLogAnd a b

/-- The bignum made from either kind of exact integer in `Scm_LogIor` and `Scm_LogXor` (src/number.c:3511-3516). -/
def toBig : Num → Big
  | .fix n => fromSI n
  | .big b => b

/-- src/number.c:3504-3517 `Scm_LogIor`. -/
def scmLogIor : Num → Num → Num
  | .fix a, .fix b => makeInt (longOp (· ||| ·) a b)
  | x, y => bignumLogIor (toBig x) (toBig y)

/-- src/bignum.c:1218-1224 `Scm_BignumLogXor`. -/
def bignumLogXor (x y : Big) : Num :=
  scmLogAnd (bignumLogIor x y) (scmLogNot (bignumLogAnd x y))

/-- src/number.c:3519-3532 `Scm_LogXor`. -/
def scmLogXor : Num → Num → Num
  | .fix a, .fix b => makeInt (longOp (· ^^^ ·) a b)
  | x, y => bignumLogXor (toBig x) (toBig y)

end Gauche.Integer
