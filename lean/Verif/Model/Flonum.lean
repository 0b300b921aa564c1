import Verif.Spec.Flonum
import Verif.Model.NumText
/-
Model of flonum input and output in src/number.c: conversion of exact numbers to doubles (`Scm_GetDouble`, `Scm_BignumToDouble`), the
printer (`print_double`, free format) and the decimal reader (`raise_pow10`, `algorithmR` and the decimal part of `read_real`).

A flonum is a sign and a canonical magnitude (`Spec.Flo`); `Scm_DecodeFlonum` then only takes it apart.  The exact integers that the C code
computes with are mathematical integers here (that the integer operations are right is C14 to C18).  Double precision operations of the
machine are exact operations followed by `rnd`.
-/
namespace Gauche.Flonum
open Gauche.Spec

/-! ### the machine's double precision arithmetic -/

/-- A number `m * 2^k` whose exponent may be too big. -/
def clip (m : Nat) (k : Int) : Dbl := if 971 < k then .inf else .fin m k

/-- Round `n` units and a remainder `r` of `q` to even: the carry of the last digit into the exponent. -/
def roundUp (n r q : Nat) (k : Int) : Nat × Int :=
  if q < 2 * r ∨ (2 * r = q ∧ n % 2 = 1) then
    if n + 1 = 2 ^ 53 then (2 ^ 52, k + 1) else (n + 1, k)
  else (n, k)

/-- `p / q` in units of `2^k`: quotient and remainder. -/
def scaled (p q : Nat) (k : Int) : Nat × Nat × Nat :=
  let p' := if k < 0 then p * 2 ^ (-k).toNat else p
  let q' := if k < 0 then q else q * 2 ^ k.toNat
  (p' / q', p' % q', q')

/-- The exponent of the last place of `p / q`. -/
def unitOf (p q : Nat) : Int :=
  let k0 : Int := max (-1074) ((Nat.log2 p : Int) - Nat.log2 q - 53)
  if 2 ^ 53 ≤ (scaled p q k0).1 then k0 + 1 else k0

/-- `p / q` rounded to 53 bits, without a limit on the exponent. -/
def rnd0 (p q : Nat) : Nat × Int :=
  let k := unitOf p q
  let s := scaled p q k
  roundUp s.1 s.2.1 s.2.2 k

/-- What the machine computes for the positive rational `p / q`: IEEE 754 rounding to nearest, ties to even. -/
def rnd (p q : Nat) : Dbl := if p = 0 then .fin 0 (-1074) else clip (rnd0 p q).1 (rnd0 p q).2

/-- Double multiplication by a power of ten; `p` is exactly representable. -/
def fmul (p : Nat) : Dbl → Dbl
  | .inf => .inf
  | .fin m k => if k < 0 then rnd (m * p) (2 ^ (-k).toNat) else rnd (m * p * 2 ^ k.toNat) 1

/-- Double division by a power of ten. -/
def fdiv (p : Nat) : Dbl → Dbl
  | .inf => .inf
  | .fin m k => if k < 0 then rnd m (2 ^ (-k).toNat * p) else rnd (m * 2 ^ k.toNat) p

/-- `ldexp(d, e)`: scaling by a power of two, rounded in the subnormal range. -/
def ldexp : Dbl → Int → Dbl
  | .inf, _ => .inf
  | .fin m k, e => if k + e < 0 then rnd m (2 ^ (-(k + e)).toNat) else rnd (m * 2 ^ (k + e).toNat) 1

/-! ### exact numbers to doubles -/

/-- src/bignum.c:372-427 `Scm_BignumToDouble`: the 52 bits below the highest bit `maxbit`, rounded by looking at the bits below; the magnitude of
the bignum is `b` (at least `2^54`).  Bits are addressed arithmetically instead of with the Scm_Bits procedures.  A biased exponent above 2046 gives
an infinity. -/
def bignumToDouble (b : Nat) : Dbl :=
  let maxbit := Nat.log2 b
  let dst := b / 2 ^ (maxbit - 52) % 2 ^ 52
  let up := decide (b / 2 ^ (maxbit - 53) % 2 = 1) && (decide (dst % 2 = 1) || decide (0 < b % 2 ^ (maxbit - 53)))
  let exponent := maxbit + 1023
  let dst' := if up then dst + 1 else dst
  let over := up && decide (2 ^ 52 ≤ dst')
  let mant := if over then (dst' - 2 ^ 52) / 2 else dst'
  let expo := if over then exponent + 1 else exponent
  if expo > 2046 then .inf else .fin (2 ^ 52 + mant) ((expo : Int) - 1075)

/-- src/number.c:1503-1626 `Scm_GetDouble` for an exact integer with magnitude `n`: a cast for a fixnum, `Scm_BignumToDouble` for a bignum. -/
def intToDouble (n : Nat) : Dbl := if n ≤ 2 ^ 61 - 1 then rnd n 1 else bignumToDouble n

/-- The position of the lowest bit that is set; -1 for 0 (`Scm_BitsLowest1`). -/
def lowest1 : Nat → Nat → Int
  | 0, _ => -1
  | fuel + 1, n => if n = 0 then -1 else if n % 2 = 1 then 0 else lowest1 fuel (n / 2) + 1
/-- The position of the highest bit that is set; -1 for 0 (`Scm_BitsHighest1`). -/
def highest1 (n : Nat) : Int := if n = 0 then -1 else Nat.log2 n

/-- src/number.c:1467-1487 `double_precision`: whether the integer fits in 53 bits. -/
def doublePrecision (n : Nat) : Bool := decide (highest1 n - lowest1 (n + 1) n < 53)

/-- src/number.c:1503-1626 `Scm_GetDouble` for a ratnum, from `fullpath` on; `n` and `d` are the magnitudes of numerator and denominator.  The integer
division truncates, so that everything happens on magnitudes. -/
def fullpath (n d : Nat) : Dbl :=
  let nd : Int := highest1 n - highest1 d
  let shift : Nat := if nd < 54 then (54 - nd).toNat else 0
  let n' := n * 2 ^ shift
  let quo0 := n' / d
  let rem := n' % d
  let quo := if shift > 1076 then quo0 / 2 ^ (shift - 1077) * 2 ^ (shift - 1077) else quo0
  if doublePrecision quo then ldexp (intToDouble quo) (-shift)
  else
    let h := Nat.log2 quo
    if quo / 2 ^ (h - 53) % 2 = 0 then ldexp (intToDouble quo) (-shift)
    else
      let mask := 2 ^ (h - 53)
      if rem ≠ 0 ∨ quo % mask ≠ 0 then ldexp (intToDouble (quo + mask)) (-shift)
      else if quo / 2 ^ (h - 52) % 2 = 0 then ldexp (intToDouble (quo - mask)) (-shift)
      else ldexp (intToDouble quo) (-shift)

/-- The double division of the short path of src/number.c:1503-1626 `Scm_GetDouble`. -/
def fdivD : Dbl → Dbl → Dbl
  | .fin m k, .fin m' k' =>
    let p := if k < k' then m else m * 2 ^ (k - k').toNat
    let q := if k < k' then m' * 2 ^ (k' - k).toNat else m'
    rnd p q
  | .fin _ _, .inf => .fin 0 (-1074)
  | .inf, _ => .inf

/-- src/number.c:1503-1626 `Scm_GetDouble` for a ratnum. -/
def ratToDouble (n d : Nat) : Dbl :=
  if doublePrecision n && doublePrecision d then
    let dn := intToDouble n
    let dd := intToDouble d
    if dn ≠ .inf ∧ dd ≠ .inf then fdivD dn dd else fullpath n d
  else fullpath n d

/-- `Scm_GetDouble(Scm_Div(n, d))`, exact positive integers. -/
def divToDouble (n d : Nat) : Dbl :=
  let g := Nat.gcd n d
  if d / g = 1 then intToDouble (n / g) else ratToDouble (n / g) (d / g)

/-! ### reading -/

/-- The loop of src/number.c:3866-3886 `raise_pow10`, multiplying; `fuel` is the exponent itself. -/
def raiseMul : Nat → Dbl → Nat → Dbl
  | 0, x, n => fmul (10 ^ n) x
  | fuel + 1, x, n => if n > 22 then raiseMul fuel (fmul (10 ^ 22) x) (n - 22) else fmul (10 ^ n) x

/-- The loop of src/number.c:3866-3886 `raise_pow10`, dividing. -/
def raiseDiv : Nat → Dbl → Nat → Dbl
  | 0, x, n => fdiv (10 ^ n) x
  | fuel + 1, x, n => if n > 22 then raiseDiv fuel (fdiv (10 ^ 22) x) (n - 22) else fdiv (10 ^ n) x

/-- src/number.c:3866-3886 `raise_pow10`. -/
def raisePow10 (x : Dbl) (n : Int) : Dbl := if 0 ≤ n then raiseMul n.toNat x n.toNat else raiseDiv (-n).toNat x (-n).toNat

/-- The local variables of src/number.c:4719-4823 `algorithmR`. -/
structure RState where
  m : Nat
  k : Int
  x : Nat
  y : Nat
  kprev : Int
deriving DecidableEq, Repr

/-- `x` at `retry` of src/number.c:4719-4823 `algorithmR`. -/
def xOf (f : Nat) (e k : Int) : Nat :=
  if 0 ≤ k then (if 0 ≤ e then f * 10 ^ e.toNat else f)
  else (if 0 ≤ e then f * 10 ^ e.toNat * 2 ^ (-k).toNat else f * 2 ^ (-k).toNat)
/-- `y` at `retry` of src/number.c:4719-4823 `algorithmR`. -/
def yOf (m : Nat) (e k : Int) : Nat :=
  if 0 ≤ k then (if 0 ≤ e then m * 2 ^ k.toNat else m * 10 ^ (-e).toNat * 2 ^ k.toNat)
  else (if 0 ≤ e then m else m * 10 ^ (-e).toNat)

/-- The code after `retry:` of src/number.c:4719-4823 `algorithmR`. -/
def retry (f : Nat) (e : Int) (m : Nat) (k : Int) : RState := ⟨m, k, xOf f e k, yOf m e k, k⟩

/-- What the comparison in src/number.c:4719-4823 `algorithmR` decides. -/
inductive Move where
  | done
  | prev
  | next
deriving DecidableEq, Repr

/-- The comparison in src/number.c:4719-4823 `algorithmR`. -/
def compareR (s : RState) : Move :=
  let below := s.x < s.y
  let absd := if s.x > s.y then s.x - s.y else s.y - s.x
  let d2 := s.m * absd * 2
  if d2 < s.y then
    if s.m = 2 ^ 52 ∧ below ∧ -1074 < s.k ∧ s.y < d2 * 2 then .prev else .done
  else if d2 = s.y then
    if s.m % 2 = 0 then
      if s.m = 2 ^ 52 ∧ below then .prev else .done
    else if below then .prev else .next
  else if below then .prev else .next

/-- `prevfloat:` of src/number.c:4719-4823 `algorithmR`. -/
def prevFloat (m : Nat) (k : Int) : Nat × Int :=
  if -1074 < k ∧ m - 1 < 2 ^ 52 then ((m - 1) * 2, k - 1) else (m - 1, k)

/-- `nextfloat:` of src/number.c:4719-4823 `algorithmR`. -/
def nextFloat (m : Nat) (k : Int) : Nat × Int :=
  if 2 ^ 53 ≤ m + 1 then ((m + 1) / 2, k + 1) else (m + 1, k)

/-- `next:` of src/number.c:4719-4823 `algorithmR`: `x` is computed again only if `k` differs from `kprev`, which is only set at `retry`. -/
def nextR (f : Nat) (e : Int) (s : RState) (m : Nat) (k : Int) : RState :=
  if 0 ≤ s.kprev then
    if 0 ≤ k then ⟨m, k, s.x, if 0 ≤ e then m * 2 ^ k.toNat else m * 10 ^ (-e).toNat * 2 ^ k.toNat, s.kprev⟩
    else retry f e m k
  else
    if k < 0 then
      if 0 ≤ e then ⟨m, k, if k ≠ s.kprev then f * 10 ^ e.toNat * 2 ^ (-k).toNat else s.x, m, s.kprev⟩
      else ⟨m, k, if k ≠ s.kprev then f * 2 ^ (-k).toNat else s.x, m * 10 ^ (-e).toNat, s.kprev⟩
    else retry f e m k

/-- The loop of src/number.c:4719-4823 `algorithmR`; `none` when the fuel is used up.  `ldexp(Scm_GetDouble(m), k)` is exact or an infinity. -/
def loopR (f : Nat) (e : Int) : Nat → RState → Option Dbl
  | 0, _ => none
  | fuel + 1, s =>
    match compareR s with
    | .done => some (clip s.m s.k)
    | .prev => let p := prevFloat s.m s.k; loopR f e fuel (nextR f e s p.1 p.2)
    | .next => let p := nextFloat s.m s.k; loopR f e fuel (nextR f e s p.1 p.2)

/-- src/number.c:4719-4823 `algorithmR` started with the positive finite double `m * 2^k`. -/
def algorithmR (fuel : Nat) (f : Nat) (e : Int) (m : Nat) (k : Int) : Option Dbl := loopR f e fuel (retry f e m k)

/-- The end of src/number.c:4971-5259 `read_real`: the double for `fraction * 10^raise`. -/
def toFlonum (fuel : Nat) (fraction : Nat) (rf : Int) : Option Dbl :=
  let r0 := intToDouble fraction
  if r0 = .inf ∧ 0 ≤ rf then some .inf
  else
    let r1 := if r0 = .inf then divToDouble fraction (10 ^ (-rf).toNat) else raisePow10 r0 rf
    match r1 with
    | .inf => some .inf
    | .fin m k =>
      if 0 < m ∧ (2 ^ 52 < fraction ∨ 22 < rf ∨ rf < -22) then algorithmR fuel fraction rf m k else some (.fin m k)

end Gauche.Flonum
