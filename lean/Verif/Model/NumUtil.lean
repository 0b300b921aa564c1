import Mathlib.Algebra.Order.Floor.Ring
import Mathlib.Data.Rat.Floor
import Mathlib.Data.Nat.Size
import Mathlib.Algebra.Order.Ring.Rat
/-
Model of the number-theoretic procedures written in Scheme: lib/gauche/numutil.scm, lib/scheme/division.scm and part of
src/libnum.scm.  Exact integers are `Int` and exact rationals `ℚ`: their primitive operations are the subject of the models
`Integer` and `Rational` (C14 - C18, C34), and here `quotient` and `remainder` are `Int.tdiv` and `Int.tmod`, `modulo` is `Int.fmod`.
So the wrong answers of the primitives on the few operands listed in C16 and C34 are not repeated here.  Inexact arguments are
not modelled.
-/
namespace Gauche.NumUtil

/-- `truncate` of an exact rational. -/
def truncate (x : ℚ) : Int := if 0 ≤ x then ⌊x⌋ else ⌈x⌉

/-- An exact number is an integer. -/
def isInt (x : ℚ) : Bool := x.den == 1

/-- lib/gauche/numutil.scm:372-381 `%div&mod`, exact arguments; `none` is the error for a zero divisor. -/
def divMod1 (x y : ℚ) : Option (Int × ℚ) :=
  if y = 0 then none
  else if isInt x ∧ isInt y then some (Int.tdiv x.num y.num, (Int.tmod x.num y.num : Int))
  else
    let q := truncate (x / y)
    some (q, x - q * y)

/-- lib/gauche/numutil.scm:383-391 `div-and-mod`, exact arguments. -/
def divAndMod (x y : ℚ) : Option (Int × ℚ) :=
  if x ≥ 0 then divMod1 x y
  else
    match divMod1 x y with
    | none => none
    | some (q, r) =>
      if r = 0 then some (q, r)
      else if y > 0 then some (q - 1, r + y) else some (q + 1, r - y)

/-- lib/gauche/numutil.scm:393-409 `div0-and-mod0`, exact arguments. -/
def div0AndMod0 (x y : ℚ) : Option (Int × ℚ) :=
  match divMod1 x y with
  | none => none
  | some (q, r) =>
    if x ≥ 0 then
      if y > 0 then
        if r * 2 ≥ y then some (q + 1, r - y) else some (q, r)
      else
        if r * 2 ≥ -y then some (q - 1, r + y) else some (q, r)
    else
      if y > 0 then
        if r * 2 < -y then some (q - 1, r + y) else some (q, r)
      else
        if r * 2 < y then some (q + 1, r - y) else some (q, r)

/-- `quotient&remainder` on exact integers; `none` is the error for a zero divisor. -/
def quoRem (x y : Int) : Option (Int × Int) := if y = 0 then none else some (Int.tdiv x y, Int.tmod x y)

/-- lib/gauche/numutil.scm:417-425 `floor/`, exact integers. -/
def floorDiv (x y : Int) : Option (Int × Int) :=
  match quoRem x y with
  | none => none
  | some (q, r) =>
    if x ≥ 0 then
      if y > 0 ∨ r = 0 then some (q, r) else some (q - 1, r + y)
    else
      if y > 0 ∧ ¬ r = 0 then some (q - 1, r + y) else some (q, r)

/-- lib/scheme/division.scm:17-25 `ceiling/`, exact integers. -/
def ceilingDiv (n d : Int) : Option (Int × Int) :=
  match quoRem n d with
  | none => none
  | some (q, r) =>
    if n ≥ 0 then
      if d > 0 ∧ ¬ r = 0 then some (q + 1, r - d) else some (q, r)
    else
      if d > 0 ∨ r = 0 then some (q, r) else some (q + 1, r - d)

/-- lib/scheme/division.scm:71-79 `%exact-round/`, with the zero check of `round/`. -/
def roundDiv (n d : Int) : Option (Int × ℚ) :=
  if d = 0 then none
  else
    match div0AndMod0 n d with
    | none => none
    | some (q, r) =>
      if q % 2 = 1 ∧ d % 2 = 0 ∧ |r| * 2 = |(d : ℚ)| then
        if d > 0 then some (q - 1, -r) else some (q + 1, -r)
      else some (q, r)

/-- src/libnum.scm:607-626 `%exact-integer-sqrt`, the Newton loop from an estimate `s`, at most `fuel` rounds; the outer `none` is fuel exhausted, the
error of a zero division is not reachable from a positive estimate and also `none`. -/
def sqrtLoop (k : Int) : Nat → Int → Option (Int × Int)
  | 0, _ => none
  | fuel + 1, s =>
    let s2 := s * s
    if k < s2 then (if 2 * s = 0 then none else sqrtLoop k fuel (Int.tdiv (s2 + k) (2 * s)))
    else if k < s2 + 2 * s + 1 then some (s, k - s2)
    else (if 2 * s = 0 then none else sqrtLoop k fuel (Int.tdiv (s2 + k) (2 * s)))

/-- src/libnum.scm:607-626 `%exact-integer-sqrt`.  `realSqrt` is the double precision square root, read as the exact value of the double
(`none` if infinite), and `il` is `integer-length`. -/
def exactIntegerSqrt (realSqrt : Int → Option ℚ) (il : Int → Nat) (fuel : Nat) (k : Int) : Option (Int × Int) :=
  if k < 4503599627370496 then
    match realSqrt k with
    | some d => let s := ⌊d⌋; some (s, k - s * s)
    | none => none
  else
    sqrtLoop k fuel (match realSqrt k with
      | some d => ⌊d⌋
      | none => 2 ^ (il k / 2))

/-- src/number.c:3536-3563 `Scm_IntegerLength` in terms of the value: the number of bits of `n`, or of `-n-1`. -/
def integerLength (n : Int) : Nat := if 0 ≤ n then Nat.size n.toNat else Nat.size (-n - 1).toNat

/-- The loop of lib/gauche/numutil.scm:175-184 `expt-mod`: `b` is the current bit of the exponent. -/
def exptModLoop (n : Int) (e : Nat) (m : Int) (b : Nat) (r : Int) : Int :=
  if b = 0 then r
  else if b &&& e = 0 then exptModLoop n e m (b / 2) (Int.fmod (r * r) m)
  else exptModLoop n e m (b / 2) (Int.fmod (Int.fmod (r * r) m * n) m)
termination_by b
decreasing_by all_goals omega

/-- lib/gauche/numutil.scm:175-184 `expt-mod`, exact integers with `e ≥ 0`; `modulo` by zero (an error) is `none`.  `(fixnum-width)` is 62. -/
def exptMod (n : Int) (e : Nat) (m : Int) : Option Int :=
  if m = 0 then none
  else if integerLength n * e < 62 then some (Int.fmod (n ^ e) m)
  else some (exptModLoop n e m (2 ^ (Nat.size e - 1)) 1)

/-- `xgcd` in lib/gauche/numutil.scm:188-199 `inverse-mod`. -/
def xgcd (r0 r1 s0 s1 : Int) : Int × Int :=
  if h : r1 = 0 ∨ r0 = 1 then (r0, s0)
  else
    let q := Int.tdiv r0 r1
    xgcd r1 (r0 - q * r1) s1 (s0 - q * s1)
termination_by r1.natAbs
decreasing_by
  have h1 : r0 - Int.tdiv r0 r1 * r1 = Int.tmod r0 r1 := by
    have := Int.tmod_add_mul_tdiv r0 r1
    rw [Int.mul_comm] at this; omega
  rw [h1, Int.natAbs_tmod]
  exact Nat.mod_lt _ (by omega)

/-- lib/gauche/numutil.scm:188-199 `inverse-mod`; `none` is `#f`.  (`modulo` with `m = 0` is an error in Scheme, and is not modelled: `m ≠ 0`.) -/
def inverseMod (q m : Int) : Option Int :=
  let gs := xgcd q m 1 0
  if gs.1 = 1 then some (Int.fmod gs.2 m) else none

end Gauche.NumUtil
