import Verif.Model.Flonum
import Verif.Model.Rationalize
/-
Model of the comparison of real numbers in src/number.c (`Scm_NumCmp`) and of `Scm_Exact`.  NaN is not modelled: `Scm_NumEq`, `Scm_NumLT` and so on
filter it out before.  Exact numbers are mathematical integers and rationals in lowest terms.
-/
namespace Gauche.NumCmp
open Gauche.Spec Gauche.Flonum Gauche.Rationalize

/-- A real number as the comparison sees it: an exact integer, a ratnum, a flonum (sign and magnitude). -/
inductive Rl where
  | int (n : Int)
  | rat (q : ℚ)
  | flo (neg : Bool) (d : Dbl)
deriving DecidableEq

/-- `SCM_INTP`: the fixnums. -/
def fixp (n : Int) : Bool := decide (-2 ^ 61 ≤ n) && decide (n ≤ 2 ^ 61 - 1)

/-- The sign of a rational. -/
def sgn (x : ℚ) : Int := if x < 0 then -1 else if 0 < x then 1 else 0

/-- The value of a finite double. -/
def sval (neg : Bool) (m : Nat) (k : Int) : ℚ := if neg then -dval m k else dval m k

/-- The sign of the difference of two doubles: the machine's subtraction is exact in its sign.  Equal infinities give NaN, which is neither negative
nor positive. -/
def dcmp : Bool × Dbl → Bool × Dbl → Int
  | (na, .inf), (nb, .inf) => if na = nb then 0 else if na then -1 else 1
  | (na, .inf), (_, .fin _ _) => if na then -1 else 1
  | (_, .fin _ _), (nb, .inf) => if nb then 1 else -1
  | (na, .fin m k), (nb, .fin m' k') => sgn (sval na m k - sval nb m' k')

/-- A rational rounded to a double. -/
def roundQ (x : ℚ) : Bool × Dbl := (decide (x < 0), rnd x.num.natAbs x.den)

/-- The machine's subtraction; the first argument is finite. -/
def dsub : Bool × Dbl → Bool × Dbl → Bool × Dbl
  | (na, .fin m k), (nb, .fin m' k') => roundQ (sval na m k - sval nb m' k')
  | _, (nb, _) => (!nb, .inf)

/-- The value of the literal `2.0e-52` in src/number.c:3120-3246 `Scm_NumCmp`. -/
def errLit : ℚ := match rnd 2 (10 ^ 52) with | .fin m k => dval m k | .inf => 0

/-- Multiplication of a double by that literal. -/
def dmulErr : Bool × Dbl → Bool × Dbl
  | (n, .fin m k) => roundQ (sval n m k * errLit)
  | (n, .inf) => (n, .inf)

/-- src/number.c:1503-1626 `Scm_GetDouble`. -/
def getDouble : Rl → Bool × Dbl
  | .int n => (decide (n < 0), intToDouble n.natAbs)
  | .rat q => (decide (q < 0), ratToDouble q.num.natAbs q.den)
  | .flo neg d => (neg, d)

/-- An exact rational as a number. -/
def ofQ (q : ℚ) : Rl := if q.den = 1 then .int q.num else .rat q

/-- `float-error-bounds` and `find-rational` in lib/gauche/numutil.scm:76-172 `real->rational`, called with a positive flonum only. -/
def flonumToRational (m : Nat) (k : Int) : Option ℚ :=
  findRational1 (dval m k) (2 ^ (k - 1)) (if m = 2 ^ 52 then 2 ^ (k - 2) else 2 ^ (k - 1)) (decide (m % 2 = 1))

/-- src/number.c:1854-1881 `Scm_Exact` for a flonum; `none` is an error.  `modf` tells whether the flonum is an integer. -/
def exact : Bool → Dbl → Option ℚ
  | _, .inf => none
  | neg, .fin m k =>
    let x := dval m k
    let q := if x.den = 1 then some x else flonumToRational m k
    q.map fun q => if neg then -q else q

/-- `Scm_BignumCmp` and the comparison of fixnums. -/
def cmpInt (a b : Int) : Int := if a < b then -1 else if b < a then 1 else 0

/-- src/number.c:3120-3246 `Scm_NumCmp` for an integer and a ratnum.  The test for zero compares the argument with the C integer 0, which no object
is; it is left out.  -/
def cmpIntRat (a : Int) (q : ℚ) : Int :=
  if fixp a then
    let y := getDouble (.rat q)
    let r := dsub (getDouble (.int a)) y
    let err := dmulErr y
    if dcmp r (!err.1, err.2) < 0 then -1
    else if 0 < dcmp r err then 1
    else cmpInt (a * q.den) q.num
  else cmpInt (a * q.den) q.num

/-- src/number.c:3120-3246 `Scm_NumCmp` for two ratnums. -/
def cmpRatRat (p q : ℚ) : Int :=
  let s0 := sgn p.num
  let s1 := sgn q.num
  if s0 < s1 then -1
  else if s0 > s1 then 1
  else
    let d := cmpInt p.den q.den
    if d = 0 then cmpInt p.num q.num
    else
      let n := cmpInt p.num q.num * s0
      if ((0 < s0 ∧ 0 < s1) ∨ (s0 < 0 ∧ s1 < 0)) ∧ 0 < d ∧ n ≤ 0 then -s0
      else if ((0 < s0 ∧ 0 < s1) ∨ (s0 < 0 ∧ s1 < 0)) ∧ d < 0 ∧ 0 ≤ n then s0
      else cmpInt (p.num * q.den) (q.num * p.den)

/-- src/number.c:3120-3246 `Scm_NumCmp` for two exact numbers. -/
def cmpExact : Rl → Rl → Option Int
  | .int a, .int b => some (cmpInt a b)
  | .int a, .rat q => some (cmpIntRat a q)
  | .rat p, .int b => some (-cmpIntRat b p)
  | .rat p, .rat q => some (cmpRatRat p q)
  | _, _ => none

/-- src/number.c:3120-3246 `Scm_NumCmp` for a flonum and an exact number. -/
def cmpFlo (neg : Bool) (d : Dbl) (b : Rl) : Option Int :=
  match b with
  | .flo _ _ => none
  | .int n =>
    if fixp n then
      let c := dcmp (neg, d) (getDouble b)
      if c ≠ 0 then some c
      else if doublePrecision n.natAbs then some 0
      else match exact neg d with
        | none => none
        | some e => cmpExact (ofQ e) b
    else
      if d = .inf then some (if neg then -1 else 1)
      else
        let c := dcmp (neg, d) (getDouble b)
        if c ≠ 0 then some c
        else match exact neg d with
          | none => none
          | some e => cmpExact (ofQ e) b
  | .rat _ =>
      if d = .inf then some (if neg then -1 else 1)
      else
        let c := dcmp (neg, d) (getDouble b)
        if c ≠ 0 then some c
        else match exact neg d with
          | none => none
          | some e => cmpExact (ofQ e) b

/-- src/number.c:3120-3246 `Scm_NumCmp`.  A fixnum and a flonum: the code for the two orders is the same up to the sign. -/
def numCmp : Rl → Rl → Option Int
  | .flo na da, .flo nb db => some (dcmp (na, da) (nb, db))
  | .flo na da, b => cmpFlo na da b
  | a, .flo nb db => (cmpFlo nb db a).map (- ·)
  | a, b => cmpExact a b

end Gauche.NumCmp
