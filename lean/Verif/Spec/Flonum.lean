import Mathlib.Data.Rat.Defs
import Mathlib.Algebra.Order.Field.Rat
import Mathlib.Algebra.Order.Field.Power
import Mathlib.Algebra.Order.AbsoluteValue.Basic
/-
IEEE 754 double precision numbers (binary64) and rounding to nearest, ties to even.
-/
namespace Gauche.Spec

/-- The magnitude of a double: `fin m k` is `m * 2^k`. -/
inductive Dbl where
  | fin (m : Nat) (k : Int)
  | inf
deriving DecidableEq, Repr

/-- The finite magnitudes: the significand has 53 bits, or the number is subnormal and has the least exponent. -/
def FinDbl (m : Nat) (k : Int) : Prop := m < 2 ^ 53 ∧ -1074 ≤ k ∧ k ≤ 971 ∧ (2 ^ 52 ≤ m ∨ k = -1074)

/-- The value of a finite magnitude. -/
def dval (m : Nat) (k : Int) : ℚ := (m : ℚ) * 2 ^ k

/-- `d` is the non-negative number `x` rounded to nearest, ties to even: no other double is closer; if another is as close, the significand
of `d` is even.  From halfway between the greatest double and `2^1024` on the result is the infinity. -/
def Rounds (x : ℚ) : Dbl → Prop
  | .inf => (2 ^ 54 - 1) * 2 ^ 970 ≤ x
  | .fin m k => FinDbl m k ∧ x < (2 ^ 54 - 1) * 2 ^ 970 ∧
      ∀ m' k', FinDbl m' k' → (m', k') ≠ (m, k) →
        |x - dval m k| < |x - dval m' k'| ∨ (|x - dval m k| = |x - dval m' k'| ∧ m % 2 = 0)

/-- A flonum: a sign and a magnitude, or NaN. -/
inductive Flo where
  | num (neg : Bool) (d : Dbl)
  | nan
deriving DecidableEq, Repr

/-- The flonums that exist. -/
def Flo.Ok : Flo → Prop
  | .num _ (.fin m k) => FinDbl m k
  | _ => True

end Gauche.Spec
