import Verif.Spec.Radix
import Mathlib.Data.Rat.Defs
/-
What texts of exact numbers are, without reference to the code: digits, integers, rationals, prefixes.
-/
namespace Gauche.NumText.Spec
open Gauche.Radix

/-- The value of a digit character in a radix up to 36; letters in either case. -/
def digitOf (r : Nat) (c : Char) : Option Nat :=
  let v := if 48 ≤ c.toNat ∧ c.toNat ≤ 57 then some (c.toNat - 48)
    else if 97 ≤ c.toNat ∧ c.toNat ≤ 122 then some (c.toNat - 97 + 10)
    else if 65 ≤ c.toNat ∧ c.toNat ≤ 90 then some (c.toNat - 65 + 10) else none
  v.filter (· < r)

/-- An unsigned integer: at least one digit, single `_` between digits (not in strict mode). -/
def UIntText (r : Nat) (strict : Bool) (s : List Char) (n : Nat) : Prop :=
  (∃ ds : List Nat, (s.filter (· ≠ '_')).map (digitOf r) = ds.map some ∧ ds ≠ [] ∧ ofBE r ds = n) ∧
  s.head? ≠ some '_' ∧ s.getLast? ≠ some '_' ∧ ¬ ['_', '_'] <:+: s ∧ (strict = true → '_' ∉ s)

/-- An optional sign. -/
def SignText (s : List Char) (sgn : Int) : Prop := (s = [] ∧ sgn = 1) ∨ (s = ['+'] ∧ sgn = 1) ∨ (s = ['-'] ∧ sgn = -1)

/-- A signed integer or fraction. -/
def RatText (r : Nat) (strict : Bool) (s : List Char) (v : ℚ) : Prop :=
  ∃ sg body sgn, s = sg ++ body ∧ SignText sg sgn ∧
    ((∃ n : Nat, UIntText r strict body n ∧ v = sgn * n) ∨
     (∃ a b, ∃ n d : Nat, body = a ++ '/' :: b ∧ UIntText r strict a n ∧ UIntText r strict b d ∧ d ≠ 0 ∧ v = sgn * n / d))

/-- The texts `+i` and `-i` (in either case) are the imaginary units, in every radix. -/
def ImaginaryUnit (s : List Char) : Prop := s ∈ [['+', 'i'], ['+', 'I'], ['-', 'i'], ['-', 'I']]

/-- A radix prefix: `#x`, `#o`, `#b`, `#d`, or (not in strict mode) `#<decimal radix>r`. -/
def RadixPrefix (strict : Bool) (p : List Char) (r : Nat) : Prop :=
  (p ∈ [['#', 'x'], ['#', 'X']] ∧ r = 16) ∨ (p ∈ [['#', 'o'], ['#', 'O']] ∧ r = 8) ∨ (p ∈ [['#', 'b'], ['#', 'B']] ∧ r = 2) ∨
  (p ∈ [['#', 'd'], ['#', 'D']] ∧ r = 10) ∨
  (strict = false ∧ 2 ≤ r ∧ r ≤ 36 ∧ ∃ w ds c, p = '#' :: w ++ [c] ∧ (c = 'r' ∨ c = 'R') ∧
    w.map (digitOf 10) = ds.map some ∧ ds ≠ [] ∧ ofBE 10 ds = r)

/-- Exactness markers. -/
inductive Mark where
  | none
  | exact
  | inexact
deriving DecidableEq, Repr

/-- An exactness prefix. -/
def MarkPrefix (p : List Char) (e : Mark) : Prop :=
  (p ∈ [['#', 'e'], ['#', 'E']] ∧ e = .exact) ∨ (p ∈ [['#', 'i'], ['#', 'I']] ∧ e = .inexact)

/-- The prefixes of a number: at most one for the radix (if allowed) and at most one for exactness, in any order; defaults `r0`, `e0`. -/
def Prefixes (strict noRadix : Bool) (r0 : Nat) (e0 : Mark) (p : List Char) (r : Nat) (e : Mark) : Prop :=
  (p = [] ∧ r = r0 ∧ e = e0) ∨
  (noRadix = false ∧ RadixPrefix strict p r ∧ e = e0) ∨
  (r = r0 ∧ MarkPrefix p e) ∨
  (noRadix = false ∧ ∃ p1 p2, p = p1 ++ p2 ∧ ((RadixPrefix strict p1 r ∧ MarkPrefix p2 e) ∨ (MarkPrefix p1 e ∧ RadixPrefix strict p2 r)))

/-- The text `s`, read with default radix `r0` and default exactness `e0`, denotes the exact number `v`. -/
def ExactText (strict noRadix : Bool) (r0 : Nat) (e0 : Mark) (s : List Char) (v : ℚ) : Prop :=
  ∃ p b r e, s = p ++ b ∧ Prefixes strict noRadix r0 e0 p r e ∧ e ≠ .inexact ∧ ¬ ImaginaryUnit b ∧ RatText r strict b v

/-- The texts `-n/d` with `n = 2^61` (the least fixnum is `-2^61`) and a denominator divisible by `2^61`. -/
def FixminFraction (r : Nat) (strict : Bool) (s : List Char) : Prop :=
  ∃ a b d, s = '-' :: (a ++ '/' :: b) ∧ UIntText r strict a 2305843009213693952 ∧ UIntText r strict b d ∧ 2305843009213693952 ∣ d

/-- How an unsigned integer is printed: digits only, no leading zero, letters in one case. -/
def Printed (r : Nat) (upper : Bool) (t : List Char) (n : Nat) : Prop :=
  UIntText r true t n ∧ (t = ['0'] ∨ t.head? ≠ some '0') ∧
  ∀ c ∈ t, if upper then ¬ (97 ≤ c.toNat ∧ c.toNat ≤ 122) else ¬ (65 ≤ c.toNat ∧ c.toNat ≤ 90)

end Gauche.NumText.Spec
