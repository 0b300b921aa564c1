import Verif.Spec.Bignum
import Mathlib.Data.Rat.Defs
import Mathlib.Data.Rat.Floor
import Mathlib.Tactic.FieldSimp
import Mathlib.Tactic.Linarith
import Mathlib.Tactic.Ring
import Verif.Model.Rational
/-
Specification side of the exact rationals: the rational number an object denotes, and the canonical objects.
-/
namespace Gauche.Rational
open Gauche.Bignum

/-- The rational number denoted by an exact number object. -/
def Q.val : Q → ℚ
  | .int n => n.toInt
  | .rat n d => (n.toInt : ℚ) / d.toInt

/-- Canonical: an exact integer object, or a ratnum in lowest terms with denominator above 1. -/
def Q.Canonical : Q → Prop
  | .int n => n.Canonical
  | .rat n d => n.Canonical ∧ d.Canonical ∧ 1 < d.toInt ∧ Int.gcd n.toInt d.toInt = 1

/-- The result `r` is the canonical object for the rational `v`. -/
def Q.IsRat (r : Q) (v : ℚ) : Prop := r.Canonical ∧ r.val = v

end Gauche.Rational
