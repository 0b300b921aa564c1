import Verif.Spec.NumText
import Verif.Spec.Flonum
/-
What texts of decimal numbers with a point or an exponent are, without reference to the code.
-/
namespace Gauche.FloText.Spec
open Gauche.Radix Gauche.NumText.Spec

/-- A run of decimal digits, possibly empty; single `_` may separate digits (not in strict mode). -/
def DigitRun (strict : Bool) (s : List Char) (ds : List Nat) : Prop :=
  (s.filter (· ≠ '_')).map (digitOf 10) = ds.map some ∧
  s.head? ≠ some '_' ∧ s.getLast? ≠ some '_' ∧ ¬ ['_', '_'] <:+: s ∧ (strict = true → '_' ∉ s)

/-- An exponent: a marker, an optional sign and digits; or nothing. -/
def ExponentText (strict : Bool) (s : List Char) (e : Int) : Prop :=
  (s = [] ∧ e = 0) ∨
  ∃ c sg t sgn ds, s = c :: (sg ++ t) ∧ c ∈ "eEsSfFdDlL".toList ∧ SignText sg sgn ∧ DigitRun strict t ds ∧ ds ≠ [] ∧ e = sgn * (ofBE 10 ds : Int)

/-- An unsigned decimal number with the digits `f`, of which `d` are after the point, and the exponent `e`: digits and an exponent, or digits with a
point among them and optionally an exponent. -/
def UDecimalText (strict : Bool) (s : List Char) (f d : Nat) (e : Int) : Prop :=
  ∃ body ex, s = body ++ ex ∧ ExponentText strict ex e ∧
    ((∃ da, DigitRun strict body da ∧ da ≠ [] ∧ ex ≠ [] ∧ f = ofBE 10 da ∧ d = 0) ∨
     (∃ a b da db, body = a ++ '.' :: b ∧ DigitRun strict a da ∧ DigitRun strict b db ∧ da ++ db ≠ [] ∧ f = ofBE 10 (da ++ db) ∧ d = db.length))

/-- A decimal number with an optional sign. -/
def DecimalText (strict : Bool) (s : List Char) (neg : Bool) (f d : Nat) (e : Int) : Prop :=
  ∃ sg body, s = sg ++ body ∧ ((sg = ['-'] ∧ neg = true) ∨ ((sg = [] ∨ sg = ['+']) ∧ neg = false)) ∧ UDecimalText strict body f d e

end Gauche.FloText.Spec
