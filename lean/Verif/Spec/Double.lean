import Mathlib.Data.Real.Sqrt
/-
What IEEE 754 says about double precision numbers, as far as it is needed as an assumption about the floating point primitives.
-/
namespace Gauche.Spec

/-- The finite double precision numbers. -/
def IsDouble (x : ℝ) : Prop := ∃ m e : Int, |m| < 2 ^ 53 ∧ -1074 ≤ e ∧ e ≤ 971 ∧ x = (m : ℝ) * (2 : ℝ) ^ e

/-- `d` is a double and no double is closer to `x`. -/
def NearestDouble (d : ℚ) (x : ℝ) : Prop := IsDouble (d : ℝ) ∧ ∀ d', IsDouble d' → |(d : ℝ) - x| ≤ |d' - x|

end Gauche.Spec
