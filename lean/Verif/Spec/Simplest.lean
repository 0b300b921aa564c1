import Mathlib.Data.Rat.Floor
/-
The "simplest rational in an interval" of R7RS 6.2.6 (`rationalize`).
-/
namespace Gauche.Spec

/-- R7RS: `q1` is simpler than `q2` if both its numerator and its denominator, in lowest terms, are at most as big. -/
def Simpler (q1 q2 : ℚ) : Prop := |q1.num| ≤ |q2.num| ∧ q1.den ≤ q2.den

/-- `q` is in the closed interval and simpler than every rational in it. -/
def SimplestIn (lo hi q : ℚ) : Prop := (lo ≤ q ∧ q ≤ hi) ∧ ∀ p, lo ≤ p → p ≤ hi → Simpler q p

end Gauche.Spec
