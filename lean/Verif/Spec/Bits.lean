import Mathlib.Data.Int.Basic
/-
Specification of the bitwise operations: the bits of an integer in two's complement with infinite sign extension.
-/
namespace Gauche.Integer

/-- Bit `i` of the integer `z`: the parity of `⌊z / 2^i⌋`. -/
def bitOf (z : Int) (i : Nat) : Bool := decide (z / 2 ^ i % 2 = 1)

end Gauche.Integer
