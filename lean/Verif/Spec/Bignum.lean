import Verif.Model.Bignum
/-
Specification side of the exact-integer properties: which mathematical integer an object denotes, and which objects are
the canonical representatives.
-/
namespace Gauche.Bignum

/-- The natural number written by a digit vector in base 2^64, least significant word first. -/
def val : List Nat → Nat
  | [] => 0
  | w :: ws => w + W64 * val ws

/-- Every element is a 64-bit word. -/
def Words (l : List Nat) : Prop := ∀ w ∈ l, w < W64

/-- The integer denoted by a bignum. -/
def Big.toInt (b : Big) : Int := b.sign * (val b.vals : Int)

/-- The integer denoted by an exact integer object. -/
def Num.toInt : Num → Int
  | .fix n => n
  | .big b => b.toInt

/-- The canonical objects: a fixnum in the fixnum range, or a bignum with sign ±1, nonempty vector of words without a
leading zero word, denoting a value outside the fixnum range. -/
def Num.Canonical : Num → Prop
  | .fix n => FIXMIN ≤ n ∧ n ≤ FIXMAX
  | .big b => (b.sign = 1 ∨ b.sign = -1) ∧ Words b.vals ∧ (∃ h : b.vals ≠ [], b.vals.getLast h ≠ 0)
      ∧ ¬ (FIXMIN ≤ b.toInt ∧ b.toInt ≤ FIXMAX)

/-- The result `r` is the canonical object for the integer `z`. -/
def Num.IsInt (r : Num) (z : Int) : Prop := r.Canonical ∧ r.toInt = z

end Gauche.Bignum
