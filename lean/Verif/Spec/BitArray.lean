/-
Specification vocabulary for packed bit arrays (src/bits.c) and bitvectors.

A bit array is a list of 64-bit words; bit `i` of the array is bit `i % 64` of
word `i / 64`.  Everything else is said with plain quantifiers over bit numbers,
or with the list of booleans a bitvector stands for.
-/
namespace Gauche.Bits.Spec

/-- Bit number `i` of a packed array (false beyond its end). -/
def bitAt (a : List (BitVec 64)) (i : Nat) : Bool := (a.getD (i / 64) 0#64).getLsbD (i % 64)

/-- How many of the bits `s, s+1, …, e-1` have the value `v`. -/
def countOf (a : List (BitVec 64)) (v : Bool) (s e : Nat) : Nat :=
  ((List.range' s (e - s)).filter (fun i => bitAt a i == v)).length

/-- `r` is the number of the lowest bit of value `v` in `[s, e)`, or -1 when there is none. -/
def IsLowest (a : List (BitVec 64)) (v : Bool) (s e : Nat) (r : Int) : Prop :=
  (r = -1 ∧ ∀ i, s ≤ i → i < e → bitAt a i ≠ v) ∨
  ∃ k : Nat, r = k ∧ s ≤ k ∧ k < e ∧ bitAt a k = v ∧ ∀ i, s ≤ i → i < k → bitAt a i ≠ v

/-- `r` is the number of the highest bit of value `v` in `[s, e)`, or -1 when there is none. -/
def IsHighest (a : List (BitVec 64)) (v : Bool) (s e : Nat) (r : Int) : Prop :=
  (r = -1 ∧ ∀ i, s ≤ i → i < e → bitAt a i ≠ v) ∨
  ∃ k : Nat, r = k ∧ s ≤ k ∧ k < e ∧ bitAt a k = v ∧ ∀ i, k < i → i < e → bitAt a i ≠ v

/-- The sixteen boolean connectives of `ScmBitOp`, as truth functions. -/
inductive Op | and | ior | xor | eqv | nand | nor | andc1 | andc2 | iorc1 | iorc2 | xorc1 | xorc2
  | src1 | src2 | not1 | not2
deriving DecidableEq, Repr

/-- The truth table of a connective. -/
def Op.truth : Op → Bool → Bool → Bool
  | .and, x, y => x && y
  | .ior, x, y => x || y
  | .xor, x, y => x != y
  | .eqv, x, y => x == y
  | .nand, x, y => !(x && y)
  | .nor, x, y => !(x || y)
  | .andc1, x, y => !x && y
  | .andc2, x, y => x && !y
  | .iorc1, x, y => !x || y
  | .iorc2, x, y => x || !y
  | .xorc1, x, y => (!x) != y
  | .xorc2, x, y => x != !y
  | .src1, x, _ => x
  | .src2, _, y => y
  | .not1, x, _ => !x
  | .not2, _, y => !y

end Gauche.Bits.Spec

namespace Gauche.Bits.Spec

/-- The list of booleans an `n`-bit bitvector with the words `a` stands for. -/
def bools (n : Nat) (a : List (BitVec 64)) : List Bool := (List.range n).map (bitAt a)

/-- SRFI-178 logical shift of a list of bits: positive counts move towards index 0, and
vacated places get `bit`. -/
def shifted (l : List Bool) (count : Int) (bit : Bool) : List Bool :=
  (List.range l.length).map fun (i : Nat) =>
    if 0 ≤ (i : Int) + count ∧ (i : Int) + count < l.length then l.getD ((i : Int) + count).toNat bit else bit

/-- The sublist `[s, e)`. -/
def slice (l : List Bool) (s e : Nat) : List Bool := (l.take e).drop s

end Gauche.Bits.Spec
