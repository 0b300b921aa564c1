/-! Data for the specification of hash functions. -/
namespace Gauche.Hash

/-- A flonum as src/number.c:437-480 `Scm_DecodeFlonum` returns it: not finite, or a sign, an exponent and a mantissa. -/
inductive Fl where
  | nan
  | inf (neg : Bool)
  | fin (neg : Bool) (e : Int) (m : Nat)
deriving DecidableEq, Repr

/-- The kinds of uniform vectors of integers; the elements of `s`-vectors are given by their bits. -/
inductive Kind where
  | s8 | u8 | s16 | u16 | s32 | u32 | s64 | u64
deriving DecidableEq, Repr

/-- Data. -/
inductive D where
  | int (z : Int)
  | rat (n d : Int)
  | flo (f : Fl)
  | comp (re im : Fl)
  | imm (w : Nat)
  | str (bytes : List Nat)
  | sym (name : List Nat)
  | pair (a d : D)
  | vec (l : List D)
  | uvec (k : Kind) (l : List Nat)
  | f64vec (l : List Fl)

/-- A platform has words of 32 or 64 bits. -/
def Width (W : Nat) : Prop := W = 32 ∨ W = 64

/-- No zero with a sign. -/
def Fl.plain : Fl → Bool
  | .fin neg _ m => !(neg && m == 0)
  | _ => true

mutual
/-- No negative zero in a complex number or in a uniform vector. -/
def noNegZero : D → Bool
  | .comp a b => a.plain && b.plain
  | .f64vec l => l.all Fl.plain
  | .pair a d => noNegZero a && noNegZero d
  | .vec l => noNegZeroList l
  | _ => true

/-- The same for the elements of a vector. -/
def noNegZeroList : List D → Bool
  | [] => true
  | x :: l => noNegZero x && noNegZeroList l
end

/-- The exponent of zero in the decoded form. -/
def Fl.ok : Fl → Bool
  | .fin _ e m => !(m == 0) || e == -1074
  | _ => true

mutual
/-- The flonums in the data are what `Scm_DecodeFlonum` returns, as far as zero is concerned. -/
def decoded : D → Bool
  | .flo f => f.ok
  | .comp a b => a.ok && b.ok
  | .f64vec l => l.all Fl.ok
  | .pair a d => decoded a && decoded d
  | .vec l => decodedList l
  | _ => true

/-- The same for the elements of a vector. -/
def decodedList : List D → Bool
  | [] => true
  | x :: l => decoded x && decodedList l
end

end Gauche.Hash
