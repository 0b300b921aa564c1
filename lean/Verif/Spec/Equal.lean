/-
Specification for `equal?`: data with sharing and cycles are a heap of pairs and vectors, and two data are the same when the (possibly infinite) trees they unfold to are the
same: every path of component numbers that leads somewhere in one leads to the same kind of thing in the other.
-/
namespace Gauche.Equal

/-- Data that are not pairs or vectors: immediates and symbols (`imm`), exact integers, flonums other than NaN by their bits, and strings, which are objects with an
identity `id` and a content `s`. -/
inductive Leaf where
  | imm (n : Nat)
  | int (z : Int)
  | flo (bits : Nat)
  | str (id : Nat) (s : List Char)
deriving DecidableEq, Repr

/-- A value: a leaf or the address of a pair or a vector. -/
inductive Val where
  | leaf (a : Leaf)
  | ptr (p : Nat)
deriving DecidableEq, Repr

/-- Pairs and vectors. -/
inductive Cell where
  | pair (a d : Val)
  | vec (l : List Val)
deriving DecidableEq, Repr

/-- The heap; the address of an object is its position. -/
abbrev Heap := List Cell

/-- The object at an address (addresses outside of the heap do not occur). -/
def cellAt (H : Heap) (p : Nat) : Cell := H.getD p (.vec [])

/-- The components of a value. -/
def kids (H : Heap) : Val → List Val
  | .leaf _ => []
  | .ptr p =>
    match cellAt H p with
    | .pair a d => [a, d]
    | .vec l => l

/-- What one sees at a value without looking at its components and without object identity. -/
inductive Shape where
  | imm (n : Nat)
  | int (z : Int)
  | flo (bits : Nat)
  | str (s : List Char)
  | pair
  | vec (n : Nat)
deriving DecidableEq, Repr

/-- The shape of a value. -/
def shape (H : Heap) : Val → Shape
  | .leaf (.imm n) => .imm n
  | .leaf (.int z) => .int z
  | .leaf (.flo b) => .flo b
  | .leaf (.str _ s) => .str s
  | .ptr p =>
    match cellAt H p with
    | .pair _ _ => .pair
    | .vec l => .vec l.length

/-- The value at the end of a path of component numbers. -/
def follow (H : Heap) : List Nat → Val → Option Val
  | [], v => some v
  | i :: path, v =>
    match (kids H v)[i]? with
    | none => none
    | some w => follow H path w

/-- The trees that the two values unfold to are the same. -/
def SameTree (H : Heap) (x y : Val) : Prop :=
  ∀ path : List Nat, (follow H path x).map (shape H) = (follow H path y).map (shape H)

/-- The value is a pair and so are its cdr, the cdr of its cdr and so on: a circular list. -/
def CircularList (H : Heap) (x : Val) : Prop :=
  ∀ n : Nat, ∃ v, follow H (List.replicate n 1) x = some v ∧ shape H v = .pair

/-- A value whose address is in the heap. -/
def VOK (H : Heap) : Val → Prop
  | .leaf _ => True
  | .ptr p => p < H.length

/-- A heap without dangling addresses. -/
def HeapOK (H : Heap) : Prop := ∀ v w, VOK H v → w ∈ kids H v → VOK H w

end Gauche.Equal
