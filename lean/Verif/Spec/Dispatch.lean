import Mathlib.Data.List.Basic
/-
What a call of a generic function means (Gauche reference manual, "Generic function and method"): the specification
that C77 and C78 are stated against.  Classes and methods are objects; a class is known by a number, and its class
precedence list is given by `World`.
-/
namespace Gauche.Dispatch

/-- The classes of the program: the class precedence list of every class, and the distinguished class `<top>`. -/
structure World where
  cpl : Nat → List Nat
  top : Nat
  bottom : Nat

/-- A method: the object's identity, the specializers of its required arguments, whether it takes more arguments, whether
its body leaves `next-method` unused (`leaf`), whether its body only calls `next-method` (`placeholder`), and whether
it is locked. -/
structure Method where
  id : Nat
  specs : List Nat
  opt : Bool := false
  leaf : Bool := false
  placeholder : Bool := false
  locked : Bool := false
  deriving DecidableEq, Repr

namespace Spec

/-- The class `c` can be passed where `s` is asked for. -/
def IsA (w : World) (c s : Nat) : Prop := s = w.top ∨ c = s ∨ s ∈ w.cpl c

/-- The method accepts `n` arguments. -/
def Accepts (m : Method) (n : Nat) : Prop := if m.opt then m.specs.length ≤ n else m.specs.length = n

/-- The method is applicable to arguments of the classes `args`. -/
def Applicable (w : World) (m : Method) (args : List Nat) : Prop :=
  Accepts m args.length ∧ ∀ (i s c : Nat), m.specs[i]? = some s → args[i]? = some c → IsA w c s

/-- `s` comes before `t` as a superclass of `c`: `s` occurs in the class precedence list (which begins with `c`) and
`t` does not occur up to there. -/
def Before (w : World) (c s t : Nat) : Prop :=
  ∃ pre post, c :: w.cpl c = pre ++ s :: post ∧ t ∉ pre ∧ t ≠ s

/-- `x` is more specific than `y` for arguments of the classes `args`: at the first required argument where the
specializers differ, `x`'s comes first in the precedence list of the argument's class; if they do not differ, `x` has
more required arguments, or as many and `y` takes optional arguments and `x` does not. -/
def MoreSpecific (w : World) (args : List Nat) (x y : Method) : Prop :=
  (∃ (i s t c : Nat), x.specs.take i = y.specs.take i ∧ x.specs[i]? = some s ∧ y.specs[i]? = some t ∧ args[i]? = some c ∧
      Before w c s t) ∨
  (∃ r, r ≠ [] ∧ x.specs = y.specs ++ r) ∨
  (x.specs = y.specs ∧ x.opt = false ∧ y.opt = true)

/-- The order in which the methods of the set `S` are to be called for arguments of the classes `args`: all the
applicable ones (those that only call `next-method` need not appear), the more specific ones first. -/
def CallOrder (w : World) (S : Method → Prop) (args : List Nat) (l : List Method) : Prop :=
  (∀ m, m ∈ l ↔ S m ∧ m.placeholder = false ∧ Applicable w m args) ∧ l.Nodup ∧ l.Pairwise (MoreSpecific w args)

/-- Two methods have the same signature. -/
def SameSig (a b : Method) : Prop := a.specs = b.specs ∧ a.opt = b.opt

/-- What happens to a generic function. -/
inductive Op where
  | add (m : Method)
  | del (m : Method)

/-- The methods after `add-method!` or `delete-method!`: a method replaces one of the same signature; adding fails
(and changes nothing) if that one is locked. -/
def step (S : Method → Prop) : Op → Method → Prop
  | .add m, x => S x ∧ (∃ y, S y ∧ y.locked = true ∧ SameSig m y) ∨
      (x = m ∨ S x ∧ ¬ SameSig m x) ∧ ¬ ∃ y, S y ∧ y.locked = true ∧ SameSig m y
  | .del m, x => S x ∧ x ≠ m

/-- The methods after a history that begins with no method. -/
def live : List Op → (Method → Prop) → (Method → Prop)
  | [], S => S
  | op :: ops, S => live ops (step S op)

end Spec
end Gauche.Dispatch
