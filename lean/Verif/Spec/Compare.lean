import Verif.Model.Compare
/-! Specification of the order of SRFI 114. -/
namespace Gauche.Compare

/-- The types in their order: the empty list, pairs, booleans, characters, strings, symbols, numbers, vectors, uniform vectors, others. -/
def D.tag : D → Nat
  | .null => 0 | .pair _ _ => 1 | .bool _ => 2 | .char _ => 3 | .str _ _ => 4 | .sym _ => 5 | .usym _ _ => 5 | .num _ => 6 | .vec _ => 7
  | .uvec _ _ => 8 | .obj _ _ => 9

/-- The lexicographic order made from an order of the elements; a list that the other one continues is smaller. -/
def lexOrd {α : Type} (c : α → α → Ordering) : List α → List α → Ordering
  | [], [] => .eq
  | [], _ :: _ => .lt
  | _ :: _, [] => .gt
  | x :: xs, y :: ys => match c x y with
    | .eq => lexOrd c xs ys
    | o => o

/-- The list with these elements. -/
def list : List D → D
  | [] => .null
  | x :: xs => .pair x (list xs)

/-- The conversion of numbers to doubles respects the order. -/
def Monotone (rnd : Rat → Rat) : Prop := ∀ p q, p ≤ q → rnd p ≤ rnd q

/-- The element with number `i` of a list without end. -/
def nthElem (car cdr : Nat → Nat) : Nat → Nat → Nat
  | p, 0 => car p
  | p, i + 1 => nthElem car cdr (cdr p) i

end Gauche.Compare
