import Verif.Model.Unify
/-! Specification of unification: assignments of trees to variables. -/
namespace Gauche.Unify

mutual
/-- The tree with its variables replaced. -/
def eval (s : Nat → Tree) : Tree → Tree
  | .var v => s v
  | .val c => .val c
  | .tup l => .tup (evalL s l)
/-- The same for the elements of a tuple. -/
def evalL (s : Nat → Tree) : List Tree → List Tree
  | [] => []
  | a :: l => eval s a :: evalL s l
end

/-- `s` makes `a` and `b` the same. -/
def Unifies (s : Nat → Tree) (a b : Tree) : Prop := eval s a = eval s b

/-- `s` respects every entry of the dictionary. -/
def Sat (s : Nat → Tree) (d : Dict) : Prop := ∀ v t, d v = some t → s v = eval s t

end Gauche.Unify
