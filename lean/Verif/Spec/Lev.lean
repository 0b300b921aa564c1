/-! Specification of edit distances: alignments of two sequences and their costs. -/
namespace Gauche.Lev

variable {α : Type}

/-- `Edit eq a b n`: `a` can be turned into `b`, going from left to right, with `n` insertions, deletions and substitutions; elements
that are the same by `eq` are kept for free. -/
inductive Edit (eq : α → α → Bool) : List α → List α → Nat → Prop
  | nil : Edit eq [] [] 0
  | del {a b n} (x : α) : Edit eq a b n → Edit eq (a ++ [x]) b (n + 1)
  | ins {a b n} (y : α) : Edit eq a b n → Edit eq a (b ++ [y]) (n + 1)
  | sub {a b n} (x y : α) : Edit eq a b n → Edit eq (a ++ [x]) (b ++ [y]) (n + 1)
  | keep {a b n} (x y : α) : eq x y = true → Edit eq a b n → Edit eq (a ++ [x]) (b ++ [y]) n

/-- The same with transpositions: two adjacent elements may be exchanged at cost one (nothing if they are the same), where `ok i j` says
whether this is allowed after `i` elements of the first and `j` elements of the second sequence. -/
inductive REdit (eq : α → α → Bool) (ok : Nat → Nat → Bool) : List α → List α → Nat → Prop
  | nil : REdit eq ok [] [] 0
  | del {a b n} (x : α) : REdit eq ok a b n → REdit eq ok (a ++ [x]) b (n + 1)
  | ins {a b n} (y : α) : REdit eq ok a b n → REdit eq ok a (b ++ [y]) (n + 1)
  | sub {a b n} (x y : α) : REdit eq ok a b n → REdit eq ok (a ++ [x]) (b ++ [y]) (n + 1)
  | keep {a b n} (x y : α) : eq x y = true → REdit eq ok a b n → REdit eq ok (a ++ [x]) (b ++ [y]) n
  | swap {a b n} (x' x y' y : α) : eq x y' = true → eq x' y = true → ok a.length b.length = true → REdit eq ok a b n →
      REdit eq ok (a ++ [x', x]) (b ++ [y', y]) (n + if eq x y then 0 else 1)

/-- `n` is the least number that satisfies `p`. -/
def Least (p : Nat → Prop) (n : Nat) : Prop := p n ∧ ∀ m, p m → n ≤ m

/-- What is returned for the distance `d`: `#f` if it exceeds the cutoff. -/
def withCutoff (cutoff : Option Nat) (d : Nat) : Option Nat :=
  match cutoff with
  | none => some d
  | some c => if d ≤ c then some d else none

/-- One edit anywhere in a sequence. -/
inductive Step : List α → List α → Prop
  | ins (u v : List α) (x : α) : Step (u ++ v) (u ++ x :: v)
  | del (u v : List α) (x : α) : Step (u ++ x :: v) (u ++ v)
  | sub (u v : List α) (x y : α) : Step (u ++ x :: v) (u ++ y :: v)

/-- `n` edits one after the other. -/
inductive Steps : Nat → List α → List α → Prop
  | zero (a : List α) : Steps 0 a a
  | succ {n a b c} : Steps n a b → Step b c → Steps (n + 1) a c

end Gauche.Lev
