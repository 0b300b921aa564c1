import Mathlib.Data.List.Basic
/-
Specification of sorting, independent of any algorithm.
-/
namespace Gauche.Spec

/-- A strict weak order: what a comparison procedure must be for "sorted" to make sense. -/
structure StrictWeak {α : Type} (lt : α → α → Bool) : Prop where
  asymm : ∀ x y, lt x y = true → lt y x = false
  negTrans : ∀ x y z, lt x y = false → lt y z = false → lt x z = false

/-- No element is less than an earlier one. -/
def IsSorted {α : Type} (lt : α → α → Bool) (l : List α) : Prop := l.Pairwise fun x y => lt y x = false

/-- `ys` is `xs` stably sorted: the same elements, in order, and among equivalent ones the order of `xs`. -/
def IsStableSort {α : Type} (lt : α → α → Bool) (xs ys : List α) : Prop :=
  ys.Perm xs ∧ IsSorted lt ys ∧
  ∀ z, ys.filter (fun x => !lt x z && !lt z x) = xs.filter (fun x => !lt x z && !lt z x)

/-- The cells `cs`, in order, make up the list that starts at `p`; `cdr` tells the cell that follows a cell. -/
def Linked (cdr : Nat → Option Nat) : Option Nat → List Nat → Prop
  | p, [] => p = none
  | p, c :: cs => p = some c ∧ Linked cdr (cdr c) cs

end Gauche.Spec
