import Mathlib.Data.List.Basic
/-
Specification: matchings of two sequences, independent of any algorithm.
-/
namespace Gauche.Spec

/-- The pairs of positions increase in both components and pair elements that are equal under `eq`. -/
def IsMatching {α : Type} (eq : α → α → Bool) (a b : List α) (ps : List (Nat × Nat)) : Prop :=
  ps.Pairwise (fun p q => p.1 < q.1 ∧ p.2 < q.2) ∧
  ∀ p ∈ ps, ∃ x y, a[p.1]? = some x ∧ b[p.2]? = some y ∧ eq x y = true

end Gauche.Spec
namespace Gauche.Spec

/-- A step of an edit script that leads from one sequence to another. -/
inductive Ev (α : Type) where
  | del (x : α)
  | ins (y : α)
  | keep (x y : α)

/-- The sequence an edit script starts from. -/
def Ev.source {α : Type} : List (Ev α) → List α
  | [] => []
  | .del x :: r => x :: Ev.source r
  | .ins _ :: r => Ev.source r
  | .keep x _ :: r => x :: Ev.source r

/-- The sequence an edit script leads to. -/
def Ev.target {α : Type} : List (Ev α) → List α
  | [] => []
  | .del _ :: r => Ev.target r
  | .ins y :: r => y :: Ev.target r
  | .keep _ y :: r => y :: Ev.target r

/-- The pairs of elements an edit script keeps. -/
def Ev.kept {α : Type} : List (Ev α) → List (α × α)
  | [] => []
  | .del _ :: r => Ev.kept r
  | .ins _ :: r => Ev.kept r
  | .keep x y :: r => (x, y) :: Ev.kept r

/-- The elements of `l` whose index is not in `ps`; `i` is the index of the first. -/
def removeFrom {α : Type} (i : Int) : List α → List Int → List α
  | [], _ => []
  | x :: r, ps => if i ∈ ps then removeFrom (i + 1) r ps else x :: removeFrom (i + 1) r ps

end Gauche.Spec
