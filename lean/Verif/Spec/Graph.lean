import Mathlib.Logic.Relation
/-
Specification: directed graphs given by adjacency lists, independent of any algorithm.
-/
namespace Gauche.Spec

/-- There is an edge from `u` to `v`. -/
def Edge {α : Type} (g : List (α × List α)) (u v : α) : Prop := ∃ tos, (u, tos) ∈ g ∧ v ∈ tos

/-- `v` occurs in the graph. -/
def IsNode {α : Type} (g : List (α × List α)) (v : α) : Prop := (∃ tos, (v, tos) ∈ g) ∨ ∃ u, Edge g u v

/-- `v` lies on a cycle. -/
def OnCycle {α : Type} (g : List (α × List α)) (v : α) : Prop := Relation.TransGen (Edge g) v v

/-- `l` lists every node once and every node before its successors. -/
def IsTopologicalOrder {α : Type} (g : List (α × List α)) (l : List α) : Prop :=
  l.Nodup ∧ (∀ v, v ∈ l ↔ IsNode g v) ∧
  ∀ (i j : Nat) (u v : α), l[i]? = some u → l[j]? = some v → Edge g u v → i < j

end Gauche.Spec
