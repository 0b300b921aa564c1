import Mathlib.Data.List.Nodup
/-
Specification: linear orders compatible with given sequences.
-/
namespace Gauche.Linear

/-- `r` puts the elements of the sequences, each once, in an order that agrees with every sequence. -/
def Linear {α : Type} (seqs : List (List α)) (r : List α) : Prop :=
  r.Nodup ∧ (∀ s ∈ seqs, s.Sublist r) ∧ ∀ x ∈ r, ∃ s ∈ seqs, x ∈ s

/-- The first element of `s` not in `pre`. -/
def firstNotIn {α : Type} [DecidableEq α] (pre s : List α) : Option α := s.find? fun x => decide (x ∉ pre)

/-- `h` may come next after `pre`: no sequence has an element outside `pre` before `h`. -/
def Free {α : Type} (seqs : List (List α)) (pre : List α) (h : α) : Prop :=
  ∀ s ∈ seqs, ∀ a b, s = a ++ h :: b → ∀ x ∈ a, x ∈ pre

end Gauche.Linear
