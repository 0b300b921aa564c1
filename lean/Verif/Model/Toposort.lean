import Mathlib.Data.List.Basic
/-
Topological sort, lib/srfi/234.scm and lib/util/toposort.scm.

A graph is a list of (node . successors).  `eq` is the equality procedure given by the caller; it is called by
`assoc` as `(eq key entry-key)`.  The table of counts and the two lists are the state; `set-cdr!` on the pair
found by `assoc` is an update of the first entry with the key.
-/
namespace Gauche.Toposort

variable {α : Type}

abbrev Graph (α : Type) := List (α × List α)

/-- `(assoc key alist eq)` of lib/srfi/234.scm: the first entry. -/
def assoc {β : Type} (eq : α → α → Bool) (x : α) : List (α × β) → Option (α × β)
  | [] => none
  | p :: r => if eq x p.1 then some p else assoc eq x r

/-- `(set-cdr! p v)` where `p` is what `assoc` has found. -/
def setFirst {β : Type} (eq : α → α → Bool) (x : α) (v : β) : List (α × β) → List (α × β)
  | [] => []
  | p :: r => if eq x p.1 then (p.1, v) :: r else p :: setFirst eq x v r

/-- The body of the inner `for-each` of `set-up` in lib/srfi/234.scm:38-103 `topological-sort-impl/details`. -/
def countEdge (eq : α → α → Bool) (table : List (α × Int)) (tgt : α) : List (α × Int) :=
  match assoc eq tgt table with
  | some p => setFirst eq tgt (1 + p.2) table
  | none => (tgt, 1) :: table

/-- `set-up` in lib/srfi/234.scm:38-103 `topological-sort-impl/details`. -/
def setUp (eq : α → α → Bool) (graph : Graph α) (table : List (α × Int)) : List (α × Int) :=
  graph.foldl (fun t node => node.2.foldl (countEdge eq) t) table

structure State (α : Type) where
  table : List (α × Int)
  queue : List α
  result : List α

/-- The body of the `for-each` of `traverse` in lib/srfi/234.scm:38-103 `topological-sort-impl/details`. -/
def visitEdge (eq : α → α → Bool) (s : State α) (tgt : α) : State α :=
  match assoc eq tgt s.table with
  | none => s
  | some p =>
    let cnt := p.2 - 1
    let s := if cnt = 0 then { s with result := tgt :: s.result, queue := tgt :: s.queue } else s
    { s with table := setFirst eq tgt cnt s.table }

/-- `traverse` in lib/srfi/234.scm:38-103 `topological-sort-impl/details`; `none` = more than the given number of rounds. -/
def traverse (eq : α → α → Bool) (graph : Graph α) : Nat → State α → Option (State α)
  | 0, _ => none
  | fuel + 1, s =>
    match s.queue with
    | [] => some s
    | q :: rest =>
      let s := { s with queue := rest }
      match assoc eq q graph with
      | none => traverse eq graph fuel s
      | some n0 => traverse eq graph fuel (n0.2.foldl (visitEdge eq) s)

/-- What the sort answers: the sorted nodes, or the message with the nodes in `rest`. -/
inductive Answer (α : Type) where
  | sorted (l : List α)
  | circular (rest : List α)

/-- lib/srfi/234.scm:38-103 `topological-sort-impl/details` without the vector of node names. -/
def sortDetails (eq : α → α → Bool) (graph : Graph α) : Option (Answer α) :=
  let table := setUp eq graph (graph.map fun n => (n.1, 0))
  let queue := (table.map fun p => if p.2 = 0 then [p.1] else []).flatten
  (traverse eq graph (2 * table.length + 1) ⟨table, queue, queue⟩).map fun s =>
    let rest := s.table.filter fun e => ¬ (e.2 = 0)
    if rest.isEmpty then .sorted s.result.reverse else .circular (rest.map (·.1))

/-- lib/srfi/234.scm:33-36 `topological-sort-impl`: `#f` = inner `none`. -/
def sortImpl (eq : α → α → Bool) (graph : Graph α) : Option (Option (List α)) :=
  (sortDetails eq graph).map fun a => match a with
    | .sorted l => some l
    | .circular _ => none

/-- lib/util/toposort.scm:15-17 `topological-sort` (the definition outside the block comment): inner `none` = the error. -/
def topologicalSort (eq : α → α → Bool) (graph : Graph α) : Option (Option (List α)) := sortImpl eq graph

end Gauche.Toposort
