/-! Model of lib/util/dominator.scm from the numbered graph on.

The nodes are numbered in postorder, so that the start has the largest number `s`; the numbering itself (`postorder`, `setup!`,
lib/util/dominator.scm:61-81) is not modelled: `ups` gives the numbers of the upstream nodes.  The vector `doms` is a function that gives
nothing where the vector has `#f`.  `none` as a result stands for an error or for a loop that exceeds its count. -/
namespace Gauche.Dominator

/-- The vector `doms` (lib/util/dominator.scm:110). -/
abbrev Doms := Nat → Option Nat

/-- `intersect` (lib/util/dominator.scm:102-107); the first argument bounds the number of steps. -/
def intersect : Nat → Doms → Nat → Nat → Option Nat
  | 0, _, _, _ => none
  | k + 1, doms, f1, f2 =>
    if f1 = f2 then some f1
    else if f1 < f2 then (doms f1).bind (fun f => intersect k doms f f2)
    else (doms f2).bind (fun f => intersect k doms f1 f)

/-- The `fold` in `update` (lib/util/dominator.scm:87-91). -/
def fold (s : Nat) (doms : Doms) (b0 : Nat) : List Nat → Nat → Option Nat
  | [], newIdom => some newIdom
  | n :: l, newIdom =>
    if n ≠ b0 then
      match doms n with
      | some m => (intersect (2 * s + 1) doms m newIdom).bind (fun r => fold s doms b0 l r)
      | none => fold s doms b0 l newIdom
    else fold s doms b0 l newIdom

/-- The first lines of `update` (lib/util/dominator.scm:84-91): the new dominator. -/
def newDom (s : Nat) (ups : Nat → List Nat) (doms : Doms) (nid : Nat) : Option Nat :=
  match (ups nid).find? (fun n => (doms n).isSome) with
  | none => none
  | some b0 => fold s doms b0 (ups nid) b0

/-- `update` (lib/util/dominator.scm:83-95): the vector and whether something changed. -/
def update (s : Nat) (ups : Nat → List Nat) (doms : Doms) (nid : Nat) (changed : Bool) : Option (Doms × Bool) :=
  (newDom s ups doms nid).map (fun r =>
    if doms nid = some r then (doms, changed) else ((fun i => if i = nid then some r else doms i), true))

/-- The `fold` in `iterate!` (lib/util/dominator.scm:98-99), over `n - 1`, …, 0. -/
def pass (s : Nat) (ups : Nat → List Nat) : Nat → Doms → Bool → Option (Doms × Bool)
  | 0, doms, changed => some (doms, changed)
  | n + 1, doms, changed => (update s ups doms n changed).bind (fun p => pass s ups n p.1 p.2)

/-- `iterate!` (lib/util/dominator.scm:97-100); the first argument bounds the number of iterations. -/
def iterate (s : Nat) (ups : Nat → List Nat) : Nat → Doms → Option Doms
  | 0, _ => none
  | k + 1, doms =>
    match pass s ups s doms false with
    | none => none
    | some p => if p.2 then iterate s ups k p.1 else some p.1

/-- The vector at the beginning (lib/util/dominator.scm:110-111). -/
def doms0 (s : Nat) : Doms := fun i => if i = s then some s else none

/-- `calculate-dominators` on the numbers (lib/util/dominator.scm:109-115): the pairs of a node and its dominator. -/
def calculate (s : Nat) (ups : Nat → List Nat) (k : Nat) : Option (List (Nat × Option Nat)) :=
  (iterate s ups k (doms0 s)).map (fun doms => (List.range s).map (fun i => (i, doms i)))

/-- The vector after `k` iterations without looking at whether something changed. -/
def passes (s : Nat) (ups : Nat → List Nat) : Nat → Option Doms
  | 0 => some (doms0 s)
  | k + 1 => (passes s ups k).bind (fun d => (pass s ups s d false).map (fun p => p.1))

end Gauche.Dominator
