/-! Model of lib/util/levenshtein.scm: `l-distance(s)` and `re-distance(s)`.

Sequences are lists.  A row (a vector) is a function from the index; that all the indexes are in range is not modelled.  The rows are kept
between the sequences of the list `Bs`, as in the code, with whatever they contain. -/
namespace Gauche.Lev

variable {α : Type}

/-- A vector of numbers (lib/util/levenshtein.scm:117-118, 173-175). -/
abbrev Row := Nat → Nat

/-- `vector-set!` on a row (lib/util/levenshtein.scm:126, 133, 204). -/
def vset (v : Row) (i d : Nat) : Row := fun k => if k = i then d else v k

/-- The test of the `check` procedure `(^d (if (< cutoff d) (break #f)))`; there is no check without cutoff
(lib/util/levenshtein.scm:141-145). -/
def exceeds (cutoff : Option Nat) (d : Nat) : Bool :=
  match cutoff with
  | none => false
  | some c => decide (c < d)

/-- The loop over `A` in `l-base` (lib/util/levenshtein.scm:127-134): the row and the smallest value in it. -/
def lInner (eq : α → α → Bool) (b : α) (row1 : Row) : Nat → List α → Row → Nat → Row × Nat
  | _, [], row0, dmin => (row0, dmin)
  | i, a :: A, row0, dmin =>
    let d := min (min (row0 i + 1) (row1 (i + 1) + 1)) (row1 i + if eq a b then 0 else 1)
    lInner eq b row1 (i + 1) A (vset row0 (i + 1) d) (if d < dmin then d else dmin)

/-- The loop over `B` in `l-base` (lib/util/levenshtein.scm:121-137); the circular list of two rows is a pair, and `pop!` exchanges them.
The result is `false` if the cutoff was exceeded. -/
def lOuter (eq : α → α → Bool) (A : List α) (cutoff : Option Nat) : Nat → List α → Row × Row → Bool × (Row × Row)
  | _, [], rows => (true, rows)
  | j, b :: B, rows =>
    let p := lInner eq b rows.2 0 A (vset rows.1 0 (j + 1)) (j + 1)
    if exceeds cutoff p.2 then (false, (p.1, rows.2)) else lOuter eq A cutoff (j + 1) B (rows.2, p.1)

/-- `run` and `f` of `l-base` (lib/util/levenshtein.scm:119-145). -/
def lRun (eq : α → α → Bool) (A : List α) (cutoff : Option Nat) (rows : Row × Row) (B : List α) : Option Nat × (Row × Row) :=
  let q := lOuter eq A cutoff 0 B (rows.1, fun k => if k < A.length + 1 then k else rows.2 k)
  if q.1 then
    let r := q.2.2 A.length
    (if exceeds cutoff r then none else some r, q.2)
  else (none, q.2)

/-- `(map f Bs)` in `l-base` (lib/util/levenshtein.scm:147), `l-distances`. -/
def lBase (eq : α → α → Bool) (A : List α) (cutoff : Option Nat) : Row × Row → List (List α) → List (Option Nat)
  | _, [] => []
  | rows, B :: Bs =>
    let q := lRun eq A cutoff rows B
    q.1 :: lBase eq A cutoff q.2 Bs

/-- `(elt= (aref i) (bref j))` (lib/util/levenshtein.scm:197-198). -/
def refEq (eq : α → α → Bool) (A B : List α) (i j : Nat) : Bool :=
  match A[i]?, B[j]? with
  | some a, some b => eq a b
  | _, _ => false

/-- The loop over `A` in `re-base` (lib/util/levenshtein.scm:191-204). -/
def rInner (eq : α → α → Bool) (A0 B0 : List α) (j : Nat) (b : α) (row1 row2 : Row) : Nat → List α → Row → Nat → Row × Nat
  | _, [], row0, dmin => (row0, dmin)
  | i, a :: A, row0, dmin =>
    let d := min (min (row0 (i + 1) + 1) (row1 (i + 2) + 1)) (row1 (i + 1) + if eq a b then 0 else 1)
    let d := if i > 1 && j > 1 && refEq eq A0 B0 i (j - 1) && refEq eq A0 B0 (i - 1) j then
        min d (row2 i + if eq a b then 0 else 1)
      else d
    rInner eq A0 B0 j b row1 row2 (i + 1) A (vset row0 (i + 2) d) (if d < dmin then d else dmin)

/-- The loop over `B` in `re-base` (lib/util/levenshtein.scm:184-208); the three rows are a triple, turned by two `pop!`s. -/
def rOuter (eq : α → α → Bool) (A B0 : List α) (cutoff : Option Nat) : Nat → List α → Nat → Row × Row × Row → Bool × (Row × Row × Row)
  | _, [], _, rows => (true, rows)
  | j, b :: B, dmin1, rows =>
    let p := rInner eq A B0 j b rows.2.1 rows.2.2 0 A (vset (vset rows.1 0 (A.length + B0.length)) 1 (j + 1)) (j + 1)
    if exceeds cutoff (min p.2 dmin1) then (false, (p.1, rows.2.1, rows.2.2))
    else rOuter eq A B0 cutoff (j + 1) B p.2 (rows.2.2, p.1, rows.2.1)

/-- `run` and `f` of `re-base` (lib/util/levenshtein.scm:177-217). -/
def rRun (eq : α → α → Bool) (A : List α) (cutoff : Option Nat) (rows : Row × Row × Row) (B : List α) :
    Option Nat × (Row × Row × Row) :=
  let q := rOuter eq A B cutoff 0 B 0 (rows.1,
    (fun k => if k < A.length + 2 then (if k = 0 then A.length + B.length else k - 1) else rows.2.1 k),
    (fun _ => A.length + B.length))
  if q.1 then
    let r := q.2.2.1 (A.length + 1)
    (if exceeds cutoff r then none else some r, q.2)
  else (none, q.2)

/-- `(map f Bs)` in `re-base`, `re-distances` (lib/util/levenshtein.scm:219). -/
def rBase (eq : α → α → Bool) (A : List α) (cutoff : Option Nat) : Row × Row × Row → List (List α) → List (Option Nat)
  | _, [] => []
  | rows, B :: Bs =>
    let q := rRun eq A cutoff rows B
    q.1 :: rBase eq A cutoff q.2 Bs

end Gauche.Lev
