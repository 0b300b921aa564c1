import Mathlib.Data.List.Basic
/-
Monotonic merge (`monotonic-merge`), src/list.c, and its use for class precedence lists, src/class.c.

Elements are compared by `eq?`.  `isF x` says that `x` is the object `#f`, which the C code also uses as "no
candidate".  The sequences are proper lists.
-/
namespace Gauche.C3

section
variable {α : Type} [DecidableEq α]

/-- The inner search in src/list.c:754-802 `Scm_MonotonicMerge`: `h` is in the tail of some sequence. -/
def blocked (seqs : List (List α)) (h : α) : Bool :=
  seqs.any fun s => match s with
    | [] => false
    | _ :: t => decide (h ∈ t)

/-- The selection of a candidate in src/list.c:754-802 `Scm_MonotonicMerge`; the first argument is the part of the vector still
to be looked at. -/
def select : List (List α) → List (List α) → Option α
  | [], _ => none
  | [] :: r, seqs => select r seqs
  | (h :: _) :: r, seqs => if blocked seqs h then select r seqs else some h

/-- Removing the selected object from the head of a sequence in src/list.c:754-802 `Scm_MonotonicMerge`. -/
def dropHead (next : α) : List α → List α
  | [] => []
  | h :: t => if next = h then t else h :: t

/-- The main loop of src/list.c:754-802 `Scm_MonotonicMerge`: `some none` = `#f` is returned; `none` = more than the given number
of rounds. -/
def mergeLoop (isF : α → Bool) : Nat → List (List α) → List α → Option (Option (List α))
  | 0, _, _ => none
  | fuel + 1, seqs, result =>
    if seqs.all List.isEmpty then some (some result.reverse)
    else match select seqs seqs with
      | none => some none
      | some next =>
        if isF next then some none
        else mergeLoop isF fuel (seqs.map (dropHead next)) (next :: result)

/-- src/list.c:754-802 `Scm_MonotonicMerge`. -/
def merge (isF : α → Bool) (seqs : List (List α)) : Option (Option (List α)) :=
  mergeLoop isF (seqs.flatten.length + 1) seqs []
end

/-! ### Class precedence lists -/

/-- A class: its direct superclasses and its class precedence list.  A class is named by its index in the table;
class 0 is `<top>`, class 1 is `<object>`. -/
structure Cls where
  supers : List Nat
  cpl : List Nat
deriving DecidableEq

abbrev Table := List Cls

/-- The two classes that exist before any definition (`SCM_CLASS_TOP`, `SCM_CLASS_OBJECT` in src/class.c). -/
def base : Table := [⟨[], [0]⟩, ⟨[0], [1, 0]⟩]

/-- The precedence list of class `d`. -/
def cplOf (t : Table) (d : Nat) : List Nat := (t[d]?.map Cls.cpl).getD []

/-- `ds` in src/class.c:982-1011 `Scm_ComputeCPL`: the direct superclasses without `<object>` and `<top>`, then `<object>`. -/
def directSeq (supers : List Nat) : List Nat := (supers.filter (· ≠ 1)).filter (· ≠ 0) ++ [1]

/-- The sequences merged by src/class.c:982-1011 `Scm_ComputeCPL`. -/
def cplSeqs (t : Table) (supers : List Nat) : List (List Nat) :=
  (supers.filter fun d => ¬ (d = 1 ∨ d = 0)).map (cplOf t) ++ [cplOf t 1] ++ [directSeq supers]

/-- src/class.c:982-1011 `Scm_ComputeCPL` for class `k`; inner `none` = the error. -/
def computeCPL (t : Table) (k : Nat) (supers : List Nat) : Option (Option (List Nat)) :=
  (merge (fun _ => false) (cplSeqs t supers)).map fun o => o.map (k :: ·)

/-- Making a class with the given direct superclasses, src/libobj.scm:335: the new class, or an error (outer
`some`, inner `none`) if a superclass does not exist or the precedence list cannot be computed. -/
def defClass (t : Table) (supers : List Nat) : Option (Option Table) :=
  if supers.all (· < t.length) then
    (computeCPL t t.length supers).map fun o => o.map fun cpl => t ++ [⟨supers, cpl⟩]
  else some none

/-- A program that defines classes one after the other; a failed definition leaves the classes unchanged. -/
def run : List (List Nat) → Table → Option Table
  | [], t => some t
  | s :: p, t => (defClass t s).bind fun o => run p (o.getD t)

end Gauche.C3
