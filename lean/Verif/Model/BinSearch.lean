import Mathlib.Order.Defs.LinearOrder
import Mathlib.Data.Nat.Basic
/-
Binary search over a flat vector of records: the macro `%binary-search` of src/libvec.scm, instantiated
there for each element type.  `none` = an element outside the vector is read, or the loop does not finish
within the given number of steps.
-/
namespace Gauche.BinSearch

/-- What the search reports: the index of the key, or the indices stored in `*floor` and `*ceil` (`none` =
`(size_t)-1`). -/
inductive Result where
  | found (i : Nat)
  | miss (floor ceil : Option Nat)
deriving DecidableEq, Repr

section
variable {α : Type} [LinearOrder α]

/-- The stores to `*floor` and `*ceil` after the loop, src/libvec.scm:783-806 `%binary-search`. -/
def finish (nume esize lo hi : Nat) : Result :=
  .miss (if lo = hi then none else some (lo * esize)) (if hi = nume then none else some (hi * esize))

/-- The `while` loop of src/libvec.scm:783-806 `%binary-search`. -/
def loop (vec : List α) (key : α) (esize nume : Nat) : Nat → Nat → Nat → Nat → Option Result
  | 0, _, _, _ => none
  | fuel + 1, k, lo, hi =>
    if lo < hi then
      match vec[k * esize]? with
      | none => none
      | some v =>
        if v = key then some (.found (k * esize))
        else if v < key then
          if k = k + (hi - k) / 2 then some (finish nume esize k hi)
          else loop vec key esize nume fuel (k + (hi - k) / 2) k hi
        else loop vec key esize nume fuel (lo + (k - lo) / 2) lo k
    else some (finish nume esize lo hi)

/-- src/libvec.scm:783-806 `%binary-search`: `vec` holds `len / (skip + 1)` records of `skip + 1` elements, the
first of which is the record's key. -/
def search (vec : List α) (len : Nat) (key : α) (skip : Nat) : Option Result :=
  loop vec key (skip + 1) (len / (skip + 1)) (len + 1) (len / (skip + 1) / 2) 0 (len / (skip + 1))
end
end Gauche.BinSearch
