import Mathlib.Data.List.Basic
/-
Sorting of arrays without a comparison procedure, src/compare.c.

`cmp` is the comparison function (`Scm_Compare`, src/compare.c:341-344 `cmp_int`) as an arbitrary function; that it may raise an
error is not modelled.  An access outside the array gives `none`.  C's `int` is modelled as `Int`, so arrays of more
than 2^30 elements (where `l*2` overflows) are not covered.  Loops carry a number of rounds; `none` if it does not
suffice.
-/
namespace Gauche.SortArray

variable {α : Type}

/-- `elts[i]`. -/
def get (e : List α) (i : Int) : Option α := if 0 ≤ i then e[i.toNat]? else none

/-- `tmp = elts[i]; elts[i] = elts[j]; elts[j] = tmp`, in src/compare.c:267-288 `shift_up` `shift_up`, `sort_h`, `sort_q`. -/
def swap (e : List α) (i j : Int) : Option (List α) :=
  (get e i).bind fun x => (get e j).bind fun y => some ((e.set i.toNat y).set j.toNat x)

/-- src/compare.c:267-288 `shift_up`, on the array `elts+base`; `l` is the loop's variable (`root+1` at first). -/
def shiftUp (cmp : α → α → Int) (base n : Int) : Nat → List α → Int → Option (List α)
  | 0, _, _ => none
  | fuel + 1, e, l =>
    if l * 2 ≤ n then
      (if l * 2 = n then some (n - 1)
       else (get e (base + (l * 2 - 1))).bind fun x => (get e (base + l * 2)).bind fun y =>
         some (if cmp x y < 0 then l * 2 else l * 2 - 1)).bind fun maxchild =>
      (get e (base + (l - 1))).bind fun x => (get e (base + maxchild)).bind fun y =>
        if cmp x y < 0 then (swap e (base + maxchild) (base + (l - 1))).bind fun e => shiftUp cmp base n fuel e (maxchild + 1)
        else some e
    else some e

/-- The first loop of src/compare.c:290-302 `sort_h`. -/
def buildLoop (cmp : α → α → Int) (base n : Int) : Nat → List α → Int → Option (List α)
  | 0, _, _ => none
  | fuel + 1, e, l =>
    if 0 ≤ l then (shiftUp cmp base n (n.toNat + 1) e (l + 1)).bind fun e => buildLoop cmp base n fuel e (l - 1)
    else some e

/-- The second loop of src/compare.c:290-302 `sort_h`. -/
def popLoop (cmp : α → α → Int) (base : Int) : Nat → List α → Int → Option (List α)
  | 0, _, _ => none
  | fuel + 1, e, r =>
    if 1 ≤ r then
      (swap e (base + r) base).bind fun e => (shiftUp cmp base r (r.toNat + 1) e 1).bind fun e => popLoop cmp base fuel e (r - 1)
    else some e

/-- src/compare.c:290-302 `sort_h` on the array `elts+base`. -/
def sortH (cmp : α → α → Int) (e : List α) (base n : Int) : Option (List α) :=
  (buildLoop cmp base n (n.toNat + 1) e (n / 2 - 1)).bind fun e => popLoop cmp base (n.toNat + 1) e (n - 1)

/-- `while (l <= r && cmp(elts[l], pivot, data) < 0) l++`, in src/compare.c:305-330 `sort_q`. -/
def scanUp (cmp : α → α → Int) (pivot : α) (e : List α) (r : Int) : Nat → Int → Option Int
  | 0, _ => none
  | fuel + 1, l =>
    if l ≤ r then (get e l).bind fun x => if cmp x pivot < 0 then scanUp cmp pivot e r fuel (l + 1) else some l
    else some l

/-- `while (l <= r && cmp(pivot, elts[r], data) < 0) r--`, in src/compare.c:305-330 `sort_q`. -/
def scanDown (cmp : α → α → Int) (pivot : α) (e : List α) (l : Int) : Nat → Int → Option Int
  | 0, _ => none
  | fuel + 1, r =>
    if l ≤ r then (get e r).bind fun x => if cmp pivot x < 0 then scanDown cmp pivot e l fuel (r - 1) else some r
    else some r

/-- `while (l <= r) { … }` of src/compare.c:305-330 `sort_q`: the array and the final `l` and `r`. -/
def partLoop (cmp : α → α → Int) (pivot : α) : Nat → List α → Int → Int → Option (List α × Int × Int)
  | 0, _, _, _ => none
  | fuel + 1, e, l, r =>
    if l ≤ r then
      (scanUp cmp pivot e r (e.length + 1) l).bind fun l =>
      (scanDown cmp pivot e l (e.length + 1) r).bind fun r =>
        if r < l then some (e, l, r)
        else (swap e l r).bind fun e => partLoop cmp pivot fuel e (l + 1) (r - 1)
    else some (e, l, r)

/-- src/compare.c:305-330 `sort_q`; the outer loop's next round is the second recursive call (as the source notes). -/
def sortQ (cmp : α → α → Int) (limit : Nat) : Nat → List α → Int → Int → Nat → Option (List α)
  | 0, _, _, _, _ => none
  | fuel + 1, e, lo, hi, depth =>
    if lo < hi then
      if limit ≤ depth then sortH cmp e lo (hi - lo + 1)
      else
        (get e lo).bind fun pivot => (partLoop cmp pivot (e.length + 1) e lo hi).bind fun q =>
        (if lo < q.2.2 then sortQ cmp limit fuel q.1 lo q.2.2 (depth + 1) else some q.1).bind fun e =>
        sortQ cmp limit fuel e q.2.1 hi (depth + 1)
    else some e

/-- `for (i=nelts,limit=1; i > 0; limit++) {i>>=1;}` of src/compare.c:346-357 `Scm_SortArray`. -/
def limitLoop : Nat → Nat → Nat → Nat
  | 0, _, limit => limit
  | fuel + 1, i, limit => if 0 < i then limitLoop fuel (i / 2) (limit + 1) else limit

/-- src/compare.c:346-357 `Scm_SortArray`, which `(sort v)` and `(sort! v)` call for a vector,
src/libcmp.scm:515-522 `%sort`, src/libcmp.scm:524-530 `%sort!`; for a list the array holds the list's elements,
src/compare.c:365-380 `sort_list_int`. -/
def sortArray (cmp : α → α → Int) (e : List α) : Option (List α) :=
  if e.length ≤ 1 then some e
  else
    let limit := limitLoop (e.length + 1) e.length 1
    sortQ cmp limit (limit + 1) e 0 ((e.length : Int) - 1) 0

end Gauche.SortArray
