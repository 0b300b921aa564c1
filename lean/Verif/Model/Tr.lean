/-! Model of text.tr (libsrc/text/tr.scm) below the parser of character specifications.

A character is its code.  The last character of a range is not kept, since it is copied only (lines 197-202) and never used.  A table is its
size, a function for the vector and a list for the larger characters. -/
namespace Gauche.Tr

/-- An element of a character array: `(<n> <char>)` or `(<n> <from> <to>)` (libsrc/text/tr.scm:79-92). -/
structure Seg where
  size : Nat
  char : Nat
  isRange : Bool
deriving DecidableEq

/-- The elements that `range` makes for a range of characters (libsrc/text/tr.scm:115-133). -/
def rangeSegs (fromi toi tableSize : Nat) : List Seg :=
  if fromi < tableSize ∧ tableSize ≤ toi then
    [⟨tableSize - fromi, fromi, true⟩, ⟨toi - tableSize, tableSize, true⟩]
  else [⟨toi + 1 - fromi, fromi, true⟩]

/-- `char-array-ref` (libsrc/text/tr.scm:149-158); `none` is #f. -/
def arrayRef : List Seg → Nat → Option Nat
  | [], _ => none
  | s :: r, i => if s.size ≤ i then arrayRef r (i - s.size) else if s.isRange then some (s.char + i) else some s.char

/-- `split-segment` (libsrc/text/tr.scm:191-202). -/
def splitSeg (s : Seg) (i : Nat) : Seg × Seg :=
  if s.isRange then (⟨i, s.char, true⟩, ⟨s.size - i, i + s.char, true⟩) else (⟨i, s.char, false⟩, ⟨s.size - i, s.char, false⟩)

/-- `split-char-array` (libsrc/text/tr.scm:190-218); the index is counted down, and the part that has been passed is given by the recursion. -/
def splitLoop : List Seg → Nat → List Seg × List Seg
  | [], _ => ([], [])
  | s :: r, i =>
    if i < s.size then ([(splitSeg s i).1], (splitSeg s i).2 :: r)
    else if i = s.size then ([s], r)
    else (s :: (splitLoop r (i - s.size)).1, (splitLoop r (i - s.size)).2)

def split (a : List Seg) (i : Nat) : List Seg × List Seg := if i = 0 then ([], a) else splitLoop a i

/-- An entry of a table: #t, #f, or a character (libsrc/text/tr.scm:264-267). -/
inductive Entry where
  | notIn
  | noImage
  | char (c : Nat)
deriving DecidableEq

/-- #f or a character. -/
def entryOf : Option Nat → Entry
  | some c => .char c
  | none => .noImage

/-- The value in the list of a table: an integer, a character or #f (libsrc/text/tr.scm:237-251). -/
inductive SVal where
  | int (n : Nat)
  | char (c : Nat)
  | no

/-- `<tr-table>` (libsrc/text/tr.scm:253-262). -/
structure Table where
  size : Nat
  vector : Nat → Entry
  sparse : List (Nat × Nat × SVal)

/-- A new table. -/
def newTable (size : Nat) : Table := ⟨size, fun _ => .notIn, []⟩

/-- The loop of `tr-table-ref`; the second number of an element is one more than the last character. -/
def sparseRef : List (Nat × Nat × SVal) → Nat → Entry
  | [], _ => .notIn
  | (a, b, v) :: r, i =>
    if a ≤ i ∧ i < b then (match v with | .int n => .char (n + (i - a)) | .char c => .char c | .no => .noImage) else sparseRef r i

/-- `tr-table-ref` (libsrc/text/tr.scm:268-278). -/
def tableRef (t : Table) (i : Nat) : Entry := if i < t.size then t.vector i else sparseRef t.sparse i

/-- `fill-tr-vector` (libsrc/text/tr.scm:305-314): the loop with the count that is left. -/
def fillVector (to : List Seg) : Nat → Nat → Nat → (Nat → Entry) → Nat → Entry
  | 0, _, _, v => v
  | n + 1, fromCh, cnt, v =>
    fillVector to n (fromCh + 1) (cnt + 1) (if v fromCh = .notIn then fun i => if i = fromCh then entryOf (arrayRef to cnt) else v i else v)

/-- The elements that `fill-tr-sparse` adds (libsrc/text/tr.scm:316-337). -/
def sparseElems : List Seg → Nat → Nat → List (Nat × Nat × SVal)
  | [], fromCh, fromEnd => if fromCh < fromEnd then [(fromCh, fromEnd, .no)] else []
  | s :: r, fromCh, fromEnd =>
    (fromCh, fromCh + s.size, if s.isRange then .int s.char else .char s.char) :: sparseElems r (fromCh + s.size) fromEnd

/-- `fill-tr-table` (libsrc/text/tr.scm:291-303). -/
def fillTable (t : Table) : List Seg → List Seg → Table
  | [], _ => t
  | f :: fs, to =>
    let p := split to f.size
    fillTable
      (if f.char < t.size then { t with vector := fillVector p.1 f.size f.char 0 t.vector }
       else { t with sparse := t.sparse ++ sparseElems p.1 f.char (f.size + f.char) }) fs p.2

/-- The loop of `build-transliterator` (libsrc/text/tr.scm:60-77), on a list of characters; `d` and `s` are the options. -/
def trLoop (t : Table) (d s : Bool) : List Nat → Option Nat → List Nat
  | [], _ => []
  | x :: xs, prev =>
    match tableRef t x with
    | .char c => if s ∧ prev = some c then trLoop t d s xs (some c) else c :: trLoop t d s xs (some c)
    | .notIn => x :: trLoop t d s xs none
    | .noImage =>
      if d then trLoop t d s xs prev
      else if s ∧ prev = some x then trLoop t d s xs (some x) else x :: trLoop t d s xs (some x)

/-- `add-range` of `complement-char-array` (libsrc/text/tr.scm:162-172), in the order of the result. -/
def addRange (size from_ to : Nat) : List Seg :=
  if from_ < size ∧ size ≤ to then [⟨size - from_, from_, true⟩, ⟨to + 1 - size, size, true⟩] else [⟨to + 1 - from_, from_, true⟩]

/-- The loop of `complement-char-array` (libsrc/text/tr.scm:173-187), on the sorted array; `max` is the largest code. -/
def complement (size max : Nat) : List Seg → Nat → List Seg
  | [], index => if index ≤ max then addRange size index max else []
  | s :: r, index =>
    if index < s.char then addRange size index (s.char - 1) ++ complement size max r (s.char + s.size)
    else complement size max r (s.char + s.size)

/-- `build-transliterator` without the complement, from character arrays. -/
def tr (size : Nat) (from_ to : List Seg) (d s : Bool) (xs : List Nat) : List Nat := trLoop (fillTable (newTable size) from_ to) d s xs none

end Gauche.Tr
