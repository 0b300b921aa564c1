import Verif.Model.SortArray
/-
Stable sorting of lists and vectors with a comparison procedure, src/libcmp.scm.

Lists are cells in a heap: `car` and `cdr` map the address of a cell to its contents, `none` is `()`.  Addresses are
below `size`.  A dotted list is not representable.  `none` as the result of a function = an error (or an exhausted
number of rounds).  Comparison and key procedures are functions: effects and errors in them are not modelled.
src/libcmp.scm:533-541 `define-less?` has turned the comparator argument into the procedure `less?`.
-/
namespace Gauche.MergeSort

variable {α β κ : Type}

/-- The pairs a program can reach. -/
structure Heap (β : Type) where
  size : Nat
  car : Nat → β
  cdr : Nat → Option Nat

/-- `set-car!`. -/
def Heap.setCar (h : Heap β) (i : Nat) (x : β) : Heap β := { h with car := fun j => if j = i then x else h.car j }
/-- `set-cdr!`. -/
def Heap.setCdr (h : Heap β) (i : Nat) (r : Option Nat) : Heap β := { h with cdr := fun j => if j = i then r else h.cdr j }

/-- `length` (an error for a circular list). -/
def lengthOf (h : Heap β) : Nat → Option Nat → Option Nat
  | _, none => some 0
  | 0, some _ => none
  | fuel + 1, some i => (lengthOf h fuel (h.cdr i)).map (· + 1)

/-- The list branch of src/libcmp.scm:550-581 `sorted?`. -/
def sortedLoop (less : κ → κ → Bool) (key : α → κ) : κ → List α → Bool
  | _, [] => true
  | last, x :: rest => !less (key x) last && sortedLoop less key (key x) rest

/-- src/libcmp.scm:550-581 `sorted?` on a list (a vector and a string are scanned the same way). -/
def isSorted (less : κ → κ → Bool) (key : α → κ) : List α → Bool
  | [] => true
  | x :: rest => sortedLoop less key (key x) rest

/-- The loop of src/libcmp.scm:589-605 `merge`. -/
def mergeLoop (less : κ → κ → Bool) (key : α → κ) : Nat → α → κ → List α → α → κ → List α → Option (List α)
  | 0, _, _, _, _, _, _ => none
  | fuel + 1, x, kx, a, y, ky, b =>
    if less ky kx then
      match b with
      | [] => some (y :: x :: a)
      | y' :: b' => (mergeLoop less key fuel x kx a y' (key y') b').map (y :: ·)
    else
      match a with
      | [] => some (x :: y :: b)
      | x' :: a' => (mergeLoop less key fuel x' (key x') a' y ky b).map (x :: ·)

/-- src/libcmp.scm:589-605 `merge`. -/
def merge (less : κ → κ → Bool) (key : α → κ) : List α → List α → Option (List α)
  | [], b => some b
  | a, [] => some a
  | x :: a, y :: b => mergeLoop less key (a.length + b.length + 1) x (key x) a y (key y) b

/-- `loop` of src/libcmp.scm:612-641 `merge!`. -/
def mergeXLoop (less : κ → κ → Option Bool) (key : β → κ) : Nat → Heap β → Nat → Nat → κ → Nat → κ → Option (Heap β)
  | 0, _, _, _, _, _, _ => none
  | fuel + 1, h, r, a, kx, b, ky =>
    (less ky kx).bind fun t =>
    if t then
      let h := h.setCdr r (some b)
      match h.cdr b with
      | none => some (h.setCdr b (some a))
      | some b' => mergeXLoop less key fuel h b a kx b' (key (h.car b'))
    else
      let h := h.setCdr r (some a)
      match h.cdr a with
      | none => some (h.setCdr a (some b))
      | some a' => mergeXLoop less key fuel h a a' (key (h.car a')) b ky

/-- src/libcmp.scm:612-641 `merge!`. -/
def mergeX (less : κ → κ → Option Bool) (key : β → κ) (h : Heap β) (a b : Option Nat) : Option (Heap β × Option Nat) :=
  match a, b with
  | none, b => some (h, b)
  | a, none => some (h, a)
  | some a, some b =>
    let kx := key (h.car a)
    let ky := key (h.car b)
    (less ky kx).bind fun t =>
    if t then
      (match h.cdr b with
       | none => some (h.setCdr b (some a))
       | some b' => mergeXLoop less key (h.size + 1) h b a kx b' (key (h.car b'))).map fun h => (h, some b)
    else
      (match h.cdr a with
       | none => some (h.setCdr a (some b))
       | some a' => mergeXLoop less key (h.size + 1) h a a' (key (h.car a')) b ky).map fun h => (h, some a)

/-- `step` of src/libcmp.scm:683-743 `%stable-sort!`: the heap, the variable `seq` and the result. -/
def step (less : β → β → Option Bool) : Nat → Nat → Heap β → Option Nat → Option (Heap β × Option Nat × Option Nat)
  | 0, _, _, _ => none
  | fuel + 1, n, h, seq =>
    if 2 < n then
      let j := n / 2
      (step less fuel j h seq).bind fun p =>
      let k := n - j
      (step less fuel k p.1 p.2.1).bind fun q =>
      (mergeX less id q.1 p.2.2 q.2.2).map fun m => (m.1, q.2.1, m.2)
    else if n = 2 then
      seq.bind fun p => (h.cdr p).bind fun p' =>
      let x := h.car p
      let y := h.car p'
      let seq := h.cdr p'
      (less y x).map fun t =>
      let h := if t then (h.setCar p y).setCar p' x else h
      (h.setCdr p' none, seq, some p)
    else if n = 1 then
      seq.map fun p => (h.setCdr p none, h.cdr p, some p)
    else some (h, seq, none)

/-- src/libcmp.scm:683-743 `%stable-sort!` on a list, without a key. -/
def stableSortX0 (less : β → β → Option Bool) (h : Heap β) (seq : Option Nat) : Option (Heap β × Option Nat) :=
  match seq with
  | none => some (h, none)
  | some p => (lengthOf h (h.size + 1) (some p)).bind fun n =>
    (step less (n + 1) n h (some p)).map fun q => (q.1, q.2.2)

/-- A `car` that holds an element, or an element paired with its key (while src/libcmp.scm:683-743 `%stable-sort!` runs). -/
inductive Box (α κ : Type) where
  | plain (x : α)
  | keyed (x : α) (k : κ)
deriving DecidableEq

/-- The first `do` of src/libcmp.scm:683-743 `%stable-sort!` with a key: pair every element with its key. -/
def decorate (key : α → κ) : Nat → Heap (Box α κ) → Option Nat → Option (Heap (Box α κ))
  | _, h, none => some h
  | 0, _, some _ => none
  | fuel + 1, h, some p =>
    match h.car p with
    | .plain x => decorate key fuel (h.setCar p (.keyed x (key x))) (h.cdr p)
    | .keyed _ _ => none

/-- The second `do` of src/libcmp.scm:683-743 `%stable-sort!` with a key: strip the keys. -/
def undecorate : Nat → Heap (Box α κ) → Option Nat → Option (Heap (Box α κ))
  | _, h, none => some h
  | 0, _, some _ => none
  | fuel + 1, h, some p =>
    match h.car p with
    | .keyed x _ => undecorate fuel (h.setCar p (.plain x)) (h.cdr p)
    | .plain _ => none

/-- `kless?` of src/libcmp.scm:683-743 `%stable-sort!`. -/
def kless (less : κ → κ → Bool) : Box α κ → Box α κ → Option Bool
  | .keyed _ k, .keyed _ k' => some (less k k')
  | _, _ => none

/-- src/libcmp.scm:683-743 `%stable-sort!` on a list, with a key. -/
def stableSortX1 (less : κ → κ → Bool) (key : α → κ) (h : Heap (Box α κ)) (seq : Option Nat) :
    Option (Heap (Box α κ) × Option Nat) :=
  match seq with
  | none => some (h, none)
  | some p =>
    (decorate key (h.size + 1) h (some p)).bind fun h =>
    (stableSortX0 (kless less) h (some p)).bind fun q =>
    (undecorate (h.size + 1) q.1 q.2).map fun h => (h, q.2)

/-- The loop of src/libcmp.scm:654-676 `stable-sort!` that looks for the cell before the original head. -/
def findPrev (h : Heap β) (seq : Nat) : Nat → Nat → Option Nat
  | 0, _ => none
  | fuel + 1, p =>
    match h.cdr p with
    | none => none
    | some q => if q = seq then some p else findPrev h seq fuel q

/-- The exchange of two cells in src/libcmp.scm:654-676 `stable-sort!`. -/
def exchange (h : Heap β) (sorted seq p : Nat) : Heap β :=
  let sortedCar := h.car sorted
  let sortedCdr := h.cdr sorted
  let seqCar := h.car seq
  let seqCdr := h.cdr seq
  let h := h.setCar sorted seqCar
  let h := h.setCdr sorted seqCdr
  let h := h.setCar seq sortedCar
  if p = sorted then h.setCdr seq (some sorted)
  else (h.setCdr seq sortedCdr).setCdr p (some sorted)

/-- src/libcmp.scm:654-676 `stable-sort!` on a list: keeps the head of the list; `q` is the result of `%stable-sort!`. -/
def keepHead (q : Heap β × Option Nat) (seq : Option Nat) : Option (Heap β × Option Nat) :=
  match q.2, seq with
  | some sorted, some s =>
    if sorted = s then some q
    else (findPrev q.1 s (q.1.size + 1) sorted).map fun p => (exchange q.1 sorted s p, some s)
  | some _, none => none
  | none, _ => some q

/-- src/libcmp.scm:654-676 `stable-sort!` on a list, without a key; `(sort! l less)` is this, src/libcmp.scm:649-652 `sort!`. -/
def stableSortX (less : β → β → Bool) (h : Heap β) (seq : Option Nat) : Option (Heap β × Option Nat) :=
  (stableSortX0 (fun x y => some (less x y)) h seq).bind fun q => keepHead q seq

/-- src/libcmp.scm:654-676 `stable-sort!` on a list, with a key. -/
def stableSortByX (less : κ → κ → Bool) (key : α → κ) (h : Heap (Box α κ)) (seq : Option Nat) :
    Option (Heap (Box α κ) × Option Nat) :=
  (stableSortX1 less key h seq).bind fun q => keepHead q seq

/-- `vector->list` and `list-copy`: fresh cells (their addresses start at 0 in a heap of their own). -/
def ofList (x : β) (l : List β) : Heap β :=
  ⟨(x :: l).length, fun i => ((x :: l)[i]?).getD x, fun i => if i + 1 < (x :: l).length then some (i + 1) else none⟩

/-- The elements of a list. -/
def toList (h : Heap β) : Nat → Option Nat → Option (List β)
  | _, none => some []
  | 0, some _ => none
  | fuel + 1, some p => (toList h fuel (h.cdr p)).map (h.car p :: ·)

/-- The `do` of src/libcmp.scm:683-743 `%stable-sort!` on a vector: store the sorted elements. -/
def writeBack (h : Heap β) : Nat → Option Nat → Nat → List β → Option (List β)
  | _, none, _, v => some v
  | 0, some _, _, _ => none
  | fuel + 1, some p, i, v => if i < v.length then writeBack h fuel (h.cdr p) (i + 1) (v.set i (h.car p)) else none

/-- src/libcmp.scm:683-743 `%stable-sort!` on a vector, without a key. -/
def stableSortVectorX0 (less : β → β → Option Bool) (v : List β) : Option (List β) :=
  match v with
  | [] => some []
  | x :: l =>
    let h := ofList x l
    (step less (v.length + 1) v.length h (some 0)).bind fun q => writeBack q.1 (q.1.size + 1) q.2.2 0 v

/-- src/libcmp.scm:683-743 `%stable-sort!` on a vector, with a key (the two `do` loops over the vector are `map`s). -/
def stableSortVectorX1 (less : κ → κ → Bool) (key : α → κ) (v : List α) : Option (List α) :=
  (stableSortVectorX0 (fun (a b : α × κ) => some (less a.2 b.2)) (v.map fun x => (x, key x))).map fun w => w.map (·.1)

/-- src/libcmp.scm:754-766 `stable-sort` on a list, without a key. -/
def stableSort (less : β → β → Bool) (l : List β) : Option (List β) :=
  match l with
  | [] => some []
  | x :: r => (stableSortX0 (fun x y => some (less x y)) (ofList x r) (some 0)).bind fun q => toList q.1 (q.1.size + 1) q.2

/-- src/libcmp.scm:754-766 `stable-sort` on a list, with a key. -/
def stableSortBy (less : κ → κ → Bool) (key : α → κ) (l : List α) : Option (List (Box α κ)) :=
  match l with
  | [] => some []
  | x :: r => (stableSortX1 less key (ofList (.plain x) (r.map .plain)) (some 0)).bind fun q => toList q.1 (q.1.size + 1) q.2

/-- src/libcmp.scm:754-766 `stable-sort` on a vector, without a key: `(list->vector (sort! (vector->list seq) less?))`. -/
def stableSortVector (less : β → β → Bool) (v : List β) : Option (List β) :=
  match v with
  | [] => some []
  | x :: r => (stableSortX less (ofList x r) (some 0)).bind fun q => toList q.1 (q.1.size + 1) q.2

/-- The loop of src/compare.c:365-380 `sort_list_int` that stores the sorted elements in the list. -/
def setCars : Heap β → Option Nat → List β → Option (Heap β)
  | h, _, [] => some h
  | _, none, _ :: _ => none
  | h, some p, x :: r => setCars (h.setCar p x) (h.cdr p) r

/-- src/compare.c:387-390 `Scm_SortListX`: `(sort! l)`; the list is read into an array, which is sorted. -/
def sortListX (cmp : β → β → Int) (h : Heap β) (p : Option Nat) : Option (Heap β × Option Nat) :=
  (toList h (h.size + 1) p).bind fun l => (SortArray.sortArray cmp l).bind fun l => (setCars h p l).map fun h => (h, p)

end Gauche.MergeSort
