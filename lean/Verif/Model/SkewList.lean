/-
Model of lib/data/skew-list.scm (module data.skew-list).

`none` models a raised error, including the "no matching clause" error of `match`.
Trees `(Leaf x)` / `(Node x t1 t2)` are an inductive type; a skew-list is the list of
(weight . tree) pairs kept in the record's `elements` field.  Type checks of arguments
(`assume-type`) are not modelled.  Index arguments of `ref`/`set` are `Int`; `k` of
take/drop/split-at and `start`/`end` of the iterator are `Nat`.
-/
namespace Gauche.SkewList

/-- lib/data/skew-list.scm:94-101 `skew-list-cons`: the two tree forms built there. -/
inductive Tree (α : Type _) where
  | leaf (x : α)
  | node (x : α) (t1 t2 : Tree α)
deriving Repr, DecidableEq

/-- lib/data/skew-list.scm:76-79 `SL`: a skew-list is determined by its `elements`.
(The singleton for the empty list is only an allocation saving.) -/
abbrev SL (α : Type _) := List (Nat × Tree α)

/-- lib/data/skew-list.scm:82 `/2`: `(ash n -1)`. -/
def half (n : Nat) : Nat := n / 2
/-- lib/data/skew-list.scm:83 `/4`: `(ash n -2)`. -/
def quarter (n : Nat) : Nat := n / 4

/-- lib/data/skew-list.scm:89-91 `skew-list-empty?`. -/
def isEmpty (s : SL α) : Bool := List.isEmpty s

/-- lib/data/skew-list.scm:94-101 `skew-list-cons`. -/
def cons (x : α) (y : SL α) : SL α :=
  match y with
  | (w1, t1) :: (w2, t2) :: ts =>
    if w1 = w2 then (1 + w1 + w2, .node x t1 t2) :: ts
    else (1, .leaf x) :: y
  | _ => (1, .leaf x) :: y

/-- lib/data/skew-list.scm:103-108 `skew-list-car`. -/
def car : SL α → Option α
  | [] => none
  | (_, .leaf x) :: _ => some x
  | (_, .node x _ _) :: _ => some x

/-- lib/data/skew-list.scm:110-116 `skew-list-cdr`. -/
def cdr : SL α → Option (SL α)
  | [] => none
  | (_, .leaf _) :: ts => some ts
  | (w, .node _ t1 t2) :: ts => some ((half w, t1) :: (half w, t2) :: ts)

/-- `(cadr t)`: the element at the root of a tree. -/
def Tree.root : Tree α → α
  | .leaf x => x
  | .node x _ _ => x

/-- lib/data/skew-list.scm:119-130 `tree-ref`; `none` = out of range (error or the fallback),
also for the `match-let1` failure on a leaf with weight other than 1. -/
def treeRef (w : Nat) (i : Int) : Tree α → Option α
  | .leaf x => if i = 0 then some x else none
  | .node x t1 t2 =>
    if i = 0 then some x
    else if w = 1 then none
    else if i ≤ half w then treeRef (half w) (i - 1) t1
    else treeRef (half w) (i - 1 - half w) t2

/-- lib/data/skew-list.scm:118-139 `skew-list-ref`, inner `ref`. -/
def ref (s : SL α) (i : Int) : Option α :=
  match s with
  | [] => none
  | (w, t) :: ts => if i < w then treeRef w i t else ref ts (i - w)

/-- lib/data/skew-list.scm:142-153 `tree-set`. -/
def treeSet (v : α) (w : Nat) (i : Int) : Tree α → Option (Tree α)
  | .leaf _ => if i = 0 then some (.leaf v) else none
  | .node x t1 t2 =>
    if i = 0 then some (.node v t1 t2)
    else if w = 1 then none
    else if i ≤ half w then (treeSet v (half w) (i - 1) t1).map fun t => .node x t t2
    else (treeSet v (half w) (i - 1 - half w) t2).map fun t => .node x t1 t

/-- lib/data/skew-list.scm:141-162 `skew-list-set`, inner `set`. -/
def set (s : SL α) (i : Int) (v : α) : Option (SL α) :=
  match s with
  | [] => none
  | (w, t) :: ts =>
    if i < w then (treeSet v w i t).map fun t' => (w, t') :: ts
    else (set ts (i - w) v).map fun r => (w, t) :: r

/-- lib/data/skew-list.scm:174-178 `series-2^n-1`: split n into weights 2^j-1, largest first.
`(integer-length (+ n 1))` is `Nat.log2 (n+1) + 1` for n ≥ 0. -/
def series (n : Nat) : List Nat :=
  if n = 0 then [] else if n = 1 then [1]
  else
    let k := 2 ^ Nat.log2 (n + 1) - 1
    k :: series (n - k)
termination_by n
decreasing_by
  have h1 : 1 ≤ Nat.log2 (n + 1) := by
    rw [Nat.le_log2 (by omega)]; omega
  have : 2 ^ 1 ≤ 2 ^ Nat.log2 (n + 1) := Nat.pow_le_pow_right (by omega) h1
  omega

/-- lib/data/skew-list.scm:182-188 `make-tree`; `none` = `car` of the exhausted list. The fuel is the
weight itself, which halves in every call. -/
def makeTree (n : Nat) (l : List α) : Option (Tree α × List α) :=
  match l with
  | [] => none
  | x :: rest =>
    if n ≤ 1 then if n = 1 then some (.leaf x, rest) else none
    else
      let n2 := (n - 1) / 2
      do let (t1, r1) ← makeTree n2 rest
         let (t2, r2) ← makeTree n2 r1
         some (.node x t1 t2, r2)
termination_by n

/-- lib/data/skew-list.scm:191-196 `make-forest`. -/
def makeForest : List Nat → List α → Option (SL α × List α)
  | [], l => some ([], l)
  | n :: ns, l => do
    let (t, rest) ← makeTree n l
    let (f, last) ← makeForest ns rest
    some ((n, t) :: f, last)

/-- lib/data/skew-list.scm:203-207 `list->skew-list` with lib/data/skew-list.scm:169-201 `list*->skew-list`,
proper lists only. -/
def ofList (l : List α) : Option (SL α) :=
  match l with
  | [] => some []
  | _ => do
    let (f, last) ← makeForest (series l.length).reverse l
    if last.isEmpty then some f else none

/-- lib/data/skew-list.scm:225-232 `skew-list-fold`, `tree-fold`. -/
def treeFold (g : α → β → β) : Tree α → β → β
  | .leaf x, s => g x s
  | .node x t1 t2, s => treeFold g t2 (treeFold g t1 (g x s))

/-- lib/data/skew-list.scm:225-232 `skew-list-fold`. -/
def fold (s : SL α) (g : α → β → β) (z : β) : β :=
  s.foldl (fun acc p => treeFold g p.2 acc) z

/-- lib/data/skew-list.scm:209-211 `skew-list->list`. -/
def toList (s : SL α) : List α := (fold s List.cons []).reverse

/-- lib/data/skew-list.scm:237-242 `skew-list-map`, `tmap`. -/
def treeMap (g : α → β) : Tree α → Tree β
  | .leaf x => .leaf (g x)
  | .node x t0 t1 => .node (g x) (treeMap g t0) (treeMap g t1)
/-- lib/data/skew-list.scm:237-242 `skew-list-map`. -/
def map (s : SL α) (g : α → β) : SL β := List.map (fun p => (p.1, treeMap g p.2)) s

/-- lib/data/skew-list.scm:244-246 `skew-list-length`. -/
def length (s : SL α) : Nat := s.foldl (fun acc p => p.1 + acc) 0

/-- lib/data/skew-list.scm:248-253 `skew-list-length<=?`, the loop. -/
def lengthLe (k : Int) (s : Nat) : SL α → Bool
  | [] => if k < s then false else true
  | (w, _) :: es => if k < s then false else lengthLe k (s + w) es

/-- lib/data/skew-list.scm:258-265 `tree-kth-and-after`; `none` = match failure. -/
def treeKth (n k : Nat) (tail : List (Tree α)) : Tree α → Option (List (Tree α))
  | .leaf x => if k = 0 then some (.leaf x :: tail) else none
  | .node x t1 t2 =>
    if k = 0 then some (.node x t1 t2 :: tail)
    else if k ≤ half n then treeKth (half n) (k - 1) (t2 :: tail) t1
    else treeKth (half n) (k - half n - 1) tail t2

/-- lib/data/skew-list.scm:269-272 `skip-seq`; `none` = `caar` of the empty list. -/
def skipSeq (k : Nat) : SL α → Option (SL α × Nat)
  | [] => none
  | (w, t) :: seq => if k < w then some ((w, t) :: seq, k) else skipSeq (k - w) seq

/-- lib/data/skew-list.scm:274-292 `%skew-list-iterator`: the list of the next `count` = end - pos items
delivered by `next` from state (seq, stack); `none` = `pop!` of the exhausted `seq`. -/
def iterNext (count : Nat) (seq : SL α) (stack : List (Tree α)) : Option (List α) :=
  match count with
  | 0 => some []
  | c + 1 =>
    match stack with
    | [] => match seq with
      | [] => none
      | (_, t) :: seq => iterNext (c + 1) seq [t]
    | .leaf x :: xs => (iterNext c seq xs).map (x :: ·)
    | .node x t1 t2 :: xs => (iterNext c seq (t1 :: t2 :: xs)).map (x :: ·)
termination_by (count, seq.length)

/-- lib/data/skew-list.scm:274-292 `%skew-list-iterator` run to exhaustion, i.e.
lib/data/skew-list.scm:301-309 `skew-list->lseq` / lib/data/skew-list.scm:294-299 `skew-list->generator`
forced completely. `end_ = none` is the omitted argument. -/
def lseq (s : SL α) (start : Nat) (end_ : Option Nat) : Option (List α) :=
  let e := end_.getD (length s)
  if start ≤ e then
    if 0 < start then do
      let (seq', k) ← skipSeq start s
      match seq' with
      | [] => none
      | (w, t) :: rest => do
        let stack ← treeKth w k [] t
        iterNext (e - start) rest stack
    else iterNext e s []
  else none

/-- lib/data/skew-list.scm:321-374 `%skew-list-splitter`, `trivial-prefix`. Outer `none` = error
(`cdr` of the empty list), inner `none` = `#f`. -/
def trivialPrefix (elts : SL α) (k : Nat) : (seq : SL α) → (sum i : Nat) → Option (Option (SL α × SL α))
  | seq, sum, i =>
    if k = sum then some (some (elts.take i, elts.drop i))
    else if k > sum then
      match seq with
      | [] => none
      | (w, _) :: seq => trivialPrefix elts k seq (sum + w) (i + 1)
    else some none

/-- lib/data/skew-list.scm:321-374 `%skew-list-splitter`, `special-prefix`. Outer `none` = the `match`
has no matching clause (error), inner `none` = `#f`. -/
def specialPrefix (k : Nat) (s : SL α) : Option (Option (SL α × SL α)) :=
  match s with
  | (1, x) :: (n, .node y t1 t2) :: zs =>
    if k = 2 then
      some (some ([(1, x), (1, .leaf y)], (half n, t1) :: (half n, t2) :: zs))
    else if n > 3 ∧ k = 2 + half n then
      some (some ([(1, x), (1, .leaf y), (half n, t1)], (half n, t2) :: zs))
    else some none
  | (n, .node x (.node y t11 t12) t2) :: zs =>
    let t1 : Tree α := .node y t11 t12
    if k = 1 then some (some ([(1, .leaf x)], (half n, t1) :: (half n, t2) :: zs))
    else if k = 2 then
      some (some ([(1, .leaf x), (1, .leaf y)],
        (quarter n, t11) :: (quarter n, t12) :: (half n, t2) :: zs))
    else if k = 1 + half n then
      some (some ([(1, .leaf x), (half n, t1)], (half n, t2) :: zs))
    else if k > 3 ∧ k = 2 + quarter n then
      some (some ([(1, .leaf x), (1, .leaf y), (quarter n, t11)],
        (quarter n, t12) :: (half n, t2) :: zs))
    else some none
  | (n, .node x (.leaf y) t2) :: zs =>
    if k = 1 then some (some ([(1, .leaf x)], (1, .leaf y) :: (half n, t2) :: zs))
    else if k = 2 then some (some ([(1, .leaf x), (1, .leaf y)], (half n, t2) :: zs))
    else some none
  | _ => none

/-- lib/data/skew-list.scm:321-374 `%skew-list-splitter`: the shared `(or (trivial-prefix) (special-prefix))`
part; inner `none` = both returned `#f`. -/
def splitShared (s : SL α) (k : Nat) : Option (Option (SL α × SL α)) := do
  match ← trivialPrefix s k s 0 0 with
  | some r => some (some r)
  | none => specialPrefix k s

/-- lib/data/skew-list.scm:376 `skew-list-take` (rettype `take`). -/
def take (s : SL α) (k : Nat) : Option (SL α) := do
  match ← splitShared s k with
  | some (a, _) => some a
  | none => ofList (← lseq s 0 (some k))
/-- lib/data/skew-list.scm:377 `skew-list-drop` (rettype `drop`). -/
def drop (s : SL α) (k : Nat) : Option (SL α) := do
  match ← splitShared s k with
  | some (_, b) => some b
  | none => ofList (← lseq s k none)
/-- lib/data/skew-list.scm:378-380 `skew-list-split-at` (rettype `split`); `split-at` of a list errors when
the list is shorter than k. -/
def splitAt (s : SL α) (k : Nat) : Option (SL α × SL α) := do
  match ← splitShared s k with
  | some p => some p
  | none =>
    let l := toList s
    if k ≤ l.length then some (← ofList (l.take k), ← ofList (l.drop k)) else none

/-- lib/data/skew-list.scm:388-403 `%skew-list-append2`, `slow-append`. -/
def slowAppend (s1 s2 : SL α) : Option (SL α) := ofList (toList s1 ++ toList s2)

/-- lib/data/skew-list.scm:388-403 `%skew-list-append2`. Called with `s1` non-empty; `none` = error, in
particular the `match-let1` failures when `s2` is empty. -/
def append2 (s1 s2 : SL α) : Option (SL α) :=
  match s1 with
  | [(1, .leaf x)] => some (cons x s2)
  | [(w0, t0)] => match s2 with
    | [] => none
    | (w1, _) :: _ => if w0 = w1 then some ((w0, t0) :: s2) else slowAppend s1 s2
  | _ => match s1.getLast? with
    | none => none
    | some (wz, _) => match s2 with
      | [] => none
      | (w1, _) :: _ => if wz < w1 then some (s1 ++ s2) else slowAppend s1 s2

/-- lib/data/skew-list.scm:382-386 `skew-list-append`, any number (≥ 1) of arguments. -/
def append (s : SL α) : List (SL α) → Option (SL α)
  | [] => some s
  | s2 :: ss => if isEmpty s then append s2 ss else do append2 s (← append s2 ss)

end Gauche.SkewList
