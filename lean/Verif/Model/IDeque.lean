/-
Model of lib/data/ideque.scm (module data.ideque, SRFI-134 immutable deques).

`none` models a raised error.  Scheme lists are `List`; the lazy append `lappend`
(ideque.scm:120,126) is modelled as ordinary append: laziness is not observable in the
values.  Procedures passed by the user are pure functions.  Sizes are `Nat`; index
arguments coming from the user are `Int` (negative ones are errors).  Non-integer
arguments are not modelled.
-/
namespace Gauche.IDeque

/-- lib/data/ideque.scm:68-72 `<ideque>` record. -/
structure DQ (α : Type _) where
  lenf : Nat
  f : List α
  lenr : Nat
  r : List α
deriving Repr, DecidableEq

/-- SRFI-1 `take` (used at ideque.scm:119 etc.): error if the list is too short. -/
def takeE (l : List α) (n : Nat) : Option (List α) :=
  if n ≤ l.length then some (l.take n) else none

/-- SRFI-1 `drop`: error if the list is too short. -/
def dropE (l : List α) (n : Nat) : Option (List α) :=
  if n ≤ l.length then some (l.drop n) else none

/-- SRFI-1 `take-right`: error if the list is too short. -/
def takeRightE (l : List α) (n : Nat) : Option (List α) :=
  if n ≤ l.length then some (l.drop (l.length - n)) else none

/-- `car`. -/
def carE : List α → Option α
  | [] => none
  | x :: _ => some x

/-- `cdr`. -/
def cdrE : List α → Option (List α)
  | [] => none
  | _ :: xs => some xs

/-- lib/data/ideque.scm:75 `*empty*`. -/
def empty : DQ α := ⟨0, [], 0, []⟩

/-- lib/data/ideque.scm:111 `C`. -/
def C : Nat := 3

/-- lib/data/ideque.scm:113-126 `check`. -/
def check (lenf : Nat) (f : List α) (lenr : Nat) (r : List α) : Option (DQ α) :=
  if lenf > lenr * C + 1 then
    let i := (lenf + lenr) / 2
    let j := (lenf + lenr) - i
    do let f' ← takeE f i
       let d ← dropE f i
       some ⟨i, f', j, r ++ d.reverse⟩
  else if lenr > lenf * C + 1 then
    let j := (lenf + lenr) / 2
    let i := (lenf + lenr) - j
    do let r' ← takeE r j
       let d ← dropE r j
       some ⟨i, f ++ d.reverse, j, r'⟩
  else some ⟨lenf, f, lenr, r⟩

/-- lib/data/ideque.scm:82-86 `make-ideque`. -/
def make (n : Nat) (init : α) : DQ α :=
  let lenf := n / 2
  let lenr := n - lenf
  ⟨lenf, List.replicate lenf init, lenr, List.replicate lenr init⟩

/-- lib/data/ideque.scm:440-442 `list->ideque` (without the start/end arguments). -/
def ofList (l : List α) : Option (DQ α) := check l.length l 0 []

/-- lib/data/ideque.scm:102-109 `ideque-tabulate`. The rear chain is built by `unfold` with
seed n = 0 .. lenr-1 and element `init (size - n - 1)`. -/
def tabulate (size : Nat) (init : Nat → α) : DQ α :=
  let lenf := size / 2
  let lenr := (size + 1) / 2
  ⟨lenf, (List.range lenf).map init, lenr, (List.range lenr).map fun n => init (size - n - 1)⟩

/-- lib/data/ideque.scm:133-135 `ideque-empty?`. -/
def isEmpty (d : DQ α) : Bool := d.lenf == 0 && d.lenr == 0

/-- lib/data/ideque.scm:138-139 `ideque-add-front`. -/
def addFront (d : DQ α) (x : α) : Option (DQ α) := check (d.lenf + 1) (x :: d.f) d.lenr d.r

/-- lib/data/ideque.scm:142-147 `ideque-front`. -/
def front (d : DQ α) : Option α :=
  if d.lenf = 0 then
    if d.lenr = 0 then none else carE d.r
  else carE d.f

/-- lib/data/ideque.scm:150-155 `ideque-remove-front`. -/
def removeFront (d : DQ α) : Option (DQ α) :=
  if d.lenf = 0 then
    if d.lenr = 0 then none else some empty
  else do check (d.lenf - 1) (← cdrE d.f) d.lenr d.r

/-- lib/data/ideque.scm:158-159 `ideque-add-back`. -/
def addBack (d : DQ α) (x : α) : Option (DQ α) := check d.lenf d.f (d.lenr + 1) (x :: d.r)

/-- lib/data/ideque.scm:162-167 `ideque-back`. -/
def back (d : DQ α) : Option α :=
  if d.lenr = 0 then
    if d.lenf = 0 then none else carE d.f
  else carE d.r

/-- lib/data/ideque.scm:170-175 `ideque-remove-back`. -/
def removeBack (d : DQ α) : Option (DQ α) :=
  if d.lenr = 0 then
    if d.lenf = 0 then none else some empty
  else do check d.lenf d.f (d.lenr - 1) (← cdrE d.r)

/-- lib/data/ideque.scm:178-181 `ideque-reverse`. -/
def reverse (d : DQ α) : DQ α :=
  if isEmpty d then empty else ⟨d.lenr, d.r, d.lenf, d.f⟩

/-- lib/data/ideque.scm:212-216 `list-prefix=`. -/
def listPrefixEq (eq : α → α → Bool) : List α → List α → Bool × List α × List α
  | [], b => (true, [], b)
  | a, [] => (true, a, [])
  | x :: a, y :: b => if eq x y then listPrefixEq eq a b else (false, x :: a, y :: b)

/-- SRFI-1 `list=` on two lists (used at ideque.scm:209-210). -/
def listEq (eq : α → α → Bool) : List α → List α → Bool
  | [], [] => true
  | x :: a, y :: b => eq x y && listEq eq a b
  | _, _ => false

/-- lib/data/ideque.scm:188-208 `ideque=`, two-argument case of `ideque=` without the `eq?` shortcut
(an `eq?` pair is equal for any reflexive element predicate). -/
def eq2 (eq : α → α → Bool) (d1 d2 : DQ α) : Bool :=
  let len1 := d1.lenf + d1.lenr
  let len2 := d2.lenf + d2.lenr
  if len1 = len2 then
    let (x, t1, t2) := listPrefixEq eq d1.f d2.f
    if x then
      let (y, r1, r2) := listPrefixEq eq d1.r d2.r
      if y then
        if t1.isEmpty then listEq eq t2 r1.reverse
        else listEq eq t1 r2.reverse
      else false
    else false
  else false

/-- lib/data/ideque.scm:270 `ideque-length`. -/
def length (d : DQ α) : Nat := d.lenf + d.lenr

/-- `list-ref` with error past the end. -/
def listRefE (l : List α) (n : Nat) : Option α := l[n]?

/-- lib/data/ideque.scm:219-223 `ideque-ref`. -/
def ref (d : DQ α) (n : Int) : Option α :=
  let len := d.lenf + d.lenr
  if n < 0 ∨ n ≥ len then none
  else if n < d.lenf then listRefE d.f n.toNat
  else listRefE d.r (len - n - 1 : Int).toNat

/-- lib/data/ideque.scm:225-230 `%ideque-take`. -/
def take' (d : DQ α) (n : Nat) : Option (DQ α) :=
  if n ≤ d.lenf then do check n (← takeE d.f n) 0 []
  else
    let lenr' := n - d.lenf
    do check d.lenf d.f lenr' (← takeRightE d.r lenr')

/-- lib/data/ideque.scm:232-237 `%ideque-drop`. -/
def drop' (d : DQ α) (n : Nat) : Option (DQ α) :=
  if n ≤ d.lenf then do check (d.lenf - n) (← dropE d.f n) d.lenr d.r
  else
    let lenr' := d.lenr - (n - d.lenf)
    do check 0 [] lenr' (← takeE d.r lenr')

/-- lib/data/ideque.scm:239-241 `%check-length`. -/
def lengthOk (d : DQ α) (n : Int) : Bool := 0 ≤ n && n ≤ length d

/-- lib/data/ideque.scm:244-246 `ideque-take`. -/
def take (d : DQ α) (n : Int) : Option (DQ α) :=
  if lengthOk d n then take' d n.toNat else none
/-- lib/data/ideque.scm:249-251 `ideque-take-right`. -/
def takeRight (d : DQ α) (n : Int) : Option (DQ α) :=
  if lengthOk d n then drop' d (length d - n.toNat) else none
/-- lib/data/ideque.scm:254-256 `ideque-drop`. -/
def drop (d : DQ α) (n : Int) : Option (DQ α) :=
  if lengthOk d n then drop' d n.toNat else none
/-- lib/data/ideque.scm:259-261 `ideque-drop-right`. -/
def dropRight (d : DQ α) (n : Int) : Option (DQ α) :=
  if lengthOk d n then take' d (length d - n.toNat) else none
/-- lib/data/ideque.scm:264-267 `ideque-split-at`. -/
def splitAt (d : DQ α) (n : Int) : Option (DQ α × DQ α) :=
  if lengthOk d n then do some (← take' d n.toNat, ← drop' d n.toNat) else none

/-- lib/data/ideque.scm:436 `ideque->list`. -/
def toList (d : DQ α) : List α := d.f ++ d.r.reverse

/-- lib/data/ideque.scm:273-276 `ideque-append`, any number of deques. -/
def append (ds : List (DQ α)) : Option (DQ α) := ofList (ds.map toList).flatten

/-- lib/data/ideque.scm:279-282 `ideque-count` (one deque). -/
def count (p : α → Bool) (d : DQ α) : Nat := d.f.countP p + d.r.countP p

/-- lib/data/ideque.scm:289-294 `ideque-map` (one deque). -/
def map (g : α → β) (d : DQ α) : DQ β := ⟨d.lenf, d.f.map g, d.lenr, d.r.map g⟩

/-- lib/data/ideque.scm:289-294 `ideque-map` (two deques; `map` stops at the shorter list). -/
def map2 (g : α → β → γ) (d : DQ α) (e : DQ β) : Option (DQ γ) :=
  ofList (List.zipWith g (toList d) (toList e))

/-- lib/data/ideque.scm:297-303 `ideque-filter-map` (one deque). -/
def filterMap (g : α → Option β) (d : DQ α) : Option (DQ β) :=
  let f := d.f.filterMap g
  let r := d.r.filterMap g
  check f.length f r.length r

/-- lib/data/ideque.scm:306-309 `ideque-for-each`: the sequence of arguments `proc` is called on. -/
def forEachTrace (d : DQ α) : List α := d.f ++ d.r.reverse
/-- lib/data/ideque.scm:312-318 `ideque-for-each-right`: the sequence of arguments. -/
def forEachRightTrace (d : DQ α) : List α := d.r ++ d.f.reverse

/-- SRFI-1 `fold`: `(fold kons knil lis)`. -/
def foldS (k : α → β → β) (z : β) : List α → β
  | [] => z
  | x :: xs => foldS k (k x z) xs

/-- lib/data/ideque.scm:321-325 `ideque-fold`. -/
def fold (k : α → β → β) (z : β) (d : DQ α) : β := foldS k (foldS k z d.f) d.r.reverse
/-- lib/data/ideque.scm:328-334 `ideque-fold-right`. -/
def foldRight (k : α → β → β) (z : β) (d : DQ α) : β :=
  List.foldr k (List.foldr k z d.r.reverse) d.f

/-- lib/data/ideque.scm:341-344 `%ideque-filter-remove`; `ideque-remove` is the same with the predicate negated. -/
def filter (p : α → Bool) (d : DQ α) : Option (DQ α) :=
  let f := d.f.filter p
  let r := d.r.filter p
  check f.length f r.length r
/-- lib/data/ideque.scm:348 `ideque-remove`. -/
def remove (p : α → Bool) (d : DQ α) : Option (DQ α) := filter (fun x => !p x) d

/-- lib/data/ideque.scm:351-355 `ideque-partition`. -/
def partition (p : α → Bool) (d : DQ α) : Option (DQ α × DQ α) :=
  let (f1, f2) := d.f.partition p
  let (r1, r2) := d.r.partition p
  do some (← check f1.length f1 r1.length r1, ← check f2.length f2 r2.length r2)

/-- lib/data/ideque.scm:362-365 `seek`, with `*not-found*` as `none`. -/
def seek (p : α → Bool) : List α → Option α
  | [] => none
  | x :: xs => if p x then some x else seek p xs
/-- lib/data/ideque.scm:359-372 `%search`; `none` = the failure thunk is called. -/
def search (p : α → Bool) (s1 s2 : List α) : Option α :=
  match seek p s1 with
  | some v => some v
  | none => seek p s2.reverse
/-- lib/data/ideque.scm:375-376 `ideque-find`. -/
def find (p : α → Bool) (d : DQ α) : Option α := search p d.f d.r
/-- lib/data/ideque.scm:379-380 `ideque-find-right`. -/
def findRight (p : α → Bool) (d : DQ α) : Option α := search p d.r d.f

/-- lib/data/ideque.scm:383-388 `ideque-take-while`. -/
def takeWhile (p : α → Bool) (d : DQ α) : Option (DQ α) :=
  let (hd, tl) := d.f.span p
  if tl.isEmpty then
    let (hd', _) := d.r.reverse.span p
    check d.lenf d.f hd'.length hd'.reverse
  else check hd.length hd 0 []
/-- lib/data/ideque.scm:391-392 `ideque-take-while-right`. -/
def takeWhileRight (p : α → Bool) (d : DQ α) : Option (DQ α) :=
  (takeWhile p (reverse d)).map reverse
/-- lib/data/ideque.scm:395-400 `ideque-drop-while`. -/
def dropWhile (p : α → Bool) (d : DQ α) : Option (DQ α) :=
  let (_, tl) := d.f.span p
  if tl.isEmpty then
    let (_, tl') := d.r.reverse.span p
    check tl'.length tl' 0 []
  else check tl.length tl d.lenr d.r
/-- lib/data/ideque.scm:403-404 `ideque-drop-while-right`. -/
def dropWhileRight (p : α → Bool) (d : DQ α) : Option (DQ α) :=
  (dropWhile p (reverse d)).map reverse

/-- lib/data/ideque.scm:406-413 `%idq-span-break` with op = span (`break` is span of the negation). -/
def span (p : α → Bool) (d : DQ α) : Option (DQ α × DQ α) :=
  let (head, tail) := d.f.span p
  if tail.isEmpty then
    let (head', tail') := d.r.reverse.span p
    do some (← check head.length head head'.length head'.reverse,
             ← check tail'.length tail' 0 [])
  else
    do some (← check head.length head 0 [], ← check tail.length tail d.lenr d.r)

/-- lib/data/ideque.scm:420-425 `ideque-any` (one deque): first true value of `pred`. -/
def any (p : α → Option β) (d : DQ α) : Option β :=
  if d.r.isEmpty then d.f.findSome? p
  else match d.f.findSome? p with
    | some v => some v
    | none => d.r.reverse.findSome? p
/-- lib/data/ideque.scm:428-433 `ideque-every` (one deque, boolean predicate). -/
def every (p : α → Bool) (d : DQ α) : Bool :=
  if d.r.isEmpty then d.f.all p else d.f.all p && d.r.reverse.all p

/-- lib/data/ideque.scm:445-449 `ideque->generator`: one call of the generator with hidden state `d`.
Result: item delivered (`none` = eof object) and the new state; outer `none` = error. -/
def genStep (d : DQ α) : Option (Option α × DQ α) :=
  if isEmpty d then some (none, d)
  else do
    let v ← front d
    let d' ← removeFront d
    some (some v, d')

end Gauche.IDeque
