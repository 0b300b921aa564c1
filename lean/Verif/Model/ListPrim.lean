/-
The list primitives of src/list.c and src/liblist.scm, on any cons graph: proper, dotted and circular lists.

Objects are the empty list, pairs (an address) and everything else.  Lazy pairs, immutable pairs and extended pairs are left out.  A comparison
(`Scm_EqualM` with the object looked for) is a predicate of the object compared: `equal?` would look into the heap.
Loops have fuel; `diverge` is a loop that has not ended.
-/
namespace Gauche.ListPrim

inductive Val where
  | nil
  | atom (n : Nat)
  | pair (a : Nat)
deriving DecidableEq

/-- The pairs that exist: those with an address below `size`. -/
structure Heap where
  size : Nat
  car : Nat → Val
  cdr : Nat → Val

inductive Out (α : Type) where
  | ok (a : α)
  | error
  | diverge
deriving DecidableEq

/-- src/list.c:58-70 `Scm_Cons`. -/
def Heap.cons (h : Heap) (a d : Val) : Heap × Val :=
  ({ size := h.size + 1, car := fun i => if i = h.size then a else h.car i, cdr := fun i => if i = h.size then d else h.cdr i }, .pair h.size)

/-- SCM_SET_CAR. -/
def Heap.setCar (h : Heap) (a : Nat) (v : Val) : Heap := { h with car := fun i => if i = a then v else h.car i }

/-- SCM_SET_CDR. -/
def Heap.setCdr (h : Heap) (a : Nat) (v : Val) : Heap := { h with cdr := fun i => if i = a then v else h.cdr i }

/-- SCM_SET_CDR on an object that must be a pair: nothing is done for others, there the behaviour is undefined. -/
def Heap.setCdrV (h : Heap) : Val → Val → Heap
  | .pair a, v => h.setCdr a v
  | _, _ => h

/-- SCM_CDR on an object that must be a pair. -/
def Heap.cdrV (h : Heap) : Val → Val
  | .pair a => h.cdr a
  | v => v

/-- The loop of src/list.c:259-285 `Scm_Length2`, without the flag for lazy pairs. -/
def lengthLoop (h : Heap) (allowDotted : Bool) : Nat → Val → Val → Nat → Out Int
  | 0, _, _, _ => .diverge
  | fuel + 1, obj, slow, len =>
    match obj with
    | .nil => .ok len
    | .atom _ => .ok (if allowDotted then len else -1)
    | .pair a =>
      match h.cdr a with
      | .nil => .ok ((len : Int) + 1)
      | .atom _ => .ok (if allowDotted then (len : Int) + 1 else -1)
      | .pair b =>
        let obj := h.cdr b
        let slow := h.cdrV slow
        if obj = slow then .ok (-2) else lengthLoop h allowDotted fuel obj slow (len + 2)

/-- src/list.c:259-285 `Scm_Length2`. -/
def length2 (h : Heap) (allowDotted : Bool) (fuel : Nat) (v : Val) : Out Int := lengthLoop h allowDotted fuel v v 0

/-- `length` (src/liblist.scm:161-164 `length`). -/
def length (h : Heap) (fuel : Nat) (v : Val) : Out Nat :=
  match length2 h false fuel v with
  | .ok n => if n < 0 then .error else .ok n.toNat
  | .error => .error
  | .diverge => .diverge

/-- `length+` (src/liblist.scm:292-294 `length+`). -/
def lengthPlus (h : Heap) (fuel : Nat) (v : Val) : Out (Option Nat) :=
  match length2 h true fuel v with
  | .ok n => .ok (if n < 0 then none else some n.toNat)
  | .error => .error
  | .diverge => .diverge

/-- A test of the value of Scm_Length2. -/
def lengthIs (h : Heap) (fuel : Nat) (v : Val) (p : Int → Bool) : Out Bool :=
  match length2 h false fuel v with
  | .ok n => .ok (p n)
  | .error => .error
  | .diverge => .diverge

/-- `list?`, `proper-list?`: src/gauche.h:848 `SCM_PROPER_LIST_P`. -/
def isProper (h : Heap) (fuel : Nat) (v : Val) : Out Bool := lengthIs h fuel v fun n => decide (n ≥ 0)
/-- `dotted-list?`: src/gauche.h:849-850 `SCM_DOTTED_LIST_P`. -/
def isDotted (h : Heap) (fuel : Nat) (v : Val) : Out Bool := lengthIs h fuel v fun n => decide (n = -1)
/-- `circular-list?`: src/gauche.h:851-852 `SCM_CIRCULAR_LIST_P`. -/
def isCircular (h : Heap) (fuel : Nat) (v : Val) : Out Bool := lengthIs h fuel v fun n => decide (n = -2)

/-- `count-pairs-in-circle` of src/liblist.scm:300-315 `num-pairs`; the hash table is a list of its keys. -/
def countLoop (h : Heap) : Nat → List Nat → Val → Out Nat
  | 0, _, _ => .diverge
  | fuel + 1, tab, v =>
    match v with
    | .pair a => if a ∈ tab then .ok tab.length else countLoop h fuel (a :: tab) (h.cdr a)
    | _ => .error

/-- The loop of src/liblist.scm:300-315 `num-pairs`. -/
def numPairsLoop (h : Heap) (whole : Val) : Nat → Nat → Val → Val → Out Nat
  | 0, _, _, _ => .diverge
  | fuel + 1, n, slow, list =>
    match list with
    | .pair a =>
      match h.cdr a with
      | .pair b => if slow = .pair b then countLoop h (h.size + 1) [] whole else numPairsLoop h whole fuel (n + 2) (h.cdrV slow) (h.cdr b)
      | _ => .ok (n + 1)
    | _ => .ok n

/-- src/liblist.scm:300-315 `num-pairs`. -/
def numPairs (h : Heap) (fuel : Nat) (v : Val) : Out Nat := numPairsLoop h v fuel 0 v v

/-- src/liblist.scm:168-188 `length-cmp-lis`. -/
def cmpLis (h : Heap) : Nat → Val → Val → Val → Val → Bool → Bool → Out Int
  | 0, _, _, _, _, _, _ => .diverge
  | fuel + 1, h1, t1, h2, t2, c1, c2 =>
    match h1, h2 with
    | .pair a, .pair b =>
      match h.cdr a, h.cdr b with
      | .pair a', .pair b' =>
        let h1 := h.cdr a'
        let h2 := h.cdr b'
        let t1 := h.cdrV t1
        let t2 := h.cdrV t2
        let c1 := c1 || decide (h1 = t1)
        let c2 := c2 || decide (h2 = t2)
        if c1 && c2 then .ok 0 else cmpLis h fuel h1 t1 h2 t2 c1 c2
      | .pair _, _ => .ok 1
      | _, .pair _ => .ok (-1)
      | _, _ => .ok 0
    | .pair _, _ => .ok 1
    | _, .pair _ => .ok (-1)
    | _, _ => .ok 0

/-- src/liblist.scm:190-206 `length-cmp-k`. -/
def cmpK (h : Heap) : Nat → Val → Val → Int → Out Int
  | 0, _, _, _ => .diverge
  | fuel + 1, hare, tortoise, k =>
    match hare with
    | .pair a =>
      if k ≤ 0 then .ok 1
      else
        let k := k - 1
        match h.cdr a with
        | .pair b =>
          if k = 0 then .ok 1
          else
            let hare := h.cdr b
            let tortoise := h.cdrV tortoise
            if hare = tortoise then .ok 1 else cmpK h fuel hare tortoise (k - 1)
        | _ => .ok (if k = 0 then 0 else -1)
    | _ => .ok (if k = 0 then 0 else -1)

/-- src/liblist.scm:210-212 `length-cmp-big`. -/
def cmpBig (h : Heap) (fuel : Nat) (v : Val) : Out Int :=
  match length2 h false fuel v with
  | .ok n => .ok (if n < 0 then 1 else -1)
  | .error => .error
  | .diverge => .diverge

/-- src/liblist.scm:214-232 `length-cmp-generic` for an exact integer `k`; a fixnum is below 2^61 in absolute value. -/
def cmpInt (h : Heap) (fuel : Nat) (v : Val) (k : Int) : Out Int :=
  if k < 0 then .ok 1 else if k < 2 ^ 61 then cmpK h fuel v v k else cmpBig h fuel v

/-- src/gauche.h:806-814 `SCM_APPEND1`: the list being built is from `start` to `last`. -/
def append1 (h : Heap) (start last obj : Val) : Heap × Val × Val :=
  let (h, c) := h.cons obj .nil
  if start = .nil then (h, c, c) else (h.setCdrV last c, start, c)

/-- The loop of src/list.c:299-320 `Scm_CopyList` and of src/list.c:327-359 `Scm_AlistCopy`; `el` makes the element. -/
def copyLoop (el : Heap → Val → Heap × Val) : Nat → Heap → Val → Val → Val → Val → Out (Heap × Val × Val × Val)
  | 0, _, _, _, _, _ => .diverge
  | fuel + 1, h, hare, tortoise, start, last =>
    match hare with
    | .pair a =>
      let (h, x) := el h (h.car a)
      let (h, start, last) := append1 h start last x
      match h.cdr a with
      | .pair b =>
        let (h, y) := el h (h.car b)
        let (h, start, last) := append1 h start last y
        let hare := h.cdr b
        let tortoise := h.cdrV tortoise
        if hare = tortoise then .error else copyLoop el fuel h hare tortoise start last
      | v => .ok (h, start, last, v)
    | v => .ok (h, start, last, v)

/-- src/list.c:299-320 `Scm_CopyList`. -/
def copyList (fuel : Nat) (h : Heap) (v : Val) : Out (Heap × Val) :=
  match v with
  | .pair _ =>
    match copyLoop (fun h x => (h, x)) fuel h v v .nil .nil with
    | .ok (h, start, last, hare) => .ok (if hare = .nil then h else h.setCdrV last hare, start)
    | .error => .error
    | .diverge => .diverge
  | _ => .ok (h, v)

/-- The element of src/list.c:327-359 `Scm_AlistCopy`. -/
def copyEntry (h : Heap) (x : Val) : Heap × Val :=
  match x with
  | .pair e => h.cons (h.car e) (h.cdr e)
  | _ => (h, x)

/-- src/list.c:327-359 `Scm_AlistCopy`. -/
def alistCopy (fuel : Nat) (h : Heap) (v : Val) : Out (Heap × Val) :=
  match v with
  | .pair _ =>
    match copyLoop copyEntry fuel h v v .nil .nil with
    | .ok (h, start, _, hare) => if hare = .nil then .ok (h, start) else .error
    | .error => .error
    | .diverge => .diverge
  | _ => .ok (h, v)

/-- The loop of src/list.c:537-551 `Scm_LastPair`. -/
def lastLoop (h : Heap) : Nat → Nat → Val → Out Nat
  | 0, _, _ => .diverge
  | fuel + 1, l, slow =>
    match h.cdr l with
    | .pair l' =>
      match h.cdr l' with
      | .pair l'' =>
        let slow := h.cdrV slow
        if Val.pair l'' = slow then .error else lastLoop h fuel l'' slow
      | _ => .ok l'
    | _ => .ok l

/-- src/list.c:537-551 `Scm_LastPair`. -/
def lastPair (fuel : Nat) (h : Heap) (v : Val) : Out Nat :=
  match v with
  | .pair a => lastLoop h fuel a v
  | _ => .error

/-- The loop of src/list.c:402-416 `Scm_Append2`. -/
def append2Loop : Nat → Heap → Val → Val → Val → Out (Heap × Val × Val × Val)
  | 0, _, _, _, _ => .diverge
  | fuel + 1, h, cp, start, last =>
    match cp with
    | .pair a =>
      let (h, start, last) := append1 h start last (h.car a)
      append2Loop fuel h (h.cdr a) start last
    | v => .ok (h, start, last, v)

/-- src/list.c:402-416 `Scm_Append2`. -/
def append2 (fuel : Nat) (h : Heap) (v obj : Val) : Out (Heap × Val) :=
  if v = .nil then .ok (h, obj)
  else
    match append2Loop fuel h v .nil .nil with
    | .ok (h, start, last, cp) => if cp = .nil then .ok (h.setCdrV last obj, start) else .error
    | .error => .error
    | .diverge => .diverge

/-- src/list.c:385-395 `Scm_Append2X`. -/
def append2X (list : Val) (obj : Val) : Nat → Heap → Val → Out (Heap × Val)
  | 0, _, _ => .diverge
  | fuel + 1, h, cp =>
    match cp with
    | .pair a => if h.cdr a = .nil then .ok (h.setCdr a obj, list) else append2X list obj fuel h (h.cdr a)
    | _ => .ok (h, obj)

/-- src/gauche.h:816-828 `SCM_APPEND`. -/
def appendMacro (fuel : Nat) (h : Heap) (start last obj : Val) : Out (Heap × Val × Val) :=
  if start = .nil then
    if obj = .nil then .ok (h, obj, last)
    else
      match lastPair fuel h obj with
      | .ok a => .ok (h, obj, .pair a)
      | .error => .error
      | .diverge => .diverge
  else
    let h := h.setCdrV last obj
    match lastPair fuel h last with
    | .ok a => .ok (h, start, .pair a)
    | .error => .error
    | .diverge => .diverge

/-- src/list.c:418-438 `Scm_Append`; the arguments are a list made by the call. -/
def appendLoop (fuel : Nat) : List Val → Heap → Val → Val → Out (Heap × Val)
  | [], h, start, _ => .ok (h, start)
  | [x], h, start, last => if start = .nil then .ok (h, x) else .ok (h.setCdrV last x, start)
  | x :: xs, h, start, last =>
    match x with
    | .nil => appendLoop fuel xs h start last
    | .atom _ => .error
    | .pair _ =>
      match copyList fuel h x with
      | .ok (h, c) =>
        match appendMacro fuel h start last c with
        | .ok (h, start, last) => if h.cdrV last = .nil then appendLoop fuel xs h start last else .error
        | .error => .error
        | .diverge => .diverge
      | .error => .error
      | .diverge => .diverge

/-- `append`: src/list.c:418-438 `Scm_Append`. -/
def append (fuel : Nat) (h : Heap) (args : List Val) : Out (Heap × Val) := appendLoop fuel args h .nil .nil

/-- The loop of src/liblist.scm:365-376 `append!`. -/
def appendXLoop (fuel : Nat) : List Val → Heap → Val → Val → Out (Heap × Val)
  | [], h, start, _ => .ok (h, start)
  | [x], h, start, last => if start = .nil then .ok (h, x) else .ok (h.setCdrV last x, start)
  | x :: xs, h, start, last =>
    match appendMacro fuel h start last x with
    | .ok (h, start, last) => if last = .nil ∨ h.cdrV last = .nil then appendXLoop fuel xs h start last else .error
    | .error => .error
    | .diverge => .diverge

/-- src/liblist.scm:365-376 `append!`. -/
def appendX (fuel : Nat) (h : Heap) (args : List Val) : Out (Heap × Val) := appendXLoop fuel args h .nil .nil

/-- src/list.c:448-465 `Scm_Reverse2`: the pairs are made with a hole in the first. -/
def reverseLoop : Nat → Heap → Val → Nat → Out (Heap × Nat)
  | 0, _, _, _ => .diverge
  | fuel + 1, h, cp, result =>
    match cp with
    | .pair a =>
      let h := h.setCar result (h.car a)
      let h' := (h.cons .nil (.pair result)).1
      reverseLoop fuel h' (h'.cdr a) h.size
    | _ => .ok (h, result)

/-- src/list.c:448-465 `Scm_Reverse2`. -/
def reverse2 (fuel : Nat) (h : Heap) (v tail : Val) : Out (Heap × Val) :=
  match v with
  | .pair _ =>
    match reverseLoop fuel (h.cons .nil tail).1 v h.size with
    | .ok (h, r) => .ok (h, h.cdr r)
    | .error => .error
    | .diverge => .diverge
  | _ => .ok (h, tail)

/-- src/list.c:480-490 `Scm_Reverse2X`. -/
def reverse2X : Nat → Heap → Val → Val → Out (Heap × Val)
  | 0, _, _, _ => .diverge
  | fuel + 1, h, first, result =>
    match first with
    | .pair a => reverse2X fuel (h.setCdr a result) (h.cdr a) (.pair a)
    | _ => .ok (h, result)

/-- The loop of src/list.c:502-514 `Scm_ListTail`. -/
def listTailLoop (h : Heap) : Nat → Val → Option Val
  | 0, v => some v
  | n + 1, .pair a => listTailLoop h n (h.cdr a)
  | _ + 1, _ => none

/-- src/list.c:502-514 `Scm_ListTail`; `fallback` is `none` for SCM_UNBOUND. -/
def listTail (h : Heap) (v : Val) (i : Int) (fallback : Option Val) : Out Val :=
  match (if i < 0 then none else listTailLoop h i.toNat v), fallback with
  | some v, _ => .ok v
  | none, some f => .ok f
  | none, none => .error

/-- src/list.c:516-530 `Scm_ListRef`. -/
def listRef (h : Heap) (v : Val) (i : Int) (fallback : Option Val) : Out Val :=
  match (if i < 0 then none else listTailLoop h i.toNat v), fallback with
  | some (.pair a), _ => .ok (h.car a)
  | _, some f => .ok f
  | _, none => .error

/-- src/list.c:560-564 `Scm_Memq`, src/list.c:566-572 `Scm_Memv` and src/list.c:574-580 `Scm_Member`; `none` is #f. -/
def member (h : Heap) (eq : Val → Bool) : Nat → Val → Out (Option Nat)
  | 0, _ => .diverge
  | fuel + 1, v =>
    match v with
    | .pair a => if eq (h.car a) then .ok (some a) else member h eq fuel (h.cdr a)
    | _ => .ok none

/-- src/list.c:625-635 `Scm_Assq`, src/list.c:637-647 `Scm_Assv` and src/list.c:649-659 `Scm_Assoc`, for a list: the entry found. -/
def assoc (h : Heap) (eq : Val → Bool) : Nat → Val → Out (Option Nat)
  | 0, _ => .diverge
  | fuel + 1, v =>
    match v with
    | .pair a =>
      match h.car a with
      | .pair e => if eq (h.car e) then .ok (some e) else assoc h eq fuel (h.cdr a)
      | _ => assoc h eq fuel (h.cdr a)
    | _ => .ok none

/-- The inner loop of src/list.c:583-599 `Scm_Delete` and of src/list.c:662-684 `Scm_AssocDelete`: copy from `prev` up to the pair `cp`. -/
def copyUpTo (cp : Nat) : Nat → Heap → Val → Val → Val → Out (Heap × Val × Val)
  | 0, _, _, _, _ => .diverge
  | fuel + 1, h, prev, start, last =>
    if prev = .pair cp then .ok (h, start, last)
    else
      match prev with
      | .pair a =>
        let (h, start, last) := append1 h start last (h.car a)
        copyUpTo cp fuel h (h.cdr a) start last
      | _ => .error

/-- The loop of src/list.c:583-599 `Scm_Delete`; `test` is whether the pair is to go. -/
def deleteLoop (test : Heap → Val → Bool) : Nat → Heap → Val → Val → Val → Val → Out (Heap × Val × Val × Val)
  | 0, _, _, _, _, _ => .diverge
  | fuel + 1, h, cp, start, last, prev =>
    match cp with
    | .pair a =>
      if test h (h.car a) then
        match copyUpTo a (h.size + 1) h prev start last with
        | .ok (h, start, last) => deleteLoop test fuel h (h.cdr a) start last (h.cdr a)
        | .error => .error
        | .diverge => .diverge
      else deleteLoop test fuel h (h.cdr a) start last prev
    | _ => .ok (h, start, last, prev)

/-- src/list.c:583-599 `Scm_Delete`, and src/list.c:662-684 `Scm_AssocDelete` for a list. -/
def deleteBy (test : Heap → Val → Bool) (fuel : Nat) (h : Heap) (v : Val) : Out (Heap × Val) :=
  if v = .nil then .ok (h, .nil)
  else
    match deleteLoop test fuel h v .nil .nil v with
    | .ok (h, start, last, prev) =>
      if v = prev then .ok (h, v)
      else if start = .nil then .ok (h, prev)
      else
        match prev with
        | .pair _ => .ok (h.setCdrV last prev, start)
        | _ => .ok (h, start)
    | .error => .error
    | .diverge => .diverge

/-- The test of src/list.c:583-599 `Scm_Delete`. -/
def eltTest (eq : Val → Bool) (_ : Heap) (x : Val) : Bool := eq x

/-- The test of src/list.c:662-684 `Scm_AssocDelete`. -/
def entryTest (eq : Val → Bool) (h : Heap) (x : Val) : Bool :=
  match x with
  | .pair e => eq (h.car e)
  | _ => false

/-- src/list.c:601-616 `Scm_DeleteX`: `prev` is the pair before, if there is one. -/
def deleteX (eq : Val → Bool) : Nat → Heap → Val → Option Nat → Val → Out (Heap × Val)
  | 0, _, _, _, _ => .diverge
  | fuel + 1, h, cp, prev, list =>
    match cp with
    | .pair a =>
      if eq (h.car a) then
        match prev with
        | none => deleteX eq fuel h (h.cdr a) none (h.cdr a)
        | some p => let h := h.setCdr p (h.cdr a); deleteX eq fuel h (h.cdr a) prev list
      else deleteX eq fuel h (h.cdr a) (some a) list
    | _ => .ok (h, list)

/-- src/list.c:686-707 `Scm_AssocDeleteX`: `prev = cp` is done for an entry deleted after the first kept one, too. -/
def assocDeleteX (eq : Val → Bool) : Nat → Heap → Val → Option Nat → Val → Out (Heap × Val)
  | 0, _, _, _, _ => .diverge
  | fuel + 1, h, cp, prev, list =>
    match cp with
    | .pair a =>
      if entryTest eq h (h.car a) then
        match prev with
        | none => assocDeleteX eq fuel h (h.cdr a) none (h.cdr a)
        | some p => let h := h.setCdr p (h.cdr a); assocDeleteX eq fuel h (h.cdr a) (some a) list
      else assocDeleteX eq fuel h (h.cdr a) (some a) list
    | _ => .ok (h, list)

/-- The loop of src/list.c:711-721 `Scm_DeleteDuplicates`; `eq x y` is Scm_EqualM(x, y). -/
def dedupLoop (eq : Val → Val → Bool) : Nat → Heap → Val → Val → Val → Out (Heap × Val × Val × Val)
  | 0, _, _, _, _ => .diverge
  | fuel + 1, h, lp, result, tail =>
    match lp with
    | .pair a =>
      match member h (eq (h.car a)) (h.size + 1) result with
      | .ok none =>
        let (h, result, tail) := append1 h result tail (h.car a)
        dedupLoop eq fuel h (h.cdr a) result tail
      | .ok (some _) => dedupLoop eq fuel h (h.cdr a) result tail
      | .error => .error
      | .diverge => .diverge
    | v => .ok (h, result, tail, v)

/-- src/list.c:711-721 `Scm_DeleteDuplicates`. -/
def dedup (eq : Val → Val → Bool) (fuel : Nat) (h : Heap) (v : Val) : Out (Heap × Val) :=
  match dedupLoop eq fuel h v .nil .nil with
  | .ok (h, result, tail, lp) => .ok (if lp ≠ .nil ∧ tail ≠ .nil then h.setCdrV tail lp else h, result)
  | .error => .error
  | .diverge => .diverge

/-- src/list.c:723-733 `Scm_DeleteDuplicatesX`. -/
def dedupX (eq : Val → Val → Bool) (list : Val) : Nat → Heap → Val → Out (Heap × Val)
  | 0, _, _ => .diverge
  | fuel + 1, h, lp =>
    match lp with
    | .pair a =>
      match deleteX (eq (h.car a)) (h.size + 1) h (h.cdr a) none (h.cdr a) with
      | .ok (h, tail) =>
        let h := if h.cdr a = tail then h else h.setCdr a tail
        dedupX eq list fuel h (h.cdr a)
      | .error => .error
      | .diverge => .diverge
    | _ => .ok (h, list)

end Gauche.ListPrim
