/-
Model of the single-threaded part of ext/data/queue.scm (module data.queue, class <queue>).

The queue's internal list is a chain of mutable cons cells, so cells live in an explicit memory
`Mem`: an address maps to (car, cdr); `none` as a cdr or list pointer is `()`.  `Scm_Cons` allocates the
next fresh address.  Objects are `Item`: a user value or the private close marker.
`none` as a result models a raised error.  The lock macros are no-ops for a <queue>.
-/
namespace Gauche.Queue

/-- A datum in a queue: a user object or `close_marker` (ext/data/queue.scm:416-434). -/
inductive Item (α : Type) where
  | val (a : α)
  | marker
deriving DecidableEq, Repr

/-- Memory of cons cells; `fresh` is the next unallocated address. -/
structure Mem (β : Type) where
  car : Nat → β
  cdr : Nat → Option Nat
  fresh : Nat

variable {β α : Type}

/-- `Scm_Cons`. -/
def Mem.cons (m : Mem β) (a : β) (d : Option Nat) : Nat × Mem β :=
  (m.fresh, { car := fun i => if i = m.fresh then a else m.car i
              cdr := fun i => if i = m.fresh then d else m.cdr i
              fresh := m.fresh + 1 })
/-- `SCM_SET_CDR`. -/
def Mem.setCdr (m : Mem β) (p : Nat) (d : Option Nat) : Mem β :=
  { m with cdr := fun i => if i = p then d else m.cdr i }
/-- `(set! (SCM_CAR h) x)`. -/
def Mem.setCar (m : Mem β) (p : Nat) (a : β) : Mem β :=
  { m with car := fun i => if i = p then a else m.car i }

/-- Allocate a fresh proper list (`list-copy`, the rest-argument list, `reverse`, ...). -/
def Mem.newList (m : Mem β) : List β → Option Nat × Mem β
  | [] => (none, m)
  | x :: xs => let (d, m1) := m.newList xs
               let (p, m2) := m1.cons x d
               (some p, m2)

/-- `Scm_LastPair` from the pair `p`; the fuel bounds the walk (`none` = it would not have ended). -/
def Mem.lastPair (m : Mem β) (fuel : Nat) (p : Nat) : Option Nat :=
  match fuel with
  | 0 => none
  | f + 1 => match m.cdr p with
    | none => some p
    | some q => m.lastPair f q

/-- The Scheme list at a pointer, as `car`s (`list-copy` reads it, `Scm_Length` counts it). -/
def Mem.list (m : Mem β) (fuel : Nat) : Option Nat → Option (List β)
  | none => some []
  | some p => match fuel with
    | 0 => none
    | f + 1 => (m.list f (m.cdr p)).map (m.car p :: ·)

/-- ext/data/queue.scm:76-80 `Queue`: `len = none` is the C value -1 ("to be calculated"). The memory is kept
with the queue. -/
structure Q (β : Type) where
  len : Option Int
  head : Option Nat
  tail : Option Nat
  mem : Mem β

/-- ext/data/queue.scm:96-99 `makeq`. -/
def makeq (m : Mem β) : Q β := ⟨some 0, none, none, m⟩

/-- `Scm_Length`/`list-copy` of the internal list; cells are never more than allocated ones. -/
def Q.items (q : Q β) : Option (List β) := q.mem.list q.mem.fresh q.head

/-- ext/data/queue.scm:91-94 `%qlength`: length and the queue with its cached length filled in. -/
def Q.length (q : Q β) : Option (Int × Q β) :=
  match q.len with
  | some n => some (n, q)
  | none => q.items.map fun l => (l.length, { q with len := some l.length })

/-- ext/data/queue.scm:306-314 `%queue-set-content!` with a fresh list of the given elements
and last-pair = #f. -/
def Q.setContent (q : Q β) (l : List β) : Option (Q β) :=
  match q.mem.newList l with
  | (none, m) => some { len := some 0, head := none, tail := none, mem := m }
  | (some p, m) => (m.lastPair m.fresh p).map fun t => { len := none, head := some p, tail := some t, mem := m }

/-- ext/data/queue.scm:317-319 `list->queue`. -/
def ofList (m : Mem β) (l : List β) : Option (Q β) := (makeq m).setContent l

/-- ext/data/queue.scm:332-337 `queue-empty?`. -/
def Q.empty (q : Q β) : Bool := q.head.isNone

/-- ext/data/queue.scm:376-380 `queue-peek-both-int`: `none` = queue is empty (the tail of a
non-empty queue is a pair; a stale NIL tail would be the inner `none`). -/
def Q.peek (q : Q β) : Option (β × Option β) :=
  match q.head with
  | none => none
  | some h => some (q.mem.car h, q.tail.map q.mem.car)

/-- ext/data/queue.scm:442-447 `enqueue_int` with a list `head` .. `tail` of `cnt` cells already in memory. -/
def Q.enqueueInt (q : Q β) (cnt : Nat) (head tail : Option Nat) : Option (Q β) :=
  let q := { q with len := q.len.map (· + cnt) }
  match q.head with
  | none => some { q with head := head, tail := tail }
  | some _ => match q.tail with
    | none => none
    | some t => some { q with mem := q.mem.setCdr t head, tail := tail }

/-- ext/data/queue.scm:472-479 `enqueue!` of `obj` and `more`. -/
def Q.enqueue (q : Q β) (obj : β) (more : List β) : Option (Q β) :=
  match more with
  | [] =>
    let (p, m) := q.mem.cons obj none
    { q with mem := m }.enqueueInt 1 (some p) (some p)
  | _ =>
    let (d, m1) := q.mem.newList more
    let (p, m) := m1.cons obj d
    (d.bind fun d => m.lastPair m.fresh d).bind fun t =>
    { q with mem := m }.enqueueInt (more.length + 1) (some p) (some t)

/-- ext/data/queue.scm:532-537 `queue-push-int`. -/
def Q.pushInt (q : Q β) (cnt : Nat) (head tail : Nat) : Option (Q β) :=
  let m := q.mem.setCdr tail q.head
  (m.lastPair m.fresh tail).map fun t =>
  { len := q.len.map (· + cnt), head := some head, tail := some t, mem := m }

/-- ext/data/queue.scm:539-548 `queue-push!`: the objects, last one first, are put before the head.
`Scm_ReverseX` of the argument list is modelled by building the reversed list. -/
def Q.push (q : Q β) (obj : β) (more : List β) : Option (Q β) :=
  match more with
  | [] =>
    let (p, m) := q.mem.cons obj none
    { q with mem := m }.pushInt 1 p p
  | _ =>
    let (h, m) := q.mem.newList (obj :: more).reverse
    h.bind fun h => (m.lastPair m.fresh h).bind fun t =>
    { q with mem := m }.pushInt (more.length + 1) h t

/-- ext/data/queue.scm:592-604 `dequeue-int`: `none` = error in the model's walk, inner `none` = "empty". The loop
skips close markers; `isMarker` recognises them, `nil` is the `()` stored in the unlinked cell. -/
def Q.dequeueInt (isMarker : β → Bool) (nil : β) (fuel : Nat) (q : Q β) : Option (Option β × Q β) :=
  match fuel with
  | 0 => none
  | f + 1 =>
    match q.head with
    | none => some (none, q)
    | some h =>
      let r := q.mem.car h
      let q := { q with head := q.mem.cdr h }
      let q := { q with mem := (q.mem.setCar h nil).setCdr h none }
      let q := { q with len := q.len.map (· - 1) }
      if isMarker r then dequeueInt isMarker nil f q
      else some (some r, q)
/-- ext/data/queue.scm:606-616 `dequeue!` (also `queue-pop!`) without the locking: inner `none` = the queue is
empty: error or fallback. -/
def Q.dequeue (isMarker : β → Bool) (nil : β) (q : Q β) : Option (Option β × Q β) :=
  q.dequeueInt isMarker nil (q.mem.fresh + 1)

/-- ext/data/queue.scm:637-646 `dequeue-all-int`: the whole list (minus a trailing marker) and an empty queue. -/
def Q.dequeueAll (isMarker : β → Bool) (q : Q β) : Option (List β × Q β) :=
  q.items.map fun l =>
    let q' := { q with len := some 0, head := none, tail := none }
    match l.getLast? with
    | some x => if isMarker x then (l.filter (fun y => !isMarker y), q') else (l, q')
    | none => (l, q')

/-- ext/data/queue.scm:506-520 `enqueue-unique!`, inner `pick`: `xs` accumulates in reverse. -/
def pickEnq (cmp : β → β → Bool) (lis : List β) : (xs ins : List β) → List β
  | xs, [] => xs
  | xs, x :: ins =>
    if lis.any (cmp x) || xs.any (cmp x) then pickEnq cmp lis xs ins else pickEnq cmp lis (x :: xs) ins
/-- ext/data/queue.scm:506-520 `enqueue-unique!` on a <queue>; `(member x lis cmp)` calls `(cmp x elt)`. -/
def Q.enqueueUnique (cmp : β → β → Bool) (q : Q β) (objs : List β) : Option (Q β) :=
  q.items.bind fun l =>
  let xs := pickEnq cmp l [] objs
  if xs.isEmpty then some q
  else
    let (h, m) := q.mem.newList xs.reverse
    h.bind fun h => (m.lastPair m.fresh h).bind fun t =>
    { q with mem := m }.enqueueInt xs.length (some h) (some t)

/-- ext/data/queue.scm:573-586 `queue-push-unique!`, inner `pick`. -/
def pickPush (cmp : β → β → Bool) : (lis ins : List β) → List β
  | lis, [] => lis
  | lis, x :: ins => if lis.any (cmp x) then pickPush cmp lis ins else pickPush cmp (x :: lis) ins
/-- ext/data/queue.scm:573-586 `queue-push-unique!` on a <queue>. The new list shares the old cells in the
source; here it is rebuilt (the old chain is not used afterwards). -/
def Q.pushUnique (cmp : β → β → Bool) (q : Q β) (objs : List β) : Option (Q β) :=
  q.items.bind fun l =>
  let xs := pickPush cmp l objs
  if xs.length = l.length then some q else q.setContent xs

/-- ext/data/queue.scm:669-680 `remove-from-queue!`: the loop. -/
def removeLoop (pred : β → Bool) : (rs xs : List β) → (hit : Bool) → List β × Bool
  | rs, [], hit => (rs.reverse, hit)
  | rs, x :: xs, hit => if pred x then removeLoop pred rs xs true else removeLoop pred (x :: rs) xs hit
/-- ext/data/queue.scm:669-680 `remove-from-queue!`: whether something was removed, and the queue. -/
def Q.remove (pred : β → Bool) (q : Q β) : Option (Bool × Q β) :=
  q.items.bind fun l =>
  match removeLoop pred [] l false with
  | (l', true) => (q.setContent l').map (true, ·)
  | (_, false) => some (false, q)

end Gauche.Queue
