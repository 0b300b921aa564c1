import Mathlib.Data.List.Basic
/-
Ring buffers, libsrc/data/ring-buffer.scm.

The backing storage is a list of cells (a vector, or a uvector of fixed element type: conversions of elements
are not modelled).  The overflow handler is arbitrary: each operation that may call it carries its answer.  The
handler does not itself change the buffer.
-/
namespace Gauche.RingBuffer

variable {α : Type}

/-- The record in libsrc/data/ring-buffer.scm:84-92 `ring-buffer`. -/
structure RB (α : Type) where
  storage : List α
  head : Nat
  tail : Nat
  cap : Nat
  num : Nat
deriving DecidableEq

/-- What an overflow handler answers. -/
inductive Ans (α : Type) where
  | error
  | overwrite
  | storage (v : List α)
  | invalid
deriving DecidableEq

/-- libsrc/data/ring-buffer.scm:134-135 `%rb-mod-index`. -/
def modIndex (s : List α) (i : Int) : Nat := (i % (s.length : Int)).toNat

/-- `%rb-copy!`: `vector-copy!` of libsrc/data/ring-buffer.scm:149-150 `%rb-copy!`; `none` = an index is out of range. -/
def copyInto (dest : List α) (d : Nat) (src : List α) (s e : Nat) : Option (List α) :=
  if s ≤ e ∧ e ≤ src.length ∧ d + (e - s) ≤ dest.length then
    some (dest.take d ++ (src.drop s).take (e - s) ++ dest.drop (d + (e - s)))
  else none

/-- libsrc/data/ring-buffer.scm:152-160 `%rb-copy-contents!`. -/
def copyContents (rb : RB α) (new old : List α) : Option (List α) :=
  if rb.tail ≤ rb.head then
    (copyInto new 0 old rb.head rb.cap).bind fun n => copyInto n (rb.cap - rb.head) old 0 rb.tail
  else copyInto new 0 old rb.head rb.tail

/-- libsrc/data/ring-buffer.scm:162-165 `%rb-head-inc!`. -/
def headInc (rb : RB α) (d : Int) : RB α := { rb with head := modIndex rb.storage (rb.head + d) }

/-- libsrc/data/ring-buffer.scm:167-170 `%rb-tail-inc!`. -/
def tailInc (rb : RB α) (d : Int) : RB α := { rb with tail := modIndex rb.storage (rb.tail + d) }

/-- libsrc/data/ring-buffer.scm:177-185 `make-overflow-doubler`; `none` = `+inf.0`.  `fresh` is the content of an allocated
vector. -/
def doubler (maxIncrease maxCapacity : Option Nat) (fresh : α) (rb : RB α) : Ans α :=
  if (maxCapacity.map fun m => decide (m ≤ rb.cap)).getD false then .error
  else match maxIncrease with
    | some m => if m ≤ rb.cap then .storage (List.replicate (rb.cap + m) fresh)
                else .storage (List.replicate (rb.cap * 2) fresh)
    | none => .storage (List.replicate (rb.cap * 2) fresh)

/-- libsrc/data/ring-buffer.scm:198-224 `make-ring-buffer` (the handler is not part of the state here). -/
def make (storage : List α) (head tail : Int) : Option (RB α) :=
  if 0 ≤ head ∧ head ≤ (storage.length : Int) - 1 ∧ head ≤ tail ∧ tail ≤ storage.length then
    some ⟨storage, head.toNat, modIndex storage tail, storage.length, (tail - head).toNat⟩
  else none

/-- libsrc/data/ring-buffer.scm:227 `ring-buffer-empty?`. -/
def isEmpty (rb : RB α) : Bool := decide (rb.num = 0)

/-- libsrc/data/ring-buffer.scm:230-231 `ring-buffer-full?`. -/
def isFull (rb : RB α) : Bool := decide (rb.num = rb.cap)

/-- libsrc/data/ring-buffer.scm:234-235 `ring-buffer-room`. -/
def room (rb : RB α) : Int := (rb.cap : Int) - rb.num

/-- libsrc/data/ring-buffer.scm:242-264 `%ensure-room!`; `forward` is the direction; `none` = an error, the buffer being unchanged. -/
def ensureRoom (rb : RB α) (forward : Bool) (ans : Ans α) : Option (RB α) :=
  if rb.num = rb.cap then
    match ans with
    | .error => none
    | .overwrite =>
      let rb := if forward then headInc rb 1 else tailInc rb (-1)
      some { rb with num := rb.num - 1 }
    | .invalid => none
    | .storage v =>
      (copyContents rb v rb.storage).map fun w =>
        { storage := w, head := 0, tail := rb.num, cap := w.length, num := rb.num }
  else some rb

/-- What a caller sees. -/
inductive Out (α : Type) where
  | err
  | unit
  | elt (a : α)
  | elts (l : List α)
  | bool (b : Bool)
  | int (n : Int)
deriving DecidableEq

/-- A vector reference; an index out of range is an error. -/
def outRef (s : List α) (i : Nat) : Out α := match s[i]? with
  | some a => .elt a
  | none => .err

/-- libsrc/data/ring-buffer.scm:267-270 `ring-buffer-front`. -/
def front (rb : RB α) : Out α := if isEmpty rb then .err else outRef rb.storage rb.head

/-- libsrc/data/ring-buffer.scm:273-276 `ring-buffer-back` (with `%rb-ref-1`). -/
def back (rb : RB α) : Out α :=
  if isEmpty rb then .err else outRef rb.storage (modIndex rb.storage ((rb.tail : Int) - 1))

/-- libsrc/data/ring-buffer.scm:279-286 `ring-buffer-add-front!`. -/
def addFront (rb : RB α) (x : α) (ans : Ans α) : RB α × Out α :=
  match ensureRoom rb false ans with
  | none => (rb, .err)
  | some rb =>
    let rb := headInc rb (-1)
    if rb.head < rb.storage.length then
      ({ rb with storage := rb.storage.set rb.head x, num := rb.num + 1 }, .unit)
    else (rb, .err)

/-- libsrc/data/ring-buffer.scm:289-296 `ring-buffer-add-back!`. -/
def addBack (rb : RB α) (x : α) (ans : Ans α) : RB α × Out α :=
  match ensureRoom rb true ans with
  | none => (rb, .err)
  | some rb =>
    if rb.tail < rb.storage.length then
      let rb := { rb with storage := rb.storage.set rb.tail x }
      let rb := tailInc rb 1
      ({ rb with num := rb.num + 1 }, .unit)
    else (rb, .err)

/-- libsrc/data/ring-buffer.scm:299-305 `ring-buffer-remove-front!`. -/
def removeFront (rb : RB α) : RB α × Out α :=
  if isEmpty rb then (rb, .err)
  else
    let v := outRef rb.storage rb.head
    let rb := headInc rb 1
    ({ rb with num := rb.num - 1 }, v)

/-- libsrc/data/ring-buffer.scm:308-314 `ring-buffer-remove-back!`. -/
def removeBack (rb : RB α) : RB α × Out α :=
  if isEmpty rb then (rb, .err)
  else
    let rb := tailInc rb (-1)
    let rb := { rb with num := rb.num - 1 }
    (rb, outRef rb.storage rb.tail)

/-- libsrc/data/ring-buffer.scm:317-324 `ring-buffer-ref`. -/
def ref (rb : RB α) (n : Int) (fallback : Option α) : Out α :=
  if 0 ≤ n ∧ n ≤ (rb.num : Int) - 1 then outRef rb.storage (modIndex rb.storage (rb.head + n))
  else match fallback with
    | none => .err
    | some a => .elt a

/-- libsrc/data/ring-buffer.scm:327-333 `ring-buffer-set!`. -/
def setAt (rb : RB α) (n : Int) (x : α) : RB α × Out α :=
  if 0 ≤ n ∧ n ≤ (rb.num : Int) - 1 then
    let i := modIndex rb.storage (rb.head + n)
    if i < rb.storage.length then ({ rb with storage := rb.storage.set i x }, .unit) else (rb, .err)
  else (rb, .err)

/-- libsrc/data/ring-buffer.scm:336-339 `ring-buffer-clear!`. -/
def clear (rb : RB α) : RB α := { rb with head := 0, tail := 0, num := 0 }

/-- libsrc/data/ring-buffer.scm:385-399 `ring-buffer->xsubvectors`: the list of (start, end) of the parts of the storage; `none` =
error. -/
def subvectors (rb : RB α) (start stop : Int) : Option (List (Nat × Nat)) :=
  if 0 ≤ start ∧ start ≤ stop ∧ stop ≤ rb.num then
    if start = stop then some []
    else
      let h := ((rb.head + start) % (rb.cap : Int)).toNat
      let t := ((rb.head + stop) % (rb.cap : Int)).toNat
      if h < t then some [(h, t)]
      else if t = 0 then some [(h, rb.cap)]
      else some [(h, rb.cap), (0, t)]
  else none

/-- libsrc/data/ring-buffer.scm:402-424 `ring-buffer->xvector`; the appender copies the parts into a fresh vector. -/
def toVector (rb : RB α) (start stop : Int) : Out α :=
  match subvectors rb start stop with
  | none => .err
  | some ps => .elts (ps.map fun p => (rb.storage.drop p.1).take (p.2 - p.1)).flatten

/-- The loop of libsrc/data/ring-buffer.scm:427-446 `ring-buffer->xvector!`. -/
def toVectorLoop (target : List α) (k : Nat) (src : List α) : List (Nat × Nat) → Option (List α)
  | [] => some target
  | (s, e) :: rest => (copyInto target k src s e).bind fun t => toVectorLoop t (k + (e - s)) src rest

/-- libsrc/data/ring-buffer.scm:427-446 `ring-buffer->xvector!`: the new content of the target; `none` = error. -/
def toVectorAt (target : List α) (tstart : Int) (rb : RB α) (start stop : Int) : Option (List α) :=
  if 0 ≤ start ∧ start ≤ stop ∧ stop ≤ rb.num then
    if 0 ≤ tstart ∧ tstart + (stop - start) ≤ target.length then
      (subvectors rb start stop).bind fun ps => toVectorLoop target tstart.toNat rb.storage ps
    else none
  else none

/-- Writing items one after the other from index `i`, `for-each-with-index` of libsrc/data/ring-buffer.scm:347-378 `ring-buffer-insert-all!`. -/
def putItems (s : List α) (ix : Nat → Nat) : Nat → List α → List α
  | _, [] => s
  | i, x :: xs => putItems (s.set (ix i) x) ix (i + 1) xs

/-- The `do` loop of libsrc/data/ring-buffer.scm:347-378 `ring-buffer-insert-all!`, `i` counting down from `size - 1`. -/
def shiftLoop (s : List α) (n size cap : Nat) : Nat → List α
  | 0 => s
  | i + 1 =>
    match s[(n + size + i) % cap]? with
    | some x => shiftLoop (s.set ((n + i) % cap) x) n size cap i
    | none => shiftLoop s n size cap i

/-- libsrc/data/ring-buffer.scm:347-378 `ring-buffer-insert-all!`; `newbuf` is what the room maker returns (`none` = there is no room
maker). -/
def insertAll (rb : RB α) (n : Int) (items : List α) (newbuf : Option (List α)) : RB α × Out α :=
  if 0 ≤ n ∧ n ≤ rb.num then
    let size := items.length
    if rb.cap ≤ rb.num + size then
      match newbuf with
      | none => (rb, .err)
      | some nb =>
        match (toVectorAt nb 0 rb 0 n).bind fun nb => toVectorAt nb (n + size) rb n rb.num with
        | none => (rb, .err)
        | some nb =>
          let nb := putItems nb (fun i => n.toNat + i) 0 items
          ({ storage := nb, num := size + rb.num, cap := nb.length, head := 0, tail := size + rb.num }, .unit)
    else
      let s := shiftLoop rb.storage n.toNat size rb.cap size
      ({ rb with storage := putItems s (fun i => (n.toNat + i) % rb.cap) 0 items }, .unit)
  else (rb, .err)

/-- `call-with-iterator` in libsrc/data/ring-buffer.scm, driven until `end?`: the elements delivered; `none` = error. -/
def iterate (rb : RB α) : Nat → Int → Option (List α)
  | 0, _ => none
  | fuel + 1, k =>
    if (rb.num : Int) ≤ k then some []
    else match ref rb k none with
      | .elt a => (iterate rb fuel (k + 1)).map (a :: ·)
      | _ => none

/-- `call-with-reverse-iterator` in libsrc/data/ring-buffer.scm, driven until `end?` as `fold-right` does
(libsrc/gauche/sequence.scm:271-305 `fold-right`): the elements delivered; `none` = error or endless. -/
def reverseIterate (rb : RB α) (start : Int) : Nat → Int → Option (List α)
  | 0, _ => none
  | fuel + 1, k =>
    if start ≤ k then some []
    else match ref rb k none with
      | .elt a => (reverseIterate rb start fuel (k - 1)).map (a :: ·)
      | _ => none

/-- An API call. -/
inductive Op (α : Type) where
  | addFront (x : α) (ans : Ans α)
  | addBack (x : α) (ans : Ans α)
  | removeFront
  | removeBack
  | front
  | back
  | ref (n : Int) (fallback : Option α)
  | set (n : Int) (x : α)
  | clear
  | toVector (start stop : Int)
  | num
  | capacity
  | room
  | empty
  | full

def step (rb : RB α) : Op α → RB α × Out α
  | .addFront x a => addFront rb x a
  | .addBack x a => addBack rb x a
  | .removeFront => removeFront rb
  | .removeBack => removeBack rb
  | .front => (rb, front rb)
  | .back => (rb, back rb)
  | .ref n f => (rb, ref rb n f)
  | .set n x => setAt rb n x
  | .clear => (clear rb, .unit)
  | .toVector s e => (rb, toVector rb s e)
  | .num => (rb, .int rb.num)
  | .capacity => (rb, .int rb.cap)
  | .room => (rb, .int (room rb))
  | .empty => (rb, .bool (isEmpty rb))
  | .full => (rb, .bool (isFull rb))

/-- A history of calls: what the callers see. -/
def run (rb : RB α) : List (Op α) → List (Out α)
  | [] => []
  | o :: os => (step rb o).2 :: run (step rb o).1 os

/-- The buffer after a history of calls. -/
def exec (rb : RB α) (os : List (Op α)) : RB α := os.foldl (fun rb o => (step rb o).1) rb

end Gauche.RingBuffer
