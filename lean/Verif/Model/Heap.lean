/-
Model of lib/data/heap.scm (module data.heap): min-max heap in a backing array.

Simplifications:
* The backing storage (vector, uvector or sparse vector) is a total function from the 1-based index
  `S[i]` of the source's comments (the accessor `(~ storage (Ix i))`) to elements; slots outside the live
  range `1 .. next-leaf - 1` hold arbitrary values.  The theorems show that no result depends on them.
* The `comparator` and `key` are a pure comparison `lt` on elements (`<:`), see `less`; `>:` is
  `lt` with arguments swapped.
* The procedure `pred` of find/remove! is pure.
* Mutating operations return the new heap; `none` = a raised error.
-/
namespace Gauche.Heap

variable {α κ : Type}

/-- lib/data/heap.scm:162-170 `%derive-comparer`: `<:` obtained from a comparator and a key procedure
(all three branches compute the same predicate). -/
def less (cmp : κ → κ → Ordering) (key : α → κ) (a b : α) : Bool := cmp (key a) (key b) = .lt

/-- Backing storage, 1-based. -/
abbrev Store (α : Type) := Nat → α

/-- `(set! (~ storage (Ix i)) v)`. -/
def Store.set (s : Store α) (i : Nat) (v : α) : Store α := fun j => if j = i then v else s j

/-- lib/data/heap.scm:85-90 `swap!`. -/
def Store.swap (s : Store α) (i j : Nat) : Store α :=
  let v := s i
  (s.set i (s j)).set j v

/-- The `capacity` slot: a number, `+inf.0`, or unbound. -/
inductive Cap where
  | fin (n : Nat)
  | inf
  | unbound
deriving DecidableEq, Repr

/-- lib/data/heap.scm:97-106 `<binary-heap>` (comparator and key are parameters of the operations). -/
structure BH (α : Type) where
  storage : Store α
  next : Nat
  capacity : Cap

/-- lib/data/heap.scm:340 `min-node?`: `(odd? (integer-length index))`; integer-length of `i > 0`
is `log2 i + 1`. -/
def minNode (i : Nat) : Bool := (Nat.log2 i + 1) % 2 = 1

/-- lib/data/heap.scm:374-379 `bubble-up-rec`, with `lt` standing for `><`. -/
def bubbleUpRec (lt : α → α → Bool) (s : Store α) (index : Nat) : Store α :=
  if 3 < index then
    let g := index / 4
    if lt (s g) (s index) then s
    else bubbleUpRec lt (s.swap g index) g
  else s
termination_by index
decreasing_by omega

/-- lib/data/heap.scm:372-392 `bh-bubble-up`. -/
def bubbleUp (lt : α → α → Bool) (s : Store α) (index : Nat) : Store α :=
  let gt := fun a b => lt b a
  let p := index / 2
  if minNode p then
    if lt (s p) (s index) then bubbleUpRec gt s index
    else bubbleUpRec lt (s.swap p index) p
  else
    if gt (s p) (s index) then bubbleUpRec lt s index
    else bubbleUpRec gt (s.swap p index) p

/-- lib/data/heap.scm:394-401 `bh-heapify!`: the loop for i = 2 .. size. (The hole check of
sparse vectors is not modelled.) -/
def heapifyFrom (lt : α → α → Bool) (s : Store α) (i : Nat) : Nat → Store α
  | 0 => s
  | n + 1 => heapifyFrom lt (bubbleUp lt s i) (i + 1) n
/-- lib/data/heap.scm:394-401 `bh-heapify!`. -/
def heapify (lt : α → α → Bool) (s : Store α) (size : Nat) : Store α :=
  heapifyFrom lt s 2 (size - 1)

/-- lib/data/heap.scm:403-443 `bh-trickle-down`, inner `descendant`. -/
def descendant (n index : Nat) : Nat := if n < 2 then index * 2 + n else index * 4 + (n - 2)

/-- lib/data/heap.scm:403-443 `bh-trickle-down`, inner `find-extreme`: the loop, `k` = 6 - n
iterations left. -/
def findExtremeLoop (lt : α → α → Bool) (s : Store α) (size index : Nat) (minval : α) (minidx : Nat) :
    (k : Nat) → Nat
  | 0 => minidx
  | k + 1 =>
    let i := descendant (6 - (k + 1)) index
    if i < size then
      if lt (s i) minval then findExtremeLoop lt s size index (s i) i k
      else findExtremeLoop lt s size index minval minidx k
    else minidx
/-- lib/data/heap.scm:403-443 `bh-trickle-down`, inner `find-extreme`. -/
def findExtreme (lt : α → α → Bool) (s : Store α) (size index : Nat) : Nat :=
  findExtremeLoop lt s size index (s index) index 6

theorem findExtremeLoop_bound (lt : α → α → Bool) (s : Store α) (size index : Nat) (mv : α) (mi k : Nat)
    (P : Nat → Prop) (hm : P mi) (h : ∀ n, n < 6 → descendant n index < size → P (descendant n index)) (hk : k ≤ 6) :
    P (findExtremeLoop lt s size index mv mi k) := by
  induction k generalizing mv mi with
  | zero => exact hm
  | succ k ih =>
    unfold findExtremeLoop
    simp only
    split
    · rename_i hlt
      split
      · exact ih _ _ (h _ (by omega) hlt) (by omega)
      · exact ih _ _ hm (by omega)
    · exact hm

/-- Used for termination: an extreme other than `index` itself is in bounds. -/
theorem findExtreme_lt (lt : α → α → Bool) (s : Store α) (size index : Nat) :
    findExtreme lt s size index = index ∨ findExtreme lt s size index < size := by
  unfold findExtreme
  exact findExtremeLoop_bound lt s size index _ _ 6 (fun i => i = index ∨ i < size) (.inl rfl)
    (fun n _ h => .inr h) (by omega)

/-- lib/data/heap.scm:403-443 `bh-trickle-down`, inner `trickle-down-rec`. The guard `0 < index` is
always true in the source (indexes are 1-based) and only serves termination. -/
def trickleDownRec (lt : α → α → Bool) (s : Store α) (size index : Nat) : Store α :=
  let pick := findExtreme lt s size index
  if pick = index then s
  else
    let s1 := s.swap pick index
    if index * 4 ≤ pick ∧ 0 < index then
      let s2 := if lt (s1 pick) (s1 (pick / 2)) then s1 else s1.swap (pick / 2) pick
      trickleDownRec lt s2 size pick
    else s1
termination_by size - index
decreasing_by
  have := findExtreme_lt lt s size index
  omega

/-- lib/data/heap.scm:403-443 `bh-trickle-down`. -/
def trickleDown (lt : α → α → Bool) (s : Store α) (index size : Nat) : Store α :=
  trickleDownRec (if minNode index then lt else fun a b => lt b a) s size index

/-- lib/data/heap.scm:108-127 `make-binary-heap` with a storage of the given capacity and contents. -/
def make (s : Store α) (cap : Cap) : BH α := ⟨s, 1, cap⟩

/-- lib/data/heap.scm:130-156 `build-binary-heap`: `xlen` is the length of the storage and `numEntries` the
keyword argument. -/
def build (lt : α → α → Bool) (s : Store α) (xlen : Nat) (cap : Cap) (numEntries : Option Nat) : BH α :=
  let size := match numEntries with
    | none => xlen
    | some n => min n xlen
  ⟨heapify lt s size, size + 1, cap⟩

/-- lib/data/heap.scm:172-184 `binary-heap-copy`: the keyword is misspelt `:capaticy`, so the slot
`capacity`, which has no init-value, stays unbound. -/
def copy (h : BH α) : BH α := ⟨h.storage, h.next, .unbound⟩

/-- lib/data/heap.scm:188 `binary-heap-capacity`: `none` = unbound slot error. -/
def capacity (h : BH α) : Option Cap :=
  match h.capacity with
  | .unbound => none
  | c => some c

/-- lib/data/heap.scm:190-195 `binary-heap-clear!`; `fill` is what the storage holds afterwards. -/
def clear (h : BH α) (fill : Store α) : BH α := { h with storage := fill, next := 1 }

/-- The check `(>= (- next 1) (~ hp'capacity))` of lib/data/heap.scm:197-205 `binary-heap-push!`; `none` = unbound slot. -/
def fullP (h : BH α) : Option Bool :=
  match h.capacity with
  | .unbound => none
  | .inf => some false
  | .fin c => some (decide (c ≤ h.next - 1))

/-- lib/data/heap.scm:197-205 `binary-heap-push!`; `typeOk` is the comparator's type test. -/
def push (lt : α → α → Bool) (typeOk : α → Bool) (h : BH α) (item : α) : Option (BH α) :=
  (fullP h).bind fun full =>
  if full then none
  else if !typeOk item then none
  else
    let s := h.storage.set h.next item
    some { h with
      storage := if 1 < h.next then bubbleUp lt s h.next else s
      next := h.next + 1 }

/-- lib/data/heap.scm:207 `binary-heap-num-entries`. -/
def numEntries (h : BH α) : Nat := h.next - 1
/-- lib/data/heap.scm:209 `binary-heap-empty?`. -/
def isEmpty (h : BH α) : Bool := h.next = 1

/-- lib/data/heap.scm:211-216 `binary-heap-find-min`. -/
def findMin (h : BH α) (fallback : Option α) : Option α :=
  if h.next = 1 then fallback else some (h.storage 1)
/-- lib/data/heap.scm:218-227 `binary-heap-find-max`. -/
def findMax (lt : α → α → Bool) (h : BH α) (fallback : Option α) : Option α :=
  if h.next = 1 then fallback
  else if h.next = 2 then some (h.storage 1)
  else if h.next = 3 then some (h.storage 2)
  else
    let a := h.storage 2
    let b := h.storage 3
    some (if lt b a then a else b)

/-- lib/data/heap.scm:229-237 `binary-heap-pop-min!`; `filler` is the constant stored in the vacated slot
(lib/data/heap.scm:95 `*filler*`). -/
def popMin (lt : α → α → Bool) (filler : α) (h : BH α) : Option (α × BH α) :=
  let nelts := h.next - 1
  if nelts = 0 then none
  else
    let r := h.storage 1
    let s := (h.storage.set 1 (h.storage nelts)).set nelts filler
    some (r, { h with storage := trickleDown lt s 1 nelts, next := nelts })

/-- lib/data/heap.scm:239-255 `binary-heap-pop-max!`, inner `swap-and-adjust`. -/
def swapAndAdjust (lt : α → α → Bool) (filler : α) (h : BH α) (nelts index : Nat) : BH α :=
  let s := (h.storage.set index (h.storage nelts)).set nelts filler
  { h with storage := trickleDown lt s index nelts, next := nelts }
/-- lib/data/heap.scm:239-255 `binary-heap-pop-max!`. -/
def popMax (lt : α → α → Bool) (filler : α) (h : BH α) : Option (α × BH α) :=
  let nelts := h.next - 1
  if nelts = 0 then none
  else if nelts = 1 ∨ nelts = 2 then some (h.storage nelts, { h with next := nelts })
  else
    let a := h.storage 2
    let b := h.storage 3
    if lt b a then some (a, swapAndAdjust lt filler h nelts 2)
    else some (b, swapAndAdjust lt filler h nelts 3)

/-- lib/data/heap.scm:260-267 `binary-heap-swap-min!`. -/
def swapMin (lt : α → α → Bool) (h : BH α) (item : α) : Option (α × BH α) :=
  if isEmpty h then none
  else
    let r := h.storage 1
    let s := h.storage.set 1 item
    let n := numEntries h
    some (r, { h with storage := if 1 < n then trickleDown lt s 1 (n + 1) else s })

/-- lib/data/heap.scm:269-292 `binary-heap-swap-max!`, inner `store-and-adjust`. -/
def storeAndAdjust (lt : α → α → Bool) (h : BH α) (item : α) (nelts index : Nat) : BH α :=
  let a := h.storage 1
  let s := h.storage.set index item
  let s := if lt item a then s.swap 1 index else s
  { h with storage := trickleDown lt s index (nelts + 1) }
/-- lib/data/heap.scm:269-292 `binary-heap-swap-max!`. -/
def swapMax (lt : α → α → Bool) (h : BH α) (item : α) : Option (α × BH α) :=
  let nelts := numEntries h
  if nelts = 0 then none
  else if nelts = 1 then some (h.storage 1, { h with storage := h.storage.set 1 item })
  else if nelts = 2 then
    let a := h.storage 1
    let s := h.storage.set 2 item
    some (h.storage 2, { h with storage := if lt item a then s.swap 1 2 else s })
  else
    let a := h.storage 2
    let b := h.storage 3
    if lt b a then some (a, storeAndAdjust lt h item nelts 2)
    else some (b, storeAndAdjust lt h item nelts 3)

/-- `find-index` over `(liota n)` in lib/data/heap.scm:300-308 `binary-heap-find`. -/
def findIndex (pred : α → Bool) (s : Store α) (i : Nat) : Nat → Option Nat
  | 0 => none
  | n + 1 => if pred (s i) then some i else findIndex pred s (i + 1) n
/-- lib/data/heap.scm:300-308 `binary-heap-find`: `none` = the failure thunk is called.  `isFalse` tells
whether an element is `#f`: such an element counts as not found because of the `or`. -/
def find (isFalse : α → Bool) (pred : α → Bool) (h : BH α) : Option α :=
  match findIndex pred h.storage 1 (numEntries h) with
  | none => none
  | some i => if isFalse (h.storage i) then none else some (h.storage i)

/-- The filling loop of lib/data/heap.scm:310-332 `binary-heap-remove!`, inner `finish-up`: slots `i` up to (excluding) `lim`. -/
def fillFrom (filler : α) (s : Store α) (i lim : Nat) : Store α :=
  fun j => if i ≤ j ∧ j < lim then filler else s j
/-- lib/data/heap.scm:310-332 `binary-heap-remove!`, inner `finish-up`. -/
def finishUp (lt : α → α → Bool) (filler : α) (h : BH α) (s : Store α) (next : Nat) : BH α :=
  if next = h.next then { h with storage := s }
  else { h with storage := fillFrom filler (heapify lt s (next - 1)) next h.next, next := next }
/-- lib/data/heap.scm:310-332 `binary-heap-remove!`, the `loop`; result: storage and the `next` given to
`finish-up`. -/
def removeLoop (pred : α → Bool) (s : Store α) (i next : Nat) : Store α × Nat :=
  if next ≤ i then (s, next)
  else if pred (s i) then
    if i + 1 = next then (s, i)
    else removeLoop pred (s.swap i (next - 1)) i (next - 1)
  else removeLoop pred s (i + 1) next
termination_by next - i
/-- lib/data/heap.scm:310-332 `binary-heap-remove!`. -/
def remove (lt : α → α → Bool) (filler : α) (pred : α → Bool) (h : BH α) : BH α :=
  let (s, next) := removeLoop pred h.storage 1 h.next
  finishUp lt filler h s next
/-- lib/data/heap.scm:334-337 `binary-heap-delete!`; `=?` of the comparator on keys. -/
def delete (cmp : κ → κ → Ordering) (key : α → κ) (filler : α) (h : BH α) (item : α) : BH α :=
  remove (less cmp key) filler (fun e => cmp (key item) (key e) = .eq) h

/-- lib/data/heap.scm:342-360 `binary-heap-check`, inner `rec`: false = one of the two errors. -/
def checkRec (lt : α → α → Bool) (s : Store α) (next : Nat) (i : Nat) : Bool :=
  let kids := [i * 2, i * 2 + 1].takeWhile (· < next)
  let gkids := [i * 4, i * 4 + 1, i * 4 + 2, i * 4 + 3].takeWhile (· < next)
  let cmp := if minNode i then lt else fun a b => lt b a
  kids.all (fun k => cmp (s i) (s k)) && gkids.all (fun k => cmp (s i) (s k)) &&
  (if i = 0 then true   -- never: indexes start at 1
   else (if i * 2 < next then checkRec lt s next (i * 2) else true) &&
        (if i * 2 + 1 < next then checkRec lt s next (i * 2 + 1) else true))
termination_by next - i
/-- lib/data/heap.scm:342-360 `binary-heap-check`: true = returns #t, false = error. -/
def check (lt : α → α → Bool) (h : BH α) : Bool := 1 ≤ h.next && checkRec lt h.storage h.next 1

end Gauche.Heap
