import Verif.Spec.Cache
/-
Caches, lib/data/cache.scm.

The storage (any dictionary) is an association list with one entry per key; keys are compared by `=`.  `sort` with a key
is a stable insertion sort.  Counters are `Int`; `fixmax` is `(greatest-fixnum)`.  `none` = an error.
-/
namespace Gauche.Cache
open Gauche.Spec.Cache (Op)

variable {κ ν : Type} [DecidableEq κ]

/-- `dict-get` with `#f` as the default. -/
def dictGet {β : Type} (d : List (κ × β)) (k : κ) : Option β := (d.find? fun p => p.1 = k).map (·.2)
/-- `dict-delete!`. -/
def dictDelete {β : Type} (d : List (κ × β)) (k : κ) : List (κ × β) := d.filter fun p => p.1 ≠ k
/-- `dict-put!`. -/
def dictPut {β : Type} (d : List (κ × β)) (k : κ) (b : β) : List (κ × β) := (k, b) :: dictDelete d k

/-- One insertion of a stable sort by `cdr` (`less` compares the numbers). -/
def insertBy (less : Int → Int → Bool) (x : κ × Int) : List (κ × Int) → List (κ × Int)
  | [] => [x]
  | y :: l => if less y.2 x.2 then y :: insertBy less x l else x :: y :: l

/-- `(sort entries less cdr)`. -/
def sortBy (less : Int → Int → Bool) (l : List (κ × Int)) : List (κ × Int) := l.foldr (insertBy less) []

/-- lib/data/cache.scm:162-170 `cache-populate-queue!`: the queue and the maximum of the numbers. -/
def populateQueue (storage : List (κ × Int × ν)) : List (κ × Int) × Int :=
  let entries := sortBy (fun a b => decide (a < b)) (storage.map fun e => (e.1, e.2.1))
  (entries, entries.foldl (fun maxn e => if maxn < e.2 then e.2 else maxn) 0)

/-- The `dolist` of lib/data/cache.scm:175-183 `cache-renumber-entries!`: `seen`, `cnt`, the queue, the storage; `dict-update!` of a
key that is not in the storage is an error. -/
def renumberLoop : List (κ × Int) → List κ → Int → List (κ × Int) → List (κ × Int × ν) → Option (List (κ × Int) × List (κ × Int × ν))
  | [], _, _, queue, storage => some (queue, storage)
  | kn :: rest, seen, cnt, queue, storage =>
    if kn.1 ∈ seen then renumberLoop rest seen cnt queue storage
    else (dictGet storage kn.1).bind fun nv =>
      renumberLoop rest (kn.1 :: seen) (cnt - 1) ((kn.1, cnt) :: queue) (dictPut storage kn.1 (cnt, nv.2))

/-- lib/data/cache.scm:175-183 `cache-renumber-entries!`. -/
def renumberEntries (queue : List (κ × Int)) (storage : List (κ × Int × ν)) : Option (List (κ × Int) × List (κ × Int × ν)) :=
  renumberLoop (sortBy (fun a b => decide (b < a)) queue) [] ((storage.length : Int) - 1) [] storage

/-- The `dolist` of lib/data/cache.scm:191-196 `cache-compact-queue!`. -/
def compactLoop : List (κ × Int) → List κ → List (κ × Int) → List (κ × Int)
  | [], _, queue => queue
  | kn :: rest, seen, queue =>
    if kn.1 ∈ seen then compactLoop rest seen queue else compactLoop rest (kn.1 :: seen) (kn :: queue)

/-- lib/data/cache.scm:191-196 `cache-compact-queue!`. -/
def compactQueue (queue : List (κ × Int)) : List (κ × Int) :=
  compactLoop (sortBy (fun a b => decide (b < a)) queue) [] []

/-- A `<fifo-cache>` or `<lru-cache>`. -/
structure Fifo (κ ν : Type) where
  capacity : Nat
  storage : List (κ × Int × ν)
  queue : List (κ × Int)
  counter : Int

/-- lib/data/cache.scm:215-217 `make-fifo-cache`, lib/data/cache.scm:277-279 `make-lru-cache` and `initialize`. -/
def make (capacity : Nat) (storage : List (κ × Int × ν)) : Fifo κ ν :=
  let q := populateQueue storage
  { capacity := capacity, storage := storage, queue := q.1, counter := 1 + q.2 }

/-- lib/data/cache.scm:244-255 `%fifo-touch!`. -/
def touch (fixmax : Int) (c : Fifo κ ν) (key : κ) : Option (Fifo κ ν) :=
  let n := c.counter
  let queue := c.queue ++ [(key, n)]
  if n = fixmax then
    (renumberEntries queue c.storage).map fun p => { c with queue := p.1, storage := p.2, counter := p.2.length }
  else if queue.length > 3 * c.storage.length then some { c with queue := compactQueue queue, counter := n + 1 }
  else some { c with queue := queue, counter := n + 1 }

/-- The loop of lib/data/cache.scm:228-242 `%fifo-add!` that removes the oldest entry (`dequeue!` of an empty queue is an error). -/
def evictLoop (dict : List (κ × Int × ν)) : List (κ × Int) → Option (List (κ × Int × ν) × List (κ × Int))
  | [] => none
  | kn :: q =>
    match dictGet dict kn.1 with
    | some nv => if kn.2 = nv.1 then some (dictDelete dict kn.1, q) else evictLoop dict q
    | none => evictLoop dict q

/-- lib/data/cache.scm:228-242 `%fifo-add!`. -/
def add (fixmax : Int) (c : Fifo κ ν) (key : κ) (value : ν) : Option (Fifo κ ν) :=
  (if c.capacity ≤ c.storage.length then
    (evictLoop c.storage c.queue).map fun p => { c with storage := p.1, queue := p.2 }
   else some c).bind fun c =>
  touch fixmax { c with storage := dictPut c.storage key (c.counter, value) } key

/-- `cache-check!`, lib/data/cache.scm:224-226 (`<fifo-cache>`) and lib/data/cache.scm:281-286 (`<lru-cache>`, `refresh`). -/
def check (fixmax : Int) (refresh : Bool) (c : Fifo κ ν) (key : κ) : Option (Fifo κ ν × Option ν) :=
  match dictGet c.storage key with
  | none => some (c, none)
  | some nv =>
    if refresh then
      (touch fixmax { c with storage := dictPut c.storage key (c.counter, nv.2) } key).map fun c => (c, some nv.2)
    else some (c, some nv.2)

/-- One call: lib/data/cache.scm:129-134 `cache-lookup!`, lib/data/cache.scm:136-138 `cache-through!`, `cache-write!`
(lib/data/cache.scm:261-262), `cache-evict!` (lib/data/cache.scm:140-141) and `cache-clear!` (lib/data/cache.scm:267-270).  A
`cache-lookup!` that finds nothing delivers `none` (the default). -/
def step (fixmax : Int) (refresh : Bool) (c : Fifo κ ν) : Op κ ν → Option (Fifo κ ν × Option ν)
  | .lookup k => check fixmax refresh c k
  | .through k v => (check fixmax refresh c k).bind fun p =>
    match p.2 with
    | some w => some (p.1, some w)
    | none => (add fixmax p.1 k v).map fun c => (c, some v)
  | .write k v => (add fixmax c k v).map fun c => (c, none)
  | .evict k => some ({ c with storage := dictDelete c.storage k }, none)
  | .clear => some ({ c with storage := [], queue := [] }, none)

/-- A history. -/
def run (fixmax : Int) (refresh : Bool) : Fifo κ ν → List (Op κ ν) → Option (Fifo κ ν × List (Option ν))
  | c, [] => some (c, [])
  | c, o :: os => (step fixmax refresh c o).bind fun p => (run fixmax refresh p.1 os).map fun q => (q.1, p.2 :: q.2)

/-! ### Time-out -/

/-- A `<ttl-cache>` or `<ttlr-cache>`. -/
structure Ttl (κ ν : Type) where
  ttl : Int
  storage : List (κ × Int × ν)
  timestamps : List (κ × Int)

/-- lib/data/cache.scm:298-301 `make-ttl-cache`, lib/data/cache.scm:356-359 `make-ttlr-cache` and `initialize`. -/
def makeTtl (ttl : Int) (storage : List (κ × Int × ν)) : Ttl κ ν :=
  { ttl := ttl, storage := storage, timestamps := (populateQueue storage).1 }

/-- The loop of lib/data/cache.scm:307-320 `%ttl-sweep!`. -/
def sweepLoop (cutoff : Int) : List (κ × Int × ν) → List (κ × Int) → List (κ × Int × ν) × List (κ × Int)
  | tab, [] => (tab, [])
  | tab, kt :: ts =>
    if kt.2 < cutoff then
      sweepLoop cutoff
        (match dictGet tab kt.1 with
         | some tv => if tv.1 ≤ kt.2 then dictDelete tab kt.1 else tab
         | none => tab) ts
    else (tab, kt :: ts)

/-- lib/data/cache.scm:307-320 `%ttl-sweep!`; `now` is the reading of the clock. -/
def sweep (now : Int) (c : Ttl κ ν) : Ttl κ ν :=
  let p := sweepLoop (now - c.ttl) c.storage c.timestamps
  { c with storage := p.1, timestamps := p.2 }

/-- `cache-check!`, lib/data/cache.scm:324-327 (`<ttl-cache>`) and lib/data/cache.scm:361-369 (`<ttlr-cache>`, `refresh`); `t₁` and
`t₂` are the readings of the clock. -/
def checkTtl (refresh : Bool) (t₁ t₂ : Int) (c : Ttl κ ν) (key : κ) : Ttl κ ν × Option ν :=
  let c := sweep t₁ c
  match dictGet c.storage key with
  | none => (c, none)
  | some tv =>
    if refresh then
      let storage := dictPut c.storage key (t₂, tv.2)
      let ts := c.timestamps ++ [(key, t₂)]
      ({ c with storage := storage, timestamps := if ts.length > 3 * storage.length then compactQueue ts else ts }, some tv.2)
    else (c, some tv.2)

/-- `cache-register!` of a `<ttl-cache>`, lib/data/cache.scm:329-333; `cache-write!`, lib/data/cache.scm:339-346, has the same
effect. -/
def registerTtl (t : Int) (c : Ttl κ ν) (key : κ) (value : ν) : Ttl κ ν :=
  { c with storage := dictPut c.storage key (t, value), timestamps := c.timestamps ++ [(key, t)] }

/-- One call; `cache-clear!` is lib/data/cache.scm:335-337. -/
def stepTtl (refresh : Bool) (t₁ t₂ : Int) (c : Ttl κ ν) : Op κ ν → Ttl κ ν × Option ν
  | .lookup k => checkTtl refresh t₁ t₂ c k
  | .through k v =>
    let p := checkTtl refresh t₁ t₂ c k
    match p.2 with
    | some w => (p.1, some w)
    | none => (registerTtl t₂ p.1 k v, some v)
  | .write k v => (registerTtl t₂ c k v, none)
  | .evict k => ({ c with storage := dictDelete c.storage k }, none)
  | .clear => ({ c with storage := [], timestamps := [] }, none)

/-- A history; every call comes with its readings of the clock. -/
def runTtl (refresh : Bool) : Ttl κ ν → List (Int × Int × Op κ ν) → List (Option ν)
  | _, [] => []
  | c, (t₁, t₂, o) :: os => (stepTtl refresh t₁ t₂ c o).2 :: runTtl refresh (stepTtl refresh t₁ t₂ c o).1 os

end Gauche.Cache
