/-
Model of src/hash.c (hash table core, `<hash-table>`) and of the hash table part of src/libhash.scm.

Memory.  `Entry` structures live in a shared memory `Mem` (address -> key, value, hash value), so that two
tables and a retained `ScmDictEntry*` can be talked about.  Simplification: the chains built from the `next`
fields are kept as lists of addresses (`Table.buckets`; a `next` field is the successor in the chain that holds
the entry), chains cut off from the table (by deletion: one entry with `next` NULL; by `hash-table-clear!`: the
whole chain) are kept in `Table.loose`, because an iterator may still point into them.  An address occurs in one
chain only (an invariant, see Verif/Proof/HashTable.lean).

The hash function and the equality are a parameter `Cfg`: this covers `address_access`, `string_access` and
`general_access`, which have the same body for their hash and comparison function.  Keys for which those raise
(non-string key of a string table, type check of a comparator) are not in the type `K`.

`value = none` is the C value 0 of a fresh entry.
-/
namespace Gauche.HashTable

/-- The hash function (`hashfn`, an `u_long`) and the comparison (`cmpfn`) of a table;
src/hash.c:731-743 `general_access`, src/hash.c:629-643 `address_access`, src/hash.c:686-710 `string_access`. -/
structure Cfg (K : Type) where
  hash : K → Nat
  eq : K → K → Bool

/-- `Entry`: the fields of an entry other than `next`; src/hash.c:45-50. -/
structure Ent (K V : Type) where
  key : K
  value : Option V
  hashval : Nat

/-- The memory of entries; `fresh` is the next unallocated address. -/
structure Mem (K V : Type) where
  ent : Nat → Ent K V
  fresh : Nat

/-- `ScmHashCore` (the function pointers are in `Cfg`). -/
structure Table where
  buckets : List (List Nat)
  loose : List (List Nat)
  numBuckets : Nat
  numBucketsLog2 : Nat
  numEntries : Nat
deriving DecidableEq, Repr

variable {K V σ : Type}

/-- `INT_MAX`. -/
def intMax : Nat := 2147483647
/-- `DEFAULT_NUM_BUCKETS`; src/hash.c:54. -/
def defaultNumBuckets : Nat := 4
/-- `MAX_AVG_CHAIN_LIMITS`; src/hash.c:55. -/
def maxAvgChain : Nat := 3
/-- `EXTEND_BITS`; src/hash.c:56. -/
def extendBits : Nat := 2
/-- `MAX_NUM_BUCKETS` (EXTEND_BITS and MAX_AVG_CHAIN_LIMITS select the first branch); src/hash.c:57-59. -/
def maxNumBuckets : Nat := intMax >>> extendBits

/-- `HASH2INDEX`, on 64-bit unsigned long; src/hash.c:121-122. -/
def hash2index (tabsiz bits hashval : Nat) : Nat :=
  ((hashval + (hashval >>> (32 - bits))) % 2 ^ 64) &&& (tabsiz - 1)

/-- `SCM_NEW(Entry)` and the initialization of the fields; src/hash.c:548-552. -/
def Mem.alloc (m : Mem K V) (e : Ent K V) : Nat × Mem K V :=
  (m.fresh, { ent := fun i => if i = m.fresh then e else m.ent i, fresh := m.fresh + 1 })

/-- `SCM_DICT_SET_VALUE`; src/gauche/collection.h:106-107. -/
def Mem.setValue (m : Mem K V) (a : Nat) (v : V) : Mem K V :=
  { m with ent := fun i => if i = a then { m.ent a with value := some v } else m.ent i }

/-- One pass of the loop of the table extension: `f->next = newb[index]; newb[index] = f`; src/hash.c:574-578. -/
def relink (m : Mem K V) (newsize newbits : Nat) (newb : List (List Nat)) (f : Nat) : List (List Nat) :=
  newb.set (hash2index newsize newbits (m.ent f).hashval)
    (f :: newb.getD (hash2index newsize newbits (m.ent f).hashval) [])

/-- The table extension; src/hash.c:561-586.  The iterator used there visits the buckets in order, each
chain from its head, and has fetched the next pointer before an entry is relinked. -/
def extend (m : Mem K V) (t : Table) : Table :=
  let newsize := t.numBuckets <<< extendBits
  let newbits := t.numBucketsLog2 + extendBits
  { t with
    buckets := t.buckets.flatten.foldl (relink m newsize newbits) (List.replicate newsize [])
    numBuckets := newsize
    numBucketsLog2 := newbits }

/-- src/hash.c:543-587 `insert_entry`.  `none` as the returned entry models the raised error "Too many entries": at
that point the entry is already linked, and its value is 0. -/
def insertEntry (m : Mem K V) (t : Table) (key : K) (hashval index : Nat) : Option Nat × Mem K V × Table :=
  let (a, m') := m.alloc { key := key, value := none, hashval := hashval }
  let t1 := { t with buckets := t.buckets.set index (a :: t.buckets.getD index []) }
  if t.numEntries = intMax then (none, m', t1)
  else
    let t2 := { t1 with numEntries := t1.numEntries + 1 }
    if t2.numBuckets ≤ maxNumBuckets ∧ t2.numEntries > t2.numBuckets * maxAvgChain then
      (some a, m', extend m' t2)
    else (some a, m', t2)

/-- src/hash.c:594-604 `delete_entry`. -/
def deleteEntry (t : Table) (a : Nat) (index : Nat) : Table :=
  { t with
    buckets := t.buckets.set index ((t.buckets.getD index []).erase a)
    loose := [a] :: t.loose
    numEntries := t.numEntries - 1 }

/-- `ScmDictOp`; src/gauche/collection.h. -/
inductive DictOp where
  | get | create | delete
deriving DecidableEq, Repr

/-- Result of an access: `NULL`, an entry, or an error. -/
inductive Acc where
  | null | entry (a : Nat) | error
deriving DecidableEq, Repr

/-- src/hash.c:731-743 `general_access` with the macros `FOUND` and `NOTFOUND`, src/hash.c:608-627; also
`Scm_HashCoreSearch`, src/hash.c:882-887. -/
def access (c : Cfg K) (m : Mem K V) (t : Table) (key : K) (op : DictOp) : Acc × Mem K V × Table :=
  let hashval := c.hash key
  let index := hash2index t.numBuckets t.numBucketsLog2 hashval
  match (t.buckets.getD index []).find? (fun a => c.eq key (m.ent a).key) with
  | some a => match op with
    | .get => (.entry a, m, t)
    | .create => (.entry a, m, t)
    | .delete => (.entry a, m, deleteEntry t a index)
  | none => match op with
    | .create => match insertEntry m t key hashval index with
      | (some a, m', t') => (.entry a, m', t')
      | (none, m', t') => (.error, m', t')
    | _ => (.null, m, t)

/-- src/hash.c:1092-1100 `round2up`: the loop, with fuel; the assertion on overflow is not modelled (sizes above 2^30
are out of scope). -/
def round2upLoop (val : Nat) : Nat → Nat → Nat
  | 0, n => n
  | f + 1, n => if n < val then round2upLoop val f (n * 2) else n
/-- src/hash.c:1092-1100 `round2up`. -/
def round2up (val : Nat) : Nat := round2upLoop val 32 1

/-- The loop computing `numBucketsLog2`; src/hash.c:766-769. -/
def log2Loop : Nat → Nat → Nat → Nat
  | 0, _, l => l
  | f + 1, i, l => if i > 1 then log2Loop f (i / 2) (l + 1) else l

/-- src/hash.c:749-772 `hash_core_init`, `make-hash-table`. -/
def make (initSize : Nat) : Table :=
  let n := if initSize ≠ 0 then round2up initSize else defaultNumBuckets
  { buckets := List.replicate n [], loose := [], numBuckets := n, numBucketsLog2 := log2Loop 32 n 0,
    numEntries := 0 }

/-- The inner loop of src/hash.c:840-872 `Scm_HashCoreCopy`: copy one chain. -/
def copyChain (m : Mem K V) : List Nat → List Nat × Mem K V
  | [] => ([], m)
  | s :: ss =>
    let (e, m1) := m.alloc { key := (m.ent s).key, value := (m.ent s).value, hashval := (m.ent s).hashval }
    let (es, m2) := copyChain m1 ss
    (e :: es, m2)

/-- The outer loop of src/hash.c:840-872 `Scm_HashCoreCopy`. -/
def copyBuckets (m : Mem K V) : List (List Nat) → List (List Nat) × Mem K V
  | [] => ([], m)
  | b :: bs =>
    let (b', m1) := copyChain m b
    let (bs', m2) := copyBuckets m1 bs
    (b' :: bs', m2)

/-- src/hash.c:840-872 `Scm_HashCoreCopy`, `hash-table-copy`. -/
def copy (m : Mem K V) (src : Table) : Table × Mem K V :=
  let (b, m') := copyBuckets m src.buckets
  ({ buckets := b, loose := [], numBuckets := src.numBuckets, numBucketsLog2 := src.numBucketsLog2,
     numEntries := src.numEntries }, m')

/-- src/hash.c:874-880 `Scm_HashCoreClear`, `hash-table-clear!`. -/
def clear (t : Table) : Table :=
  { t with
    buckets := t.buckets.map (fun _ => [])
    loose := t.buckets ++ t.loose
    numEntries := 0 }

/-! ### Iterators -/

/-- `ScmHashIter` (the `core` field is passed as an argument). -/
structure Iter where
  bucket : Nat
  next : Option Nat
deriving DecidableEq, Repr

/-- The scan for a non-empty bucket in `Scm_HashIterInit` / `Scm_HashIterNext`: the first non-empty chain of
`bs`, whose first element is bucket number `i`. -/
def scan : List (List Nat) → Nat → Option (Nat × Nat)
  | [], _ => none
  | [] :: bs, i => scan bs (i + 1)
  | (a :: _) :: _, i => some (i, a)

/-- src/hash.c:899-910 `Scm_HashIterInit`. -/
def iterInit (t : Table) : Iter :=
  match scan t.buckets 0 with
  | some (i, a) => { bucket := i, next := some a }
  | none => { bucket := 0, next := none }

/-- The entry after `a` in the chain `l`. -/
def succIn : List Nat → Nat → Option Nat
  | [], _ => none
  | x :: xs, a => if x = a then xs.head? else succIn xs a

/-- The field `e->next` of the entry `a`. -/
def nextField (t : Table) (a : Nat) : Option Nat :=
  match (t.buckets ++ t.loose).find? (fun l => l.contains a) with
  | some l => succIn l a
  | none => none

/-- src/hash.c:912-930 `Scm_HashIterNext`. -/
def iterNext (t : Table) (it : Iter) : Option Nat × Iter :=
  match it.next with
  | none => (none, it)
  | some e => match nextField t e with
    | some n => (some e, { it with next := some n })
    | none => match scan (t.buckets.drop (it.bucket + 1)) (it.bucket + 1) with
      | some (i, a) => (some e, { bucket := i, next := some a })
      | none => (some e, { it with next := none })

/-! ### Scheme API, one table -/

/-- Errors a call may raise. -/
inductive Err where
  | noEntry | notPair | tooMany | empty | user
deriving DecidableEq, Repr

/-- How pairs are built and taken apart in the value type (`Scm_Cons`, `'()`, `SCM_PAIRP`). -/
structure Pairs (V : Type) where
  nil : V
  cons : V → V → V
  uncons : V → Option (V × V)

/-- src/hash.c:980-986 `Scm_HashTableRef`; `none` is the fallback. -/
def ref (c : Cfg K) (m : Mem K V) (t : Table) (key : K) : Option V :=
  match access c m t key .get with
  | (.entry a, _, _) => (m.ent a).value
  | _ => none

/-- `hash-table-get` with a fallback or none; src/libhash.scm:46-50, src/libhash.scm:278-279 `hash-table-get`. -/
def tget (c : Cfg K) (m : Mem K V) (t : Table) (key : K) (fallback : Option V) : Except Err V :=
  match ref c m t key with
  | some v => .ok v
  | none => match fallback with
    | some v => .ok v
    | none => .error .noEntry

/-- src/libhash.scm:295-296 `hash-table-exists?`. -/
def exists? (c : Cfg K) (m : Mem K V) (t : Table) (key : K) : Bool := (ref c m t key).isSome

/-- src/hash.c:990-1003 `Scm_HashTableSet`. -/
def tset (c : Cfg K) (m : Mem K V) (t : Table) (key : K) (v : V) (noOverwrite noCreate : Bool) :
    Except Err Unit × Mem K V × Table :=
  match access c m t key (if noCreate then .get else .create) with
  | (.null, m', t') => (.ok (), m', t')
  | (.error, m', t') => (.error .tooMany, m', t')
  | (.entry a, m', t') =>
    if !noOverwrite || (m'.ent a).value.isNone then (.ok (), m'.setValue a v, t') else (.ok (), m', t')

/-- src/libhash.scm:281-282 `hash-table-put!`. -/
def put (c : Cfg K) (m : Mem K V) (t : Table) (key : K) (v : V) := tset c m t key v false false
/-- src/libhash.scm:284-285 `hash-table-adjoin!`. -/
def adjoin (c : Cfg K) (m : Mem K V) (t : Table) (key : K) (v : V) := tset c m t key v true false
/-- src/libhash.scm:287-288 `hash-table-replace!`. -/
def replace (c : Cfg K) (m : Mem K V) (t : Table) (key : K) (v : V) := tset c m t key v false true

/-- src/hash.c:1005-1011 `Scm_HashTableDelete`, src/libhash.scm:292-293 `hash-table-delete!`. -/
def delete (c : Cfg K) (m : Mem K V) (t : Table) (key : K) : Bool × Table :=
  match access c m t key .delete with
  | (.entry a, _, t') => ((m.ent a).value.isSome, t')
  | (_, _, t') => (false, t')

/-- First half of `hash-table-update!` (up to the call of the procedure): the entry to be updated and its
current value; src/libhash.scm:56-73 `dict-update!`. -/
def updateStart (c : Cfg K) (m : Mem K V) (t : Table) (key : K) (fallback : Option V) :
    Except Err (Nat × V) × Mem K V × Table :=
  match fallback with
  | none => match access c m t key .get with
    | (.entry a, m', t') => match (m'.ent a).value with
      | some v => (.ok (a, v), m', t')
      | none => (.error .user, m', t')
    | (_, m', t') => (.error .noEntry, m', t')
  | some fb => match access c m t key .create with
    | (.entry a, m', t') => match (m'.ent a).value with
      | some v => (.ok (a, v), m', t')
      | none => (.ok (a, fb), m'.setValue a fb, t')
    | (_, m', t') => (.error .tooMany, m', t')

/-- Second half of `hash-table-update!`: the continuation called with the value the procedure returned;
src/libhash.scm:299-302 `hash-table-update-cc`. -/
def updateFinish (m : Mem K V) (a : Nat) (result : V) : Mem K V := m.setValue a result

/-- `hash-table-update!` with a procedure that does not touch the table: it returns a value or raises
(`none`); src/libhash.scm:305-308 `hash-table-update!`. -/
def update (c : Cfg K) (m : Mem K V) (t : Table) (key : K) (proc : V → Option V) (fallback : Option V) :
    Except Err V × Mem K V × Table :=
  match updateStart c m t key fallback with
  | (.error e, m', t') => (.error e, m', t')
  | (.ok (a, v), m', t') => match proc v with
    | some r => (.ok r, updateFinish m' a r, t')
    | none => (.error .user, m', t')

/-- `hash-table-push!`; src/libhash.scm:75-81 `dict-push!`. -/
def push (p : Pairs V) (c : Cfg K) (m : Mem K V) (t : Table) (key : K) (v : V) :
    Except Err Unit × Mem K V × Table :=
  match access c m t key .create with
  | (.entry a, m', t') =>
    let prev := match (m'.ent a).value with
      | some w => w
      | none => p.nil
    (.ok (), m'.setValue a (p.cons v prev), t')
  | (_, m', t') => (.error .tooMany, m', t')

/-- `hash-table-pop!`; src/libhash.scm:83-100 `dict-pop!`. -/
def pop (p : Pairs V) (c : Cfg K) (m : Mem K V) (t : Table) (key : K) (fallback : Option V) :
    Except Err V × Mem K V :=
  match access c m t key .get with
  | (.entry a, _, _) => match ((m.ent a).value).bind p.uncons with
    | some (x, rest) => (.ok x, m.setValue a rest)
    | none => match fallback with
      | some fb => (.ok fb, m)
      | none => (.error .notPair, m)
  | _ => match fallback with
    | some fb => (.ok fb, m)
    | none => (.error .noEntry, m)

/-! ### Iteration API -/

/-- The loop of `hash-table-for-each`, `hash-table-map`, `hash-table-fold`, `hash-table-seek`, `keys`, `values`:
the callback gets the key and value just fetched and may do anything to the state `σ`; the table the iterator
works on and the memory are read off the state at each step; `stop` tells whether the callback ended the
iteration.  The fuel bounds the number of steps: `none` if it ran out.
src/libhash.scm:481-487 `hash-table-for-each`, src/libhash.scm:342-349 `hash-table-fold`, src/libhash.scm:455-465 `hash-table-map`,
src/libhash.scm:498-505 `hash-table-seek`, src/hash.c:1013-1023 `Scm_HashTableKeys`, src/hash.c:1025-1035 `Scm_HashTableValues`. -/
def iterate (tab : σ → Mem K V × Table) (proc : K → Option V → σ → σ × Bool) :
    Nat → Iter → σ → Option σ
  | 0, _, _ => none
  | f + 1, it, s =>
    match iterNext (tab s).2 it with
    | (none, _) => some s
    | (some e, it') =>
      match proc ((tab s).1.ent e).key ((tab s).1.ent e).value s with
      | (s', true) => some s'
      | (s', false) => iterate tab proc f it' s'

/-- `iterate` from a new iterator. -/
def iterateAll (tab : σ → Mem K V × Table) (proc : K → Option V → σ → σ × Bool) (fuel : Nat) (s : σ) : Option σ :=
  iterate tab proc fuel (iterInit (tab s).2) s

/-- src/libhash.scm:342-349 `hash-table-fold` with a `kons` that does not modify the table. -/
def tfold {ρ : Type} (m : Mem K V) (t : Table) (kons : K → Option V → ρ → ρ) (knil : ρ) (fuel : Nat) : Option ρ :=
  iterateAll (fun _ => (m, t)) (fun k v r => (kons k v r, false)) fuel knil

/-- src/libhash.scm:356-357 `hash-table->alist` (with src/libhash.scm:455-465 `hash-table-map`: consed in order, so the
result is reversed). -/
def toAlist (m : Mem K V) (t : Table) (fuel : Nat) : Option (List (K × Option V)) :=
  tfold m t (fun k v r => (k, v) :: r) [] fuel

/-- src/hash.c:1013-1023 `Scm_HashTableKeys` (appended at the end). -/
def keys (m : Mem K V) (t : Table) (fuel : Nat) : Option (List K) :=
  tfold m t (fun k _ r => r ++ [k]) [] fuel
/-- src/hash.c:1025-1035 `Scm_HashTableValues`. -/
def values (m : Mem K V) (t : Table) (fuel : Nat) : Option (List (Option V)) :=
  tfold m t (fun _ v r => r ++ [v]) [] fuel

/-- src/libhash.scm:498-505 `hash-table-seek` with a predicate that does not modify the table, giving the entry it
stopped at. -/
def seek (m : Mem K V) (t : Table) (pred : K → Option V → Bool) (fuel : Nat) : Option (Option (K × Option V)) :=
  iterateAll (fun _ => (m, t)) (fun k v r => if pred k v then (some (k, v), true) else (r, false)) fuel none

/-- src/libhash.scm:443-450 `hash-table-pop!-r7`. -/
def popR7 (c : Cfg K) (m : Mem K V) (t : Table) : Except Err (K × Option V) × Table :=
  match iterNext t (iterInit t) with
  | (none, _) => (.error .empty, t)
  | (some e, _) => (.ok ((m.ent e).key, (m.ent e).value), (delete c m t (m.ent e).key).2)

/-- The callback of `hash-table-prune!` as it sees a stored value (`none` = a bound cell without value never
reaches it).  Not in the source: it adapts a predicate on values. -/
def onValue (pred : K → V → Bool) (k : K) : Option V → Bool
  | some v => pred k v
  | none => false

/-- src/libhash.scm:495-496 `hash-table-prune!-r7`. -/
def prune (c : Cfg K) (pred : K → Option V → Bool) (m : Mem K V) (t : Table) (fuel : Nat) : Option Table :=
  iterateAll (fun s => (m, s)) (fun k v s => (if pred k v then (delete c m s k).2 else s, false)) fuel t

/-- src/libhash.scm:474-476 `hash-table-map!-r7` (`none` as a value cannot occur in a table of live entries). -/
def mapBang (c : Cfg K) (f : K → V → V) (m : Mem K V) (t : Table) (fuel : Nat) : Option (Mem K V × Table) :=
  iterateAll (fun s => s)
    (fun k v s => (match v with
      | some w => (put c s.1 s.2 k (f k w)).2
      | none => s, false)) fuel (m, t)

/-! ### Several tables -/

/-- The memory and the tables of a program; table `i` is the `i`-th element of `tabs`. -/
structure World (K V : Type) where
  mem : Mem K V
  tabs : List Table

/-- Table number `i`. -/
def World.tab (w : World K V) (i : Nat) : Table := w.tabs.getD i (make 0)
/-- Replace the memory and table number `i`. -/
def World.upd (w : World K V) (i : Nat) (m : Mem K V) (t : Table) : World K V :=
  { mem := m, tabs := w.tabs.set i t }

/-- src/libhash.scm:521-527 `hash-table-union!`; `i = j` is the call with the same table twice. -/
def union (c : Cfg K) (i j fuel : Nat) (w : World K V) : Option (World K V) :=
  iterateAll (fun w => (w.mem, w.tab j))
    (fun k v w => (match v with
      | some x => if exists? c w.mem (w.tab i) k then w else
          let r := put c w.mem (w.tab i) k x
          w.upd i r.2.1 r.2.2
      | none => w, false)) fuel w

/-- src/libhash.scm:529-535 `hash-table-intersection!`. -/
def intersection (c : Cfg K) (i j fuel : Nat) (w : World K V) : Option (World K V) :=
  iterateAll (fun w => (w.mem, w.tab i))
    (fun k _ w => (if exists? c w.mem (w.tab j) k then w else
      w.upd i w.mem (delete c w.mem (w.tab i) k).2, false)) fuel w

/-- src/libhash.scm:537-543 `hash-table-difference!`. -/
def difference (c : Cfg K) (i j fuel : Nat) (w : World K V) : Option (World K V) :=
  iterateAll (fun w => (w.mem, w.tab i))
    (fun k _ w => (if exists? c w.mem (w.tab j) k then
      w.upd i w.mem (delete c w.mem (w.tab i) k).2 else w, false)) fuel w

/-- src/libhash.scm:545-552 `hash-table-xor!`. -/
def xor (c : Cfg K) (i j fuel : Nat) (w : World K V) : Option (World K V) :=
  iterateAll (fun w => (w.mem, w.tab j))
    (fun k v w => (match v with
      | some x => if exists? c w.mem (w.tab i) k then w.upd i w.mem (delete c w.mem (w.tab i) k).2 else
          let r := put c w.mem (w.tab i) k x
          w.upd i r.2.1 r.2.2
      | none => w, false)) fuel w

/-- `subset?` in src/libhash.scm:586-619 `hash-table-compare-as-sets`; `valueEq` is `value=?`. -/
def subset (c : Cfg K) (valueEq : V → V → Bool) (m : Mem K V) (smaller larger : Table) (fuel : Nat) : Option Bool :=
  (seek m smaller (fun k v => match ref c m larger k with
    | none => true
    | some w => match v with
      | some v => !valueEq v w
      | none => true) fuel).map (fun r => r.isNone)

/-- Result of src/libhash.scm:586-619 `hash-table-compare-as-sets` on two distinct tables with the same comparator:
`none` inside is `(fail)`. -/
def compareAsSets (c : Cfg K) (valueEq : V → V → Bool) (m : Mem K V) (h1 h2 : Table) (fuel : Nat) :
    Option (Option Int) :=
  if h1.numEntries = h2.numEntries then
    (subset c valueEq m h1 h2 fuel).map (fun b => if b then some 0 else none)
  else if h1.numEntries < h2.numEntries then
    (subset c valueEq m h1 h2 fuel).map (fun b => if b then some (-1) else none)
  else
    (subset c valueEq m h2 h1 fuel).map (fun b => if b then some 1 else none)

/-! ### Programs over several tables -/

/-- A call of the API. -/
inductive Op (K V : Type) where
  | make (n : Nat)
  | copy (i : Nat)
  | get (i : Nat) (k : K) (fallback : Option V)
  | exists? (i : Nat) (k : K)
  | count (i : Nat)
  | put (i : Nat) (k : K) (v : V)
  | adjoin (i : Nat) (k : K) (v : V)
  | replace (i : Nat) (k : K) (v : V)
  | delete (i : Nat) (k : K)
  | update (i : Nat) (k : K) (f : V → V) (fallback : Option V)
  | push (i : Nat) (k : K) (v : V)
  | pop (i : Nat) (k : K) (fallback : Option V)
  | clear (i : Nat)
  | prune (i : Nat) (pred : K → V → Bool)
  | mapBang (i : Nat) (f : K → V → V)
  | union (i j : Nat)
  | intersection (i j : Nat)
  | difference (i j : Nat)
  | xor (i j : Nat)
  | compare (i j : Nat) (valueEq : V → V → Bool)

/-- Result of a call. -/
inductive Out (V : Type) where
  | unit | val (v : V) | bool (b : Bool) | num (n : Nat) | cmp (r : Option Int) | err (e : Err) | noTable | loop
deriving DecidableEq, Repr

/-- The result of a call that returns a value or raises. -/
def Out.ofVal : Except Err V → Out V
  | .ok v => .val v
  | .error e => .err e
/-- The result of a call that returns nothing or raises. -/
def Out.ofUnit : Except Err Unit → Out V
  | .ok _ => .unit
  | .error e => .err e

/-- Finish an iteration: `.loop` if it did not end within its fuel. -/
def finish (w : World K V) : Option (World K V) → Out V × World K V
  | some w' => (.unit, w')
  | none => (.loop, w)

/-- Run one call (`.noTable` when the table number is not that of an existing table).  The fuel of an iteration is
one more than the number of entries of the table iterated over. -/
def step (p : Pairs V) (c : Cfg K) (w : World K V) : Op K V → Out V × World K V
  | .make n => (.num w.tabs.length, { w with tabs := w.tabs ++ [make n] })
  | .copy i => match w.tabs[i]? with
    | none => (.noTable, w)
    | some t =>
      let r := copy w.mem t
      (.num w.tabs.length, { mem := r.2, tabs := w.tabs ++ [r.1] })
  | .get i k fb => match w.tabs[i]? with
    | none => (.noTable, w)
    | some t => (Out.ofVal (tget c w.mem t k fb), w)
  | .exists? i k => match w.tabs[i]? with
    | none => (.noTable, w)
    | some t => (.bool (exists? c w.mem t k), w)
  | .count i => match w.tabs[i]? with
    | none => (.noTable, w)
    | some t => (.num t.numEntries, w)
  | .put i k v => match w.tabs[i]? with
    | none => (.noTable, w)
    | some t => let r := put c w.mem t k v
                (Out.ofUnit r.1, w.upd i r.2.1 r.2.2)
  | .adjoin i k v => match w.tabs[i]? with
    | none => (.noTable, w)
    | some t => let r := adjoin c w.mem t k v
                (Out.ofUnit r.1, w.upd i r.2.1 r.2.2)
  | .replace i k v => match w.tabs[i]? with
    | none => (.noTable, w)
    | some t => let r := replace c w.mem t k v
                (Out.ofUnit r.1, w.upd i r.2.1 r.2.2)
  | .delete i k => match w.tabs[i]? with
    | none => (.noTable, w)
    | some t => let r := delete c w.mem t k
                (.bool r.1, w.upd i w.mem r.2)
  | .update i k f fb => match w.tabs[i]? with
    | none => (.noTable, w)
    | some t => let r := update c w.mem t k (fun v => some (f v)) fb
                (Out.ofVal r.1, w.upd i r.2.1 r.2.2)
  | .push i k v => match w.tabs[i]? with
    | none => (.noTable, w)
    | some t => let r := push p c w.mem t k v
                (Out.ofUnit r.1, w.upd i r.2.1 r.2.2)
  | .pop i k fb => match w.tabs[i]? with
    | none => (.noTable, w)
    | some t => let r := pop p c w.mem t k fb
                (Out.ofVal r.1, w.upd i r.2 t)
  | .clear i => match w.tabs[i]? with
    | none => (.noTable, w)
    | some t => (.unit, w.upd i w.mem (clear t))
  | .prune i pred => match w.tabs[i]? with
    | none => (.noTable, w)
    | some t => finish w ((prune c (onValue pred) w.mem t (t.numEntries + 1)).map (fun t' => w.upd i w.mem t'))
  | .mapBang i f => match w.tabs[i]? with
    | none => (.noTable, w)
    | some t => finish w ((mapBang c f w.mem t (t.numEntries + 1)).map (fun r => w.upd i r.1 r.2))
  | .union i j => match w.tabs[i]?, w.tabs[j]? with
    | some _, some t2 => finish w (union c i j (t2.numEntries + 1) w)
    | _, _ => (.noTable, w)
  | .intersection i j => match w.tabs[i]?, w.tabs[j]? with
    | some t1, some _ => finish w (intersection c i j (t1.numEntries + 1) w)
    | _, _ => (.noTable, w)
  | .difference i j => match w.tabs[i]?, w.tabs[j]? with
    | some t1, some _ => finish w (difference c i j (t1.numEntries + 1) w)
    | _, _ => (.noTable, w)
  | .xor i j => match w.tabs[i]?, w.tabs[j]? with
    | some _, some t2 => finish w (xor c i j (t2.numEntries + 1) w)
    | _, _ => (.noTable, w)
  | .compare i j veq => match w.tabs[i]?, w.tabs[j]? with
    | some t1, some t2 =>
      if i = j then (.cmp (some 0), w) else
      match compareAsSets c veq w.mem t1 t2 (t1.numEntries + t2.numEntries + 1) with
      | some r => (.cmp r, w)
      | none => (.loop, w)
    | _, _ => (.noTable, w)

/-- Run a program; the results of the calls and the final state. -/
def run (p : Pairs V) (c : Cfg K) (w : World K V) : List (Op K V) → List (Out V) × World K V
  | [] => ([], w)
  | op :: ops =>
    let r := step p c w op
    let rs := run p c r.2 ops
    (r.1 :: rs.1, rs.2)

/-- The start of a program: no table. -/
def World.init (k0 : K) : World K V := { mem := { ent := fun _ => ⟨k0, none, 0⟩, fresh := 0 }, tabs := [] }

end Gauche.HashTable
