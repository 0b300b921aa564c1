import Verif.Model.SpVec
import Verif.Spec.SparseTab

/-!
# Sparse tables

Models `ext/sparse/sptab.c` on top of the compact trie.  An outer `Option` is
definedness as in `Verif.Model.CTrie`: it is `none` if a leaf's union is read
through the wrong member, if an assertion fails, or if the trie code leaves its
arrays.  The table's hash function and equality predicate are parameters; they
do not signal errors.
-/

namespace Gauche.SpTab

open Gauche.CTrie

/-- The union in ext/sparse/sptab.c:40-52 `TLeafRec`.  The two members of `entry` are
both unbound or both bound. -/
inductive TBody (K V : Type) where
  | entry (kv : Option (K × V))
  | chain (next : List (K × V)) (pair : K × V)
deriving DecidableEq, Repr

abbrev TLeaf (K V : Type) := Leaf (TBody K V)

/-- ext/sparse/sptab.c:54-57 `leaf_is_chained` -/
def isChained {K V : Type} (z : TLeaf K V) : Bool := (leafData z &&& 1) != 0

/-- ext/sparse/sptab.c:59-62 `leaf_mark_chained` -/
def markChained {K V : Type} (z : TLeaf K V) : TLeaf K V := leafDataBitSet z 0

/-- ext/sparse/sptab.c:64-67 `leaf_mark_unchained` -/
def markUnchained {K V : Type} (z : TLeaf K V) : TLeaf K V := leafDataBitReset z 0

/-- ext/sparse/sptab.c:69-74 `leaf_allocate`; `g0`, `g1` are the header of the memory
the allocator returns. -/
def leafAllocate (K V : Type) (g0 g1 : Nat) : TLeaf K V := ⟨g0, g1, .entry none⟩

/-- ext/sparse/sptab.h:47-54 `SparseTableRec` -/
structure Tab (K V : Type) where
  trie : Trie (TBody K V)
  numEntries : Nat

/-- ext/sparse/sptab.c:99-134 `MakeSparseTable` -/
def tabMake (K V : Type) : Tab K V := ⟨trieInit (TBody K V), 0⟩

/-- `hashfn`, `cmpfn`, or those of the comparator
(ext/sparse/sptab.c:140-149 `sparse_table_hash`, ext/sparse/sptab.c:151-157 `sparse_table_eq`). -/
structure Cmp (K : Type) where
  hash : K → Nat
  eq : K → K → Bool

/-- The loop over the chain in ext/sparse/sptab.c:163-183 `SparseTableRef`. -/
def chainRef {K V : Type} (c : Cmp K) (key : K) (fallback : Option V) : List (K × V) → Option V
  | [] => fallback
  | p :: ps => if c.eq key p.1 then some p.2 else chainRef c key fallback ps

/-- ext/sparse/sptab.c:163-183 `SparseTableRef`, after the leaf is found. -/
def leafRef {K V : Type} (c : Cmp K) (z : TLeaf K V) (key : K) (fallback : Option V) :
    Option (Option V) :=
  if isChained z = false then
    match z.body with
    | .entry (some e) => if c.eq key e.1 then some (some e.2) else some fallback
    | _ => none
  else
    match z.body with
    | .chain next pair =>
      if c.eq key pair.1 then some (some pair.2) else some (chainRef c key fallback next)
    | _ => none

/-- ext/sparse/sptab.c:163-183 `SparseTableRef` -/
def tabRef {K V : Type} (c : Cmp K) (st : Tab K V) (key : K) (fallback : Option V) :
    Option (Option V) :=
  match trieGet st.trie (c.hash key) with
  | none => none
  | some none => some fallback
  | some (some z) => leafRef c z key fallback

/-- The loop over the chain in ext/sparse/sptab.c:189-238 `SparseTableSet`: `none` when
the key is not there. -/
def chainSet {K V : Type} (c : Cmp K) (key : K) (value : V) : List (K × V) → Option (List (K × V))
  | [] => none
  | p :: ps =>
    if c.eq p.1 key then some ((p.1, value) :: ps) else
      match chainSet c key value ps with
      | none => none
      | some ps' => some (p :: ps')

/-- The second half of ext/sparse/sptab.c:189-238 `SparseTableSet`: the leaf is chained. -/
def leafSetChained {K V : Type} (c : Cmp K) (z : TLeaf K V) (key : K) (value : V) :
    Option (TLeaf K V × Bool) :=
  match z.body with
  | .chain next pair =>
    if c.eq pair.1 key then some ({ z with body := .chain next (pair.1, value) }, false) else
      match chainSet c key value next with
      | some next' => some ({ z with body := .chain next' pair }, false)
      | none => some ({ z with body := .chain (pair :: next) (key, value) }, true)
  | _ => none

/-- ext/sparse/sptab.c:189-238 `SparseTableSet`, after the leaf is found: the leaf, and
whether there is one more entry. -/
def leafSet {K V : Type} (c : Cmp K) (z : TLeaf K V) (key : K) (value : V) :
    Option (TLeaf K V × Bool) :=
  if isChained z = false then
    match z.body with
    | .entry none => some ({ z with body := .entry (some (key, value)) }, true)
    | .entry (some e) =>
      if c.eq e.1 key then some ({ z with body := .entry (some (e.1, value)) }, false) else
        leafSetChained c { markChained z with body := .chain [] e } key value
    | _ => none
  else leafSetChained c z key value

/-- The leaf ext/sparse/sptab.c:189-238 `SparseTableSet` works on; `noCreate` is the
flag `SCM_DICT_NO_CREATE`. -/
def findLeaf {K V : Type} (g0 g1 : Nat) (t : Trie (TBody K V)) (hv : Nat) (noCreate : Bool) :
    Option (Trie (TBody K V) × Option (TLeaf K V)) :=
  if noCreate then
    match trieGet t hv with
    | none => none
    | some z => some (t, z)
  else
    match trieAdd t hv (leafAllocate K V g0 g1) with
    | none => none
    | some (t', z) => some (t', some z)

/-- ext/sparse/sptab.c:189-238 `SparseTableSet`; the second component is `none` for
`SCM_UNBOUND`. -/
def tabSet {K V : Type} (c : Cmp K) (g0 g1 : Nat) (st : Tab K V) (key : K) (value : V)
    (noCreate : Bool) : Option (Tab K V × Option V) :=
  match findLeaf g0 g1 st.trie (c.hash key) noCreate with
  | none => none
  | some (_, none) => some (st, none)
  | some (t, some z) =>
    match leafSet c z key value with
    | none => none
    | some (z', more) =>
      match trieWrite t (c.hash key) z' with
      | none => none
      | some t' =>
        some (⟨t', if more then SpVec.inc64 st.numEntries else st.numEntries⟩, some value)

/-- The loop over the chain in ext/sparse/sptab.c:245-290 `SparseTableDelete`: the rest
of the chain and the value removed. -/
def chainDel {K V : Type} (c : Cmp K) (key : K) : List (K × V) → List (K × V) × Option V
  | [] => ([], none)
  | p :: ps =>
    if c.eq key p.1 then (ps, some p.2) else
      let r := chainDel c key ps
      (p :: r.1, r.2)

/-- The end of ext/sparse/sptab.c:245-290 `SparseTableDelete`: no chain of one entry. -/
def unchain {K V : Type} (z : TLeaf K V) (next : List (K × V)) (pair : K × V) : TLeaf K V :=
  match next with
  | [] => { markUnchained z with body := .entry (some pair) }
  | _ => { z with body := .chain next pair }

/-- ext/sparse/sptab.c:245-290 `SparseTableDelete` on a chained leaf. -/
def leafDelete {K V : Type} (c : Cmp K) (z : TLeaf K V) (key : K) :
    Option (TLeaf K V × Option V) :=
  match z.body with
  | .chain next pair =>
    if c.eq key pair.1 then
      match next with
      | [] => none
      | p :: ps => some (unchain z ps p, some pair.2)
    else
      let r := chainDel c key next
      some (unchain z r.1 pair, r.2)
  | _ => none

/-- ext/sparse/sptab.c:245-290 `SparseTableDelete` -/
def tabDelete {K V : Type} (c : Cmp K) (st : Tab K V) (key : K) : Option (Tab K V × Option V) :=
  match trieGet st.trie (c.hash key) with
  | none => none
  | some none => some (st, none)
  | some (some z) =>
    if isChained z = false then
      match z.body with
      | .entry (some e) =>
        if c.eq key e.1 then
          match trieDelete st.trie (c.hash key) with
          | none => none
          | some (t, _) => some (⟨t, SpVec.dec64 st.numEntries⟩, some e.2)
        else some (st, none)
      | _ => none
    else
      match leafDelete c z key with
      | none => none
      | some (z', r) =>
        match trieWrite st.trie (c.hash key) z' with
        | none => none
        | some t =>
          some (⟨t, if r.isSome then SpVec.dec64 st.numEntries else st.numEntries⟩, r)

/-- ext/sparse/sptab.c:298-302 `SparseTableClear` -/
def tabClear {K V : Type} (st : Tab K V) : Option (Tab K V) :=
  match trieClear st.trie with
  | none => none
  | some (t, _) => some ⟨t, 0⟩

/-- ext/sparse/sptab.c:308-326 `copy_leaf`: new pairs with the same contents, so the
same leaf by value. -/
def copyLeaf {K V : Type} (z : TLeaf K V) : TLeaf K V := z

/-- ext/sparse/sptab.c:328-334 `SparseTableCopy` -/
def tabCopy {K V : Type} (st : Tab K V) : Option (Tab K V) :=
  match trieCopy copyLeaf st.trie with
  | none => none
  | some t => some ⟨t, st.numEntries⟩

/-- ext/sparse/sptab.h:74-79 `SparseTableIterRec` -/
structure TIter (K V : Type) where
  ctit : Iter
  chain : List (K × V)
  fin : Bool

/-- ext/sparse/sptab.c:340-346 `SparseTableIterInit` -/
def tIterInit (K V : Type) : TIter K V := ⟨iterInit, [], false⟩

/-- ext/sparse/sptab.c:349-365 `SparseTableIterNext`; `none` for `#f`. -/
def tIterNext {K V : Type} (st : Tab K V) (it : TIter K V) :
    Option (TIter K V × Option (K × V)) :=
  if it.fin then some (it, none) else
    match it.chain with
    | p :: ps => some ({ it with chain := ps }, some p)
    | [] =>
      match iterNext st.trie it.ctit with
      | none => none
      | some (ci, none) => some ({ it with ctit := ci, fin := true }, none)
      | some (ci, some z) =>
        if isChained z = false then
          match z.body with
          | .entry (some e) => some ({ it with ctit := ci }, some e)
          | _ => none
        else
          match z.body with
          | .chain next pair => some ({ it with ctit := ci, chain := next }, some pair)
          | _ => none

/-- `sparse-table-fold` (ext/sparse/sparse.scm:87-153 `define-stuff`) with a procedure
that conses up the entries; at most `fuel` of them. -/
def tabCollect {K V : Type} (st : Tab K V) :
    Nat → TIter K V → List (K × V) → Option (List (K × V))
  | 0, _, _ => none
  | fuel + 1, it, seed =>
    match tIterNext st it with
    | none => none
    | some (_, none) => some seed
    | some (it', some kv) => tabCollect st fuel it' (kv :: seed)

/-! ## Histories -/

open Gauche.SparseTab in
/-- One call: ext/sparse/sparse.scm:181-182 `sparse-table-set!`,
ext/sparse/sparse.scm:195-196 `sparse-table-delete!`, `sparse-table-clear!`,
`sparse-table-copy` (and go on with the copy). -/
def tabStep {K V : Type} (c : Cmp K) (g0 g1 : Nat) (st : Tab K V) :
    Op K V → Option (Tab K V × Reply V)
  | .set k v =>
    match tabSet c g0 g1 st k v false with
    | some (st', some r) => some (st', .val r)
    | _ => none
  | .delete k =>
    match tabDelete c st k with
    | none => none
    | some (st', r) => some (st', .bool r.isSome)
  | .clear =>
    match tabClear st with
    | none => none
    | some st' => some (st', .void)
  | .copy =>
    match tabCopy st with
    | none => none
    | some st' => some (st', .void)

open Gauche.SparseTab in
/-- A history. -/
def tabRun {K V : Type} (c : Cmp K) (g0 g1 : Nat) :
    Tab K V → List (Op K V) → Option (Tab K V × List (Reply V))
  | st, [] => some (st, [])
  | st, op :: ops =>
    match tabStep c g0 g1 st op with
    | none => none
    | some (st', r) =>
      match tabRun c g0 g1 st' ops with
      | none => none
      | some (st2, rs) => some (st2, r :: rs)

end Gauche.SpTab
