import Verif.Model.CTrie
import Verif.Spec.SparseMap

/-!
# Sparse vectors and sparse matrices

Models `ext/sparse/spvec.c` on top of the compact trie, and the index handling
of `ext/sparse/sparse.scm`.

An outer `Option` is definedness as in `Verif.Model.CTrie`.  A Scheme error that
a value conversion signals is an inner `none`.  `SCM_UNBOUND` is `none` in an
`Option V`, where `V` are the Scheme values.  The descriptor's functions return
the changed leaf, which the caller stores back with `trieWrite`.
-/

namespace Gauche.SpVec

open Gauche.CTrie

/-- ext/sparse/spvec.h:47-63 `SparseVectorDescriptorRec`.  The index given to `iter`
is the C index plus one (it starts at -1); the index it returns is the C index. -/
structure Desc (β V : Type) where
  ref : Leaf β → Nat → Option (Option V)
  set : Leaf β → Nat → V → Option (Option (Leaf β × Bool))
  allocate : Leaf β
  delete : Leaf β → Nat → Option (Leaf β × Option V)
  copy : Leaf β → Leaf β
  iter : Leaf β → Nat → Option (Nat × Option V)
  shift : Nat

/-! ## General vectors -/

/-- ext/sparse/spvec.c:182-185 `GLeafRec` after the header. -/
structure GBody (V : Type) where
  val0 : Option V
  val1 : Option V
deriving DecidableEq, Repr

/-- `val[index&1]` -/
def gVal {V : Type} (b : GBody V) (index : Nat) : Option V :=
  if index &&& 1 = 0 then b.val0 else b.val1

/-- `val[index&1] = x` -/
def gPut {V : Type} (b : GBody V) (index : Nat) (x : Option V) : GBody V :=
  if index &&& 1 = 0 then { b with val0 := x } else { b with val1 := x }

/-- ext/sparse/spvec.c:187-190 `g_ref` -/
def gRef {V : Type} (l : Leaf (GBody V)) (index : Nat) : Option (Option V) :=
  some (gVal l.body index)

/-- ext/sparse/spvec.c:192-197 `g_allocate` -/
def gAllocate (V : Type) (g0 g1 : Nat) : Leaf (GBody V) := ⟨g0, g1, ⟨none, none⟩⟩

/-- ext/sparse/spvec.c:199-204 `g_set` -/
def gSet {V : Type} (l : Leaf (GBody V)) (index : Nat) (value : V) :
    Option (Option (Leaf (GBody V) × Bool)) :=
  let v := gVal l.body index
  some (some ({ l with body := gPut l.body index (some value) }, v.isNone))

/-- ext/sparse/spvec.c:206-211 `g_delete` -/
def gDelete {V : Type} (l : Leaf (GBody V)) (index : Nat) :
    Option (Leaf (GBody V) × Option V) :=
  let v := gVal l.body index
  some ({ l with body := gPut l.body index none }, v)

/-- ext/sparse/spvec.c:219-224 `g_copy` -/
def gCopy {V : Type} (l : Leaf (GBody V)) : Leaf (GBody V) := l

/-- ext/sparse/spvec.c:226-239 `g_iter`; `j` is `++(*index)`. -/
def gIter {V : Type} (l : Leaf (GBody V)) (j : Nat) : Option (Nat × Option V) :=
  match (if j = 0 then
      match l.body.val0 with
      | some v => Sum.inl (some v)
      | none => Sum.inr 1
    else Sum.inr j : Sum (Option V) Nat) with
  | .inl v => some (0, v)
  | .inr i =>
    if i = 1 then
      match l.body.val1 with
      | some v => some (1, some v)
      | none => some (2, none)
    else some (i, none)

/-- ext/sparse/spvec.c:251-253 `g_desc`; `g0`, `g1` are the header of the memory the
allocator returns. -/
def gDesc (V : Type) (g0 g1 : Nat) : Desc (GBody V) V where
  ref := gRef
  set := gSet
  allocate := gAllocate V g0 g1
  delete := gDelete
  copy := gCopy
  iter := gIter
  shift := 1

/-! ## Uniform vectors

The fourteen element types differ in the number of bits of the index that stay
in the leaf (`SHIFT8` … `SHIFT128`), in the conversion from a Scheme number to
the element (`conv`, which may signal an error) and back (`box`). -/

/-- `MASK8` … `MASK128`. ext/sparse/spvec.c:294 `MASK8` -/
def uMask (shift : Nat) : Nat := 1 <<< shift - 1

/-- ext/sparse/spvec.c:330-335 `U_REF` -/
def uRef {E V : Type} (shift : Nat) (box : E → V) (l : Leaf (List E)) (index : Nat) :
    Option (Option V) :=
  if leafDataBitTest l (index &&& uMask shift) then
    match l.body[index &&& uMask shift]? with
    | none => none
    | some x => some (some (box x))
  else some none

/-- ext/sparse/spvec.c:359-363 `U_SET_INT`, ext/sparse/spvec.c:365-370 `U_SET_CHECK` and the
setters of the floating and complex types, which have the same shape. -/
def uSet {E V : Type} (shift : Nat) (conv : V → Option E) (l : Leaf (List E)) (index : Nat)
    (value : V) : Option (Option (Leaf (List E) × Bool)) :=
  match conv value with
  | none => some none
  | some x =>
    match putAt l.body (index &&& uMask shift) x with
    | none => none
    | some body =>
      let l1 := { l with body := body }
      let z := leafDataBitTest l1 (index &&& uMask shift)
      some (some (leafDataBitSet l1 (index &&& uMask shift), !z))

/-- ext/sparse/spvec.c:304-309 `u_allocate` -/
def uAllocate {E : Type} (shift : Nat) (zero : E) (g0 g1 : Nat) : Leaf (List E) :=
  ⟨g0, g1, List.replicate (1 <<< shift) zero⟩

/-- ext/sparse/spvec.c:452-458 `U_DEL` -/
def uDelete {E V : Type} (shift : Nat) (box : E → V) (l : Leaf (List E)) (index : Nat) :
    Option (Leaf (List E) × Option V) :=
  match uRef shift box l index with
  | none => none
  | some none => some (l, none)
  | some (some r) => some (leafDataBitReset l (index &&& uMask shift), some r)

/-- The loop of ext/sparse/spvec.c:534-546 `u_iter_sub` from `i` on, with `n` rounds left. -/
def uIterLoop {E V : Type} (shift : Nat) (box : E → V) (l : Leaf (List E)) :
    Nat → Nat → Option (Nat × Option V)
  | i, 0 => some (i, none)
  | i, n + 1 =>
    if leafDataBitTest l (i &&& uMask shift) then
      match uRef shift box l i with
      | none => none
      | some r => some (i, r)
    else uIterLoop shift box l (i + 1) n

/-- ext/sparse/spvec.c:534-546 `u_iter_sub` -/
def uIter {E V : Type} (shift : Nat) (box : E → V) (l : Leaf (List E)) (j : Nat) :
    Option (Nat × Option V) :=
  uIterLoop shift box l j (uMask shift + 1 - j)

/-- ext/sparse/spvec.c:572-586 `U_DECL` -/
def uDesc {E V : Type} (shift : Nat) (zero : E) (conv : V → Option E) (box : E → V)
    (g0 g1 : Nat) : Desc (List E) V where
  ref := uRef shift box
  set := uSet shift conv
  allocate := uAllocate shift zero g0 g1
  delete := uDelete shift box
  copy := id
  iter := uIter shift box
  shift := shift

/-! ## The vector -/

/-- ext/sparse/spvec.h:56-63 `SparseVectorRec`; `dflt` is `none` when the default
value is undefined. -/
structure SV (β V : Type) where
  trie : Trie β
  numEntries : Nat
  dflt : Option V

/-- ext/sparse/spvec.c:607-654 `MakeSparseVector` -/
def svMake (β : Type) {V : Type} (dflt : Option V) : SV β V := ⟨trieInit β, 0, dflt⟩

/-- `sv->numEntries++` on a 64-bit word. -/
def inc64 (n : Nat) : Nat := (n + 1) % 2 ^ 64

/-- `sv->numEntries--` on a 64-bit word. -/
def dec64 (n : Nat) : Nat := (n + (2 ^ 64 - 1)) % 2 ^ 64

/-- ext/sparse/spvec.c:68-76 `SparseVectorRef` -/
def svRef {β V : Type} (d : Desc β V) (sv : SV β V) (index : Nat) (fallback : Option V) :
    Option (Option V) :=
  match trieGet sv.trie (index >>> d.shift) with
  | none => none
  | some none => some fallback
  | some (some leaf) =>
    match d.ref leaf index with
    | none => none
    | some none => some fallback
    | some (some v) => some (some v)

/-- ext/sparse/spvec.c:78-85 `SparseVectorSet`: the vector, and whether it returned
normally (`false` is the conversion error; the leaf may have been added already). -/
def svSet {β V : Type} (d : Desc β V) (sv : SV β V) (index : Nat) (value : V) :
    Option (SV β V × Bool) :=
  match trieAdd sv.trie (index >>> d.shift) d.allocate with
  | none => none
  | some (t1, leaf) =>
    match d.set leaf index value with
    | none => none
    | some none => some ({ sv with trie := t1 }, false)
    | some (some (leaf', isnew)) =>
      match trieWrite t1 (index >>> d.shift) leaf' with
      | none => none
      | some t2 =>
        some ({ sv with trie := t2,
                        numEntries := if isnew then inc64 sv.numEntries else sv.numEntries }, true)

/-- ext/sparse/spvec.c:88-96 `SparseVectorDelete` -/
def svDelete {β V : Type} (d : Desc β V) (sv : SV β V) (index : Nat) :
    Option (SV β V × Option V) :=
  match trieGet sv.trie (index >>> d.shift) with
  | none => none
  | some none => some (sv, none)
  | some (some leaf) =>
    match d.delete leaf index with
    | none => none
    | some (leaf', r) =>
      match trieWrite sv.trie (index >>> d.shift) leaf' with
      | none => none
      | some t =>
        some ({ sv with trie := t,
                        numEntries := if r.isSome then dec64 sv.numEntries else sv.numEntries }, r)

/-- ext/sparse/spvec.c:98-102 `SparseVectorClear` -/
def svClear {β V : Type} (sv : SV β V) : Option (SV β V) :=
  match trieClear sv.trie with
  | none => none
  | some (t, _) => some { sv with trie := t, numEntries := 0 }

/-- ext/sparse/spvec.c:104-113 `SparseVectorCopy` -/
def svCopy {β V : Type} (d : Desc β V) (src : SV β V) : Option (SV β V) :=
  match trieCopy d.copy src.trie with
  | none => none
  | some t => some ⟨t, src.numEntries, src.dflt⟩

/-- The number arithmetic `SparseVectorInc` uses. -/
structure Arith (V : Type) where
  isNumber : V → Bool
  zero : V
  add : V → V → V

/-- The first lines of ext/sparse/spvec.c:143-167 `SparseVectorInc`: which value stands
in for a missing entry. -/
def incBase {V : Type} (ar : Arith V) (dflt : Option V) (fallback : Option V) : V :=
  match fallback with
  | some f => if ar.isNumber f then f else
      (match dflt with
       | some x => if ar.isNumber x then x else ar.zero
       | none => ar.zero)
  | none =>
      (match dflt with
       | some x => if ar.isNumber x then x else ar.zero
       | none => ar.zero)

/-- ext/sparse/spvec.c:143-167 `SparseVectorInc`: the vector, and the result unless the
conversion of the sum signals an error. -/
def svInc {β V : Type} (d : Desc β V) (ar : Arith V) (sv : SV β V) (index : Nat) (delta : V)
    (fallback : Option V) : Option (SV β V × Option V) :=
  let fallback := incBase ar sv.dflt fallback
  match trieGet sv.trie (index >>> d.shift) with
  | none => none
  | some none =>
    let v := ar.add fallback delta
    match svSet d sv index v with
    | none => none
    | some (sv', true) => some (sv', some v)
    | some (sv', false) => some (sv', none)
  | some (some leaf) =>
    match d.ref leaf index with
    | none => none
    | some r =>
      let v := ar.add (r.getD fallback) delta
      match d.set leaf index v with
      | none => none
      | some none => some (sv, none)
      | some (some (leaf', _)) =>
        match trieWrite sv.trie (index >>> d.shift) leaf' with
        | none => none
        | some t => some ({ sv with trie := t }, some v)

/-! ## Iteration -/

/-- ext/sparse/spvec.h:66-71 `SparseVectorIterRec`.  `leafIndex1` is the C
`leafIndex` plus one.  The leaf is held by value: the model iterates over a
vector that is not changed meanwhile. -/
structure SVIter (β : Type) where
  leaf : Option (Leaf β)
  leafIndex1 : Nat
  citer : Iter

/-- ext/sparse/spvec.c:115-121 `SparseVectorIterInit` -/
def svIterInit (β : Type) : SVIter β := ⟨none, 0, iterInit⟩

/-- ext/sparse/spvec.c:123-139 `SparseVectorIterNext`: at most `fuel` rounds of its
endless loop; `none` also when they do not suffice. -/
def svIterNext {β V : Type} (d : Desc β V) (sv : SV β V) :
    Nat → SVIter β → Option (SVIter β × Option (Nat × V))
  | 0, _ => none
  | fuel + 1, it =>
    let advance (it1 : SVIter β) :=
      match iterNext sv.trie it1.citer with
      | none => none
      | some (c, none) => some ({ it1 with leaf := none, citer := c }, none)
      | some (c, some l) => svIterNext d sv fuel ⟨some l, 0, c⟩
    match it.leaf with
    | none => advance it
    | some leaf =>
      match d.iter leaf it.leafIndex1 with
      | none => none
      | some (i, some r) =>
        some ({ it with leafIndex1 := i + 1 }, some (((leafKey leaf <<< d.shift) + i) % 2 ^ 64, r))
      | some (i, none) => advance { it with leafIndex1 := i + 1 }

/-- The loop of `sparse-vector-fold` (ext/sparse/sparse.scm:87-153 `define-stuff`) with
a procedure that conses up the entries, as `sparse-vector-map`, `-keys` and
`-values` do; at most `fuel` entries, each found within `fuel` rounds. -/
def svCollect {β V : Type} (d : Desc β V) (sv : SV β V) (rounds : Nat) :
    Nat → SVIter β → List (Nat × V) → Option (List (Nat × V))
  | 0, _, _ => none
  | fuel + 1, it, seed =>
    match svIterNext d sv rounds it with
    | none => none
    | some (_, none) => some seed
    | some (it', some kv) => svCollect d sv rounds fuel it' (kv :: seed)

/-! ## The Scheme procedures -/

/-- What a Scheme procedure answers. -/
inductive Ans (V : Type) where
  | val (v : V)
  | bool (b : Bool)
  | void
  | error
deriving DecidableEq, Repr

/-- `Scm_GetIntegerUClamp` with `SCM_CLAMP_NONE`: `none` is out of range. -/
def getULong (i : Int) : Option Nat := if 0 ≤ i ∧ i < 2 ^ 64 then some i.toNat else none

/-- The guarded lookup in ext/sparse/sparse.scm:310-323 `sparse-vector-ref`: not done for
an index out of range. -/
def refAt {β V : Type} (d : Desc β V) (sv : SV β V) :
    Option Nat → Option V → Option (Option V)
  | none, _ => some none
  | some i, fallback => svRef d sv i fallback

/-- The rest of ext/sparse/sparse.scm:310-323 `sparse-vector-ref`. -/
def orDefault {V : Type} (dflt : Option V) : Option (Option V) → Option (Ans V)
  | none => none
  | some (some r) => some (.val r)
  | some none =>
    match dflt with
    | none => some .error
    | some v => some (.val v)

/-- ext/sparse/sparse.scm:310-323 `sparse-vector-ref` -/
def scmRef {β V : Type} (d : Desc β V) (sv : SV β V) (index : Int) (fallback : Option V) :
    Option (Ans V) :=
  orDefault sv.dflt (refAt d sv (getULong index) fallback)

/-- `exists?` from the looked up value. -/
def isEntry {V : Type} : Option (Option V) → Option (Ans V)
  | none => none
  | some r => some (.bool r.isSome)

/-- ext/sparse/sparse.scm:325-332 `sparse-vector-exists?` -/
def scmExists {β V : Type} (d : Desc β V) (sv : SV β V) (index : Int) : Option (Ans V) :=
  isEntry (refAt d sv (getULong index) none)

/-! ## Histories

A program that keeps one sparse vector and calls the procedures on it. -/

open Gauche.SparseMap in
/-- One call.  `set!` is ext/sparse/sparse.scm:306-308 `sparse-vector-set!`, `delete!`
is ext/sparse/sparse.scm:337-339 `sparse-vector-delete!`, `inc!` is
ext/sparse/sparse.scm:346-350 `sparse-vector-inc!`; `copy` goes on with the copy. -/
def svStep {β V : Type} (d : Desc β V) (ar : Arith V) (sv : SV β V) :
    Op Nat V → Option (SV β V × Reply V)
  | .set i v =>
    match svSet d sv i v with
    | none => none
    | some (sv', true) => some (sv', .void)
    | some (sv', false) => some (sv', .error)
  | .delete i =>
    match svDelete d sv i with
    | none => none
    | some (sv', r) => some (sv', .bool r.isSome)
  | .clear =>
    match svClear sv with
    | none => none
    | some sv' => some (sv', .void)
  | .copy =>
    match svCopy d sv with
    | none => none
    | some sv' => some (sv', .void)
  | .inc i delta fb =>
    match svInc d ar sv i delta fb with
    | none => none
    | some (sv', some v) => some (sv', .val v)
    | some (sv', none) => some (sv', .error)

open Gauche.SparseMap in
/-- A history. -/
def svRun {β V : Type} (d : Desc β V) (ar : Arith V) :
    SV β V → List (Op Nat V) → Option (SV β V × List (Reply V))
  | sv, [] => some (sv, [])
  | sv, op :: ops =>
    match svStep d ar sv op with
    | none => none
    | some (sv', r) =>
      match svRun d ar sv' ops with
      | none => none
      | some (sv2, rs) => some (sv2, r :: rs)

/-! ## Matrix indices -/

/-- The loop of ext/sparse/sparse.scm:447-474 `index-combine-2d`; `n` bounds the rounds. -/
def combineLoop (ix iy bmax : Nat) : Nat → Nat → Nat → Nat
  | 0, _, ind => ind
  | n + 1, shift, ind =>
    if shift < bmax + 1 then
      combineLoop ix iy bmax n (shift + 4)
        ((ind ||| ((ix &&& (15 <<< shift)) <<< shift)) ||| ((iy &&& (15 <<< shift)) <<< (shift + 4)))
    else ind

/-- `1 << SPARSE_VECTOR_MAX_INDEX_BITS/2` (ext/sparse/spvec.h:106 `SPARSE_VECTOR_MAX_INDEX_BITS`) -/
def combineLimit : Nat := 1 <<< (64 / 2)

/-- `bmax` in ext/sparse/sparse.scm:447-474 `index-combine-2d` -/
def combineMax (ix iy : Nat) : Nat :=
  if highestBelow ix 64 > highestBelow iy 64 then highestBelow ix 64 else highestBelow iy 64

/-- ext/sparse/sparse.scm:447-474 `index-combine-2d` once both indices are words.  The
loop runs once for every four of at most 32 bits. -/
def combineWords (ix iy : Nat) : Option Nat :=
  if ix ≥ combineLimit then none
  else if iy ≥ combineLimit then none
  else some (combineLoop ix iy (combineMax ix iy) 16 0 0)

/-- The range checks of ext/sparse/sparse.scm:447-474 `index-combine-2d` (`oorx`, `oory`). -/
def combineChecked : Option Nat → Option Nat → Option Nat
  | none, _ => none
  | some _, none => none
  | some ix, some iy => combineWords ix iy

/-- ext/sparse/sparse.scm:447-474 `index-combine-2d`: `none` is out of range. -/
def indexCombine (x y : Int) : Option Nat := combineChecked (getULong x) (getULong y)

/-- The loop of ext/sparse/sparse.scm:476-487 `index-split-2d`; `n` bounds the rounds. -/
def splitLoop : Nat → Nat → Nat → Nat → Nat → Nat × Nat
  | 0, _, _, x, y => (x, y)
  | n + 1, i, shift, x, y =>
    if i ≠ 0 then
      splitLoop n (i >>> 4 >>> 4) (shift + 4) (x ||| ((i &&& 15) <<< shift))
        (y ||| (((i >>> 4) &&& 15) <<< shift))
    else (x, y)

/-- ext/sparse/sparse.scm:476-487 `index-split-2d` -/
def indexSplit (i : Nat) : Nat × Nat := splitLoop 16 i 0 0 0

/-- ext/sparse/sparse.scm:524-538 `sparse-matrix-ref` -/
def matRef {β V : Type} (d : Desc β V) (sv : SV β V) (x y : Int) (fallback : Option V) :
    Option (Ans V) :=
  orDefault sv.dflt (refAt d sv (indexCombine x y) fallback)

/-- ext/sparse/sparse.scm:540-547 `sparse-matrix-exists?` -/
def matExists {β V : Type} (d : Desc β V) (sv : SV β V) (x y : Int) : Option (Ans V) :=
  isEntry (refAt d sv (indexCombine x y) none)

open Gauche.SparseMap in
/-- An index out of range is an error (ext/sparse/sparse.scm:447-474 `index-combine-2d`
called with no place to report it). -/
def orError {β V : Type} (sv : SV β V) : Option Nat → (Nat → Option (SV β V × Reply V)) →
    Option (SV β V × Reply V)
  | none, _ => some (sv, .error)
  | some i, f => f i

open Gauche.SparseMap in
/-- One call on a matrix, for indices the procedures take: they compute the
combined index and do what the vector procedure does with it
(ext/sparse/sparse.scm:521-522 `sparse-matrix-set!`, ext/sparse/sparse.scm:552-553 `sparse-matrix-delete!`,
ext/sparse/sparse.scm:560-564 `sparse-matrix-inc!`). -/
def matStep {β V : Type} (d : Desc β V) (ar : Arith V) (sv : SV β V) :
    Op (Nat × Nat) V → Option (SV β V × Reply V)
  | .set p v => orError sv (indexCombine p.1 p.2) (fun i => svStep d ar sv (.set i v))
  | .delete p => orError sv (indexCombine p.1 p.2) (fun i => svStep d ar sv (.delete i))
  | .clear => svStep d ar sv .clear
  | .copy => svStep d ar sv .copy
  | .inc p delta fb => orError sv (indexCombine p.1 p.2) (fun i => svStep d ar sv (.inc i delta fb))

open Gauche.SparseMap in
/-- A history of a matrix. -/
def matRun {β V : Type} (d : Desc β V) (ar : Arith V) :
    SV β V → List (Op (Nat × Nat) V) → Option (SV β V × List (Reply V))
  | sv, [] => some (sv, [])
  | sv, op :: ops =>
    match matStep d ar sv op with
    | none => none
    | some (sv', r) =>
      match matRun d ar sv' ops with
      | none => none
      | some (sv2, rs) => some (sv2, r :: rs)

/-- ext/sparse/sparse.scm:624-631 `sparse-matrix-fold` with a procedure that conses up
the entries; ext/sparse/sparse.scm:567-577 `sparse-matrix-iter` splits each index. -/
def matCollect {β V : Type} (d : Desc β V) (sv : SV β V) (rounds : Nat) :
    Nat → SVIter β → List ((Nat × Nat) × V) → Option (List ((Nat × Nat) × V))
  | 0, _, _ => none
  | fuel + 1, it, seed =>
    match svIterNext d sv rounds it with
    | none => none
    | some (_, none) => some seed
    | some (it', some kv) => matCollect d sv rounds fuel it' ((indexSplit kv.1, kv.2) :: seed)

end Gauche.SpVec
