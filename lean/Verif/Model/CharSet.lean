import Verif.Model.TreeMap
import Verif.Model.BinSearch
import Verif.Spec.CharProg
/-
Character sets: src/char.c.

A character is its code point, a natural number.  The bitmap for the codes below 128 is a function of the
code (words of bits are not modelled).  The ranges above are the entries of a tree core (key = first code,
value = last code), the tree model of `Verif.Model.TreeMap`; in an immutable set they are a flat vector.
The union `large` is read as a tree exactly when the set is mutable, so the flag IMMUTABLE is the
constructor of `Large`.
-/
namespace Gauche.CharSet
open Gauche.TreeMap

/-- `SCM_CHAR_SET_SMALL_CHARS`, src/gauche/charset.h:57 `SCM_CHAR_SET_SMALL_CHARS`. -/
def smallChars : Nat := 128
/-- `SCM_CHAR_MAX`, src/gauche.h:398 `SCM_CHAR_MAX`. -/
def charMax : Nat := 0x10ffff

/-- The union `large` of `struct ScmCharSetRec`, src/gauche/charset.h:59-71. -/
inductive Large where
  | tree (t : Core Nat Nat)
  | frozen (size : Nat) (vec : List Nat)

/-- `struct ScmCharSetRec`, src/gauche/charset.h:59-71; `largep` is the flag LARGE. -/
structure CharSet where
  small : Nat → Bool
  largep : Bool
  large : Large

/-- `SCM_CHAR_SET_IMMUTABLE_P`, src/gauche/charset.h:85-86 `SCM_CHAR_SET_IMMUTABLE_P`. -/
def CharSet.immutable (cs : CharSet) : Bool :=
  match cs.large with
  | .tree _ => false
  | .frozen _ _ => true

/-- src/char.c:646-654 `make_charset`. -/
def make : CharSet := ⟨fun _ => false, false, .tree Core.init⟩

/-- `Scm_BitsFill(bits, s, e, TRUE)`, seen as the function code ↦ bit. -/
def fill (b : Nat → Bool) (s e : Nat) : Nat → Bool := fun i => if s ≤ i ∧ i < e then true else b i

/-! ### Iteration over the ranges -/

/-- `src/char.c:608-634 `cs_iter_next`` repeated on an immutable set, from index `i`: pairs of consecutive
elements.  `none` = a read outside the vector. -/
def pairs (vec : List Nat) (size : Nat) : Nat → Nat → Option (List (Nat × Nat))
  | 0, _ => some []
  | fuel + 1, i =>
    if size ≤ i then some []
    else match vec[i]?, vec[i + 1]? with
      | some lo, some hi => (pairs vec size fuel (i + 2)).map ((lo, hi) :: ·)
      | _, _ => none

/-- All entries of a tree in the order `Scm_TreeIterNext` returns them. -/
def treeEntries (t : Core Nat Nat) : Option (List (Nat × Nat)) :=
  t.fold (fun k v r => r ++ [(k, v)]) [] false

/-- The sequence of ranges returned by src/char.c:592-605 `cs_iter_init` and src/char.c:608-634 `cs_iter_next`. -/
def CharSet.iter (cs : CharSet) : Option (List (Nat × Nat)) :=
  if cs.largep then
    match cs.large with
    | .tree t => treeEntries t
    | .frozen size vec => pairs vec size (size + 1) 0
  else some []

/-! ### Constructors -/

/-- The loop of src/char.c:684-701 `Scm_CharSetCopy` that inserts the ranges of an immutable set. -/
def putAll : List (Nat × Nat) → Core Nat Nat → Option (Core Nat Nat)
  | [], t => some t
  | e :: r, t => (t.create compare e.1 fun _ => e.2).bind (putAll r)

/-- src/char.c:684-701 `Scm_CharSetCopy`; the result is mutable. -/
def CharSet.copy (src : CharSet) : Option CharSet :=
  match src.large with
  | .frozen size vec =>
    (pairs vec size (size + 1) 0).bind fun l =>
      (putAll l Core.init).map fun t => ⟨src.small, src.largep, .tree t⟩
  | .tree t => some ⟨src.small, src.largep, .tree t.copy⟩

/-- The elements stored by src/char.c:706-724 `char_set_freeze_vec`. -/
def flat : List (Nat × Nat) → List Nat
  | [] => []
  | e :: r => e.1 :: e.2 :: flat r

/-- src/char.c:706-724 `char_set_freeze_vec`: the vector and its recorded size.  (Whether the vector is the inline
`ivec` is not represented.)  `none` = the assertion `k < s` fails. -/
def freezeVec (cs : CharSet) (t : Core Nat Nat) : Option Large :=
  cs.iter.bind fun l => if l.length * 2 ≤ t.num * 2 then some (.frozen (t.num * 2) (flat l)) else none

/-- src/char.c:726-743 `Scm_CharSetFreeze`. -/
def CharSet.freeze (src : CharSet) : Option CharSet :=
  match src.large with
  | .frozen _ _ => some src
  | .tree t =>
    if src.largep then (freezeVec src t).map fun f => ⟨src.small, true, f⟩
    else some ⟨src.small, false, .frozen 0 []⟩

/-- src/char.c:745-763 `Scm_CharSetFreezeX`.  If the set has no large range, the union is not written: the word
then read as `frozen.size` is the tree's root pointer, 0 for an empty tree; for a non-empty tree the
outcome is undefined (`none`). -/
def CharSet.freezeX (src : CharSet) : Option CharSet :=
  match src.large with
  | .frozen _ _ => some src
  | .tree t =>
    if src.largep then (freezeVec src t).map fun f => ⟨src.small, src.largep, f⟩
    else match t.root with
      | .nil => some ⟨src.small, src.largep, .frozen 0 []⟩
      | .node .. => none

/-! ### Comparison -/

/-- src/treemap.c:192-208 `Scm_TreeCoreEq`. -/
def treeEq (a b : Core Nat Nat) : Option Bool :=
  if a.num ≠ b.num then some false
  else (treeEntries a).bind fun x => (treeEntries b).map fun y => decide (x = y)

/-- src/char.c:784-804 `Scm_CharSetEq`. -/
def CharSet.eq (x y : CharSet) : Option Bool :=
  if (List.range smallChars).all fun i => x.small i == y.small i then
    match x.large, y.large with
    | .tree a, .tree b => treeEq a b
    | _, _ => x.iter.bind fun p => y.iter.map fun q => decide (p = q)
  else some false

/-- src/char.c:807-842 `cs_contains_range`. -/
def CharSet.containsRange (s : CharSet) (lo hi : Nat) : Option Bool :=
  if s.largep then
    match s.large with
    | .frozen size vec =>
      match BinSearch.search vec size lo 1 with
      | none => none
      | some (.found ye) => vec[ye + 1]?.map fun v => !decide (v < hi)
      | some (.miss (some yl) _) => vec[yl + 1]?.map fun v => !decide (v < hi)
      | some (.miss none _) => some false
    | .tree t =>
      match coreNear compare lo t.root [] with
      | (some ye, _, _) => some (!decide (ye.v < hi))
      | (none, some yl, _) => some (!decide (yl.v < hi))
      | (none, none, _) => some false
  else some false

/-- The loop of src/char.c:845-857 `Scm_CharSetLE`. -/
def leLoop (y : CharSet) : List (Nat × Nat) → Option Bool
  | [] => some true
  | e :: r => (y.containsRange e.1 e.2).bind fun b => if b then leLoop y r else some false

/-- src/char.c:845-857 `Scm_CharSetLE`. -/
def CharSet.le (x y : CharSet) : Option Bool :=
  if (List.range smallChars).all fun i => !x.small i || y.small i then x.iter.bind (leLoop y)
  else some false

/-! ### Modification -/

/-- The loop of src/char.c:864-909 `Scm_CharSetAddRange`: `ek` is the key of `e`, `hk` the key of `hi`.  Deleting a
node leaves other nodes in place (src/treemap.c:708-726), so storing to `e->value` is a store to the entry
with key `ek`. -/
def mergeLoop (ek to_ : Nat) : Nat → Nat → Core Nat Nat → Option (Core Nat Nat)
  | 0, _, _ => none
  | fuel + 1, hk, t =>
    match t.successor compare hk with
    | none => some (t.replace compare ek to_)
    | some h =>
      if h.1 > to_ + 1 then some (t.replace compare ek to_)
      else match t.delete compare h.1 with
        | none => none
        | some (_, t') =>
          if h.2 > to_ then some (t'.replace compare ek h.2)
          else mergeLoop ek to_ fuel h.1 t'

/-- src/char.c:864-909 `Scm_CharSetAddRange` from "Set up the upper bound" on. -/
def merge (t : Core Nat Nat) (e : Nat × Nat) (to_ : Nat) : Option (Core Nat Nat) :=
  if e.2 ≥ to_ then some t else mergeLoop e.1 to_ (t.num + 1) e.1 t

/-- Creating the entry in src/char.c:864-909 `Scm_CharSetAddRange`: a new entry has value 0. -/
def mergeNew (t : Core Nat Nat) (from_ to_ : Nat) : Option (Core Nat Nat) :=
  (t.create compare from_ fun o => o.getD 0).bind fun t' => merge t' (from_, 0) to_

/-- src/char.c:864-909 `Scm_CharSetAddRange`: the part for large characters. -/
def addLarge (t : Core Nat Nat) (from_ to_ : Nat) : Option (Core Nat Nat) :=
  match coreNear compare from_ t.root [] with
  | (some e, _, _) => merge t e.entry to_
  | (none, some lo, _) => if lo.v < from_ - 1 then mergeNew t from_ to_ else merge t lo.entry to_
  | (none, none, _) => mergeNew t from_ to_

/-- src/char.c:864-909 `Scm_CharSetAddRange`; `none` includes the error for an immutable set. -/
def CharSet.addRange (cs : CharSet) (from_ to_ : Nat) : Option CharSet :=
  match cs.large with
  | .frozen _ _ => none
  | .tree t =>
    if to_ < from_ then some cs
    else if from_ < smallChars then
      if to_ < smallChars then some { cs with small := fill cs.small from_ (to_ + 1) }
      else (addLarge t smallChars to_).map fun t' => ⟨fill cs.small from_ smallChars, true, .tree t'⟩
    else (addLarge t from_ to_).map fun t' => ⟨cs.small, true, .tree t'⟩

/-- Adding every range of a list with src/char.c:864-909 `Scm_CharSetAddRange`. -/
def addRanges : List (Nat × Nat) → CharSet → Option CharSet
  | [], cs => some cs
  | e :: r, cs => (cs.addRange e.1 e.2).bind (addRanges r)

/-- The ranges visited by src/char.c:911-939 `Scm_CharSetAdd`, which does not look at the flag LARGE of `src`. -/
def CharSet.rawRanges (src : CharSet) : Option (List (Nat × Nat)) :=
  match src.large with
  | .tree t => treeEntries t
  | .frozen size vec => pairs vec size (size + 1) 0

/-- src/char.c:911-939 `Scm_CharSetAdd` for `dst` and `src` distinct objects. -/
def CharSet.add (dst src : CharSet) : Option CharSet :=
  match dst.large with
  | .frozen _ _ => none
  | .tree t =>
    src.rawRanges.bind fun l =>
      addRanges l ⟨fun i => dst.small i || src.small i, dst.largep || src.largep, .tree t⟩

/-- The loop of src/char.c:941-968 `Scm_CharSetComplement`; result: tree, `last`, `largep`. -/
def complLoop : Nat → Nat → Bool → Core Nat Nat → Option (Core Nat Nat × Nat × Bool)
  | 0, _, _, _ => none
  | fuel + 1, last, largep, t =>
    match t.successor compare last with
    | none => some (t, last, largep)
    | some e =>
      match t.delete compare e.1 with
      | none => none
      | some (_, t') =>
        if last < e.1 - 1 then
          (t'.create compare (last + 1) fun _ => e.1 - 1).bind fun t'' => complLoop fuel e.2 true t''
        else complLoop fuel e.2 largep t'

/-- src/char.c:941-968 `Scm_CharSetComplement`; `none` includes the error for an immutable set. -/
def CharSet.complement (cs : CharSet) : Option CharSet :=
  match cs.large with
  | .frozen _ _ => none
  | .tree t =>
    (complLoop (t.num + 1) (smallChars - 1) false t).bind fun r =>
      if r.2.1 < charMax then
        (r.1.create compare (r.2.1 + 1) fun _ => charMax).map fun t' => ⟨fun i => !cs.small i, true, .tree t'⟩
      else some ⟨fun i => !cs.small i, r.2.2, .tree r.1⟩

/-! ### Query -/

/-- src/char.c:1000-1027 `Scm_CharSetContains`. -/
def CharSet.contains (cs : CharSet) (c : Nat) : Option Bool :=
  if c < smallChars then some (cs.small c)
  else match cs.large with
    | .frozen size vec =>
      if size = 2 then
        match vec[0]?, vec[1]? with
        | some lo, some hi => some (decide (lo ≤ c) && decide (c ≤ hi))
        | _, _ => none
      else match BinSearch.search vec size c 1 with
        | none => none
        | some (.found _) => some true
        | some (.miss (some lo) _) => vec[lo + 1]?.map fun v => decide (c ≤ v)
        | some (.miss none _) => some false
    | .tree t =>
      match coreNear compare c t.root [] with
      | (some _, _, _) => some true
      | (none, some l, _) => some (decide (l.v ≥ c))
      | (none, none, _) => some false

/-- The scan of the bitmap in src/char.c:1034-1061 `Scm_CharSetRanges`: `n` codes from `ind` on remain, `begin` is the
start of the current run if `prev`. -/
def smallRuns (b : Nat → Bool) : Nat → Nat → Nat → Bool → List (Nat × Nat)
  | 0, ind, begin_, prev => if prev then [(begin_, ind - 1)] else []
  | n + 1, ind, begin_, prev =>
    if prev && !b ind then (begin_, ind - 1) :: smallRuns b n (ind + 1) begin_ (b ind)
    else smallRuns b n (ind + 1) (if !prev && b ind then ind else begin_) (b ind)

/-- src/char.c:1034-1061 `Scm_CharSetRanges`. -/
def CharSet.ranges (cs : CharSet) : Option (List (Nat × Nat)) :=
  cs.iter.map (smallRuns cs.small smallChars 0 0 false ++ ·)

/-- src/libchar.scm:227-230 `char-set-size`. -/
def CharSet.size (cs : CharSet) : Option Int :=
  cs.ranges.map fun l => l.foldl (fun count r => count + ((r.2 : Int) - (r.1 : Int) - (-1))) 0

/-! ### Programs -/

/-- Store the result of an operation on set `i`. -/
def onSet (h : List CharSet) (i : Nat) (f : CharSet → Option CharSet) : Option (List CharSet) :=
  h[i]?.bind fun cs => (f cs).map fun cs' => h.set i cs'

/-- One call: src/char.c:656-659 `Scm_MakeEmptyCharSet`, src/libchar.scm:261-273 `%char-set-add-range!` (with its checks of
the codes), src/libchar.scm:275 `%char-set-add!`, src/libchar.scm:239 `char-set-complement!`,
src/libchar.scm:222 `char-set-copy`, src/libchar.scm:224 `char-set-freeze`, src/libchar.scm:225 `char-set-freeze!`.
Freezing an immutable set returns the same object; here the new name gets an equal value, which cannot be
told apart because neither can change. -/
def step : CharProg.Cmd → List CharSet → Option (List CharSet)
  | .new, h => some (h ++ [make])
  | .addRange i f u, h => if f > charMax ∨ u > charMax then none else onSet h i fun cs => cs.addRange f u
  | .union i j, h =>
    if i = j then onSet h i fun cs => if cs.immutable then none else some cs
    else h[j]?.bind fun src => onSet h i fun cs => cs.add src
  | .complement i, h => onSet h i CharSet.complement
  | .copy i, h => h[i]?.bind fun cs => cs.copy.map fun cs' => h ++ [cs']
  | .freeze i, h => h[i]?.bind fun cs => cs.freeze.map fun cs' => h ++ [cs']
  | .freezeX i, h => onSet h i CharSet.freezeX

end Gauche.CharSet
