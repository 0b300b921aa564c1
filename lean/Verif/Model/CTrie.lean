/-!
# The compact trie behind `data.sparse`

Models `ext/sparse/ctrie.c` and the inline helpers of `ext/sparse/ctrie.h`:
the 32-way trie whose nodes are two bitmaps and a packed array of children,
with leaves that carry their own key.

Words are natural numbers.  `u_long` is taken to be 64 bits wide, so a key has
thirteen 5-bit digits; the model recurses on the number of digits left, and
running out of them is the C program's shift by more than the word width.

An `Option` around a result is *definedness*: `none` is an access outside the
allocated entries of a node, a null entry followed, or a leaf read as a node
(or a node read as a leaf) because the bitmaps lie.

Simplifications.  Nodes and leaves are values, not addresses: no node is
reachable by two paths, and the clients write through a leaf pointer only right
after they got it, which the model writes as `trieWrite` along the same key.
Bit counting (`Scm__CountBitsInWord`, `Scm__CountBitsBelow`) and the lowest and
highest set bit are given by what they compute, not by the shift-and-mask code
of `src/gauche/bits_inline.h`.
-/

namespace Gauche.CTrie

/-! ## Words -/

/-- The word `w` with bit `i` set.  src/gauche/bits.h:61 `SCM_BITS_SET_IN_WORD` -/
def bitSet (w i : Nat) : Nat := w ||| (1 <<< i)

/-- The word `w` with bit `i` cleared, `w & ~(1<<i)`, written without a
complement.  src/gauche/bits.h:62 `SCM_BITS_RESET_IN_WORD` -/
def bitReset (w i : Nat) : Nat := w ^^^ (w &&& (1 <<< i))

/-- src/gauche/bits_inline.h:67-71 `Scm__CountBitsBelow`: the number of one bits of
`w` below bit `n`. -/
def countBelow (w : Nat) : Nat → Nat
  | 0 => 0
  | n + 1 => countBelow w n + (if w.testBit n then 1 else 0)

/-- src/gauche/bits_inline.h:49-64 `Scm__CountBitsInWord` -/
def countBits (w : Nat) : Nat := countBelow w 64

/-- src/gauche/bits_inline.h:75-95 `Scm__LowestBitNumber`, searching from bit `i`
among `n` bits. -/
def lowestFrom (w : Nat) : Nat → Nat → Nat
  | i, 0 => i
  | i, n + 1 => if w.testBit i then i else lowestFrom w (i + 1) n

/-- src/gauche/bits_inline.h:99-118 `Scm__HighestBitNumber`, searching below bit `n`. -/
def highestBelow (w : Nat) : Nat → Nat
  | 0 => 0
  | n + 1 => if w.testBit n then n else highestBelow w n

/-! ## Leaves -/

/-- ext/sparse/ctrie.h:98 `LEAF_KEY_MASK` (64-bit `long`) -/
def LEAF_KEY_MASK : Nat := 2 ^ 32 - 1

/-- ext/sparse/ctrie.h:85-88 `LeafRec`, followed by the client's part of the leaf. -/
structure Leaf (β : Type) where
  key0 : Nat
  key1 : Nat
  body : β
deriving DecidableEq, Repr

/-- ext/sparse/ctrie.h:102-106 `leaf_key` -/
def leafKey {β : Type} (l : Leaf β) : Nat :=
  ((l.key1 &&& LEAF_KEY_MASK) <<< 32) + (l.key0 &&& LEAF_KEY_MASK)

/-- ext/sparse/ctrie.h:108-112 `leaf_key_set` -/
def leafKeySet {β : Type} (l : Leaf β) (key : Nat) : Leaf β :=
  { l with key0 := key &&& LEAF_KEY_MASK, key1 := (key >>> 32) &&& LEAF_KEY_MASK }

/-- ext/sparse/ctrie.h:114-117 `leaf_data` -/
def leafData {β : Type} (l : Leaf β) : Nat := l.key0 >>> 32

/-- ext/sparse/ctrie.h:124-127 `leaf_data_bit_test` -/
def leafDataBitTest {β : Type} (l : Leaf β) (bit : Nat) : Bool :=
  (l.key0 &&& (1 <<< (bit + 32))) != 0

/-- ext/sparse/ctrie.h:129-132 `leaf_data_bit_set` -/
def leafDataBitSet {β : Type} (l : Leaf β) (bit : Nat) : Leaf β :=
  { l with key0 := bitSet l.key0 (bit + 32) }

/-- ext/sparse/ctrie.h:134-137 `leaf_data_bit_reset` -/
def leafDataBitReset {β : Type} (l : Leaf β) (bit : Nat) : Leaf β :=
  { l with key0 := bitReset l.key0 (bit + 32) }

/-- ext/sparse/ctrie.c:136-141 `new_leaf`.  The header of a freshly allocated leaf may
hold anything; `leaf_key_set` overwrites all of it. -/
def newLeaf {β : Type} (key : Nat) (fresh : Leaf β) : Leaf β := leafKeySet fresh key

/-! ## Nodes -/

/-- What an entry of a node holds: ext/sparse/ctrie.h:75-79 `NodeRec`, a leaf, or the
null word of a slot not in use.  The length of `ents` is the allocated capacity. -/
inductive Obj (β : Type) where
  | null : Obj β
  | leaf (l : Leaf β) : Obj β
  | node (emap lmap : Nat) (ents : List (Obj β)) : Obj β

/-- ext/sparse/ctrie.c:56 `KEY2INDEX` -/
def keyIndex (key level : Nat) : Nat := (key >>> (level * 5)) &&& 31

/-- A store into `entries[i]`, undefined outside the allocation. -/
def putAt {α : Type} (es : List α) (i : Nat) (x : α) : Option (List α) :=
  if i < es.length then some (es.set i x) else none

/-- The entries of ext/sparse/ctrie.c:79-84 `make_node`: the size rounded up to a
multiple of two, zero cleared. -/
def makeEntries (β : Type) (nentry : Nat) : List (Obj β) :=
  List.replicate ((nentry + 1) / 2 * 2) Obj.null

/-- The loop `for (i=size-1; i>=insertpoint; i--) entries[i+1] = entries[i]` of
ext/sparse/ctrie.c:86-115 `node_insert`; `n` is the number of rounds left. -/
def shiftUp {α : Type} (ip : Nat) : Nat → List α → Option (List α)
  | 0, es => some es
  | n + 1, es =>
    match es[ip + n]? with
    | none => none
    | some x =>
      match putAt es (ip + n + 1) x with
      | none => none
      | some es' => shiftUp ip n es'

/-- The copy loops of ext/sparse/ctrie.c:86-115 `node_insert`:
`for (; i<lim; i++) dst[i+d] = src[i]`, with `n = lim - i` rounds left. -/
def copyUp {α : Type} (src : List α) (d : Nat) : Nat → Nat → List α → Option (List α)
  | _, 0, dst => some dst
  | i, n + 1, dst =>
    match src[i]? with
    | none => none
    | some x =>
      match putAt dst (i + d) x with
      | none => none
      | some dst' => copyUp src d (i + 1) n dst'

/-- ext/sparse/ctrie.c:86-115 `node_insert` -/
def nodeInsert {β : Type} (emap lmap : Nat) (ents : List (Obj β)) (ind : Nat)
    (entry : Obj β) (leafp : Bool) : Option (Obj β) :=
  let size := countBits emap
  let ip := countBelow emap ind
  let emap' := bitSet emap ind
  let lmap' := if leafp then bitSet lmap ind else lmap
  if size % 2 = 1 then
    match shiftUp ip (size - ip) ents with
    | none => none
    | some es =>
      match putAt es ip entry with
      | none => none
      | some es' => some (.node emap' lmap' es')
  else
    match copyUp ents 0 0 ip (makeEntries β (size + 2)) with
    | none => none
    | some d =>
      match putAt d ip entry with
      | none => none
      | some d1 =>
        match copyUp ents 1 ip (size - ip) d1 with
        | none => none
        | some d2 => some (.node emap' lmap' d2)

/-- The loop `for (i=deletepoint; i<size-1; i++) entries[i] = entries[i+1]` of
ext/sparse/ctrie.c:118-130 `node_delete`. -/
def shiftDown {α : Type} : Nat → Nat → List α → Option (List α)
  | _, 0, es => some es
  | i, n + 1, es =>
    match es[i + 1]? with
    | none => none
    | some x =>
      match putAt es i x with
      | none => none
      | some es' => shiftDown (i + 1) n es'

/-- ext/sparse/ctrie.c:118-130 `node_delete`: the bitmaps and entries left, and the
number of children left. -/
def nodeDelete {β : Type} (emap lmap : Nat) (ents : List (Obj β)) (ind : Nat) :
    Option (Nat × Nat × List (Obj β) × Nat) :=
  let size := countBits emap
  let dp := countBelow emap ind
  match shiftDown dp (size - 1 - dp) ents with
  | none => none
  | some es => some (bitReset emap ind, bitReset lmap ind, es, size - 1)

/-! ## Search -/

/-- ext/sparse/ctrie.c:146-158 `get_rec` -/
def getRec {β : Type} : Nat → Obj β → Nat → Nat → Option (Option (Leaf β))
  | r + 1, .node e m es, key, lv =>
    let ind := keyIndex key lv
    if e.testBit ind then
      match es[countBelow e ind]? with
      | some (.leaf l) =>
        if m.testBit ind then
          (if leafKey l = key then some (some l) else some none)
        else none
      | some (.node e' m' es') =>
        if m.testBit ind then none else getRec r (.node e' m' es') key (lv + 1)
      | _ => none
    else some none
  | _, _, _, _ => none

/-- ext/sparse/ctrie.h:142-145 `CompactTrieRec` -/
structure Trie (β : Type) where
  numEntries : Nat
  root : Obj β

/-- ext/sparse/ctrie.c:47-51 `CompactTrieInit` -/
def trieInit (β : Type) : Trie β := ⟨0, .null⟩

/-- ext/sparse/ctrie.c:160-165 `CompactTrieGet` -/
def trieGet {β : Type} (ct : Trie β) (key : Nat) : Option (Option (Leaf β)) :=
  match ct.root with
  | .null => some none
  | o => getRec 13 o key 0

/-! ## Insertion -/

/-- `ct->numEntries++` on an `unsigned int`. -/
def incEntries (n : Nat) : Nat := (n + 1) % 2 ^ 32

/-- `ct->numEntries--` on an `unsigned int`. -/
def decEntries (n : Nat) : Nat := (n + (2 ^ 32 - 1)) % 2 ^ 32

/-- ext/sparse/ctrie.c:170-204 `add_rec`.  `fresh` is what the leaf creator allocates;
the result is the node, the leaf found or created, and `ct->numEntries`. -/
def addRec {β : Type} (fresh : Leaf β) :
    Nat → Obj β → Nat → Nat → Nat → Option (Obj β × Leaf β × Nat)
  | r + 1, .node e m es, key, lv, cnt =>
    let ind := keyIndex key lv
    if e.testBit ind then
      match es[countBelow e ind]? with
      | some (.node e' m' es') =>
        if m.testBit ind then none else
          match addRec fresh r (.node e' m' es') key (lv + 1) cnt with
          | none => none
          | some (o, l, cnt') =>
            match putAt es (countBelow e ind) o with
            | none => none
            | some es1 => some (.node e m es1, l, cnt')
      | some (.leaf l0) =>
        if m.testBit ind then
          if key = leafKey l0 then some (.node e m es, l0, cnt) else
            let i0 := keyIndex (leafKey l0) (lv + 1)
            match putAt (makeEntries β 2) 0 (.leaf l0) with
            | none => none
            | some ms =>
              match addRec fresh r (.node (bitSet 0 i0) (bitSet 0 i0) ms) key (lv + 1) cnt with
              | none => none
              | some (o, l, cnt') =>
                match putAt es (countBelow e ind) o with
                | none => none
                | some es1 => some (.node e (bitReset m ind) es1, l, cnt')
        else none
      | _ => none
    else
      let l := newLeaf key fresh
      match nodeInsert e m es ind (.leaf l) true with
      | none => none
      | some o => some (o, l, incEntries cnt)
  | _, _, _, _, _ => none

/-- ext/sparse/ctrie.c:206-224 `CompactTrieAdd` -/
def trieAdd {β : Type} (ct : Trie β) (key : Nat) (fresh : Leaf β) :
    Option (Trie β × Leaf β) :=
  match ct.root with
  | .null =>
    let l := newLeaf key fresh
    match putAt (makeEntries β 2) 0 (.leaf l) with
    | none => none
    | some es =>
      some (⟨1, .node (bitSet 0 (key &&& 31)) (bitSet 0 (key &&& 31)) es⟩, l)
  | o =>
    match addRec fresh 13 o key 0 ct.numEntries with
    | none => none
    | some (p, l, cnt) => some (⟨cnt, p⟩, l)

/-! ## Writing through a leaf pointer -/

/-- The effect of assigning the fields of the leaf that `get_rec` or `add_rec`
returned for `key`: the pointer is into the node that holds it. -/
def writeRec {β : Type} (l' : Leaf β) : Nat → Obj β → Nat → Nat → Option (Obj β)
  | r + 1, .node e m es, key, lv =>
    let ind := keyIndex key lv
    if e.testBit ind then
      match es[countBelow e ind]? with
      | some (.leaf l) =>
        if m.testBit ind && leafKey l == key then
          some (.node e m (es.set (countBelow e ind) (.leaf l')))
        else none
      | some (.node e' m' es') =>
        match writeRec l' r (.node e' m' es') key (lv + 1) with
        | none => none
        | some o => some (.node e m (es.set (countBelow e ind) o))
      | _ => none
    else none
  | _, _, _, _ => none

/-- The trie after the leaf for `key` was assigned `l'` through a pointer
obtained from `CompactTrieGet` or `CompactTrieAdd`. -/
def trieWrite {β : Type} (ct : Trie β) (key : Nat) (l' : Leaf β) : Option (Trie β) :=
  match writeRec l' 13 ct.root key 0 with
  | none => none
  | some o => some { ct with root := o }

/-! ## Deletion -/

/-- ext/sparse/ctrie.c:235-271 `del_rec`: the object that replaces the node, whether
that object is the node itself (`m == orig` in C), the deleted leaf, and
`ct->numEntries`.  The failing `SCM_ASSERT` is `none`. -/
def delRec {β : Type} : Nat → Obj β → Nat → Nat → Nat →
    Option (Obj β × Bool × Option (Leaf β) × Nat)
  | r + 1, .node e m es, key, lv, cnt =>
    let ind := keyIndex key lv
    if e.testBit ind then
      let off := countBelow e ind
      match es[off]? with
      | some (.node e' m' es') =>
        if m.testBit ind then none else
          match delRec r (.node e' m' es') key (lv + 1) cnt with
          | none => none
          | some (o, true, d, cnt') =>
            -- the same node, updated in place
            some (.node e m (es.set off o), true, d, cnt')
          | some (o, false, d, cnt') =>
            if countBits e = 1 ∧ lv > 0 then some (o, false, d, cnt')
            else some (.node e (bitSet m ind) (es.set off o), true, d, cnt')
      | some (.leaf l0) =>
        if m.testBit ind then
          if key = leafKey l0 then
            match nodeDelete e m es ind with
            | none => none
            | some (e1, m1, es1, nc) =>
              if nc = 1 ∧ m1 ≠ 0 ∧ lv > 0 then
                match es1[0]? with
                | none => none
                | some o => some (o, false, some l0, decEntries cnt)
              else if nc = 0 then
                (if lv = 0 then some (.null, false, some l0, decEntries cnt) else none)
              else some (.node e1 m1 es1, true, some l0, decEntries cnt)
          else some (.node e m es, true, none, cnt)
        else none
      | _ => none
    else some (.node e m es, true, none, cnt)
  | _, _, _, _, _ => none

/-- ext/sparse/ctrie.c:273-280 `CompactTrieDelete` -/
def trieDelete {β : Type} (ct : Trie β) (key : Nat) :
    Option (Trie β × Option (Leaf β)) :=
  match ct.root with
  | .null => some (ct, none)
  | o =>
    match delRec 13 o key 0 ct.numEntries with
    | none => none
    | some (o', _, d, cnt) => some (⟨cnt, o'⟩, d)

/-- The second loop of ext/sparse/ctrie.c:284-303 `clear_rec`, over the packed entries
of a node with the `is_leaf` array: the leaves handed to the clearer, in order. -/
def clearLoop {β : Type} (sub : Obj β → Option (List (Leaf β))) (es : List (Obj β)) :
    Nat → List Bool → Option (List (Leaf β))
  | _, [] => some []
  | i, b :: bs =>
    match es[i]? with
    | some (.leaf l) =>
      if b then
        match clearLoop sub es (i + 1) bs with
        | none => none
        | some ls => some (l :: ls)
      else none
    | some (.node e m es') =>
      if b then none else
        match sub (.node e m es') with
        | none => none
        | some ls0 =>
          match clearLoop sub es (i + 1) bs with
          | none => none
          | some ls => some (ls0 ++ ls)
    | _ => none

/-- The `is_leaf` array of ext/sparse/ctrie.c:284-303 `clear_rec`. -/
def isLeafArray (e m : Nat) : List Bool :=
  ((List.range 32).filter (fun i => e.testBit i)).map (fun i => m.testBit i)

/-- ext/sparse/ctrie.c:284-303 `clear_rec`: the leaves handed to the clearer.  The
nodes it zeroes are already unreachable from the trie. -/
def clearRec {β : Type} : Nat → Obj β → Option (List (Leaf β))
  | r + 1, .node e m es => clearLoop (clearRec r) es 0 (isLeafArray e m)
  | _, _ => none

/-- ext/sparse/ctrie.c:305-313 `CompactTrieClear` -/
def trieClear {β : Type} (ct : Trie β) : Option (Trie β × List (Leaf β)) :=
  match ct.root with
  | .null => some (⟨0, .null⟩, [])
  | o =>
    match clearRec 13 o with
    | none => none
    | some ls => some (⟨0, .null⟩, ls)

/-! ## Key finding -/

/-- The loop of ext/sparse/ctrie.c:318-334 `next_rec` from index `i` on, with `n`
indices left; `sub` is the recursive call. -/
def nextLoop {β : Type} (sub : Obj β → Bool → Option (Option (Leaf β)))
    (e m : Nat) (es : List (Obj β)) (over : Bool) (ind : Nat) :
    Nat → Nat → Option (Option (Leaf β))
  | _, 0 => some none
  | i, n + 1 =>
    if e.testBit i then
      match es[countBelow e i]? with
      | some (.leaf l) =>
        if m.testBit i then
          if !over && i == ind then nextLoop sub e m es over ind (i + 1) n
          else some (some l)
        else none
      | some (.node e' m' es') =>
        if m.testBit i then none else
          match sub (.node e' m' es') (over || decide (i > ind)) with
          | none => none
          | some (some l) => some (some l)
          | some none => nextLoop sub e m es over ind (i + 1) n
      | _ => none
    else nextLoop sub e m es over ind (i + 1) n

/-- ext/sparse/ctrie.c:318-334 `next_rec` -/
def nextRec {β : Type} : Nat → Obj β → Nat → Nat → Bool → Option (Option (Leaf β))
  | r + 1, .node e m es, key, lv, over =>
    let ind := if over then 0 else keyIndex key lv
    nextLoop (fun o ov => nextRec r o key (lv + 1) ov) e m es over ind ind (32 - ind)
  | _, _, _, _, _ => none

/-- ext/sparse/ctrie.c:336-341 `CompactTrieNextLeaf` -/
def trieNextLeaf {β : Type} (ct : Trie β) (key : Nat) : Option (Option (Leaf β)) :=
  match ct.root with
  | .null => some none
  | o => nextRec 13 o key 0 false

/-- ext/sparse/ctrie.c:348-358 `first_rec` -/
def firstRec {β : Type} : Nat → Obj β → Option (Option (Leaf β))
  | r + 1, .node e m es =>
    if e = 0 then some none else
      let i := lowestFrom e 0 64
      match es[countBelow e i]? with
      | some (.leaf l) => if m.testBit i then some (some l) else none
      | some (.node e' m' es') =>
        if m.testBit i then none else firstRec r (.node e' m' es')
      | _ => none
  | _, _ => none

/-- ext/sparse/ctrie.c:360-364 `CompactTrieFirstLeaf` -/
def trieFirstLeaf {β : Type} (ct : Trie β) : Option (Option (Leaf β)) :=
  match ct.root with
  | .null => some none
  | o => firstRec 13 o

/-- ext/sparse/ctrie.c:366-375 `last_rec` -/
def lastRec {β : Type} : Nat → Obj β → Option (Option (Leaf β))
  | r + 1, .node e m es =>
    if e = 0 then some none else
      let i := highestBelow e 64
      match es[countBelow e i]? with
      | some (.leaf l) => if m.testBit i then some (some l) else none
      | some (.node e' m' es') =>
        if m.testBit i then none else lastRec r (.node e' m' es')
      | _ => none
  | _, _ => none

/-- ext/sparse/ctrie.c:377-381 `CompactTrieLastLeaf` -/
def trieLastLeaf {β : Type} (ct : Trie β) : Option (Option (Leaf β)) :=
  match ct.root with
  | .null => some none
  | o => lastRec 13 o

/-! ## Copying -/

/-- The loop of ext/sparse/ctrie.c:389-405 `copy_rec`, `for (i=0, off=0; i<32 && off<size; i++)`,
with `n` indices left; `sub` is the recursive call. -/
def copyLoop {β : Type} (copy : Leaf β → Leaf β) (sub : Obj β → Option (Obj β))
    (e m : Nat) (es : List (Obj β)) (size : Nat) :
    Nat → Nat → Nat → List (Obj β) → Option (List (Obj β))
  | _, _, 0, d => some d
  | i, off, n + 1, d =>
    if off < size then
      if e.testBit i then
        match es[off]? with
        | some (.leaf l) =>
          if m.testBit i then
            match putAt d off (.leaf (copy l)) with
            | none => none
            | some d' => copyLoop copy sub e m es size (i + 1) (off + 1) n d'
          else none
        | some (.node e' m' es') =>
          if m.testBit i then none else
            match sub (.node e' m' es') with
            | none => none
            | some o =>
              match putAt d off o with
              | none => none
              | some d' => copyLoop copy sub e m es size (i + 1) (off + 1) n d'
        | _ => none
      else copyLoop copy sub e m es size (i + 1) off n d
    else some d

/-- ext/sparse/ctrie.c:389-405 `copy_rec` -/
def copyRec {β : Type} (copy : Leaf β → Leaf β) : Nat → Obj β → Option (Obj β)
  | r + 1, .node e m es =>
    let size := countBits e
    match copyLoop copy (copyRec copy r) e m es size 0 0 32 (makeEntries β size) with
    | none => none
    | some d => some (.node e m d)
  | _, _ => none

/-- ext/sparse/ctrie.c:407-413 `CompactTrieCopy` -/
def trieCopy {β : Type} (copy : Leaf β → Leaf β) (src : Trie β) : Option (Trie β) :=
  match src.root with
  | .null => some ⟨src.numEntries, .null⟩
  | o =>
    match copyRec copy 13 o with
    | none => none
    | some o' => some ⟨src.numEntries, o'⟩

/-! ## Iterators -/

/-- ext/sparse/ctrie.h:147-152 `CompactTrieIterRec`, without the pointer to the trie. -/
structure Iter where
  key : Nat
  begin : Bool
  fin : Bool
deriving DecidableEq, Repr

/-- ext/sparse/ctrie.c:418-424 `CompactTrieIterInit` -/
def iterInit : Iter := ⟨0, true, false⟩

/-- ext/sparse/ctrie.c:426-439 `CompactTrieIterNext` -/
def iterNext {β : Type} (ct : Trie β) (it : Iter) : Option (Iter × Option (Leaf β)) :=
  if it.fin then some (it, none) else
    match (if it.begin then trieFirstLeaf ct else trieNextLeaf ct it.key) with
    | none => none
    | some (some l) => some (⟨leafKey l, false, it.fin⟩, some l)
    | some none => some (⟨it.key, false, true⟩, none)

/-! ## The consistency check -/

/-- The loop of ext/sparse/ctrie.c:500-524 `check_rec`: counts of direct leaves, of all
leaves, and of children.  `none` is undefined; an inner error is passed on as
`some none`. -/
def checkLoop {β : Type} (sub : Obj β → Option (Option Nat)) (e m : Nat)
    (es : List (Obj β)) :
    Nat → Nat → Nat → Nat → Nat → Option (Option (Nat × Nat × Nat))
  | _, 0, dl, tl, off => some (some (dl, tl, off))
  | i, n + 1, dl, tl, off =>
    if e.testBit i then
      match es[off]? with
      | some (.leaf _) =>
        if m.testBit i then checkLoop sub e m es (i + 1) n (dl + 1) (tl + 1) (off + 1)
        else none
      | some (.node e' m' es') =>
        if m.testBit i then none else
          match sub (.node e' m' es') with
          | none => none
          | some none => some none
          | some (some k) => checkLoop sub e m es (i + 1) n dl (tl + k) (off + 1)
      | _ => none
    else checkLoop sub e m es (i + 1) n dl tl off

/-- ext/sparse/ctrie.c:500-524 `check_rec`: `some none` is the error it signals. -/
def checkRec {β : Type} : Nat → Obj β → Nat → Option (Option Nat)
  | r + 1, .node e m es, lv =>
    match checkLoop (fun o => checkRec r o (lv + 1)) e m es 0 32 0 0 0 with
    | none => none
    | some none => some none
    | some (some (dl, tl, off)) =>
      if off = 0 then some none
      else if off = 1 ∧ dl = 1 ∧ lv > 0 then some none
      else some (some tl)
  | _, _, _ => none

/-- ext/sparse/ctrie.c:526-541 `CompactTrieCheck`: `true` when no error is signalled.
The count of leaves is an `unsigned int`. -/
def trieCheck {β : Type} (ct : Trie β) : Option Bool :=
  match ct.root with
  | .null => some (decide (ct.numEntries = 0))
  | o =>
    match checkRec 13 o 0 with
    | none => none
    | some none => some false
    | some (some n) => some (decide (ct.numEntries = n % 2 ^ 32))

end Gauche.CTrie
